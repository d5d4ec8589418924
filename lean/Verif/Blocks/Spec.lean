import Verif.Facts.Spec
import Verif.Propsecs.Spec
import Verif.Blocks.Model
/-!
# Specification of what the blocks of a section about a property or a constructor say

Independent of the functions of the model.
-/
namespace Verif.Blocks.Spec
open Verif.Facts (Fact)
open Verif.Propsecs (Ref Msg)
open Verif.Propsecs.Spec (Agrees NameMsg WhatMsg Starts)
open Verif.Objs.Spec (Attrs Dict)

/-- What is said when the property of the section has such attributes: nothing if it has no property. -/
inductive Has (c : Ctx) (as : List (Str × Str)) : List Fact → Prop
  | none : c.property = none → Has c as []
  | some {k n} : c.property = some (k, n) → Has c as [.prop k n as]

/-- What is said when an object is a function. -/
def function (o sid : Str) (how : String) : List Fact := [.is o "a function object".toList, .slot o "[[ccb]]".toList (how.toList ++ " in ".toList ++ sid)]

/-- A reference to the function is in order, with these messages. -/
def Checked (c : Ctx) (r : Ref) (ms : List Msg) : Prop := ∃ a b, NameMsg c.property r a ∧ WhatMsg c.title c.object r b ∧ ms = a ++ b

/-- What a block says, and the messages about it. -/
inductive Says (c : Ctx) : Block → List Fact → List Msg → Prop
  | accessor {t o fs} : Agrees c.property t → c.object = some o → Has c [("[[Getter]]".toList, o), ("[[Setter]]".toList, "*undefined*".toList)] fs →
    Says c (.accessor t) (fs ++ function o c.sid "emu-alg") []
  | pair {as g s ps d fs} : c.shape ∈ [("p").toList, ("p emu-note").toList] → c.children = [g, s] → Starts "get " g → Starts "set " s → Attrs ps as →
    Dict (("[[Getter]]".toList, g) :: ("[[Setter]]".toList, s) :: ps) d → Has c d fs → Says c (.pair as) fs []
  | half {n o fs} : c.object = some o → Has c [(n, o)] fs → Says c (.half n) (fs ++ function o c.sid "emu-alg") []
  | steps {r o fs ms} : Checked c r ms → c.object = some o → Has c [("[[Value]]".toList, o)] fs → Says c (.steps r) (fs ++ function o c.sid "emu-alg") ms
  | alg {o fs} : c.object = some o → Has c [("[[Value]]".toList, o)] fs → Says c .alg (fs ++ function o c.sid "emu-alg") []
  | prose {r o fs ms} : Checked c r ms → c.object = some o → Has c [("[[Value]]".toList, o)] fs → Says c (.prose r) (fs ++ function o c.sid "prose") ms
  | distinct {o fs} : c.object = some o → Has c [("[[Value]]".toList, o)] fs → Says c .distinct (fs ++ function o c.sid "prose") []
  | created {t o fs} : Agrees c.property t → c.object = some o → Has c [("[[Value]]".toList, o)] fs → Says c (.created t) (fs ++ [.exists o]) []
  | value {t v fs} : Agrees c.property t → Has c [("[[Value]]".toList, v)] fs → Says c (.value t v) fs []
  | number {v fs} : Has c [("[[Value]]".toList, v)] fs → Says c (.number v) fs []
  | attrs {as ps d fs} : Attrs ps as → Dict ps d → Has c d fs → Says c (.attrs as) fs []
  | subValue {r o sub v ms} : Checked c r ms → c.object = some o → Says c (.subValue r sub v) [.prop o sub [("[[Value]]".toList, v)]] ms
  | subAttrs {r o sub as ps d ms} : Checked c r ms → c.object = some o → Attrs ps as → Dict ps d → Says c (.subAttrs r sub as) [.prop o sub d] ms
  | anonymous {o} : c.object = some o → Says c .anonymous [.prop o "*\"name\"*".toList [("[[Value]]".toList, "*\"\"*".toList)]] []
  | slot {r o n v ms} : Checked c r ms → c.object = some o → Says c (.slot r n v) [.slot o n v] ms
  | named {r o p ms} : Checked c r ms → c.object = some o → Says c (.named r p) [.aka o p] ms
  | generic {r ms} : Checked c r ms → Says c (.generic r) [] ms
  | silent : Says c .silent [] []

/-- What blocks say, in their order. -/
inductive SayAll (c : Ctx) : List Block → List Fact → List Msg → Prop
  | nil : SayAll c [] [] []
  | cons {b bs fs ms gs ns} : Says c b fs ms → SayAll c bs gs ns → SayAll c (b :: bs) (fs ++ gs) (ms ++ ns)

end Verif.Blocks.Spec
