import Verif.Objs.Spec
import Verif.Paths.Spec
import Verif.Propsecs.Model
/-!
# Specification of what a section about a property or a constructor is about

Independent of the functions of the model: how titles are written, and what they say.
-/
namespace Verif.Propsecs.Spec
open Verif.Kinds.Spec (Line Some')
open Verif.Paths.Spec (Word Names)
open Verif.Objs (Fact)

def Starts (t : String) (s : Str) : Prop := ∃ r, s = t.toList ++ r
def Ends (t : String) (s : Str) : Prop := ∃ r, s = r ++ t.toList
def Has (t : String) (s : Str) : Prop := ∃ a b, s = a ++ t.toList ++ b

/-! ## Which sections -/

/-- The titles of the sections with tables. -/
def tables : List Str := [("Well-Known Intrinsic Objects").toList, ("Additional Properties of the Global Object").toList]

/-- How a section is read. -/
inductive Goes (s : Sec) : Way → Prop
  | table : s.title ∈ tables → Goes s .table
  | list : s.title ∉ tables → Starts "intrinsic: info" s.kind → Goes s .list
  | constructor : s.title ∉ tables → s.kind = "CallConstruct".toList → Goes s .constructor
  | property : s.title ∉ tables → ¬ Starts "intrinsic: info" s.kind → Has "_property" s.kind → Goes s .property
  | nothing : s.title ∉ tables → ¬ Starts "intrinsic: info" s.kind → s.kind ≠ "CallConstruct".toList → ¬ Has "_property" s.kind → Goes s .nothing

/-- Of the kinds that are about instances or intrinsic objects, the first starts so. -/
def First (t : String) (ks : List Str) : Prop :=
  ∃ a k b, ks = a ++ k :: b ∧ Starts t k ∧ ∀ j ∈ a, ¬ Starts "instances:" j ∧ ¬ Starts "intrinsic:" j

/-! ## The property -/

/-- A title without the parameters after it. -/
def Bare (t i : Str) : Prop :=
  (i = t ∧ ¬ Has " (" t) ∨ ((∃ r, t = i ++ " (".toList ++ r) ∧ ∀ a b, t = a ++ " (".toList ++ b → i.length ≤ a.length)

/-- The path in it, with `get` or `set` before it or without. -/
inductive PathIn : Str → Str → Prop
  | get {p} : p ≠ [] → PathIn ("get ".toList ++ p) p
  | set {p} : p ≠ [] → PathIn ("set ".toList ++ p) p
  | plain {p} : (¬ ∃ q, q ≠ [] ∧ (p = "get ".toList ++ q ∨ p = "set ".toList ++ q)) → PathIn p p

/-- The property that a section is about: the container and the key. -/
inductive About (s : Sec) (i : Str) : Str → Str → Prop
  | named {p c k} : PathIn i p → Names p (some c) k → About s i c k
  | global {p k} : PathIn i p → Names p none k → (Ends " Properties of the Global Object" s.parent ∨ ∃ g, s.grand = some g ∧ Ends " Properties of the Global Object" g) →
    About s i "the global object".toList k

/-- The one paragraph is a reference to another section. -/
def Refers (key : Str) (bs : List (String × Str)) : Prop :=
  ∃ i, i ≠ [] ∧ '"' ∉ i ∧ bs = [("p", "See <emu-xref href=\"#".toList ++ i ++ "\"></emu-xref>.".toList)] ∧ (key = "*\"WeakSet\"*".toList → i = "sec-weakset-objects".toList)

/-- What a title calls an object or objects, and what sentences do. -/
inductive Phrase (space : Char → Bool) (kind small : String) : Str → Str → Prop
  | one {x} : x ≠ [] → (∀ c ∈ x, space c = false) →
    Phrase space kind small ("Properties of the ".toList ++ x ++ " ".toList ++ kind.toList) ("the ".toList ++ x ++ " ".toList ++ small.toList)
  | several {x} : Word x →
    Phrase space kind small ("Properties of the _".toList ++ x ++ "_ ".toList ++ kind.toList ++ "s".toList) ("each _".toList ++ x ++ "_ ".toList ++ small.toList)

/-- The container is also called as the parent's title says, if it does. -/
def Also (space : Char → Bool) (kind small : String) (parent container : Str) (fs : List Fact) : Prop :=
  (∃ p, Phrase space kind small parent p ∧ fs = [.aka p container]) ∨ ((¬ ∃ p, Phrase space kind small parent p) ∧ fs = [])

/-- Text without white space. -/
def Solid (space : Char → Bool) (x : Str) : Prop := x ≠ [] ∧ ∀ c ∈ x, space c = false

/-- A sentence that says that the function is another one. -/
def Elsewhere (space : Char → Bool) (t : Str) : Prop :=
  ∃ x y e, Solid space x ∧ Solid space y ∧ (e = [] ∨ ∃ z, Some' z ∧ e = ", defined in ".toList ++ z) ∧
    t = "The initial value of the ".toList ++ x ++ " property is %".toList ++ y ++ "%".toList ++ e ++ ".".toList

/-- The section defines an object. -/
inductive Defines (space : Char → Bool) (s : Sec) : Prop
  | accessor : s.kind = "accessor_property".toList → Defines space s
  | function : s.kind = "function_property".toList → (¬ ∃ t, ("p", t) ∈ s.blocks ∧ Elsewhere space t) → Defines space s
  | unscopables : s.kind = "other_property".toList → s.title = "Array.prototype [ %Symbol.unscopables% ]".toList → Defines space s

/-- What a section about a property gives. -/
inductive Gives (space : Char → Bool) (s : Sec) : Out → Prop
  | skipped : First "instances:" (s.kind :: s.above) → Gives space s .skipped
  | refers {i c k} : First "intrinsic:" (s.kind :: s.above) → Bare s.title i → About s i c k → Ends "_xref" s.kind → Refers k s.blocks → Gives space s (.refers [.prop c k []])
  | scanned {i c k fs gs o} : First "intrinsic:" (s.kind :: s.above) → Bare s.title i → About s i c k →
    s.kind ∈ [("accessor_property").toList, ("function_property").toList, ("other_property").toList] →
    (Ends ".prototype" c ∧ Also space "Prototype Object" "prototype object" s.parent c fs) ∨ (¬ Ends ".prototype" c ∧ fs = []) →
    Also space "Constructor" "constructor" s.parent c gs →
    (Defines space s ∧ o = some i) ∨ (¬ Defines space s ∧ o = none) →
    Gives space s (.scanned (.prop c k [] :: (fs ++ gs)) (c, k) o)

/-! ## Constructors -/

/-- What a section about a call of a constructor gives: its name, and the property of the global object that it is, unless it is known to be none. -/
inductive Constructs (space : Char → Bool) (nonGlobal : List Str) : Str → Fact × Option (Str × Str) × Str → Prop
  | other {n x} : Solid space n → x ≠ [] → '(' ∉ x → ')' ∉ x → n ∈ nonGlobal ∨ "%".toList ++ n ++ "%".toList ∈ nonGlobal →
    Constructs space nonGlobal (n ++ " (".toList ++ x ++ ")".toList) (.is n "a constructor".toList, none, n)
  | global {n x} : Solid space n → x ≠ [] → '(' ∉ x → ')' ∉ x → ¬ (n ∈ nonGlobal ∨ "%".toList ++ n ++ "%".toList ∈ nonGlobal) → '"' ∉ n →
    Constructs space nonGlobal (n ++ " (".toList ++ x ++ ")".toList)
      (.is n "a constructor".toList, some ("the global object".toList, "*\"".toList ++ n ++ "\"*".toList), n)

/-! ## How a sentence speaks about the function -/

/-- The name that a sentence uses. -/
def Named (r : Ref) (n : Str) : Prop := n ≠ "It".toList ∧ (r.name1 = some n ∨ (r.name1 = none ∧ r.name2 = some n))

/-- What a sentence calls the function. -/
def Calls (r : Ref) (x : Str) : Prop := r.what1 = some x ∨ (r.what1 = none ∧ r.what3 = some x)

/-- The name does not name another property. -/
def Agrees (property : Option (Str × Str)) (n : Str) : Prop :=
  ∀ c k, Names (n.filter (· != '`')) c k → match property with
    | some (pc, pk) => k = pk ∧ (c = none ∨ c = some pc)
    | none => c = none

/-- The title is that of a method. -/
def InPrototype (title : Str) : Prop := (Has ".prototype" title ∨ Has "Prototype%" title) ∧ ¬ Starts "get " title

/-- Functions that are called methods too. -/
def also : List String := ["Array.from", "Array.of", "%TypedArray%.from", "%TypedArray%.of"]

/-- The function is to be called a method, or not. -/
inductive Method (title : Str) (object : Option Str) : Bool → Prop
  | inside : InPrototype title → Method title object true
  | outside {o} : ¬ InPrototype title → object = some o → ∀ b, (b = true ↔ ∃ t ∈ also, o = t.toList) → Method title object b

/-- The message about the name. -/
inductive NameMsg (property : Option (Str × Str)) (r : Ref) : List Msg → Prop
  | unnamed : (¬ ∃ n, Named r n) → NameMsg property r []
  | each {n} : Named r n → Agrees property n → r.second = some "Each".toList → NameMsg property r []
  | named {n} : Named r n → Agrees property n → r.second ≠ some "Each".toList → NameMsg property r [.byName]

/-- The message about what it is called. -/
inductive WhatMsg (title : Str) (object : Option Str) (r : Ref) : List Msg → Prop
  | uncalled : (¬ ∃ x, Calls r x) → WhatMsg title object r []
  | fits {x b} : Calls r x → Method title object b → (b = true ↔ x = "method".toList) → WhatMsg title object r []
  | missing {x} : Calls r x → Method title object true → x ≠ "method".toList → WhatMsg title object r [.expectedMethod x]
  | wrong : Calls r "method".toList → Method title object false → WhatMsg title object r [.unexpectedMethod]

end Verif.Propsecs.Spec
