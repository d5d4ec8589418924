import Verif.Facts.Model
import Verif.Propsecs.Model
/-!
# Model of what the blocks of a section about a property or a constructor say (Section.py:2987-3271, 3417-3437)

A block is given by the pattern that it matches and the groups of the match. The facts are those that `put_fact` is called with.
-/
namespace Verif.Blocks
open Verif.Facts (Fact)
open Verif.Propsecs (Ref Msg checkFunction)
open Verif.Paths (confirms)
open Verif.Objs (attrFields putAll)

abbrev Str := List Char

/-- What is known about the section when its blocks are scanned: `this_property`, `this_object`, `section_title`, `section_id`, `bcen_str`, and the titles of `section_children`
(Section.py:2987-3271). -/
structure Ctx where
  property : Option (Str × Str)
  object : Option Str
  title : Str
  sid : Str
  shape : Str
  children : List Str

/-- The functions that are called for patterns, with the groups that they use (Section.py:2990, 3006, 3027, 3044, 3066, 3107, 3115, 3126, 3145, 3156, 3164, 3176, 3189, 3205, 3215, 3224,
3234, 3264, 3271). -/
inductive Block where
  | accessor (this : Str)
  | pair (attrs : Str)
  | half (name : Str)
  | steps (r : Ref)
  | alg
  | prose (r : Ref)
  | distinct
  | created (this : Str)
  | value (this value : Str)
  | number (value : Str)
  | attrs (attrs : Str)
  | subValue (r : Ref) (sub value : Str)
  | subAttrs (r : Ref) (sub attrs : Str)
  | anonymous
  | slot (r : Ref) (name value : Str)
  | named (r : Ref) (percented : Str)
  | generic (r : Ref)
  | silent

/-- `section_this_property_has_attributes` (Section.py:3417-3426). -/
def propertyHas (c : Ctx) (as : List (Str × Str)) : List Fact :=
  match c.property with
  | none => []
  | some (k, n) => [.prop k n as]

/-- `section_defines_a_function_via` (Section.py:3432-3435). -/
def definesFunction (c : Ctx) (o : Str) (mechanism : String) : List Fact :=
  [.is o "a function object".toList, .slot o "[[ccb]]".toList (mechanism.toList ++ " in ".toList ++ c.sid)]

/-- A function that is the value of the property (Section.py:3046-3047, 3067-3068, 3109-3110, 3116-3117). -/
def isValue (c : Ctx) (o : Str) (mechanism : String) : List Fact := propertyHas c [("[[Value]]".toList, o)] ++ definesFunction c o mechanism

/-- `check_this_function` at the start of a function (Section.py:3045, 3108, 3177, 3190, 3216, 3225, 3235). -/
def check (c : Ctx) (r : Ref) : Option (List Msg) := checkFunction c.title c.property c.object r

/-- The bodies of the functions (Section.py:2990-3272): the facts and the messages; None is a failed assertion, or another error if the object is used and there is none. -/
def block (c : Ctx) : Block → Option (List Fact × List Msg)
  | .accessor this =>
    if confirms c.property this then
      c.object.map (fun o => (propertyHas c [("[[Getter]]".toList, o), ("[[Setter]]".toList, "*undefined*".toList)] ++ definesFunction c o "emu-alg", []))
    else none
  | .pair as =>
    if c.shape = "p".toList ∨ c.shape = "p emu-note".toList then
      match c.children with
      | [g, s] =>
        if "get ".toList.isPrefixOf g && "set ".toList.isPrefixOf s then
          (attrFields as).map (fun fs => (propertyHas c (putAll [("[[Getter]]".toList, g), ("[[Setter]]".toList, s)] fs), []))
        else none
      | _ => none
    else none
  | .half n => c.object.map (fun o => (propertyHas c [(n, o)] ++ definesFunction c o "emu-alg", []))
  | .steps r => (check c r).bind (fun ms => c.object.map (fun o => (isValue c o "emu-alg", ms)))
  | .alg => c.object.map (fun o => (isValue c o "emu-alg", []))
  | .prose r => (check c r).bind (fun ms => c.object.map (fun o => (isValue c o "prose", ms)))
  | .distinct => c.object.map (fun o => (isValue c o "prose", []))
  | .created this => if confirms c.property this then c.object.map (fun o => (propertyHas c [("[[Value]]".toList, o)] ++ [.exists o], [])) else none
  | .value this v => if confirms c.property this then some (propertyHas c [("[[Value]]".toList, v)], []) else none
  | .number v => some (propertyHas c [("[[Value]]".toList, v)], [])
  | .attrs as => (attrFields as).map (fun fs => (propertyHas c (putAll [] fs), []))
  | .subValue r sub v => (check c r).bind (fun ms => c.object.map (fun o => ([.prop o sub [("[[Value]]".toList, v)]], ms)))
  | .subAttrs r sub as => (check c r).bind (fun ms => (attrFields as).bind (fun fs => c.object.map (fun o => ([.prop o sub (putAll [] fs)], ms))))
  | .anonymous => c.object.map (fun o => ([.prop o "*\"name\"*".toList [("[[Value]]".toList, "*\"\"*".toList)]], []))
  | .slot r n v => (check c r).bind (fun ms => c.object.map (fun o => ([.slot o n v], ms)))
  | .named r p => (check c r).bind (fun ms => c.object.map (fun o => ([.aka o p], ms)))
  | .generic r => (check c r).map (fun ms => ([], ms))
  | .silent => some ([], [])

/-- The blocks one after the other, as `scan_section` calls the functions (Section.py:2939; NodeGrammar.py:53-127). -/
def blocks (c : Ctx) : List Block → Option (List Fact × List Msg)
  | [] => some ([], [])
  | b :: bs => (block c b).bind (fun x => (blocks c bs).map (fun y => (x.1 ++ y.1, x.2 ++ y.2)))

end Verif.Blocks
