import Verif.Algs.Model
import Verif.Paths.Model
import Verif.Titles.Model
/-!
# Model of what is done with a fact about an intrinsic object (Section.py:3441-3588)

The lists of names for the variables are parameters; `getPdn` is the model of `get_pdn` (intrinsics.py:18-95).
-/
namespace Verif.Facts
open Verif.Algs (replace)
open Verif.Paths (getPdn)
open Verif.Titles (hasSub)

abbrev Str := List Char

/-- The arguments of `section_put_fact` (Section.py:3444): `exists` with an empty text, `is` and `is-aka` with a text, `has-slot` with an `S_InternalSlot`, `has-prop` with an `S_Property`.
Other combinations do not occur. -/
inductive Fact where
  | «exists» (subject : Str)
  | aka (subject name : Str)
  | is (subject what : Str)
  | slot (subject name value : Str)
  | prop (subject key : Str) (attrs : List (Str × Str))
deriving DecidableEq

/-! ## Variables -/

/-- What `.+` takes (Section.py:3461). -/
def afterLine (s : Str) : Str := s.dropWhile (· != '\n')

/-- `re.sub(r'<br>\n.+', '', s)` (Section.py:3461): the number bounds the length of the text. -/
def cellName : Nat → Str → Str
  | 0, s => s
  | _, [] => []
  | n + 1, c :: s =>
    if "<br>\n".toList.isPrefixOf (c :: s) ∧ ((c :: s).drop 5).head?.any (· != '\n') then cellName n (afterLine ((c :: s).drop 5))
    else c :: cellName n s

/-- The replacements in `expand_str`, in their order (Section.py:3478-3488). -/
def pairs (name e : Str) : List (Str × Str) :=
  let uvar := '_' :: name ++ ['_']
  let literal := "*\"".toList ++ e ++ "\"*".toList
  [("the corresponding ".toList ++ uvar ++ " prototype intrinsic object (<emu-xref href=\"#sec-properties-of-typedarray-prototype-objects\"></emu-xref>)".toList, "the ".toList ++ e ++ " prototype object".toList),
   ("the constructor itself".toList, "the ".toList ++ e ++ " constructor".toList),
   ("the String value consisting of the name of the constructor (the name used instead of _NativeError_)".toList, literal),
   ("each ".toList ++ uvar, "the ".toList ++ e),
   ("a ".toList ++ uvar, "the ".toList ++ e),
   (uvar, e),
   ("the String value <emu-val>\"<var>".toList ++ name ++ "</var>\"</emu-val>".toList, literal),
   ("the String value of the constructor name specified for it in <emu-xref href=\"#table-the-typedarray-constructors\"></emu-xref>".toList, literal)]

/-- `expand_str` (Section.py:3477-3489). -/
def expandStr (name e s : Str) : Str := (pairs name e).foldl (fun s p => replace p.1 p.2 0 s) s

/-- A fact with its texts changed (Section.py:3491-3518). The name of a slot is not changed, and neither are those of attributes. -/
def expandFact (f : Str → Str) : Fact → Fact
  | .exists l => .exists (f l)
  | .aka l r => .aka (f l) (f r)
  | .is l r => .is (f l) (f r)
  | .slot l n v => .slot (f l) n (f v)
  | .prop l k as => .prop (f l) (f k) (as.map (fun a => (a.1, f a.2)))

/-- The variable in the title, and the names for it (Section.py:3467-3472). -/
def variable? (nativeErrors typedArrays : List Str) (title : Str) : Option (Str × List Str) :=
  if hasSub "_NativeError_".toList title then some ("NativeError".toList, nativeErrors)
  else if hasSub "_TypedArray_".toList title then some ("TypedArray".toList, typedArrays)
  else none

/-- `expanded_facts` (Section.py:3465-3525). -/
def expanded (nativeErrors typedArrays : List Str) (title : Str) (f : Fact) : List Fact :=
  match variable? nativeErrors typedArrays title with
  | some (name, es) => es.map (fun e => expandFact (expandStr name e) f)
  | none => [f]

/-! ## Names -/

/-- How values start that do not refer to an object (Section.py:3536-3554). -/
def plain : List String :=
  ["*", "the largest", "the smallest", "the Number value", "The Number value", "the Element Size", "the empty String", "the String value", "the well-known symbol", "1",
   "host-defined", "emu-alg in", "prose in"]

/-- `normalize_str` (Section.py:3535-3559); None is a failed assertion in `get_pdn`. -/
def normalizeStr (s : Str) : Option Str := if plain.any (fun t => t.toList.isPrefixOf s) then some s else getPdn s

/-- `normalize_attrs` (Section.py:3561-3565). -/
def normalizeAttrs : List (Str × Str) → Option (List (Str × Str))
  | [] => some []
  | (n, v) :: as => match normalizeStr v with
    | none => none
    | some v' => (normalizeAttrs as).map ((n, v') :: ·)

/-- The body of the loop over the facts (Section.py:3531-3588): what is appended; None is a failed assertion. -/
def cook : Fact → Option (List Fact)
  | .exists l => (getPdn l).map (fun n => [.exists n])
  | .is l r => (getPdn l).map (fun n => [.is n r])
  | .aka l r => match getPdn l with
    | none => none
    | some n => match normalizeStr r with
      | none => none
      | some m => if n = m then some [] else none
  | .slot l s v => match getPdn l with
    | none => none
    | some n => (normalizeStr v).map (fun v => [.slot n s v])
  | .prop l k as => match getPdn l with
    | none => none
    | some n => (normalizeAttrs as).map (fun as => [.prop n k as])

/-- The loop (Section.py:3531-3588). -/
def cookAll : List Fact → Option (List Fact)
  | [] => some []
  | f :: fs => match cook f with
    | none => none
    | some a => (cookAll fs).map (a ++ ·)

/-- `section_put_fact` (Section.py:3444-3588): what is appended to `intrinsic_facts_cooked`; None is a failed assertion. That the fact is also kept as it is, is not modelled. -/
def put (nativeErrors typedArrays : List Str) (title : Str) (f : Fact) : Option (List Fact) := cookAll (expanded nativeErrors typedArrays title f)

end Verif.Facts
