import Verif.Kinds.Spec
import Verif.Wki.Model
/-!
# Specification of the tables of well-known intrinsics

Independent of the functions of the model.
-/
namespace Verif.Wki.Spec
open Verif.Paths.Spec (Word)
open Verif.Kinds.Spec (Some' Line)

/-! ## The tables -/

/-- What the last column says, and the phrase that is taken from it. -/
inductive Assoc : Str → Str → Prop
  | function {r} : Assoc ("A function object that ".toList ++ r) []
  | object {r} : Assoc ("An object that ".toList ++ r) []
  | the {x h} : Some' x → h ≠ [] → '"' ∉ h → Assoc ("The ".toList ++ x ++ " (<emu-xref href=\"".toList ++ h ++ "\"></emu-xref>)".toList) ("the ".toList ++ x)

/-- A correct row: the name in percent signs, and the same name in quotes if it is a property of the global object. -/
inductive RowOk : List Str → Str → Bool → Prop
  | plain {n a ph} : Word n → Assoc a ph → RowOk ["%".toList ++ n ++ "%".toList, [], a] n false
  | global {n a ph} : Word n → Assoc a ph → RowOk ["%".toList ++ n ++ "%".toList, "*\"".toList ++ n ++ "\"*".toList, a] n true

/-- A table of well-known intrinsics. -/
def TableOk (t : Table) : Prop :=
  (t.caption = "Well-Known Intrinsic Objects".toList ∨ t.caption = "Additional Well-known Intrinsic Objects".toList) ∧
  t.header = ["Intrinsic Name".toList, "Global Name".toList, "ECMAScript Language Association".toList]

/-- The rows are correct: their names, and whether they are global. -/
inductive RowsOk : List (List Str) → List (Str × Bool) → Prop
  | nil : RowsOk [] []
  | cons {r rs n b ns} : RowOk r n b → RowsOk rs ns → RowsOk (r :: rs) ((n, b) :: ns)

/-! ## References -/

/-- Something that can be between percent signs. -/
def Inside (r : Str) : Prop := r ≠ [] ∧ '%' ∉ r ∧ ' ' ∉ r

/-- There is a reference in a text, after some of it. -/
def RefAt (s a r b : Str) : Prop := s = a ++ "%".toList ++ r ++ "%".toList ++ b ∧ Inside r

/-- The references in a text that begins at a position: each the first that is after the one before. -/
inductive Refs : Nat → Str → List (Nat × Str) → Prop
  | done {i s} : (∀ a r b, ¬ RefAt s a r b) → Refs i s []
  | more {i s a r b rs} : RefAt s a r b → (∀ a' r' b', RefAt s a' r' b' → a.length ≤ a'.length) → Refs (i + a.length + r.length + 2) b rs → Refs i s ((i + a.length, r) :: rs)

/-- The intrinsic that a reference starts with. -/
inductive Base : Str → Str → Prop
  | plain {r} : '.' ∉ r → Base r r
  | last {a} : '.' ∉ a → Base (a ++ ['.']) (a ++ ['.'])
  | dotted {a t} : '.' ∉ a → t ≠ [] → Base (a ++ '.' :: t) a

/-- Stands for names. -/
def Placeholder (r : Str) : Prop := r = "name".toList ∨ r = "name.a.b".toList ∨ r = "_NativeError_".toList ∨ r = "_TypedArray_".toList

/-! ## The global object -/

/-- The title of a section for a property of the global object, and its name. -/
inductive Title : Str → Str → Prop
  | plain {n} : Word n → Title n n
  | params {n ps} : Word n → Line ps → Title (n ++ " (".toList ++ ps ++ ")".toList) n

/-- A section for a property. -/
def IsProp (s : Sec) : Prop := ∃ a b, s.kind = a ++ "_property".toList ++ b

/-- The sections have a property with this name, values aside. -/
def Listed (secs : List Sec) (n : Str) : Prop := ∃ s ∈ secs, IsProp s ∧ s.parent ≠ "Value Properties of the Global Object".toList ∧ Title s.title n

end Verif.Wki.Spec
