import Verif.Tuples.Model
/-!
# What a type of tuples is, in words (C91)
-/
namespace Verif.Tuples

/-- The words of a text: what is left of it between white space. -/
inductive Words (sp : Char → Bool) : Str → List Str → Prop where
  | none (b : Str) : (∀ c ∈ b, sp c = true) → Words sp b []
  | more (b w rest : Str) (ws : List Str) : (∀ c ∈ b, sp c = true) → w ≠ [] → (∀ c ∈ w, sp c = false) →
      (∀ c, rest.head? = some c → sp c = true) → Words sp rest ws → Words sp (b ++ w ++ rest) (w :: ws)

/-- What is assumed of Python's strings: they are equal just if their texts are, they are ordered by their texts, and `str` gives the text. -/
structure Strings {V : Type} (py : Py V) : Prop where
  eq : ∀ a b, py.eq (py.str a) (py.str b) = true ↔ a = b
  lt : ∀ a b, py.lt (py.str a) (py.str b) = some (decide (a < b))
  text : ∀ a, py.text (py.str a) = a

/-- The lists are equally long and agree at each position. -/
def Same {V : Type} (py : Py V) (as bs : List V) : Prop :=
  as.length = bs.length ∧ ∀ (i : Nat) (a b : V), as[i]? = some a → bs[i]? = some b → py.eq a b = true

/-- The first position at which the lists differ has `a` on the left and `b` on the right. -/
def Differ {V : Type} (py : Py V) (as bs : List V) (a b : V) : Prop :=
  ∃ i : Nat, as[i]? = some a ∧ bs[i]? = some b ∧ py.eq a b = false ∧ Same py (as.take i) (bs.take i)

/-- `a=x, b=y, c=z` -/
inductive Listing : List (Str × Str) → Str → Prop where
  | none : Listing [] []
  | one (f x : Str) : Listing [(f, x)] (f ++ "=".toList ++ x)
  | more (f x : Str) (p : Str × Str) (l : List (Str × Str)) (t : Str) : Listing (p :: l) t →
      Listing ((f, x) :: p :: l) (f ++ "=".toList ++ x ++ ", ".toList ++ t)

end Verif.Tuples
