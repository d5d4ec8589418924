import Verif.Unesc.Model
/-!
# What a text with escape sequences means (C98)
-/
namespace Verif.Unesc

variable (nd : Nat → Option Nat)

/-- A digit and its value. -/
inductive Digit : Nat → Nat → Prop where
  | decimal (v : Nat) : v < 10 → Digit (48 + v) v
  | lower (v : Nat) : v < 6 → Digit (97 + v) (10 + v)
  | upper (v : Nat) : v < 6 → Digit (65 + v) (10 + v)
  | other (c v : Nat) : 128 ≤ c → nd c = some v → Digit c v

/-- A text of digits, and the number that is written with them, with base sixteen. -/
inductive Numeral : Text → Nat → Prop where
  | one {c v : Nat} : Digit nd c v → Numeral [c] v
  | more {cs : Text} {m c v : Nat} : Numeral cs m → Digit nd c v → Numeral (cs ++ [c]) (16 * m + v)

/-- An escape sequence and the number in it: `\u{…}` with any number of digits, or `\u` with four of them. -/
inductive Escape : Text → Nat → Prop where
  | braces {cs : Text} {v : Nat} : Numeral nd cs v → Escape (92 :: 117 :: 123 :: (cs ++ [125])) v
  | four {cs : Text} {v : Nat} : Numeral nd cs v → cs.length = 4 → Escape (92 :: 117 :: cs) v

/-- What a text means: an escape sequence stands for the code point with its number, and all other characters for themselves. -/
inductive Means : Text → Text → Prop where
  | nil : Means [] []
  | escape {e : Text} {v : Nat} {s t : Text} : Escape nd e v → v ≤ 0x10FFFF → Means s t → Means (e ++ s) (v :: t)
  | char {c : Nat} {s t : Text} : (∀ e v, Escape nd e v → ¬ e <+: c :: s) → Means s t → Means (c :: s) (c :: t)

end Verif.Unesc
