/-!
# Numbers made from mathematical values

`the_Number_value_for` (pseudocode_semantics.py:9420-9429), `EL_Number` (9197-9218) and the operators of `ES_Mathnum` (6996-7022), for integers.
-/
namespace Verif.Numval

/-- What an `EL_Number` holds (pseudocode_semantics.py:9199-9218): one of three words, or a sign and a magnitude (an integer here). -/
inductive Num where
  | notANumber
  | negativeInfinity
  | positiveInfinity
  | finite (negative : Bool) (magnitude : Nat)
deriving DecidableEq

/-- `EL_Number(...)` with a sign and a magnitude (pseudocode_semantics.py:9207-9216): none if the assertion fails. -/
def mkFinite (negative : Bool) (v : Int) : Option Num := if 0 ≤ v then some (.finite negative v.toNat) else none

/-- `the_Number_value_for` (pseudocode_semantics.py:9420-9429), for a value that is an integer in Python; none for the assertion that says that the rest is not yet implemented. -/
def numberValueFor (x : Int) : Option Num :=
  if 0 ≤ x ∧ x < 2 ^ 53 - 1 then mkFinite false x
  else if 2 ^ 1024 ≤ x then some .positiveInfinity
  else none

/-- `__mod__` (pseudocode_semantics.py:7018-7022): none if the assertion fails.  Python's operator rounds the quotient down. -/
def mathMod (x y : Int) : Option Int := if y = 0 then none else some (Int.fmod x y)

/-- The sign of the comparison (pseudocode_semantics.py:7004-7011). -/
inductive Rator where
  | le | ge | gt | other
deriving DecidableEq

/-- `compare` (pseudocode_semantics.py:6995-7011), when the text of the operator has been recognized; none for another one. -/
def compare (a : Int) : Rator → Int → Option Bool
  | .le, b => some (decide (a ≤ b))
  | .ge, b => some (decide (b ≤ a))
  | .gt, b => some (decide (b < a))
  | .other, _ => none

end Verif.Numval
