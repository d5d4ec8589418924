import Verif.Numval.Model
/-!
# The Number value for a mathematical value (C103)

From the ECMAScript specification (6.1.6.1): consider the set of all finite values of the Number type, with -0 removed and with 2^1024 and -2^1024 added; the member that is closest to the value is chosen
(if there are two, the one with an even significand); 2^1024 stands for +∞, -2^1024 for -∞.  All members are multiples of 2^-1074, so they are given here as integers, in that unit.
-/
namespace Verif.Numval

/-- The unit: this many of them are 1. -/
def one : Int := 2 ^ 1074

/-- A finite Number: a significand below 2^53 and an exponent from -1074 to 971. -/
def Finite (w : Int) : Prop := ∃ m : Int, ∃ k : Nat, k ≤ 2045 ∧ m.natAbs < 2 ^ 53 ∧ w = m * 2 ^ k

/-- A member of the set. -/
def Member (w : Int) : Prop := Finite w ∨ w = 2 ^ 1024 * one ∨ w = -(2 ^ 1024 * one)

/-- The member is the only one that is closest to the integer. -/
def Nearest (x w : Int) : Prop := Member w ∧ ∀ w', Member w' → w' ≠ w → (x * one - w).natAbs < (x * one - w').natAbs

/-- What a Number stands for in the set; zero is +0. -/
inductive Stands : Num → Int → Prop where
  | plus (n : Nat) : Stands (.finite false n) (n * one)
  | minus (n : Nat) : n ≠ 0 → Stands (.finite true n) (-(n * one))
  | up : Stands .positiveInfinity (2 ^ 1024 * one)
  | down : Stands .negativeInfinity (-(2 ^ 1024 * one))

end Verif.Numval
