import Mathlib.Algebra.Order.Floor.Ring
import Verif.Arith.Model
import Verif.Env.Spec
/-!
# Specification: numbers, what arithmetic and comparisons mean

Everything is stated for an arbitrary ordered field `R` of reals in which numbers can be rounded down.
-/
namespace Verif.Arith
open Verif.Types Verif.Env

/-- A real number, or `+∞`, or `-∞`. -/
inductive Ext (R : Type) where
  | fin (r : R)
  | pos
  | neg
deriving DecidableEq

/-- The numeric values: (extended) mathematical values, Numbers and BigInts.  The two zeros of Numbers are not told apart: no type does. -/
inductive Num (R : Type) where
  | math (x : Ext R)
  | number (x : Ext R)
  | nan
  | big (n : ℤ)
deriving DecidableEq

section
variable {R : Type} [Field R] [LinearOrder R] [IsStrictOrderedRing R] [FloorRing R]

def IsInt (r : R) : Prop := ∃ n : ℤ, r = n

/-! ## Arithmetic -/

def Ext.opp : Ext R → Ext R
  | .fin r => .fin (-r)
  | .pos => .neg
  | .neg => .pos

/-- Sums of extended reals; `none` where they are not defined. -/
def addX : Ext R → Ext R → Option (Ext R)
  | .fin r, .fin s => some (.fin (r + s))
  | .fin _, y => some y
  | x, .fin _ => some x
  | .pos, .pos => some .pos
  | .neg, .neg => some .neg
  | _, _ => none

def mulX : Ext R → Ext R → Option (Ext R)
  | .fin r, .fin s => some (.fin (r * s))
  | .fin r, y => if 0 < r then some y else if r < 0 then some y.opp else none
  | x, .fin s => if 0 < s then some x else if s < 0 then some x.opp else none
  | x, .pos => some x
  | x, .neg => some x.opp

def divX : Ext R → Ext R → Option (Ext R)
  | .fin r, .fin s => if s = 0 then none else some (.fin (r / s))
  | .fin _, _ => some (.fin 0)
  | x, .fin s => if 0 < s then some x else if s < 0 then some x.opp else none
  | _, _ => none

/-- `x modulo y`: see `Modulo`. -/
def modX : Ext R → Ext R → Option (Ext R)
  | .fin r, .fin s => if s = 0 then none else some (.fin (r - s * ⌊r / s⌋))
  | _, _ => none

/-- ECMA-262 on "_x_ modulo _y_": "computes a value _k_ of the same sign as _y_ (or zero) such that abs(_k_) < abs(_y_) and _x_ - _k_ = _q_ × _y_
for some integer _q_". -/
def Modulo (x y k : R) : Prop := (k = 0 ∨ (0 < k ↔ 0 < y)) ∧ |k| < |y| ∧ ∃ q : ℤ, x - k = q * y

inductive Op where
  | add | sub | mul | div | mod
deriving DecidableEq

/-- How operators are written. -/
def opOf (s : String) : Option Op :=
  if s = "+" ∨ s = "plus" then some .add
  else if s = "-" then some .sub
  else if s = "×" ∨ s = "times" ∨ s = "&times;" then some .mul
  else if s = "/" then some .div
  else if s = "modulo" then some .mod
  else none

def extOp : Op → Ext R → Ext R → Option (Ext R)
  | .add, x, y => addX x y
  | .sub, x, y => addX x y.opp
  | .mul, x, y => mulX x y
  | .div, x, y => divX x y
  | .mod, x, y => modX x y

/-- What is left open: how the results of operations on Numbers are rounded, logarithms, and the constants. -/
structure Reals (R : Type) where
  round : R → Ext R
  log : String → R → R → Prop
  const : Const → R

/-- Integers are rounded to integers, if not to an infinity, and small multiples of 1/4 are not changed. -/
structure Reals.Ok (A : Reals R) : Prop where
  int : ∀ (n : ℤ) r, A.round n = .fin r → IsInt r
  small : ∀ n : ℤ, |n| ≤ 64 → A.round ((n : R) / 4) = .fin ((n : R) / 4)

/-- The results of an operation.  Operands of different kinds have none. -/
def Calc (A : Reals R) (o : Op) : Num R → Num R → Num R → Prop
  | .math x, .math y, z => ∃ w, extOp o x y = some w ∧ z = .math w
  | .number x, .number y, z => o ≠ .mod ∧ match extOp o x y with
    | some (.fin r) => z = .number (A.round r)
    | some w => z = .number w
    | none => z = .nan ∨ (o = .div ∧ y = .fin 0 ∧ (z = .number .pos ∨ z = .number .neg))
  | .nan, .number _, z => o ≠ .mod ∧ z = .nan
  | .number _, .nan, z => o ≠ .mod ∧ z = .nan
  | .nan, .nan, z => o ≠ .mod ∧ z = .nan
  | .big m, .big n, z => match o with
    | .add => z = .big (m + n)
    | .sub => z = .big (m - n)
    | .mul => z = .big (m * n)
    | _ => False
  | _, _, _ => False

/-- What the analysis takes for granted about an operation on Numbers: finite operands give a finite result (there is no overflow, and no division
by zero), and an infinity is multiplied or divided by something positive. -/
def UsualBin (o : Op) : Num R → Num R → Num R → Prop
  | .number (.fin r), .number y, z => match y with
    | .fin _ => ∃ q, z = .number (.fin q)
    | _ => o = .mul → 0 < r
  | .number _, .number (.fin s), _ => o = .div → 0 < s
  | _, _, _ => True

/-- The result of `-x`. -/
def Neg : Num R → Num R → Prop
  | .math x, z => z = .math x.opp
  | .number x, z => z = .number x.opp
  | .nan, z => z = .nan
  | .big n, z => z = .big (-n)

/-- What is taken for granted about `-x`. -/
def UsualNeg (x : Num R) : Prop := x ≠ .number .pos ∧ x ≠ .number .neg

/-- The result of a power of integers. -/
def Pow : Num R → Num R → Num R → Prop
  | .math (.fin r), .math (.fin s), z => ∃ m n : ℤ, r = m ∧ s = n ∧ z = .math (.fin ((m : R) ^ n))
  | .big m, .big n, z => 0 ≤ n ∧ z = .big (m ^ n.toNat)
  | _, _, _ => False

/-- What is taken for granted about a power: the exponent is not negative. -/
def UsualPow (y : Num R) : Prop := ∀ s, y = .math (.fin s) → 0 ≤ s

/-- The remainder of a division of integers: it has the sign of the dividend. -/
def Rem : Num R → Num R → Num R → Prop
  | .math (.fin r), .math (.fin s), z => ∃ m n : ℤ, r = m ∧ s = n ∧ n ≠ 0 ∧ z = .math (.fin ((m.tmod n : ℤ) : R))
  | _, _, _ => False

def Ext.lt : Ext R → Ext R → Prop
  | .fin r, .fin s => r < s
  | .neg, .fin _ => True
  | .neg, .pos => True
  | .fin _, .pos => True
  | _, _ => False

/-- ECMA-262: "produces _lower_ if _x_ < _lower_, produces _upper_ if _x_ > _upper_, and otherwise produces _x_", for `lower ≤ upper`. -/
def Clamp : Num R → Num R → Num R → Num R → Prop
  | .math x, .math (.fin lo), .math (.fin hi), z => lo ≤ hi ∧
    (x.lt (.fin lo) → z = .math (.fin lo)) ∧ (Ext.lt (.fin hi) x → z = .math (.fin hi)) ∧
    (¬ x.lt (.fin lo) → ¬ Ext.lt (.fin hi) x → z = .math x)
  | _, _, _, _ => False

/-- Functions of one argument. -/
def Fun (A : Reals R) (f : String) : Num R → Num R → Prop
  | .math x, z =>
    (f = "𝔽" ∧ z = .number (match x with
      | .fin r => A.round r
      | _ => x)) ∨
    (f = "ℤ" ∧ ∃ n : ℤ, x = .fin n ∧ z = .big n) ∨
    (f = "abs" ∧ z = .math (match x with
      | .fin r => .fin |r|
      | _ => .pos)) ∨
    (f = "floor" ∧ ∃ r, x = .fin r ∧ z = .math (.fin ⌊r⌋)) ∨
    (f = "truncate" ∧ ∃ r, x = .fin r ∧ z = .math (.fin (if 0 ≤ r then ⌊r⌋ else ⌈r⌉ : ℤ))) ∨
    ((f = "ln" ∨ f = "log10" ∨ f = "log2") ∧ ∃ r s, x = .fin r ∧ A.log f r s ∧ z = .math (.fin s))
  | .number x, z => f = "ℝ" ∧ ∃ r, x = .fin r ∧ z = .math (.fin r)
  | .nan, _ => False
  | .big n, z => f = "ℝ" ∧ z = .math (.fin n)

/-- What is taken for granted about functions: no integer is so great that `𝔽` makes it infinite. -/
def UsualFun (A : Reals R) (f : String) (x : Num R) : Prop := f = "𝔽" → ∀ n : ℤ, x = .math (.fin n) → ∃ q, A.round (n : R) = .fin q

/-- `min` or `max` of extended mathematical values. -/
def MinMax (f : String) (xs : List (Num R)) (z : Num R) : Prop :=
  z ∈ xs ∧ (∀ x ∈ xs, ∃ e, x = .math e) ∧
  ((f = "min" ∧ ∀ x, .math x ∈ xs → ∀ e, z = .math e → ¬ x.lt e) ∨ (f = "max" ∧ ∀ x, .math x ∈ xs → ∀ e, z = .math e → ¬ Ext.lt e x))

/-- What is taken for granted about them: not all are `+∞` (for `min`) or `-∞` (for `max`). -/
def UsualMinMax (f : String) (xs : List (Num R)) : Prop := ∃ x ∈ xs, x ≠ .math (if f = "min" then .pos else .neg)

/-- The expressions that are known to give integers: `(_x_ - _xDigit_) / 2` and `(_y_ - _yDigit_) / 2`. -/
def DigitShift {X : Type} (op : String) (a b : NExpr X) : Prop :=
  op = "/" ∧ b = .int 2 ∧ (a = .bin "-" (.leaf (.var "_x_")) (.leaf (.var "_xDigit_")) ∨ a = .bin "-" (.leaf (.var "_y_")) (.leaf (.var "_yDigit_")))

variable {X T C : Type} {I : Interp} (A : Reals R) (num : Num R → I.V) (S : Sem X T C I)

mutual
/-- The values of an expression.  If `u` is true, only those executions count where everything is as the analysis takes for granted. -/
def Value (u : Prop) : NExpr X → Store I → I.V → Prop
  | .leaf e, σ, v => Eval S e σ v
  | .int n, _, v => v = num (.math (.fin n))
  | .const c, _, v => v = num (.math (.fin (A.const c)))
  | .posInf, _, v => v = num (.math .pos)
  | .negInf, _, v => v = num (.math .neg)
  | .numPosInf, _, v => v = num (.number .pos)
  | .numNegInf, _, v => v = num (.number .neg)
  | .nan, _, v => v = num .nan
  | .numHalf neg, _, v => v = num (.number (.fin (if neg then -(1 / 2) else 1 / 2)))
  | .numInt n, _, v => v = num (.number (.fin n))
  | .bigInt n, _, v => v = num (.big n)
  | .bin op a b, σ, v => ∃ o x y z, opOf op = some o ∧ Value u a σ (num x) ∧ Value u b σ (num y) ∧ Calc A o x y z ∧ v = num z ∧
      (u → UsualBin o x y z ∧ (DigitShift op a b → ∃ n : ℤ, z = .math (.fin n)))
  | .neg a, σ, v => ∃ x z, Value u a σ (num x) ∧ Neg x z ∧ v = num z ∧ (u → UsualNeg x)
  | .negative a, σ, v => ∃ x z, Value u a σ (num x) ∧ Neg x z ∧ v = num z
  | .remainder a b, σ, v => ∃ x y z, Value u a σ (num x) ∧ Value u b σ (num y) ∧ Rem x y z ∧ v = num z
  | .power a b, σ, v => ∃ x y z, Value u a σ (num x) ∧ Value u b σ (num y) ∧ Pow x y z ∧ v = num z ∧ (u → UsualPow y)
  | .clamp x lo hi, σ, v => ∃ a b c z, Value u x σ (num a) ∧ Value u lo σ (num b) ∧ Value u hi σ (num c) ∧ Clamp a b c z ∧ v = num z
  | .extended x, σ, v => ∃ e, σ x = num (.number e) ∧ v = num (.math e)
  | .choice a b, σ, v => (Value u a σ v ∧ ∃ w, Value u b σ w) ∨ (Value u b σ v ∧ ∃ w, Value u a σ w)
  | .fn f a, σ, v => ∃ x z, Value u a σ (num x) ∧ Fun A f x z ∧ v = num z ∧ (u → UsualFun A f x)
  | .minMax f args, σ, v => ∃ xs z, Values u args σ xs ∧ MinMax f xs z ∧ v = num z ∧ (u → UsualMinMax f xs)
/-- The values of several expressions. -/
def Values (u : Prop) : List (NExpr X) → Store I → List (Num R) → Prop
  | [], _, xs => xs = []
  | a :: as, σ, xs => ∃ x r, Value u a σ (num x) ∧ Values u as σ r ∧ xs = x :: r
end

/-! ## Comparisons -/

/-- The comparison is between values of the same kind, and not with NaN. -/
def Sense : Num R → Num R → Prop
  | .math _, .math _ => True
  | .number _, .number _ => True
  | .big _, .big _ => True
  | _, _ => False

def Less : Num R → Num R → Prop
  | .math x, .math y => x.lt y
  | .number x, .number y => x.lt y
  | .big m, .big n => m < n
  | _, _ => False

/-- What the comparators mean. -/
def Compares (op : String) (x y : Num R) : Prop :=
  (op = "&lt;" ∧ Less x y) ∨ (op = ">" ∧ Less y x) ∨ (op = "is strictly greater than" ∧ Less y x) ∨ (op = "=" ∧ x = y) ∨ (op = "≠" ∧ x ≠ y) ∨
  (op = "≤" ∧ (Less x y ∨ x = y)) ∨ (op = "≥" ∧ (Less y x ∨ x = y)) ∨ (op = "is greater than or equal to" ∧ (Less y x ∨ x = y))

/-- Two values can be compared. -/
def Comparable (v w : I.V) : Prop := ∃ x y, v = num x ∧ w = num y ∧ Sense x y
/-- A comparison holds. -/
def CmpTrue (op : String) (v w : I.V) : Prop := ∃ x y, v = num x ∧ w = num y ∧ Sense x y ∧ Compares op x y
/-- A comparison makes sense, but does not hold. -/
def CmpFalse (op : String) (v w : I.V) : Prop := ∃ x y, v = num x ∧ w = num y ∧ Sense x y ∧ ¬ Compares op x y

/-- The two comparators of a chain go the same way. -/
def SameWay (op1 op2 : String) : Prop :=
  (op1 ∈ ["≤", "&lt;", "="] ∧ op2 ∈ ["≤", "&lt;", "="]) ∨
  (op1 ∈ ["≥", ">", "=", "is strictly greater than", "is greater than or equal to"] ∧ op2 ∈ ["≥", ">", "=", "is strictly greater than", "is greater than or equal to"])

/-- `e` is in the interval from `lo` (inclusive) to `hi`; `closed` says that this is inclusive, too. -/
def Within (closed : Bool) (lo hi : ℤ) (e : Ext R) : Prop := ¬ e.lt (.fin (lo : R)) ∧ if closed then ¬ Ext.lt (.fin (hi : R)) e else e.lt (.fin (hi : R))

/-! ## What the names of types mean -/

/-- The names of numeric types. -/
def numeric : List String := ["MathInteger_", "MathOther_", "MathReal_", "MathPosInfinity_", "MathNegInfinity_", "ExtendedMathReal_", "IntegralNumber_",
    "NonIntegralFiniteNumber_", "FiniteNumber_", "PosInfinityNumber_", "NegInfinityNumber_", "NaN_Number_", "Number", "BigInt"]

/-- The names of numeric types mean what they say. -/
structure NumWorld (cfg : Cfg) (num : Num R → I.V) : Prop where
  inj : ∀ x y, num x = num y → x = y
  mathInteger : ∀ v, I.named "MathInteger_" v ↔ ∃ n : ℤ, v = num (.math (.fin n))
  mathOther : ∀ v, I.named "MathOther_" v ↔ ∃ r, ¬ IsInt r ∧ v = num (.math (.fin r))
  mathReal : ∀ v, I.named "MathReal_" v ↔ ∃ r, v = num (.math (.fin r))
  mathPos : ∀ v, I.named "MathPosInfinity_" v ↔ v = num (.math .pos)
  mathNeg : ∀ v, I.named "MathNegInfinity_" v ↔ v = num (.math .neg)
  extended : ∀ v, I.named "ExtendedMathReal_" v ↔ ∃ x, v = num (.math x)
  integral : ∀ v, I.named "IntegralNumber_" v ↔ ∃ n : ℤ, v = num (.number (.fin n))
  nonIntegral : ∀ v, I.named "NonIntegralFiniteNumber_" v ↔ ∃ r, ¬ IsInt r ∧ v = num (.number (.fin r))
  finite : ∀ v, I.named "FiniteNumber_" v ↔ ∃ r, v = num (.number (.fin r))
  posInfinity : ∀ v, I.named "PosInfinityNumber_" v ↔ v = num (.number .pos)
  negInfinity : ∀ v, I.named "NegInfinityNumber_" v ↔ v = num (.number .neg)
  nan : ∀ v, I.named "NaN_Number_" v ↔ v = num .nan
  number : ∀ v, I.named "Number" v ↔ (∃ x, v = num (.number x)) ∨ v = num .nan
  bigInt : ∀ v, I.named "BigInt" v ↔ ∃ n, v = num (.big n)
  /-- Language values include all Numbers and BigInts. -/
  tangible : ∀ v, I.named "Number" v ∨ I.named "BigInt" v → I.named "Tangible_" v
  /-- These have no numeric values. -/
  other : ∀ n ∈ ["not_passed", "tilde_empty_", "tilde_detached_", "tilde_bigint_", "tilde_number_"], ∀ z, ¬ I.named n (num z)
  /-- The hierarchy has these names, and nothing else below them. -/
  known : ∀ n ∈ ["MathInteger_", "MathOther_", "MathReal_", "MathPosInfinity_", "MathNegInfinity_", "ExtendedMathReal_", "IntegralNumber_",
    "NonIntegralFiniteNumber_", "FiniteNumber_", "PosInfinityNumber_", "NegInfinityNumber_", "NaN_Number_", "Number", "BigInt", "Tangible_",
    "not_passed", "tilde_empty_", "tilde_detached_", "tilde_bigint_", "tilde_number_"], n ∈ names cfg.tree
  underReal : ∀ n, Anc cfg.tree "MathReal_" n → n ∈ ["MathReal_", "MathInteger_", "MathOther_"]
  underNumber : ∀ n, Anc cfg.tree "Number" n → n ∈ ["Number", "FiniteNumber_", "IntegralNumber_", "NonIntegralFiniteNumber_", "PosInfinityNumber_",
    "NegInfinityNumber_", "NaN_Number_"]
  underBigInt : ∀ n, Anc cfg.tree "BigInt" n → n = "BigInt"

/-- The analysis of the expressions that are not arithmetic is right when it gives no message. -/
def LeavesOk {K : Type} (L : Lang K X T C) : Prop :=
  ∀ e env t env', L.expr e env = some ((t, env'), []) → FlatEnv L.cfg env →
    Flat L.cfg t ∧ FlatEnv L.cfg env' ∧ env'.ctx = env.ctx ∧
    ∀ σ v, Holds L.cfg I env σ → S.eval e σ v → den L.cfg I t v ∧ Holds L.cfg I env' σ

end
end Verif.Arith
