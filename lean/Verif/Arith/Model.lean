import Verif.Calls.Model
/-!
# Model of the static analysis of arithmetic, and of its execution (pseudocode_semantics.py)

As in `Verif.Env`, an environment only has entries for variables.  Where the program asserts that two environments are
the same object, the model goes on.
-/
namespace Verif.Arith
open Verif.Types Verif.Env Verif.Calls

/-! ## Computations that give messages -/

/-- A result with the messages given on the way; `none` is an uncaught exception. -/
def W (α : Type) := Option (α × List Err)

def W.pure {α} (a : α) : W α := some (a, [])
def W.bind {α β} (m : W α) (f : α → W β) : W β := match m with
  | none => none
  | some (a, es) => match f a with
    | none => none
    | some (b, es') => some (b, es ++ es')
instance : Monad W where
  pure := W.pure
  bind := W.bind
def W.fail {α} : W α := none
def W.lift {α} (a : Option α) : W α := a.map (fun a => (a, []))
/-- `add_pass_error` (pseudocode_semantics.py:1383-1387). -/
def tell (m : String) : W Unit := some ((), [.other m])
/-- What a computation of `Verif.Env` gives when it is run on its own. -/
def run {K α} (m : M K α) : W α := (m ⟨[], [], []⟩).map (fun r => (r.1, r.2.log))

/-! ## Expressions -/

/-- The literals `0.5`, `3π`, `8.64` and `π` (pseudocode_semantics.py:7078-7085). -/
inductive Const where
  | half
  | threePi
  | msPerDay
  | pi
deriving DecidableEq

/-- Expressions with numeric values. -/
inductive NExpr (X : Type) where
  | leaf (e : Expr X)                      -- a variable or something else
  | int (n : Nat)                          -- `{dec_int_lit}`, `{hex_int_lit}`, `{BASE}` (7042-7103)
  | const (c : Const)                      -- 7078-7085
  | posInf                                 -- `+∞` (7696-7702)
  | negInf                                 -- `-∞` (7704-7710)
  | numPosInf                              -- `*+∞*𝔽` (9244-9249)
  | numNegInf                              -- `*-∞*𝔽` (9237-9242)
  | nan                                    -- `*NaN*` (9251-9259)
  | numHalf (neg : Bool)                   -- `*0.5*𝔽`, `*-0.5*𝔽` (9261-9265)
  | numInt (n : Int)                       -- `*1*𝔽` (9267-9273)
  | bigInt (n : Int)                       -- `*1*ℤ` (9492-9496)
  | bin (op : String) (a b : NExpr X)      -- `{SUM}`, `{PRODUCT}` (7177-7179)
  | neg (a : NExpr X)                      -- `-x` (7347)
  | negative (a : NExpr X)                 -- `the negative of x` (7363)
  | remainder (a b : NExpr X)              -- `the remainder of dividing x by y` (7371-7372)
  | power (a b : NExpr X)                  -- `2<sup>x</sup>`, `x raised to the power y` (7380-7381)
  | clamp (x lo hi : NExpr X)              -- `the result of clamping x between y and z` (7768)
  | extended (x : String)                  -- `the extended mathematical value of x` (7738)
  | choice (a b : NExpr X)                 -- `an implementation-defined choice of either x or y` (7424)
  | fn (f : String) (a : NExpr X)          -- `f(x)` (7802)
  | minMax (f : String) (args : List (NExpr X))  -- `min(x, y)`, `max(x, y)` (7869)

def mathInt : Ty := .hier "MathInteger_"
def mathReal : Ty := .hier "MathReal_"
def extReal : Ty := .hier "ExtendedMathReal_"
def integral : Ty := .hier "IntegralNumber_"
def bigIntT : Ty := .hier "BigInt"

/-! ## Arithmetic -/

/-- An entry of the table: the type of the result, or a complaint (pseudocode_semantics.py:7295-7311). -/
inductive Cell where
  | ty (n : String)
  | aNonNumeric
  | bNonNumeric
  | aNaN
  | aInfinite
deriving DecidableEq

/-- The table in `type_arithmetic` (pseudocode_semantics.py:7196-7293).  No key occurs twice. -/
def arithTable : List ((String × String × String) × Cell) := [
  (("ExtendedMathReal_", "modulo", "MathInteger_"), .aInfinite),
  (("ExtendedMathReal_", "modulo", "MathReal_"), .aInfinite),
  (("ExtendedMathReal_", "×", "ExtendedMathReal_"), .ty "ExtendedMathReal_"),
  (("ExtendedMathReal_", "×", "MathInteger_"), .ty "ExtendedMathReal_"),
  (("ExtendedMathReal_", "+", "ExtendedMathReal_"), .ty "ExtendedMathReal_"),
  (("ExtendedMathReal_", "+", "MathInteger_"), .ty "ExtendedMathReal_"),
  (("ExtendedMathReal_", "-", "MathInteger_"), .ty "ExtendedMathReal_"),
  (("ExtendedMathReal_", "/", "ExtendedMathReal_"), .ty "ExtendedMathReal_"),
  (("ExtendedMathReal_", "/", "MathInteger_"), .ty "ExtendedMathReal_"),
  (("MathInteger_", "×", "ExtendedMathReal_"), .ty "ExtendedMathReal_"),
  (("MathInteger_", "+", "ExtendedMathReal_"), .ty "ExtendedMathReal_"),
  (("MathPosInfinity_", "+", "MathReal_"), .ty "MathPosInfinity_"),
  (("MathInteger_", "+", "MathPosInfinity_"), .ty "MathPosInfinity_"),
  (("MathInteger_", "+", "MathNegInfinity_"), .ty "MathNegInfinity_"),
  (("MathInteger_", "×", "MathReal_"), .ty "MathReal_"),
  (("MathInteger_", "+", "MathReal_"), .ty "MathReal_"),
  (("MathInteger_", "-", "MathReal_"), .ty "MathReal_"),
  (("MathInteger_", "/", "MathInteger_"), .ty "MathReal_"),
  (("MathReal_", "×", "MathInteger_"), .ty "MathReal_"),
  (("MathReal_", "×", "MathReal_"), .ty "MathReal_"),
  (("MathReal_", "+", "MathInteger_"), .ty "MathReal_"),
  (("MathReal_", "+", "MathReal_"), .ty "MathReal_"),
  (("MathReal_", "-", "MathInteger_"), .ty "MathReal_"),
  (("MathReal_", "-", "MathReal_"), .ty "MathReal_"),
  (("MathReal_", "/", "MathInteger_"), .ty "MathReal_"),
  (("MathReal_", "/", "MathReal_"), .ty "MathReal_"),
  (("MathReal_", "modulo", "MathInteger_"), .ty "MathReal_"),
  (("MathReal_", "modulo", "MathReal_"), .ty "MathReal_"),
  (("MathInteger_", "×", "MathInteger_"), .ty "MathInteger_"),
  (("MathInteger_", "+", "MathInteger_"), .ty "MathInteger_"),
  (("MathInteger_", "-", "MathInteger_"), .ty "MathInteger_"),
  (("MathInteger_", "modulo", "MathInteger_"), .ty "MathInteger_"),
  (("MathInteger_", "plus", "MathInteger_"), .ty "MathInteger_"),
  (("MathInteger_", "times", "MathInteger_"), .ty "MathInteger_"),
  (("Number", "-", "IntegralNumber_"), .aNaN),
  (("FiniteNumber_", "×", "NegInfinityNumber_"), .ty "NegInfinityNumber_"),
  (("FiniteNumber_", "+", "NegInfinityNumber_"), .ty "NegInfinityNumber_"),
  (("FiniteNumber_", "-", "PosInfinityNumber_"), .ty "NegInfinityNumber_"),
  (("NegInfinityNumber_", "+", "IntegralNumber_"), .ty "NegInfinityNumber_"),
  (("NegInfinityNumber_", "-", "IntegralNumber_"), .ty "NegInfinityNumber_"),
  (("NegInfinityNumber_", "/", "FiniteNumber_"), .ty "NegInfinityNumber_"),
  (("FiniteNumber_", "×", "PosInfinityNumber_"), .ty "PosInfinityNumber_"),
  (("FiniteNumber_", "+", "PosInfinityNumber_"), .ty "PosInfinityNumber_"),
  (("FiniteNumber_", "-", "NegInfinityNumber_"), .ty "PosInfinityNumber_"),
  (("PosInfinityNumber_", "+", "IntegralNumber_"), .ty "PosInfinityNumber_"),
  (("PosInfinityNumber_", "-", "IntegralNumber_"), .ty "PosInfinityNumber_"),
  (("PosInfinityNumber_", "/", "FiniteNumber_"), .ty "PosInfinityNumber_"),
  (("FiniteNumber_", "×", "FiniteNumber_"), .ty "FiniteNumber_"),
  (("FiniteNumber_", "×", "IntegralNumber_"), .ty "FiniteNumber_"),
  (("FiniteNumber_", "+", "FiniteNumber_"), .ty "FiniteNumber_"),
  (("FiniteNumber_", "+", "IntegralNumber_"), .ty "FiniteNumber_"),
  (("FiniteNumber_", "-", "FiniteNumber_"), .ty "FiniteNumber_"),
  (("FiniteNumber_", "-", "IntegralNumber_"), .ty "FiniteNumber_"),
  (("FiniteNumber_", "/", "FiniteNumber_"), .ty "FiniteNumber_"),
  (("IntegralNumber_", "/", "FiniteNumber_"), .ty "FiniteNumber_"),
  (("IntegralNumber_", "/", "IntegralNumber_"), .ty "FiniteNumber_"),
  (("IntegralNumber_", "+", "IntegralNumber_"), .ty "IntegralNumber_"),
  (("IntegralNumber_", "-", "IntegralNumber_"), .ty "IntegralNumber_"),
  (("IntegralNumber_", "×", "IntegralNumber_"), .ty "IntegralNumber_"),
  (("BigInt", "+", "BigInt"), .ty "BigInt"),
  (("BigInt", "-", "BigInt"), .ty "BigInt"),
  (("BigInt", "×", "BigInt"), .ty "BigInt"),
  (("not_set", "×", "MathInteger_"), .aNonNumeric),
  (("tilde_empty_", "-", "MathInteger_"), .aNonNumeric),
  (("MathInteger_", "+", "tilde_auto_"), .bNonNumeric)]

/-- The table in the analysis of comparisons (pseudocode_semantics.py:7472-7629).  No key occurs twice. -/
def cmpTable : List ((String × String × String) × String) := [
  (("BigInt", ">", "FiniteNumber_"), "E"),
  (("BigInt", ">", "NegInfinityNumber_"), "E"),
  (("BigInt", ">", "PosInfinityNumber_"), "E"),
  (("BigInt", "&lt;", "FiniteNumber_"), "E"),
  (("BigInt", "&lt;", "NegInfinityNumber_"), "E"),
  (("BigInt", "&lt;", "PosInfinityNumber_"), "E"),
  (("BigInt", "≠", "Number"), "E"),
  (("FiniteNumber_", ">", "BigInt"), "E"),
  (("FiniteNumber_", "&lt;", "BigInt"), "E"),
  (("IntegralNumber_", "≠", "BigInt"), "E"),
  (("MathInteger_", ">", "not_passed"), "E"),
  (("MathInteger_", ">", "tilde_empty_"), "E"),
  (("MathInteger_", "≤", "not_passed"), "E"),
  (("MathInteger_", "≤", "tilde_empty_"), "E"),
  (("MathInteger_", "≥", "tilde_detached_"), "E"),
  (("NegInfinityNumber_", ">", "BigInt"), "E"),
  (("NegInfinityNumber_", "&lt;", "BigInt"), "E"),
  (("PosInfinityNumber_", "&lt;", "BigInt"), "E"),
  (("PosInfinityNumber_", ">", "BigInt"), "E"),
  (("tilde_empty_", ">", "MathInteger_"), "E"),
  (("IntegralNumber_", "≠", "Number"), "TFE"),
  (("IntegralNumber_", "≥", "Tangible_"), "TFE"),
  (("MathInteger_", "&lt;", "MathPosInfinity_"), "T"),
  (("MathInteger_", "≠", "MathPosInfinity_"), "T"),
  (("MathInteger_", "≤", "MathPosInfinity_"), "T"),
  (("MathNegInfinity_", "≤", "MathInteger_"), "T"),
  (("MathNegInfinity_", "&lt;", "MathInteger_"), "T"),
  (("MathNegInfinity_", "=", "MathNegInfinity_"), "T"),
  (("MathPosInfinity_", "=", "MathPosInfinity_"), "T"),
  (("MathPosInfinity_", ">", "FiniteNumber_"), "T"),
  (("MathPosInfinity_", ">", "MathInteger_"), "T"),
  (("MathPosInfinity_", "≥", "MathInteger_"), "T"),
  (("MathNegInfinity_", "≥", "MathInteger_"), "F"),
  (("MathNegInfinity_", "=", "MathInteger_"), "F"),
  (("MathNegInfinity_", "=", "MathPosInfinity_"), "F"),
  (("MathPosInfinity_", "≤", "MathInteger_"), "F"),
  (("MathPosInfinity_", "&lt;", "MathInteger_"), "F"),
  (("MathPosInfinity_", "=", "MathInteger_"), "F"),
  (("MathPosInfinity_", "=", "MathNegInfinity_"), "F"),
  (("MathPosInfinity_", "≠", "MathPosInfinity_"), "F"),
  (("MathInteger_", "=", "MathNegInfinity_"), "F"),
  (("MathInteger_", "=", "MathPosInfinity_"), "F"),
  (("MathInteger_", ">", "MathPosInfinity_"), "F"),
  (("MathInteger_", "≥", "MathPosInfinity_"), "F"),
  (("ExtendedMathReal_", "≥", "MathInteger_"), "TF"),
  (("ExtendedMathReal_", "≤", "MathInteger_"), "TF"),
  (("ExtendedMathReal_", "&lt;", "ExtendedMathReal_"), "TF"),
  (("ExtendedMathReal_", "&lt;", "MathInteger_"), "TF"),
  (("MathInteger_", "≥", "MathInteger_"), "TF"),
  (("MathInteger_", "≥", "MathReal_"), "TF"),
  (("MathInteger_", ">", "MathInteger_"), "TF"),
  (("MathInteger_", "≤", "MathInteger_"), "TF"),
  (("MathInteger_", "&lt;", "MathReal_"), "TF"),
  (("MathInteger_", "&lt;", "MathInteger_"), "TF"),
  (("MathInteger_", "≠", "MathInteger_"), "TF"),
  (("MathInteger_", "≠", "MathReal_"), "TF"),
  (("MathInteger_", "=", "MathInteger_"), "TF"),
  (("MathReal_", "≤", "MathInteger_"), "TF"),
  (("MathReal_", "≥", "MathInteger_"), "TF"),
  (("MathReal_", ">", "MathInteger_"), "TF"),
  (("MathReal_", ">", "MathReal_"), "TF"),
  (("MathReal_", "&lt;", "MathInteger_"), "TF"),
  (("MathReal_", "&lt;", "MathReal_"), "TF"),
  (("MathReal_", "≠", "MathInteger_"), "TF"),
  (("MathReal_", "=", "MathInteger_"), "TF"),
  (("MathReal_", "=", "MathReal_"), "TF"),
  (("MathInteger_", "is greater than or equal to", "MathInteger_"), "TF"),
  (("MathInteger_", "is strictly greater than", "MathInteger_"), "TF"),
  (("FiniteNumber_", ">", "NegInfinityNumber_"), "T"),
  (("FiniteNumber_", "&lt;", "PosInfinityNumber_"), "T"),
  (("NegInfinityNumber_", "&lt;", "FiniteNumber_"), "T"),
  (("NegInfinityNumber_", "&lt;", "IntegralNumber_"), "T"),
  (("NegInfinityNumber_", "&lt;", "PosInfinityNumber_"), "T"),
  (("PosInfinityNumber_", ">", "FiniteNumber_"), "T"),
  (("PosInfinityNumber_", ">", "IntegralNumber_"), "T"),
  (("PosInfinityNumber_", ">", "NegInfinityNumber_"), "T"),
  (("FiniteNumber_", ">", "PosInfinityNumber_"), "F"),
  (("FiniteNumber_", "&lt;", "NegInfinityNumber_"), "F"),
  (("NegInfinityNumber_", ">", "FiniteNumber_"), "F"),
  (("NegInfinityNumber_", ">", "IntegralNumber_"), "F"),
  (("NegInfinityNumber_", ">", "NegInfinityNumber_"), "F"),
  (("NegInfinityNumber_", ">", "PosInfinityNumber_"), "F"),
  (("NegInfinityNumber_", "&lt;", "NegInfinityNumber_"), "F"),
  (("PosInfinityNumber_", ">", "PosInfinityNumber_"), "F"),
  (("PosInfinityNumber_", "&lt;", "FiniteNumber_"), "F"),
  (("PosInfinityNumber_", "&lt;", "IntegralNumber_"), "F"),
  (("PosInfinityNumber_", "&lt;", "NegInfinityNumber_"), "F"),
  (("PosInfinityNumber_", "&lt;", "PosInfinityNumber_"), "F"),
  (("FiniteNumber_", ">", "FiniteNumber_"), "TF"),
  (("FiniteNumber_", ">", "IntegralNumber_"), "TF"),
  (("FiniteNumber_", "&lt;", "FiniteNumber_"), "TF"),
  (("FiniteNumber_", "&lt;", "IntegralNumber_"), "TF"),
  (("IntegralNumber_", "≤", "IntegralNumber_"), "TF"),
  (("IntegralNumber_", "≥", "IntegralNumber_"), "TF"),
  (("IntegralNumber_", ">", "IntegralNumber_"), "TF"),
  (("IntegralNumber_", "=", "IntegralNumber_"), "TF"),
  (("IntegralNumber_", "&lt;", "IntegralNumber_"), "TF"),
  (("NonIntegralFiniteNumber_", "≥", "NonIntegralFiniteNumber_"), "TF"),
  (("NonIntegralFiniteNumber_", ">", "IntegralNumber_"), "TF"),
  (("NonIntegralFiniteNumber_", "&lt;", "IntegralNumber_"), "TF"),
  (("NonIntegralFiniteNumber_", "&lt;", "NonIntegralFiniteNumber_"), "TF"),
  (("BigInt", ">", "BigInt"), "TF"),
  (("BigInt", "&lt;", "BigInt"), "TF"),
  (("BigInt", "=", "BigInt"), "TF"),
  (("BigInt", "≠", "BigInt"), "TF"),
  (("tilde_bigint_", "≠", "tilde_number_"), "TE"),
  (("tilde_number_", "≠", "tilde_bigint_"), "TE"),
  (("tilde_bigint_", "≠", "tilde_bigint_"), "FE"),
  (("tilde_number_", "≠", "tilde_number_"), "FE")]

/-- `d[key]` for those tables, with names of the hierarchy as types; anything else raises a KeyError. -/
def cell {α} (table : List ((String × String × String) × α)) (a : Ty) (op : String) (b : Ty) : Option α :=
  match a, b with
  | .hier x, .hier y => table.lookup (x, op, y)
  | _, _ => none

/-- `a_mt in [T_code_point_, T_code_unit_]`. -/
def isChar (t : Ty) : Bool := decide (t = .hier "code_point_" ∨ t = .hier "code_unit_")

/-- `type_arithmetic` (pseudocode_semantics.py:7187-7313). -/
def typeArith (a : Ty) (op : String) (b : Ty) : W Ty := do
  let a' ← if isChar a then (do tell "shouldn't do arithmetic on"; W.pure mathInt) else W.pure a
  match cell arithTable a' op b with
  | none => W.fail
  | some (.ty n) => W.pure (.hier n)
  | some .aNonNumeric => do tell "is non-numeric"; W.pure mathInt
  | some .bNonNumeric => do tell "is non-numeric"; W.pure mathInt
  | some .aNaN => do tell "includes NaN"; W.pure (.hier "Number")
  | some .aInfinite => do tell "could be infinite"; W.pure mathInt

section
variable {K X T C : Type} [DecidableEq K] (L : Lang K X T C) (txt : X → Text)

/-- The inner loop (pseudocode_semantics.py:7317-7318). -/
def rowLoop (op : String) (a : Ty) : Ty → List Ty → W Ty
  | acc, [] => W.pure acc
  | acc, b :: bs => do
    let t ← typeArith a op b
    let acc' ← W.lift (orTy L.cfg L.ord acc t)
    rowLoop op a acc' bs

/-- The outer loop (pseudocode_semantics.py:7315-7318).  Python goes through sets, in some order. -/
def sumLoop (op : String) (bs : List Ty) : Ty → List Ty → W Ty
  | acc, [] => W.pure acc
  | acc, a :: as => do
    let acc' ← rowLoop L op a acc bs
    sumLoop op bs acc' as

/-- `expr.source_text() in ['(_x_ - _xDigit_) / 2', '(_y_ - _yDigit_) / 2']` (pseudocode_semantics.py:7320). -/
def isDigitShift (op : String) (a b : NExpr X) : Bool :=
  match a, b with
  | .bin m (.leaf (.var x)) (.leaf (.var d)), .int 2 =>
    decide (op = "/" ∧ m = "-" ∧ (x = "_x_" ∧ d = "_xDigit_" ∨ x = "_y_" ∧ d = "_yDigit_"))
  | _, _ => false

/-- `A | B | ...`, for names. -/
def anyOf (ns : List String) : W Ty := W.lift (unionOf L.cfg L.ord (ns.map .hier))

/-- `A.is_a_subtype_of_or_equal_to(B)`. -/
def subW (A B : Ty) : W Bool := W.lift (sub L.cfg A B)

/-- `with_expr_type_replaced` (pseudocode_semantics.py:902-907). -/
def replacedN (env : Env K) (e : NExpr X) (t : Ty) : Env K :=
  match e with
  | .leaf e => replaced env e t
  | _ => env

/-- `expr.source_text()`, as far as `ensure_expr_is_of_type_` cares. -/
def textN : NExpr X → Text
  | .leaf e => textOf txt e
  | _ => .other

/-- `assert_expr_is_of_type` (pseudocode_semantics.py:783-805), when `r` is what `tc_expr` has given. -/
def assertW (expected : Ty) (r : Ty × Env K) : W Unit :=
  if tyEq r.1 .tbd then some ((), [.isTBD])
  else do
    let b ← subW L r.1 expected
    if b then W.pure () else W.fail

/-- `ensure_expr_is_of_type` (pseudocode_semantics.py:809-845), when `r` is what `tc_expr` has given. -/
def ensureW (e : NExpr X) (expected : Ty) (r : Ty × Env K) : W (Env K) :=
  if tyEq r.1 .tbd then W.pure (replacedN r.2 e expected)
  else do
    let b ← subW L r.1 expected
    if b then W.pure r.2
    else match textN txt e with
      | .null => W.fail
      | .undefined => some (r.2, [.wrongType])
      | .empty => some (r.2, [.wrongType])
      | .other => some (replacedN r.2 e expected, [.wrongType])

/-- `𝔽` (pseudocode_semantics.py:7809-7827). -/
def toNumber (t : Ty) : W Ty := do
  let b1 ← subW L t mathInt
  if b1 then W.pure integral
  else do
    let u2 ← anyOf L ["MathInteger_", "MathPosInfinity_", "MathNegInfinity_"]
    let b2 ← subW L t u2
    if b2 then anyOf L ["IntegralNumber_", "NegInfinityNumber_", "PosInfinityNumber_"]
    else do
      let b3 ← subW L t extReal
      if b3 then anyOf L ["FiniteNumber_", "NegInfinityNumber_", "PosInfinityNumber_"]
      else if tyEq t .tbd then W.pure integral
      else do
        tell "fancy_f requires ExtendedMathReal"
        W.pure (.hier "Number")

/-- `ℝ` (pseudocode_semantics.py:7836-7850): the type, and whether the environment is that after the argument. -/
def toMath (t : Ty) : W (Ty × Bool) := do
  let u1 ← anyOf L ["BigInt", "IntegralNumber_"]
  let b1 ← subW L t u1
  if b1 then W.pure (mathInt, true)
  else do
    let u2 ← anyOf L ["BigInt", "FiniteNumber_"]
    let b2 ← subW L t u2
    if b2 then W.pure (mathReal, false)
    else do
      tell "expected a BigInt or a finite Number"
      W.pure (mathReal, false)

/-- `abs` (pseudocode_semantics.py:7854-7867). -/
def absType (t : Ty) : W Ty := do
  let b1 ← subW L t mathInt
  if b1 then W.pure mathInt
  else do
    let b2 ← subW L t mathReal
    if b2 then W.pure mathReal
    else do
      tell "expected a MathReal"
      W.pure mathReal

/-- The type of an argument of `min` or `max` (pseudocode_semantics.py:7875-7884). -/
def minMaxArg (t : Ty) : W Ty := do
  let b ← subW L t extReal
  if b then W.pure t
  else do
    tell "param requires ExtendedMathReal"
    let u ← anyOf L ["MathInteger_", "tilde_empty_"]
    if tyEq t u then W.pure mathInt else W.fail

/-- `all(t.is_a_subtype_of_or_equal_to(u) for t in ts)`. -/
def allSub (u : Ty) : List Ty → W Bool
  | [] => W.pure true
  | t :: ts => do
    let b ← subW L t u
    if b then allSub u ts else W.pure false

/-- The loop over `math_type` (pseudocode_semantics.py:7893-7899). -/
def minMaxLoop (add : String) (ts : List Ty) : List String → W Ty
  | [] => W.fail
  | m :: ms => do
    let u ← anyOf L [m, add]
    let b ← allSub L u ts
    if b then W.pure (.hier m) else minMaxLoop add ts ms

/-- The type of `min` or `max` (pseudocode_semantics.py:7886-7899). -/
def minMaxType (f : String) (ts : List Ty) : W Ty :=
  minMaxLoop L (if f = "min" then "MathPosInfinity_" else "MathNegInfinity_") ts ["MathInteger_", "MathReal_", "ExtendedMathReal_"]

/-- The type of a clamped value (pseudocode_semantics.py:7775-7780). -/
def clampType (t : Ty) : W Ty :=
  if tyEq t extReal then W.pure mathReal
  else do
    let u ← anyOf L ["MathInteger_", "MathNegInfinity_", "MathPosInfinity_"]
    let b ← subW L t u
    if b then W.pure mathInt else W.fail

/-- The assertion about the operand of `-` (pseudocode_semantics.py:7352-7360). -/
def negOk (t : Ty) : W Unit :=
  if tyEq t .tbd then W.pure ()
  else do
    let b1 ← subW L t mathReal
    let b2 ← subW L t (.hier "Number")
    let b3 ← subW L t bigIntT
    if b1 || b2 || b3 then W.pure () else W.fail

mutual
/-- `tc_expr` for those expressions: literals (pseudocode_semantics.py:7042-7103, 7696-7710, 9237-9273, 9492-9496), sums and products
(7181-7328), `-` (7349-7369), `the remainder` (7374-7378), powers (7383-7394), `an implementation-defined choice` (7426-7430), `the extended
mathematical value` (7740-7743), clamping (7770-7781) and functions (7802-7912). -/
def tcN : NExpr X → Env K → W (Ty × Env K)
  | .leaf e, env => run (tcExpr L e env)
  | .int _, env => W.pure (mathInt, env)
  | .const _, env => W.pure (mathReal, env)
  | .posInf, env => W.pure (.hier "MathPosInfinity_", env)
  | .negInf, env => W.pure (.hier "MathNegInfinity_", env)
  | .numPosInf, env => W.pure (.hier "PosInfinityNumber_", env)
  | .numNegInf, env => W.pure (.hier "NegInfinityNumber_", env)
  | .nan, env => W.pure (.hier "NaN_Number_", env)
  | .numHalf _, env => W.pure (.hier "NonIntegralFiniteNumber_", env)
  | .numInt _, env => W.pure (integral, env)
  | .bigInt _, env => W.pure (bigIntT, env)
  | .bin op a b, env => do
    let (at', env1) ← tcN a env
    let (bt, env2) ← tcN b env1
    let t ← sumLoop L op (members bt) T0 (members at')
    if isDigitShift op a b then
      if tyEq t mathReal then W.pure (mathInt, env2) else W.fail
    else W.pure (t, env2)
  | .neg a, env => do
    let (t, env1) ← tcN a env
    negOk L t
    W.pure (t, env1)
  | .negative a, env => do
    let (t, _) ← tcN a env
    if tyEq t .tbd || tyEq t mathInt then W.pure (t, env) else W.fail
  | .remainder a b, env => do
    let ra ← tcN a env
    assertW L mathInt ra
    let rb ← tcN b env
    assertW L mathInt rb
    W.pure (mathInt, env)
  | .power a b, env => do
    let (t, _) ← tcN a env
    let b1 ← subW L t mathInt
    if b1 then do
      let rb ← tcN b env
      assertW L mathInt rb
      W.pure (mathInt, env)
    else do
      let b2 ← subW L t bigIntT
      if b2 then do
        let rb ← tcN b env
        assertW L bigIntT rb
        W.pure (bigIntT, env)
      else W.fail
  | .clamp x lo hi, env => do
    let rl ← tcN lo env
    assertW L mathInt rl
    let rh ← tcN hi env
    assertW L mathInt rh
    let (t, _) ← tcN x env
    let u ← clampType L t
    W.pure (u, env)
  | .extended x, env => do
    let r ← run (tcExpr L (.var x) env)
    let u ← anyOf L ["FiniteNumber_", "PosInfinityNumber_", "NegInfinityNumber_"]
    assertW L u r
    W.pure (extReal, env)
  | .choice a b, env => do
    let (at', env1) ← tcN a env
    let (bt, env2) ← tcN b env1
    let t ← W.lift (orTy L.cfg L.ord at' bt)
    W.pure (t, env2)
  | .fn f a, env => do
    let r ← tcN a env
    if f = "𝔽" then do
      let u ← toNumber L r.1
      W.pure (u, r.2)
    else if f = "ℤ" then do
      assertW L mathInt r
      W.pure (bigIntT, env)
    else if f = "ℝ" then do
      let u ← toMath L r.1
      W.pure (u.1, if u.2 then r.2 else env)
    else if f = "abs" then do
      let u ← absType L r.1
      W.pure (u, env)
    else if f = "floor" ∨ f = "truncate" then do
      let env1 ← ensureW L txt a mathReal r
      W.pure (mathInt, env1)
    else if f = "ln" ∨ f = "log10" ∨ f = "log2" then do
      let env1 ← ensureW L txt a mathReal r
      W.pure (mathReal, env1)
    else W.fail
  | .minMax f args, env =>
    if args.length < 2 then W.fail
    else do
      let (ts, env1) ← tcArgs args env
      let t ← minMaxType L f ts
      W.pure (t, env1)
/-- The loop over the arguments of `min` and `max` (pseudocode_semantics.py:7871-7884). -/
def tcArgs : List (NExpr X) → Env K → W (List Ty × Env K)
  | [], env => W.pure ([], env)
  | a :: as, env => do
    let (t, env1) ← tcN a env
    let t' ← minMaxArg L t
    let (ts, env2) ← tcArgs as env1
    W.pure (t' :: ts, env2)
end

/-! ## Comparisons -/

/-- What `preferred_comparator` gives. -/
inductive Comparator where
  | sameValue
  | incomparable
  | is
  | eq
  | sameList
  | sameRecord
deriving DecidableEq

/-- `preferred_comparator` (pseudocode_semantics.py:8272-8353). -/
def preferred (ta tb : Ty) (inAssert : Bool) : W Comparator :=
  if tyEq ta (.hier "bound_function_exotic_object_") && tyEq tb (.hier "constructor_object_") then W.pure .sameValue
  else do
    let (common, _) ← W.lift (splitBy L.cfg L.ord ta tb)
    if tyEq common T0 then W.pure .incomparable
    else do
      let um ← anyOf L ["MathReal_", "ExtendedMathReal_"]
      let b1 ← subW L common um
      if b1 || tyEq common bigIntT then W.pure (if inAssert then .is else .eq)
      else if tyEq common (.list (.hier "code_point_")) then W.pure .is
      else do
        let b2 ← subW L common (.hier "List")
        if b2 then W.pure .sameList
        else do
          let b3 ← subW L common (.hier "Record")
          if b3 then W.pure .sameRecord
          else do
            let (_, sa) ← W.lift (splitBy L.cfg L.ord ta (.hier "Tangible_"))
            let (_, sb) ← W.lift (splitBy L.cfg L.ord tb (.hier "Tangible_"))
            if !tyEq sa T0 || !tyEq sb T0 then W.pure .is
            else do
              let b4 ← subW L common (.hier "Tangible_")
              if !b4 then W.fail
              else do
                let b5 ← subW L common (.hier "Object")
                let b6 ← subW L (.hier "function_object_") common
                let b7 ← subW L (.hier "Symbol") common
                if b5 || b6 || b7 then W.pure .sameValue
                else do
                  let ue ← anyOf L ["Undefined", "Null", "Boolean", "Number", "String"]
                  let b8 ← subW L common ue
                  if b8 then W.pure .is
                  else do
                    let ui ← anyOf L ["BigInt", "IntegralNumber_"]
                    if tyEq common ui then W.pure .incomparable else W.fail

/-- `with_expr_type_narrowed` (pseudocode_semantics.py:1033-1058). -/
def narrowN (env : Env K) (e : NExpr X) (t : Ty) : W (Env K) := do
  let (et, env1) ← tcN L txt e env
  let xt := match e with
    | .leaf (.var x) => highest L x et
    | _ => et
  let already ← subW L xt t
  if already then W.pure env1
  else if tyEq xt .tbd then W.pure (replacedN env1 e t)
  else do
    let fits ← subW L t xt
    if fits then W.pure (replacedN env1 e t) else W.fail

/-- The environments for one pair of types (pseudocode_semantics.py:7464-7654).  For code points and code units, the message refers to a
variable that does not exist. -/
def comparePair (op : String) (a b : NExpr X) (env2 : Env K) (at' bt : Ty) : W (List (Env K) × List (Env K)) :=
  if isChar at' then W.fail
  else match cell cmpTable at' op bt with
    | none => W.fail
    | some s => do
      let ea ← narrowN L txt env2 a at'
      let env3 ← narrowN L txt ea b bt
      if s.toList.contains 'E' then tell "comparison has incompatible types" else W.pure ()
      W.pure (if s.toList.contains 'T' then [env3] else [], if s.toList.contains 'F' then [env3] else [])

/-- The loops (pseudocode_semantics.py:7461-7654), over all pairs. -/
def compareLoop (op : String) (a b : NExpr X) (env2 : Env K) : List (Ty × Ty) → W (List (Env K) × List (Env K))
  | [] => W.pure ([], [])
  | (at', bt) :: ps => do
    let (t1, f1) ← comparePair L txt op a b env2 at' bt
    let (t2, f2) ← compareLoop op a b env2 ps
    W.pure (t1 ++ t2, f1 ++ f2)

/-- A comparison (pseudocode_semantics.py:7441-7656) with `check_comparison` (8262-8270).  `L.ord` stands for the sorting of the types. -/
def tcCompare (op : String) (a b : NExpr X) (inAssert : Bool) (env : Env K) : W (Option (Env K) × Option (Env K)) := do
  let (at', env1) ← tcN L txt a env
  let (bt, env2) ← tcN L txt b env1
  if tyEq at' T0 || tyEq bt T0 then W.fail
  else do
    if op = "=" ∨ op = "≠" then do
      let p ← preferred L at' bt inAssert
      if p = .eq then W.pure () else tell "should use"
    else W.pure ()
    let (ts, fs) ← compareLoop L txt op a b env2 ((L.ord (members at')).flatMap (fun x => (L.ord (members bt)).map (fun y => (x, y))))
    let yes ← W.lift (envsOr L.cfg L.ord (ts.map some))
    let no ← W.lift (envsOr L.cfg L.ord (fs.map some))
    W.pure (yes, no)

/-- `a ≤ b ≤ c` (pseudocode_semantics.py:7664-7678); `number` says that `<sub>𝔽</sub>` is in the text of `a`. -/
def tcChain (number : Bool) (a b c : NExpr X) (env : Env K) : W (Env K × Env K) :=
  if number then do
    let ra ← tcN L txt a env
    assertW L integral ra
    let rb ← tcN L txt b env
    assertW L integral rb
    let rc ← tcN L txt c env
    assertW L integral rc
    W.pure (env, env)
  else do
    let ra ← tcN L txt a env
    assertW L mathInt ra
    let rb ← tcN L txt b env
    let u ← anyOf L ["MathInteger_", "MathNegInfinity_", "MathPosInfinity_"]
    let env1 ← ensureW L txt b u rb
    let rc ← tcN L txt c env
    assertW L mathInt rc
    let env2 ← narrowN L txt env1 b mathInt
    W.pure (env2, env2)

/-- `x is in the interval from lo to hi` (pseudocode_semantics.py:7931-7971). -/
def tcIn (isIn : Bool) (x : String) (lo hi : NExpr X) (env : Env K) : W (Env K × Env K) := do
  let rl ← tcN L txt lo env
  assertW L mathInt rl
  let rh ← tcN L txt hi env
  assertW L mathInt rh
  let (t, env1) ← run (tcExpr L (.var x) env)
  if tyEq t mathInt then W.pure (env1, env1)
  else do
    let u ← anyOf L ["MathInteger_", "MathNegInfinity_", "MathPosInfinity_"]
    if tyEq t u then do
      let inside ← narrowN L txt env1 (.leaf (.var x)) mathInt
      W.pure (if isIn then (inside, env1) else (env1, inside))
    else W.fail

end

/-! ## Execution -/

/-- `d_exec` (pseudocode_semantics.py:7057-7070, 7101-7103, 7330-7345, 7396-7400) and `floor` (7786-7789), with `ES_Mathnum` (6991-7022), as long as
the numbers are Python ints: `/` and a negative exponent give a float, and are not modelled. -/
def exec {X : Type} (ρ : Expr X → Option Int) : NExpr X → Option Int
  | .leaf e => ρ e
  | .int n => some n
  | .bin op a b => do
    let x ← exec ρ a
    let y ← exec ρ b
    if op = "+" ∨ op = "plus" then some (x + y)
    else if op = "&times;" ∨ op = "times" ∨ op = "×" then some (x * y)
    else if op = "-" then some (x - y)
    else if op = "modulo" then (if y = 0 then none else some (x.fmod y))
    else none
  | .power a b => do
    let x ← exec ρ a
    let y ← exec ρ b
    if 0 ≤ y then some (x ^ y.toNat) else none
  | .fn f a => do
    let x ← exec ρ a
    if f = "floor" then some x else none
  | _ => none

/-- `ES_Mathnum.compare` (pseudocode_semantics.py:6995-7011), for ints. -/
def compareInts (x : Int) (op : String) (y : Int) : Option Bool :=
  if op = "≤" then some (decide (x ≤ y))
  else if op = "≥" ∨ op = "is greater than or equal to" then some (decide (x ≥ y))
  else if op = "&gt;" ∨ op = "is strictly greater than" then some (decide (x > y))
  else none

/-- `d_exec` of a comparison (pseudocode_semantics.py:7658-7662). -/
def execCompare {X : Type} (ρ : Expr X → Option Int) (a : NExpr X) (op : String) (b : NExpr X) : Option Bool := do
  let x ← exec ρ a
  let y ← exec ρ b
  compareInts x op y

/-- `d_exec` of `a ≤ b ≤ c` (pseudocode_semantics.py:7680-7685); Python's `and` leaves out the second comparison when the first is false. -/
def execChain {X : Type} (ρ : Expr X → Option Int) (a : NExpr X) (op1 : String) (b : NExpr X) (op2 : String) (c : NExpr X) : Option Bool := do
  let x ← exec ρ a
  let y ← exec ρ b
  let z ← exec ρ c
  let r ← compareInts x op1 y
  if r then compareInts y op2 z else some false

end Verif.Arith
