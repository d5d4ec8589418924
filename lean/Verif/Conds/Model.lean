import Verif.Common
/-!
# Conditions that compare

The environments that static type analysis finds for the case that a condition is true and for the case that it is false (pseudocode_semantics.py), for conditions that compare values.
Environments, expressions and types are parameters, with the operations on them.
-/
namespace Verif.Conds

/-- The operations that are called.
`E` are environments, `X` expressions, `T` types, `D` descriptions of values and `C` conditions; where the program has `None` for an environment (it cannot be reached), there is `none`.
An operation that has no result has raised an exception.
`special` is whether a type is in the list in line 8371; `test` is `with_type_test` with the copula `is a` or not, the bracket and `asserting`; `ofType` is whether `assert_expr_is_of_type` finds nothing wrong; `element` is the element type of a list type, and `anyList` whether it is `T_List` or `ListType(T_0)`. -/
structure Ops (E X T D C : Type) where
  tc : X → E → Option (T × E)
  replace : E → X → T → Option E
  narrow : E → X → T → Option E
  split : T → T → T × T
  union : T → T → T
  sub : T → T → Bool
  zero : T
  tbd : T
  special : T → Bool
  test : E → X → Bool → T × T → Bool → Option (Option E × Option E)
  ofType : E → X → T → Bool
  envAnd : E → E → Option E
  envOr : Option E → Option E → Option (Option E)
  bracket : D → E → Option (T × T)
  plusNew : E → X → T → Option E
  cond : C → E → Option (Option E × Option E)
  list : T
  anyList : T → Bool
  element : T → T

variable {E X T D C : Type} [DecidableEq E] [DecidableEq T]

/-- `{EX} is {SETTABLE}` and the like (pseudocode_semantics.py:8214-8260); `neg` is whether there is a `not`. -/
def isCond (y : Ops E X T D C) (neg : Bool) (a b : X) (e : E) : Option (Option E × Option E) :=
  (y.tc a e).bind fun (ta, e1) => (y.tc b e1).bind fun (tb, e2) =>
    if ta = tb then some (some e2, some e2)
    else if ta = y.tbd then (y.replace e2 a tb).map fun e3 => (some e3, some e3)
    else if tb = y.tbd then (y.replace e2 b ta).map fun e3 => (some e3, some e3)
    else
      let c := (y.split ta tb).1
      if c = y.zero then none
      else (y.narrow e2 a c).bind fun e3 => (y.narrow e3 b c).map fun is =>
        if neg then (some e2, some is) else (some is, some e2)

/-- `s_X_and_Y_are_the_same_Foo_Record` (pseudocode_semantics.py:11266-11293). -/
def sameRecord (y : Ops E X T D C) (neg : Bool) (r : T) (a b : X) (e : E) : Option (Option E × Option E) :=
  (y.tc a e).bind fun (ta, _) => (y.tc b e).bind fun (tb, _) =>
    (y.narrow e a (y.split ta r).1).bind fun e1 => (y.narrow e1 b (y.split tb r).1).map fun same =>
      if neg then (some e, some same) else (some same, some e)

/-- `{EX} and {EX} are distinct values` (pseudocode_semantics.py:8357-8363). -/
def distinct (y : Ops E X T D C) (a b : X) (e : E) : Option (Option E × Option E) :=
  (y.tc a e).bind fun (_, e1) => (y.tc b e1).map fun (_, e2) => (some e2, some e2)

/-- `{EX} and {EX} are both {LITERAL}` (pseudocode_semantics.py:8365-8380). -/
def bothLit (y : Ops E X T D C) (a b lit : X) (e : E) (asserting : Bool) : Option (Option E × Option E) :=
  (y.tc lit e).bind fun (tl, el) =>
    if el ≠ e then none
    else if y.special tl then
      (y.test e a true (tl, tl) asserting).bind fun (at', af) => (y.test e b true (tl, tl) asserting).bind fun (bt, bf) =>
        match at', bt with
        | some at', some bt => (y.envAnd at' bt).bind fun t => (y.envOr af bf).map fun f => (some t, f)
        | _, _ => none
    else if y.ofType e a tl && y.ofType e b tl then some (some e, some e)
    else none

/-- The loop over the descriptions (pseudocode_semantics.py:8478-8483). -/
def brackets (y : Ops E X T D C) (e : E) : List D → T × T → Option (T × T)
  | [], acc => some acc
  | d :: ds, acc => (y.bracket d e).bind fun b => brackets y e ds (y.union acc.1 b.1, y.union acc.2 b.2)

/-- `{EX} is neither {VAL_DESC} nor {VAL_DESC}` (pseudocode_semantics.py:8472-8485). -/
def neither (y : Ops E X T D C) (x : X) (ds : List D) (e : E) (asserting : Bool) : Option (Option E × Option E) :=
  (brackets y e ds (y.zero, y.zero)).bind fun b => y.test e x false b asserting

/-- `{EX} contains {VAL_DESC} {DEFVAR} such that {CONDITION_1}` and the same with `does not contain` (pseudocode_semantics.py:10605-10621).
There is no difference between the two, so there is no parameter for it. -/
def containsSuch (y : Ops E X T D C) (l : X) (d : D) (x : X) (c : C) (e : E) : Option (Option E × Option E) :=
  (y.tc l e).bind fun (tl, e1) =>
    if e1 ≠ e ∨ y.sub tl y.list = false then none
    else (y.bracket d e).bind fun b =>
      if y.anyList tl || y.sub b.2 (y.element tl) then
        (y.plusNew e x b.2).bind fun e2 => (y.cond c e2).map fun (t, _) => (t, some e)
      else none

end Verif.Conds
