import Verif.Calls.Model
import Verif.Env.Spec
/-!
# Specification: what a call may pass, and what appending to a list does
-/
namespace Verif.Calls
open Verif.Types Verif.Env

variable {K X T C : Type} [DecidableEq K]

/-- Analysing `e` on its own gives the type `t`, the environment `env'` and the messages `es`, whatever was there before. -/
def Own (L : Lang K X T C) (e : Expr X) (env : Env K) (t : Ty) (env' : Env K) (es : List Err) : Prop :=
  ∀ s : Acc K, tcExpr L e env s = some ((t, env'), { s with errs := s.errs ++ es, log := s.log ++ es })

section
variable (cfg : Cfg) (I : Interp)

/-- A value that the parameter takes when something is passed. -/
def Accepts (A : Ty) (v : I.V) : Prop := den cfg I A v ∧ ¬ I.named "not_passed" v

/-- The parameter may be left out. -/
def Optional (A : Ty) : Prop := ∃ v, den cfg I A v ∧ I.named "not_passed" v

/-- The message that a parameter deserves, given the type of its argument, if there is one. -/
def Deserves (p : String × Ty) (arg : Option Ty) (ms : List Err) : Prop :=
  match arg with
  | none => (Optional cfg I p.2 ∧ ms = []) ∨ (¬ Optional cfg I p.2 ∧ ms = [.noArg p.1])
  | some t => ((∀ v, den cfg I t v → Accepts cfg I p.2 v) ∧ ms = []) ∨
      ((∃ v, den cfg I t v ∧ ¬ Accepts cfg I p.2 v) ∧ ms = [.argType p.1])

/-- The messages of a call, in order: each argument's own, and then what its parameter deserves. -/
inductive CallSays (L : Lang K X T C) (I : Interp) (env0 : Env K) : List (String × Ty) → List (Expr X) → List Ty → List Err → Prop
  | done : CallSays L I env0 [] [] [] []
  | missing {p ps ms rest} : Deserves L.cfg I p none ms → CallSays L I env0 ps [] [] rest → CallSays L I env0 (p :: ps) [] [] (ms ++ rest)
  | passed {p ps a as t ts env1 es ms rest} : Own L a env0 t env1 es → Deserves L.cfg I p (some t) ms →
      CallSays L I env0 ps as ts rest → CallSays L I env0 (p :: ps) (a :: as) (t :: ts) (es ++ ms ++ rest)

end

/-- A type given by names that do not contain `List`. -/
def Plain (cfg : Cfg) (t : Ty) : Prop := ∀ m ∈ members t, ∃ n ∈ names cfg.tree, m = .hier n ∧ ¬ Anc cfg.tree n "List"

/-- No node of the hierarchy has a single child. -/
def NoOnlyChild (cfg : Cfg) : Prop := ∀ p c, ChildOf cfg.tree p c → ∃ d, d ≠ c ∧ ChildOf cfg.tree p d

/-- A type of lists, records or procedures. -/
inductive Compound : Ty → Prop
  | list (t : Ty) : Compound (.list t)
  | record (s : String) (fs : List (String × Ty)) : Compound (.record s fs)
  | proc (ps : List Ty) (r : Ty) : Compound (.proc ps r)

/-- The type of a parameter: names of the hierarchy and perhaps one compound type.  Beside a `List of`, there is nothing that contains `List`. -/
def ParamTy (cfg : Cfg) (A : Ty) : Prop :=
  ∃ d, Compound d ∧ FieldsOk d ∧ (∀ m ∈ members A, (∃ n ∈ names cfg.tree, m = .hier n) ∨ m = d) ∧
    ((∃ t, d = .list t) → ∀ n, .hier n ∈ members A → ¬ Anc cfg.tree n "List")

/-- The hierarchy has `not_passed`, apart from lists, records and procedures. -/
structure HasNotPassed (cfg : Cfg) : Prop where
  mem : "not_passed" ∈ names cfg.tree
  leaf : IsLeaf cfg.tree "not_passed"
  apart : ∀ n ∈ ["List", "Record", "proc_"], n ∈ names cfg.tree ∧ ¬ Anc cfg.tree n "not_passed"

/-- The new messages. -/
def NewMessages (s s' : Acc K) (ms : List Err) : Prop := s'.log = s.log ++ ms

/-- Every leaf of the hierarchy has a value. -/
def LeavesInhabited (cfg : Cfg) (I : Interp) : Prop := ∀ n ∈ names cfg.tree, IsLeaf cfg.tree n → ∃ v, I.named n v

/-- What appending does: `v'` is a list with the elements of `v` and then `w`. -/
def Appended (I : Interp) (v w v' : I.V) : Prop := ∃ l, I.elems v = some l ∧ I.elems v' = some (l ++ [w])

/-- The arguments can be analysed, with types given by names. -/
def ArgsOk (L : Lang K X T C) (args : List (Expr X)) (env0 : Env K) : Prop :=
  ∀ a ∈ args, ∃ t env1 es, Own L a env0 t env1 es ∧ Flat L.cfg t ∧ FlatEnv L.cfg env1 ∧ env1.ctx = env0.ctx

/-- A parameter that takes `List of` something. -/
def TakesListOf (cfg : Cfg) (I : Interp) (A : Ty) : Prop := ∃ u, ∀ v, Accepts cfg I A v ↔ den cfg I (.list u) v

/-- The parameter's type or the argument's is not determined, or the argument is just a `List` where a `List of` something is
wanted, or every value the argument may have is accepted. -/
def Fits (cfg : Cfg) (I : Interp) (A t : Ty) : Prop :=
  A = .tbd ∨ (∀ v, den cfg I t v ↔ I.tbd v) ∨ ((∀ v, den cfg I t v ↔ I.named "List" v) ∧ TakesListOf cfg I A) ∨ ∀ v, den cfg I t v → Accepts cfg I A v

/-- The environment says the same, except that `e`, if it is a variable, has the type `A`. -/
def Retyped (e : Expr X) (A : Ty) (env env' : Env K) : Prop :=
  env'.ctx = env.ctx ∧ ∀ k, get env'.vars k = (match e with
    | .var x => if k = .var x then some A else get env.vars k
    | .other _ => get env.vars k)

/-- A type that has not been determined. -/
def IsTBD (t : Ty) : Prop := ∀ m, m ∈ members t ↔ m = .tbd

/-- All values of `A` are values of `B`, whatever the names stand for. -/
def Within (cfg : Cfg) (A B : Ty) : Prop := ∀ I : Interp, Respects cfg I → ProcsByResult I → ∀ v, den cfg I A v → den cfg I B v

/-- The analysis of an expression is right, and says nothing new of `x`, unless it complains of an undefined variable. -/
def RightAbout (L : Lang K X T C) {I : Interp} (S : Sem X T C I) (e : Expr X) (x : String) : Prop :=
  ∀ env t env' es, Own L e env t env' es → (∀ y, .undefined y ∉ es) → get env'.vars (.var x) = get env.vars (.var x) ∧
    ∀ σ w, Holds L.cfg I env σ → Eval S e σ w → den L.cfg I t w ∧ Holds L.cfg I env' σ

end Verif.Calls
