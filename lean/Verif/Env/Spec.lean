import Verif.Env.Model
import Verif.Types.Spec
/-!
# Specification: what algorithms do, and what an environment says
-/
namespace Verif.Env
open Verif.Types

/-- The value of each variable at some point of an execution.  A variable that has not been set has a
value of the type `not_set`. -/
abbrev Store (I : Interp) := String → I.V

def Unset (I : Interp) (v : I.V) : Prop := I.named "not_set" v

/-- Set one variable. -/
def update {I : Interp} (σ : Store I) (x : String) (v : I.V) : Store I := fun y => if y = x then v else σ y

section
variable {K : Type} (cfg : Cfg) (I : Interp)

/-- The environment is right about a store: each variable has a value of its static type, and one
without a static type is not set. -/
def Holds (e : Env K) (σ : Store I) : Prop :=
  ∀ x, (∀ t, get e.vars (.var x) = some t → den cfg I t (σ x)) ∧ (get e.vars (.var x) = none → Unset I (σ x))

/-- The same for the result of an analysis, where Python's `None` says that control does not get here. -/
def Covers (e : Option (Env K)) (σ : Store I) : Prop := ∃ e', e = some e' ∧ Holds cfg I e' σ

/-- The environment at a return is right: about the variables, and about the value returned. -/
def HoldsRet (e : Env K) (σ : Store I) (v : I.V) : Prop :=
  Holds cfg I e σ ∧ ∃ t, get e.vars .ret = some t ∧ den cfg I t v

end

/-- A type given by names of the hierarchy. -/
def Flat (cfg : Cfg) (t : Ty) : Prop := ∀ m ∈ members t, ∃ n ∈ names cfg.tree, m = .hier n

/-- All types in an environment are given by names of the hierarchy. -/
def FlatEnv {K : Type} (cfg : Cfg) (e : Env K) : Prop := ∀ k t, get e.vars k = some t → Flat cfg t

/-! ### What programs mean -/

/-- The meaning of the atomic parts: the values an expression can have, which conditions hold, and
which values a value description stands for. -/
structure Sem (X T C : Type) (I : Interp) where
  eval : X → Store I → I.V → Prop
  holds : C → Store I → Prop
  desc : T → I.V → Prop

section
variable {X T C : Type} {I : Interp} (S : Sem X T C I)

/-- The values of an expression. -/
def Eval : Expr X → Store I → I.V → Prop
  | .var x, σ, v => v = σ x
  | .other e, σ, v => S.eval e σ v

mutual
/-- A condition is true. -/
def True' : Cond T C → Store I → Prop
  | .test x isA t, σ => if isA then S.desc t (σ x) else ¬ S.desc t (σ x)
  | .plain c, σ => S.holds c σ
  | .never, _ => False
  | .or cs, σ => Some' cs σ
  | .and cs, σ => All' cs σ
  | .notBoth a b, σ => ¬ (True' a σ ∧ True' b σ)
  | .unless a b, σ => True' a σ ∧ ¬ True' b σ
def Some' : List (Cond T C) → Store I → Prop
  | [], _ => False
  | c :: cs, σ => True' c σ ∨ Some' cs σ
def All' : List (Cond T C) → Store I → Prop
  | [], _ => True
  | c :: cs, σ => True' c σ ∧ All' cs σ
end

/-- The loop goes on: with which store its body starts. -/
def Stays : Loop X T C → Store I → Store I → Prop
  | .forever, σ, τ => τ = σ
  | .times, σ, τ => τ = σ
  | .while c, σ, τ => True' S c σ ∧ τ = σ
  | .until c, σ, τ => ¬ True' S c σ ∧ τ = σ
  | .each x e, σ, τ => ∃ v, S.eval e σ v ∧ τ = update σ x v

/-- The loop may end. -/
def Leaves : Loop X T C → Store I → Prop
  | .forever, _ => False
  | .times, _ => True
  | .while c, σ => ¬ True' S c σ
  | .until c, σ => True' S c σ
  | .each _ _, _ => True

/-- At the end of the body of a loop, variables that were not set at its start are not set again. -/
def BodyEnd (σ τ τ' : Store I) : Prop := ∀ x, (Unset I (σ x) → τ' x = σ x) ∧ (¬ Unset I (σ x) → τ' x = τ x)

/-- How a command ends: normally, or by returning a value. -/
inductive Outcome (I : Interp) where
  | next (σ : Store I)
  | returned (σ : Store I) (v : I.V)

/-- An `If` with no arm taken goes on to its tail: as a command. -/
def Tail.cmd : Tail X T C → Cmd X T C
  | .nil => .note
  | .else a => a
  | .elseif c a tail => .ifOther c a tail

/-- Executions of commands.  A false assertion has no execution. -/
inductive Exec : Cmd X T C → Store I → Outcome I → Prop
  | note {σ} : Exec .note σ (.next σ)
  | perform {σ e v} : Eval S e σ v → Exec (.perform e) σ (.next σ)
  | let {σ x e v} : Eval S e σ v → Exec (.let x e) σ (.next (update σ x v))
  | set {σ x e v} : Eval S e σ v → Exec (.set x e) σ (.next (update σ x v))
  | ret {σ e v} : Eval S e σ v → Exec (.ret e) σ (.returned σ v)
  | assert {σ c} : True' S c σ → Exec (.assert c) σ (.next σ)
  | assertIf {σ a b} : (True' S a σ → True' S b σ) → Exec (.assertIf a b) σ (.next σ)
  | assertIff {σ a b} : (True' S a σ ↔ True' S b σ) → Exec (.assertIff a b) σ (.next σ)
  | assertElse {σ t x f} : (True' S x σ → True' S t σ) → (¬ True' S x σ → True' S f σ) → Exec (.assertElse t x f) σ (.next σ)
  | assertSince {σ a b} : True' S a σ → True' S b σ → Exec (.assertSince a b) σ (.next σ)
  | seq {σ τ a b o} : Exec a σ (.next τ) → Exec b τ o → Exec (.seq a b) σ o
  | seqRet {σ τ a b v} : Exec a σ (.returned τ v) → Exec (.seq a b) σ (.returned τ v)
  | ifClosedT {σ c a b o} : True' S c σ → Exec a σ o → Exec (.ifClosed c a b) σ o
  | ifClosedF {σ c a b o} : ¬ True' S c σ → Exec b σ o → Exec (.ifClosed c a b) σ o
  | ifT {σ c a tail o} : True' S c σ → Exec a σ o → Exec (.ifOther c a tail) σ o
  | ifF {σ c a tail o} : ¬ True' S c σ → Exec tail.cmd σ o → Exec (.ifOther c a tail) σ o
  | loopEnd {σ l body} : Leaves S l σ → Exec (.loop l body) σ (.next σ)
  | loopNext {σ τ τ' ρ l body o} : Stays S l σ τ → Exec body τ (.next τ') → BodyEnd σ τ' ρ → Exec (.loop l body) ρ o →
      Exec (.loop l body) σ o
  | loopRet {σ τ τ' l body v} : Stays S l σ τ → Exec body τ (.returned τ' v) → Exec (.loop l body) σ (.returned τ' v)

end

/-! ### What is asked of the atomic parts -/

/-- The analysis of the atomic parts is right, whenever it does not complain about an undefined variable. -/
structure AtomsOk {K X T C : Type} (L : Lang K X T C) {I : Interp} (S : Sem X T C I) : Prop where
  /-- The type given to an expression is right whenever the environment is, and so is the new environment. -/
  expr : ∀ e env t env' es, L.expr e env = some ((t, env'), es) → (∀ x, .undefined x ∉ es) → FlatEnv L.cfg env →
    Flat L.cfg t ∧ FlatEnv L.cfg env' ∧ env'.ctx = env.ctx ∧
    ∀ σ v, Holds L.cfg I env σ → S.eval e σ v → den L.cfg I t v ∧ Holds L.cfg I env' σ
  /-- So are the environments for a condition being true or false. -/
  cond : ∀ c env b t f es, L.cond c env b = some ((t, f), es) → (∀ x, .undefined x ∉ es) → FlatEnv L.cfg env →
    (∀ e, t = some e ∨ f = some e → FlatEnv L.cfg e ∧ e.ctx = env.ctx) ∧
    ∀ σ, Holds L.cfg I env σ → (S.holds c σ → Covers L.cfg I t σ) ∧ (¬ S.holds c σ → Covers L.cfg I f σ)
  /-- The bracket of a value description contains it. -/
  bracket : ∀ t, Flat L.cfg (L.bracket t).1 ∧ Flat L.cfg (L.bracket t).2 ∧
    ∀ v, (den L.cfg I (L.bracket t).1 v → S.desc t v) ∧ (S.desc t v → den L.cfg I (L.bracket t).2 v)

/-- The types are as they should be: the hierarchy has the names the analysis uses, and the interpretation agrees with it. -/
structure World (cfg : Cfg) (ord : List Ty → List Ty) (I : Interp) : Prop where
  cfgOk : CfgOk cfg
  ordOk : SetOrder ord
  leaf : IsLeaf cfg.tree "List"
  respects : Respects cfg I
  exhaustive : Exhaustive cfg I
  disjoint : SiblingsDisjoint cfg I
  notSet : "not_set" ∈ names cfg.tree
  notReturned : "not_returned" ∈ names cfg.tree
  tangible : "Tangible_" ∈ names cfg.tree
  undefinedNormal : ∀ v, I.named "Undefined" v → I.named "Normal" v ∧ I.named "Tangible_" v

/-- Every named type has a value. -/
def Inhabited' (cfg : Cfg) (I : Interp) : Prop := ∀ n ∈ names cfg.tree, ∃ v, I.named n v

/-- The messages a test of `x`, of type `t`, against a set of values between `sub` and `sup` should give. -/
def Says (cfg : Cfg) (I : Interp) (x : String) (t sub sup : Ty) (isA asserting : Bool) (m : Err) : Prop :=
  if asserting then
    if isA then
      m = .cannot x ∧ (∀ v, den cfg I t v → ¬ den cfg I sup v) ∨ m = .unconfirmed x ∧ (∃ v, den cfg I t v ∧ ¬ den cfg I sup v)
    else m = .mightBe x ∧ ∃ v, den cfg I t v ∧ den cfg I sub v
  else m = .mustBe x ∧ (∀ v, den cfg I t v → den cfg I sub v) ∨ m = .cantBe x ∧ (∀ v, den cfg I t v → ¬ den cfg I sup v)

/-- A computation only adds messages and returns. -/
def Appends {K α : Type} (m : M K α) : Prop :=
  ∀ s a s', m s = some (a, s') → s.errs <+: s'.errs ∧ s.log <+: s'.log ∧ s.rets <+: s'.rets

end Verif.Env
