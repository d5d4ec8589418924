import Verif.Exprs.Model
/-!
# What it means that the type of an expression is right (C101)
-/
namespace Verif.Exprs

variable {T E M : Type}

/-- Values and stores: what types, environments and expressions mean.  `np` is the value of a parameter that is not passed, `completion` says which values are completion records.
What the function for a production finds out is right if it adds no message. -/
structure Right (w : World T E M) {S V : Type} (mem : T → V → Prop) (holds : E → S → Prop) (value : Expr → S → V → Prop) (np : V) (completion : V → Prop) : Prop where
  sub : ∀ {a b}, w.sub a b = true → ∀ v, mem a v → mem b v
  refl : ∀ t, w.sub t t = true
  vars : ∀ {env x t s}, w.vars env x.text = some t → holds env s → ∀ v, value x s v → mem t v
  sExpr : ∀ {x env t env' s}, w.sExpr x env = some ((t, env'), []) → holds env s → holds env' s ∧ ∀ v, value x s v → mem t v
  zero : ∀ v, ¬ mem w.zero v
  split : ∀ t v, mem t v → (completion v ∧ mem (w.split t).1 v) ∨ (¬ completion v ∧ mem (w.split t).2 v)
  notPassed : ∀ t, mem t np → w.sub w.notPassed t = true

/-- The expression is a parameter that is tested for being present, or that is set. -/
inductive Tested (x : Expr) : Prop where
  | present : x.prod = "{LOCAL_REF} : {SETTABLE}".toList → x.parent = "{CONDITION_1} : {LOCAL_REF} is present".toList → Tested x
  | absent : x.prod = "{LOCAL_REF} : {SETTABLE}".toList → x.parent = "{CONDITION_1} : {LOCAL_REF} is not present".toList → Tested x
  | setSmall : x.prod = "{SETTABLE} : {var}".toList → x.parent = "{SMALL_COMMAND} : set {SETTABLE} to {EXPR}".toList → Tested x
  | set : x.prod = "{SETTABLE} : {var}".toList → x.parent = "{COMMAND} : Set {SETTABLE} to {EXPR}.".toList → Tested x

end Verif.Exprs
