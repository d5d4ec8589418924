import Verif.Conds.Model
/-!
# What environments mean (C94)

`σ` is a state of the algorithm: each expression has a value in it.
`holds e σ` says that the environment `e` is right for the state `σ`.
-/
namespace Verif.Conds

/-- States and values, and what types, environments, descriptions and conditions say about them. -/
structure Sem (E X T D C S V : Type) where
  val : S → X → V
  den : T → V → Prop
  holds : E → S → Prop
  /-- The value is as described. -/
  described : S → D → V → Prop
  truth : C → S → Prop
  elem : V → V → Prop
  bind : S → X → V → S

/-- The environment for a case is right; the case cannot be reached if there is none. -/
def Sem.Holds {E X T D C S V : Type} (m : Sem E X T D C S V) : Option E → S → Prop
  | some e, σ => m.holds e σ
  | none, _ => False

/-- The operations do what they should. -/
structure Means {E X T D C S V : Type} (y : Ops E X T D C) (m : Sem E X T D C S V) : Prop where
  tc : ∀ x e t e', y.tc x e = some (t, e') → ∀ σ, m.holds e σ → (t ≠ y.tbd → m.den t (m.val σ x)) ∧ m.holds e' σ
  replace : ∀ e x t e', y.replace e x t = some e' → ∀ σ, m.holds e σ → m.den t (m.val σ x) → m.holds e' σ
  narrow : ∀ e x t e', y.narrow e x t = some e' → ∀ σ, m.holds e' σ ↔ m.holds e σ ∧ m.den t (m.val σ x)
  split : ∀ a b, a ≠ y.tbd → b ≠ y.tbd → ∀ v, m.den (y.split a b).1 v ↔ m.den a v ∧ m.den b v
  union : ∀ a b v, m.den (y.union a b) v ↔ m.den a v ∨ m.den b v
  zero : ∀ v, ¬ m.den y.zero v
  /-- Types in the list are not `tbd`, and have just one value. -/
  special : ∀ t, y.special t = true → t ≠ y.tbd ∧ ∀ v w, m.den t v → m.den t w → v = w
  /-- A test outside of an assertion is right for both cases. -/
  test : ∀ e x is b r, y.test e x is b false = some r → ∀ σ, m.holds e σ →
    (m.den b.2 (m.val σ x) → m.Holds (if is then r.1 else r.2) σ) ∧ (¬ m.den b.1 (m.val σ x) → m.Holds (if is then r.2 else r.1) σ)
  envAnd : ∀ a b e, y.envAnd a b = some e → ∀ σ, m.holds a σ → m.holds b σ → m.holds e σ
  envOr : ∀ a b e, y.envOr a b = some e → ∀ σ, m.Holds a σ ∨ m.Holds b σ → m.Holds e σ
  /-- What is in the lower type is as described, and what is as described is in the upper type. -/
  bracket : ∀ d e b, y.bracket d e = some b → ∀ σ, m.holds e σ → ∀ v, (m.den b.1 v → m.described σ d v) ∧ (m.described σ d v → m.den b.2 v)
  plusNew : ∀ e x t e', y.plusNew e x t = some e' → ∀ σ v, m.holds e σ → m.den t v → m.holds e' (m.bind σ x v)
  cond : ∀ c e r, y.cond c e = some r → ∀ σ, m.holds e σ → (m.truth c σ → m.Holds r.1 σ) ∧ (¬ m.truth c σ → m.Holds r.2 σ)

/-- The two environments are right for a condition that is true just if `P`. -/
def Sem.Right {E X T D C S V : Type} (m : Sem E X T D C S V) (r : Option E × Option E) (σ : S) (P : Prop) : Prop :=
  (P → m.Holds r.1 σ) ∧ (¬ P → m.Holds r.2 σ)

/-- The other way round, for a condition with a `not`. -/
def Negated (neg : Bool) (P : Prop) : Prop := if neg then ¬ P else P

end Verif.Conds
