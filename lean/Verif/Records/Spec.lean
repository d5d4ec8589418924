import Verif.Records.Model
/-! # Schemas, histories and chains -/
namespace Verif.Records
variable {N F : Type}

/-- `Path sup root x ys`: going up from `x` one meets `ys`, and then the root. -/
inductive Path (sup : N → N) (root : N) : N → List N → Prop
  | root : Path sup root root []
  | up {x ys} : x ≠ root → Path sup root (sup x) ys → Path sup root x (x :: ys)

/-- `Above sup root y x`: `y` is `x` or one of its super-schemas, other than the root. -/
def Above (sup : N → N) (root : N) (y x : N) : Prop := ∃ ys, Path sup root x ys ∧ y ∈ ys

/-- `Under sup root x y`: `y` is `x` or below it; `x` may be the root. -/
inductive Under (sup : N → N) (root : N) (x : N) : N → Prop
  | refl : Under sup root x x
  | step {y} : y ≠ root → Under sup root x (sup y) → Under sup root x y

/-- The fields that a history declares for a schema, in order. -/
def fieldsIn (h : List (Op N F)) [DecidableEq N] (x : N) : List F :=
  h.filterMap (fun | .field y f => if y = x then some f else none | _ => none)

/-- The methods that a history declares for a schema, in order. -/
def methodsIn (h : List (Op N F)) [DecidableEq N] (x : N) : List F :=
  h.filterMap (fun | .method y f => if y = x then some f else none | _ => none)

/-- The methods that a history defines for a schema, in order. -/
def defnsIn (h : List (Op N F)) [DecidableEq N] (x : N) : List F :=
  h.filterMap (fun | .defn y f => if y = x then some f else none | _ => none)

/-- A step is in order after a history: nobody on the chain of the schema has declared the field or the method yet, and the
method is not defined for that schema yet. -/
def Fresh (sup : N → N) (root : N) (before : List (Op N F)) : Op N F → Prop
  | .touch _ => True
  | .field x f => x ≠ root ∧ ∀ y, Above sup root y x → Op.field y f ∉ before
  | .method x f => x ≠ root ∧ ∀ y, Above sup root y x → Op.method y f ∉ before
  | .defn x f => x ≠ root ∧ Op.defn x f ∉ before

/-- The super-schemas come first: no schema gets a field after one of its sub-schemas. -/
def TopDown (sup : N → N) (root : N) (h : List (Op N F)) : Prop :=
  ∀ h1 h2 x f, h = h1 ++ Op.field x f :: h2 → ∀ y g, Above sup root x y → x ≠ y → Op.field y g ∉ h1

end Verif.Records
