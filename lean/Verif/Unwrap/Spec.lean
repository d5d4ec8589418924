import Verif.Unwrap.Model
import Verif.Calls.Spec
/-!
# Specification: Completion Records and what the shorthands do with them
-/
namespace Verif.Unwrap
open Verif.Types Verif.Env Verif.Calls

/-- The names of the types of the values of `[[Type]]`: `~normal~` and the rest. -/
def normalN : String := "tilde_normal_"
def abruptNs : List String := ["tilde_break_", "tilde_continue_", "tilde_return_", "tilde_throw_"]
def kinds : List String := normalN :: abruptNs

section
variable (cfg : Cfg) (I : Interp)

def IsCompletion (v : I.V) : Prop := HasSchema cfg I "Completion Record" v
/-- The `[[Type]]` of `v` is of the named type. -/
def Kind (v : I.V) (k : String) : Prop := ∃ x, I.field v "[[Type]]" = some x ∧ I.named k x
def Contains (v w : I.V) : Prop := I.field v "[[Value]]" = some w

/-- A normal completion containing `w`. -/
def NormalOf (v w : I.V) : Prop := IsCompletion cfg I v ∧ Kind I v "tilde_normal_" ∧ Contains I v w
/-- An abrupt completion. -/
def Abrupt (v : I.V) : Prop := IsCompletion cfg I v ∧ ∃ k ∈ abruptNs, Kind I v k

/-- Completion Records are as ECMA-262 says: each has one of the five types, and the values it gives for the fields. -/
structure Completions : Prop where
  kind : ∀ v, IsCompletion cfg I v → ∃ k ∈ kinds, Kind I v k
  one : ∀ v k k', k ∈ kinds → k' ∈ kinds → Kind I v k → Kind I v k' → k = k'
  value : ∀ v w, IsCompletion cfg I v → Contains I v w → I.named "Normal" w
  abrupt : ∀ v w, Abrupt cfg I v → Contains I v w → I.named "Tangible_" w ∨ I.named "tilde_empty_" w

end

/-- The types the analysis needs are there: the types of `[[Type]]` have no subtypes, records are among the `Normal` values,
and there is a schema for Completion Records. -/
structure Ready (cfg : Cfg) : Prop where
  ok : CfgOk cfg
  listLeaf : IsLeaf cfg.tree "List"
  record : "Record" ∈ names cfg.tree
  kinds : ∀ k ∈ kinds, k ∈ names cfg.tree ∧ IsLeaf cfg.tree k
  normal : "Normal" ∈ names cfg.tree
  tangible : "Tangible_" ∈ names cfg.tree
  empty : "tilde_empty_" ∈ names cfg.tree
  schema : ∃ i, cfg.schema "Completion Record" = some i ∧ i ∈ cfg.supers i

/-- Any Completion Record. -/
def anyCompletion : Ty := .record "Completion Record" []
/-- Completion Records of a kind, containing anything or values of a type. -/
def comp (k : String) : Option Ty → Ty
  | none => .record "Completion Record" [("[[Type]]", .hier k)]
  | some u => .record "Completion Record" [("[[Type]]", .hier k), ("[[Value]]", u)]

def IsComp (m : Ty) : Prop := m = anyCompletion ∨ ∃ k ∈ kinds, ∃ u, m = comp k u
/-- A named type that is taken to have no Completion Record. -/
def Apart (cfg : Cfg) (m : Ty) : Prop := ∃ n ∈ names cfg.tree, m = .hier n ∧ (n = "Normal" ∨ ¬ Anc cfg.tree n "Record")

/-- The types that operands of the shorthands have: unions of named types and of types of Completion Records, with at most one of each kind. -/
structure OperandTy (cfg : Cfg) (t : Ty) : Prop where
  each : ∀ m ∈ members t, IsComp m ∨ Apart cfg m
  one : ∀ k u u', comp k u ∈ members t → comp k u' ∈ members t → u = u'
  all : anyCompletion ∈ members t → ∀ k u, comp k u ∉ members t

/-- All the values of a type are Completion Records of that type: it is a union of types of them. -/
def OnlyCompletions (t : Ty) : Prop := ∀ m ∈ members t, IsComp m

/-- The result of evaluating `? E` or `! E`: a value, with the store there is then, or the return of an abrupt completion.
Evaluating `? x` for a variable `x` leaves in it the value that its completion contains. -/
inductive Result (I : Interp) where
  | value (w : I.V) (σ : Store I)
  | returned (v : I.V)

section
variable {X T C : Type} {I : Interp} (cfg : Cfg) (S : Sem X T C I)

inductive Runs : Op → Expr X → Store I → Result I → Prop
  | variable {x σ w} : NormalOf cfg I (σ x) w → Runs .question (.var x) σ (.value w (update σ x w))
  | question {e σ v w} : S.eval e σ v → NormalOf cfg I v w → Runs .question (.other e) σ (.value w σ)
  | bang {e σ v w} : Eval S e σ v → NormalOf cfg I v w → Runs .bang e σ (.value w σ)
  | returned {e σ v} : Eval S e σ v → Abrupt cfg I v → Runs .question e σ (.returned v)

/-- The type and the environment given to an expression are right, where an environment is. -/
def Right {K : Type} (e : Expr X) (env : Env K) (t : Ty) (env' : Env K) : Prop :=
  ∀ σ v, Holds cfg I env σ → Eval S e σ v → den cfg I t v ∧ Holds cfg I env' σ

/-- The operations after whose normal completion their first argument is known to be of a type. -/
def checkers : List (String × String) :=
  [("ValidateTypedArray", "TypedArray_object_"), ("ValidateIntegerTypedArray", "TypedArray_object_"),
   ("ValidateAtomicAccessOnIntegerTypedArray", "TypedArray_object_"), ("ValidateUint8Array", "TypedArray_object_"),
   ("GeneratorValidate", "Generator_object_"), ("NewPromiseCapability", "constructor_object_")]

/-- Operations that check their first argument, a variable, do so: it has a value of the type when they complete normally. -/
def ChecksFirst {K : Type} (callOf : X → Option (String × List (Expr X))) (slot : Expr X → Option (Ty × Ty)) (e : Expr X) (env : Env K) : Prop :=
  ∀ a op args, e = .other a → callOf a = some (op, args) →
    (∀ n, (op, n) ∈ checkers → ∃ x rest t, args = .var x :: rest ∧ get env.vars (.var x) = some t ∧
      ∀ σ v w, S.eval a σ v → NormalOf cfg I v w → I.named n (σ x)) ∧
    (op = "RequireInternalSlot" → ∀ x s tb, args = [.var x, s] → slot s = some tb → Flat cfg tb.1 ∧ Flat cfg tb.2 ∧
      (∃ t, get env.vars (.var x) = some t ∧ Flat cfg t) ∧
      ∀ σ v w, S.eval a σ v → NormalOf cfg I v w → den cfg I tb.2 (σ x))

end

/-- A throw completion. -/
def Thrown (cfg : Cfg) (I : Interp) (v : I.V) : Prop := IsCompletion cfg I v ∧ Kind I v "tilde_throw_"

/-- What is returned, of a value `w`: in an operation that returns Completion Records, a value that is not one is made a normal completion. -/
def ReturnedAs (cfg : Cfg) (I : Interp) (wraps : Bool) (w v : I.V) : Prop :=
  (wraps = true ∧ ¬ IsCompletion cfg I w ∧ NormalOf cfg I v w) ∨ ((wraps = false ∨ IsCompletion cfg I w) ∧ v = w)

/-- The return of `v` from a place with environment `env` is recorded, among the environments `rets`, and `v` is as the operation should
return, unless there is a message among `ms` that it may not be. -/
def Recorded {K X T C : Type} {I : Interp} (L : Lang K X T C) (env : Env K) (rets : List (Env K)) (ms : List Err) (σ : Store I) (v : I.V) : Prop :=
  (∃ r ∈ rets, HoldsRet L.cfg I r σ v) ∧ (.returnType ∈ ms ∨ den L.cfg I (L.expected env.ctx) v)

/-- The operand is not the invocation of one of the operations that check an argument. -/
def PlainOperand {X : Type} (callOf : X → Option (String × List (Expr X))) (e : Expr X) : Prop :=
  ∀ a op args, e = .other a → callOf a = some (op, args) → op ≠ "RequireInternalSlot" ∧ ∀ n, (op, n) ∉ checkers

/-- The messages for an operand of type `t`. -/
def Deserved (o : Op) (t : Ty) (m : Err) : Prop :=
  m = noPart ∧ (∀ a ∈ members t, ¬ IsComp a) ∨
  (∃ a ∈ members t, IsComp a) ∧
    (m = omitted ∧ (∃ n, .hier n ∈ members t) ∨
     o = .question ∧ (m = noAbrupt ∧ anyCompletion ∉ members t ∧ (∀ k ∈ abruptNs, ∀ u, comp k u ∉ members t) ∨
       m = noNormal ∧ anyCompletion ∉ members t ∧ ∀ u, comp normalN u ∉ members t))

end Verif.Unwrap
