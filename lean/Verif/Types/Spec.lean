import Verif.Types.Model
/-!
# Specification of types: what values a type stands for
-/
namespace Verif.Types

/-- `Anc t a b`: in the tree `t`, the node named `a` is the node named `b` or above it. -/
inductive Anc : Tree → String → String → Prop
  | here {t b} : b ∈ names t → Anc t t.name b
  | deeper {n cs c a b} : c ∈ cs → Anc c a b → Anc (.node n cs) a b

/-- `ChildOf t p c`: in the tree `t`, the node named `c` is a child of the node named `p`. -/
inductive ChildOf : Tree → String → String → Prop
  | here {n cs c} : c ∈ cs → ChildOf (.node n cs) n c.name
  | deeper {n cs c p x} : c ∈ cs → ChildOf c p x → ChildOf (.node n cs) p x

/-- An interpretation: what the values are, which of them belong to each named type, which are
lists and of what, which are records, of what schema (`none` for a record without schema) and
with what fields, and which belong to a procedure type given by its parameter and result sets. -/
structure Interp where
  V : Type
  named : String → V → Prop
  tbd : V → Prop
  elems : V → Option (List V)
  schemaOf : V → Option (Option String)
  field : V → String → Option V
  procs : List (V → Prop) → (V → Prop) → V → Prop

/-- The schema of `v` is `s` or has it among its supers. -/
def HasSchema (cfg : Cfg) (I : Interp) (s : String) (v : I.V) : Prop :=
  if s = "" then I.schemaOf v = some none
  else ∃ i j, cfg.schema s = some i ∧ I.schemaOf v = some (some j) ∧ i ∈ cfg.supers j

mutual
/-- The values of a type. -/
def den (cfg : Cfg) (I : Interp) : Ty → I.V → Prop
  | .tbd => I.tbd
  | .hier n => I.named n
  | .list t => fun v => ∃ l, I.elems v = some l ∧ ∀ x ∈ l, den cfg I t x
  | .record s fs => fun v => HasSchema cfg I s v ∧ denF cfg I fs v
  | .proc ps r => I.procs (denEach cfg I ps) (den cfg I r)
  | .union ms => denAny cfg I ms
/-- Some member has the value. -/
def denAny (cfg : Cfg) (I : Interp) : List Ty → I.V → Prop
  | [] => fun _ => False
  | t :: ts => fun v => den cfg I t v ∨ denAny cfg I ts v
/-- Every listed field is there and has a value of its type. -/
def denF (cfg : Cfg) (I : Interp) : List (String × Ty) → I.V → Prop
  | [] => fun _ => True
  | (n, t) :: r => fun v => (∃ x, I.field v n = some x ∧ den cfg I t x) ∧ denF cfg I r v
def denEach (cfg : Cfg) (I : Interp) : List Ty → List (I.V → Prop)
  | [] => []
  | t :: ts => den cfg I t :: denEach cfg I ts
end

/-- The interpretation agrees with the hierarchy: every value is in the top type, a child's values
are its parent's, lists are in `List`, records in `Record`, procedures in `proc_`. -/
structure Respects (cfg : Cfg) (I : Interp) : Prop where
  top : ∀ v, I.named Top v
  child : ∀ p c, ChildOf cfg.tree p c → ∀ v, I.named c v → I.named p v
  list : ∀ v l, I.elems v = some l → I.named ListN v
  record : ∀ v s, I.schemaOf v = some s → I.named RecordN v
  proc : ∀ ps r v, I.procs ps r v → I.named ProcN v

/-- Procedure types are read without regard to parameters, and get larger with the result type. -/
def ProcsByResult (I : Interp) : Prop :=
  ∀ ps ps' r r' v, ps.length = ps'.length → (∀ x, r x → r' x) → I.procs ps r v → I.procs ps' r' v

/-- Procedure types are read as usual: larger with the result type, smaller with the parameter
types. -/
def ProcsContravariant (I : Interp) : Prop :=
  ∀ ps ps' r r' v, ps.length = ps'.length → (∀ q ∈ ps'.zip ps, ∀ x, q.1 x → q.2 x) → (∀ x, r x → r' x) →
    I.procs ps r v → I.procs ps' r' v

/-- A value of a type with children is a value of one of the children. -/
def Exhaustive (cfg : Cfg) (I : Interp) : Prop :=
  ∀ p v, I.named p v → (∃ c, ChildOf cfg.tree p c) → ∃ c, ChildOf cfg.tree p c ∧ I.named c v

/-- Different children of a type have no value in common. -/
def SiblingsDisjoint (cfg : Cfg) (I : Interp) : Prop :=
  ∀ p c d v, ChildOf cfg.tree p c → ChildOf cfg.tree p d → I.named c v → I.named d v → c = d

/-- The configuration is in order: the top type is the root of the tree, names in the tree are
distinct, and supers of supers are supers. -/
structure CfgOk (cfg : Cfg) : Prop where
  root : cfg.tree.name = Top
  nodup : (names cfg.tree).Nodup
  supers : ∀ i j k, j ∈ cfg.supers i → k ∈ cfg.supers j → k ∈ cfg.supers i

/-- A named type without children. -/
def IsLeaf (t : Tree) (l : String) : Prop := ∀ c, ¬ ChildOf t l c

/-- `Full t S n`: every leaf at or below `n` is at or below a member of `S`. -/
def Full (t : Tree) (S : List String) (n : String) : Prop :=
  ∀ l, Anc t n l → IsLeaf t l → ∃ a ∈ S, Anc t a l

/-- The highest full names. -/
def MaxFull (t : Tree) (S : List String) (n : String) : Prop :=
  Full t S n ∧ ∀ a, Anc t a n → Full t S a → a = n

/-- `ord` lists the members of a set, each once. -/
def SetOrder (ord : List Ty → List Ty) : Prop := ∀ xs, (ord xs).Nodup ∧ ∀ x, x ∈ ord xs ↔ x ∈ xs

mutual
/-- Some property holds of a type and of all types inside it (except parameter types of procedures). -/
def Deep (p : Ty → Prop) : Ty → Prop
  | .tbd => p .tbd
  | .hier n => p (.hier n)
  | .list t => p (.list t) ∧ Deep p t
  | .record s fs => p (.record s fs) ∧ DeepF p fs
  | .proc ps r => p (.proc ps r) ∧ Deep p r
  | .union ms => p (.union ms) ∧ DeepL p ms
def DeepL (p : Ty → Prop) : List Ty → Prop
  | [] => True
  | t :: ts => Deep p t ∧ DeepL p ts
def DeepF (p : Ty → Prop) : List (String × Ty) → Prop
  | [] => True
  | (_, t) :: ts => Deep p t ∧ DeepF p ts
end

/-- No record type inside the type lists a field twice. -/
def FieldsOk : Ty → Prop := Deep (fun t => match t with
  | .record _ fs => (fs.map (·.1)).Nodup
  | _ => True)

/-- TBD does not occur in the type. -/
def TBDFree : Ty → Prop := Deep (fun t => t ≠ .tbd)

/-- The type `List` (of anything) does not occur in the type. -/
def NoBareList : Ty → Prop := Deep (fun t => t ≠ .hier "List")

/-- No type `List of T` occurs in the type. -/
def NoListOf : Ty → Prop := Deep (fun t => match t with
  | .list _ => False
  | _ => True)

/-- No type of Completion Records in the type lists more than two fields. -/
def ShortCompletions : Ty → Prop := Deep (fun t => match t with
  | .record s fs => s = "Completion Record" → fs.length ≤ 2
  | _ => True)

end Verif.Types
