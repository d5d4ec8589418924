/-!
# Record constructors

The static type of `Name { [[F]]: ex, … }` (pseudocode_semantics.py:10940-10983), with the flattening of lists of fields and of arguments (2016-2040, 2460-2486).
-/
namespace Verif.Recs

abbrev Str := List Char

/-- A left-recursive list: `{FIELDS} : {FIELD}` and `{FIELDS} : {FIELDS}, {FIELD}` (pseudocode_semantics.py:2475-2486), and the same for `{EXLIST}` (2026-2040). -/
inductive Chain (α : Type) where
  | one (a : α)
  | more (before : Chain α) (a : α)

/-- `get_fields` (pseudocode_semantics.py:2475-2486). -/
def getFields {α : Type} : Chain α → List α
  | .more pre f => getFields pre ++ [f]
  | .one f => [f]

/-- The loop of `exes_in_exlist` (pseudocode_semantics.py:2026-2040): `exes` is the list so far. -/
def exesLoop {α : Type} : Chain α → List α → List α
  | .one e, exes => e :: exes
  | .more inner e, exes => exesLoop inner (e :: exes)

/-- `exes_in_exlist` (pseudocode_semantics.py:2026-2040). -/
def exesInExlist {α : Type} (c : Chain α) : List α := exesLoop c []

/-- `exes_in_exlist_opt` (pseudocode_semantics.py:2016-2024). -/
def exesInExlistOpt {α : Type} : Option (Chain α) → List α
  | none => []
  | some c => exesInExlist c

/-- `text.replace(m, '')`, as in line 10944 of pseudocode_semantics.py; `k` is the number of characters that belong to the match before. -/
def remove (m : Str) : Nat → Str → Str
  | _, [] => []
  | k + 1, _ :: cs => remove m k cs
  | 0, c :: cs => if m.isPrefixOf (c :: cs) then remove m (m.length - 1) cs else c :: remove m 0 cs

/-- `constructor_prefix` (pseudocode_semantics.py:10944). -/
def prefixOf (text : Str) : Str := remove "a new ".toList 0 (remove "the ".toList 0 text)

/-- `record_type_name` (pseudocode_semantics.py:10957-10970). -/
def typeName (p : Str) : Str :=
  if ["ReadModifyWriteSharedMemory".toList, "ReadSharedMemory".toList, "WriteSharedMemory".toList].contains p then p ++ " Event".toList
  else if ["AsyncGeneratorRequest".toList].contains p then p ++ " Record".toList
  else if p = "PropertyDescriptor".toList then "Property Descriptor".toList
  else p

/-- What the constructor is given (pseudocode_semantics.py:10942-10983): types, environments and expressions are parameters.
`tc` is `tc_expr`, `ensure` is `env.ensure_expr_is_of_type`; both give the number of messages too, and none for an exception.
`table` is `fields_for_record_type_named_`, `orOf` is `envs_or`. -/
structure World (T E X : Type) where
  tc : X → E → Option ((T × E) × Nat)
  ensure : E → X → T → Option (E × Nat)
  orOf : List E → Option (Option E)
  table : Str → Option (Str → Option T)

/-- The type of the whole: `RecordType(schema_name, fields)` or `HierType(name)` (pseudocode_semantics.py:10954, 10983). -/
inductive RTy (T : Type) where
  | record (schema : Str) (fields : List (Str × T))
  | named (name : Str)
deriving DecidableEq

variable {T E X : Type}

/-- The loop for records without a schema (pseudocode_semantics.py:10950-10953). -/
def plainLoop (w : World T E X) : List (Str × X) → E → Option ((List (Str × T) × E) × Nat)
  | [], env => some (([], env), 0)
  | (n, x) :: items, env =>
    (w.tc x env).bind (fun r =>
      (plainLoop w items r.1.2).map (fun q => (((n, r.1.1) :: q.1.1, q.1.2), r.2 + q.2)))

/-- The loop for records with a schema (pseudocode_semantics.py:10973-10978). -/
def schemaLoop (w : World T E X) (info : Str → Option T) (env0 : E) : List (Str × X) → Option (List E × Nat)
  | [] => some ([], 0)
  | (n, x) :: items =>
    (info n).bind (fun t =>
      (w.ensure env0 x t).bind (fun r =>
        (schemaLoop w info env0 items).map (fun q => (r.1 :: q.1, r.2 + q.2))))

/-- `s_expr` of the record constructor (pseudocode_semantics.py:10942-10983): the type, the environment (which can be missing) and the number of messages. -/
def construct (w : World T E X) (text : Str) (fields : Chain (Str × X)) (env0 : E) : Option ((RTy T × Option E) × Nat) :=
  if prefixOf text = "Record".toList ∨ prefixOf text = "Completion Record".toList then
    (plainLoop w (getFields fields) env0).map (fun q =>
      ((.record (if prefixOf text = "Record".toList then [] else prefixOf text) q.1.1, some q.1.2), q.2))
  else
    (w.table (typeName (prefixOf text))).bind (fun info =>
      (schemaLoop w info env0 (getFields fields)).bind (fun q =>
        (w.orOf q.1).map (fun e => ((.named (typeName (prefixOf text)), e), q.2))))

end Verif.Recs
