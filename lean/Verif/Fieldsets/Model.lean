/-!
# The table of the fields of record types

`process_declared_record_type_info` and `find_record_types_with_fields` (pseudocode_semantics.py:2503-2545).
-/
namespace Verif.Fieldsets

abbrev Str := List Char

/-- `d[k] = v` for a dict as the list of its items: a key that is there keeps its place (pseudocode_semantics.py:2514, 2527). -/
def put {V : Type} (k : Str) (v : V) : List (Str × V) → List (Str × V)
  | [] => [(k, v)]
  | (k', v') :: d => if k' = k then (k, v) :: d else (k', v') :: put k v d

/-- A schema as it comes from the spec (pseudocode_semantics.py:2504-2516): its name, and the fields that are declared for the root of its branch, … and for itself, in this order
(`reversed(self_and_supers())`), each with the type that its nature is converted to. -/
structure Schema (T : Type) where
  name : Str
  chain : List (List (Str × T))

variable {T : Type}

/-- `d_from_spec` (pseudocode_semantics.py:2506-2514). -/
def fromSpec (s : Schema T) : List (Str × T) :=
  s.chain.foldl (fun d decls => decls.foldl (fun d p => put p.1 p.2 d) d) []

/-- The first loop (pseudocode_semantics.py:2504-2522): `fields_for_record_type_named_`, or none if the assertion in line 2521 fails. -/
def fill : List (Schema T) → List (Str × List (Str × T)) → Option (List (Str × List (Str × T)))
  | [], table => some table
  | s :: ss, table => if (table.lookup s.name).isSome then none else fill ss (table ++ [(s.name, fromSpec s)])

/-- `tweak_record_schema_field_type` (pseudocode_semantics.py:2524-2527); none for a `KeyError` or an assertion that fails. -/
def tweak [DecidableEq T] (schema field : Str) (old new : T) (table : List (Str × List (Str × T))) : Option (List (Str × List (Str × T))) :=
  (table.lookup schema).bind (fun d =>
    (d.lookup field).bind (fun t => if t = old then some (put schema (put field new d) table) else none))

/-- The order of texts, for `sorted` (pseudocode_semantics.py:2540, 2544). -/
def leStr : Str → Str → Bool
  | [], _ => true
  | _ :: _, [] => false
  | a :: s, b :: t => if a.toNat < b.toNat then true else if a = b then leStr s t else false

/-- `sorted(…)`, by insertion (pseudocode_semantics.py:2540, 2544). -/
def insertStr (a : Str) : List Str → List Str
  | [] => [a]
  | b :: l => if leStr a b then a :: b :: l else b :: insertStr a l
def sortStrs : List Str → List Str
  | [] => []
  | a :: l => insertStr a (sortStrs l)

/-- `', '.join(…)` (pseudocode_semantics.py:2540, 2544). -/
def joinStrs : List Str → Str
  | [] => []
  | [a] => a
  | a :: l => a ++ ',' :: ' ' :: joinStrs l

/-- The key of a set of fields (pseudocode_semantics.py:2540, 2544). -/
def keyOf (names : List Str) : Str := joinStrs (sortStrs names)

/-- `index[key].append(name)` for a `defaultdict(list)` (pseudocode_semantics.py:2541). -/
def addTo (index : List (Str × List Str)) (key name : Str) : List (Str × List Str) :=
  put key ((index.lookup key).getD [] ++ [name]) index

/-- `record_type_with_fields_` (pseudocode_semantics.py:2537-2541). -/
def indexOf (table : List (Str × List (Str × T))) : List (Str × List Str) :=
  table.foldl (fun index p => addTo index (keyOf (p.2.map Prod.fst)) p.1) []

/-- `find_record_types_with_fields` (pseudocode_semantics.py:2543-2545).  That the `defaultdict` then has the key is not modelled. -/
def findTypes (index : List (Str × List Str)) (names : List Str) : List Str := (index.lookup (keyOf names)).getD []

end Verif.Fieldsets
