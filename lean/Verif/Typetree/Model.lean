/-!
# Building the tree of types

`TNode` with its table (static_types.py:1021-1037), `_traverse` (1046-1051) and `_traverse_record_schema` (1171-1180).
-/
namespace Verif.Typetree

abbrev Str := List Char

/-- A dict of named types with their subtypes, or a record schema with its sub-schemas (static_types.py:1047, 1172): an ordered tree. -/
inductive Tree where
  | node (name : Str) (subs : List Tree)

/-- A `TNode` in the table `_tnode_for_type_` (static_types.py:1021-1037); its parent is given by name, since a type occurs once. -/
structure Entry where
  name : Str
  parent : Option Str
  level : Nat
deriving DecidableEq

/-- `TNode(type, parent)` (static_types.py:1022-1037): the level follows from the parent; none if the assertion fails that the type is new. -/
def tnode (tbl : List Entry) (name : Str) (parent : Option Entry) : Option (Entry × List Entry) :=
  let e : Entry := ⟨name, parent.map Entry.name, match parent with | none => 0 | some p => p.level + 1⟩
  if name ∈ tbl.map Entry.name then none else some (e, tbl ++ [e])

mutual
/-- The body of the loops (static_types.py:1049-1051, 1173-1180): a name that is to be passed over (only `Completion Record`, and only in the traversal of the schemas) is left out with all below it. -/
def one (skip : Str → Bool) (parent : Option Entry) (tbl : List Entry) : Tree → Option (List Entry)
  | .node n subs =>
    if skip n then some tbl
    else match tnode tbl n parent with
      | none => none
      | some r => all skip (some r.1) r.2 subs
/-- `_traverse` and `_traverse_record_schema` (static_types.py:1046-1051, 1171-1180). -/
def all (skip : Str → Bool) (parent : Option Entry) (tbl : List Entry) : List Tree → Option (List Entry)
  | [] => some tbl
  | t :: ts =>
    match one skip parent tbl t with
    | none => none
    | some tbl' => all skip parent tbl' ts
end

/-- `_traverse(_named_type_hierarchy, None)` (static_types.py:1054). -/
def traverse (ts : List Tree) : Option (List Entry) := all (fun _ => false) none [] ts

/-- `_traverse_record_schema(spec.root_RecordSchema, _tnode_for_type_[T_Record])` (static_types.py:1171-1182): `root` are the sub-schemas of the root. -/
def traverseSchemas (tbl : List Entry) (record : Entry) (root : List Tree) : Option (List Entry) :=
  all (fun n => n == "Completion Record".toList) (some record) tbl root

end Verif.Typetree
