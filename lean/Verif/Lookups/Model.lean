import Verif.Util.Model
/-!
# The table of rules for productions

`class_for_prod_str_`, `lookup_for_prod` and `report_unused_entries` (pseudocode_semantics.py:3360-3410).
-/
namespace Verif.Lookups
open Verif.Util

abbrev Str := List Char

/-- A class with its attributes (pseudocode_semantics.py:3376-3377); the values of the attributes are not looked into. -/
abbrev Cls (A : Type) := Str → Option A

/-- A class in the text of the program, with the productions in the decorators before it, from top to bottom (pseudocode_semantics.py:3410, 3442-3450). -/
structure Decl (A : Type) where
  prods : List Str
  cls : Cls A

variable {A : Type}

/-- The entries in the order in which they are put into the table (pseudocode_semantics.py:3410; DecoratedFuncDict.py:26-30): the decorators of a class are run from the lowest to the topmost. -/
def entries (ds : List (Decl A)) : List (Str × Cls A) := ds.flatMap (fun d => d.prods.reverse.map (fun p => (p, d.cls)))

/-- All entries are put into the table (DecoratedFuncDict.py:26-35), none if the assertion fails. -/
def putAll (d : Dfd Str (Cls A)) : List (Str × Cls A) → Option (Dfd Str (Cls A))
  | [] => some d
  | (k, c) :: es => (d.set k c).bind (fun d' => putAll d' es)

/-- The table when the program has been loaded (pseudocode_semantics.py:3360, 3410). -/
def load (ds : List (Decl A)) : Option (Dfd Str (Cls A)) := putAll Dfd.init (entries ds)

/-- A call of `lookup_for_prod` (pseudocode_semantics.py:3362). -/
structure Query where
  prod : Str
  attr : Str
  must : Bool

/-- `lookup_for_prod` (pseudocode_semantics.py:3362-3388): none for the end of the program; what it writes before is not modelled. -/
def lookupForProd (d : Dfd Str (Cls A)) (q : Query) : Option (Option A × Dfd Str (Cls A)) :=
  match d.get q.prod with
  | none => if q.must then none else some (none, d)
  | some (c, d') =>
    match c q.attr with
    | some a => some (some a, d')
    | none => if q.must then none else some (none, d')

/-- A number of calls, one after another (pseudocode_semantics.py:3362-3388). -/
def lookups (d : Dfd Str (Cls A)) : List Query → Option (List (Option A) × Dfd Str (Cls A))
  | [] => some ([], d)
  | q :: qs => (lookupForProd d q).bind (fun r => (lookups r.2 qs).map (fun s => (r.1 :: s.1, s.2)))

/-- The keys that are reported (pseudocode_semantics.py:3393-3397). -/
def unusedKeys (d : Dfd Str (Cls A)) : List Str := (d.counts.filter (fun p => p.2 == 0)).map (fun p => p.1)

/-- `dfd_report_unused_entries` (pseudocode_semantics.py:3391-3403), as lines. -/
def report (name : Str) (d : Dfd Str (Cls A)) : List Str :=
  ["unused entries in ".toList ++ name ++ ":".toList] ++
  (if unusedKeys d = [] then ["    (none)".toList] else (unusedKeys d).map (fun k => "    ".toList ++ k)) ++ [[]]

end Verif.Lookups
