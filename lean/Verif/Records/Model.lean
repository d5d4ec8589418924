import Verif.Common
/-!
# Model of the Record schemas (records.py)
-/
namespace Verif.Records

variable {N F : Type} [DecidableEq N] [DecidableEq F]

/-- A dictionary with one more entry, or a changed one. -/
def upd {V : Type} (d : N → V) (x : N) (v : V) : N → V := fun y => if y = x then v else d y

/-- The schemas (`RecordSchema`, records.py:226-293), by name: `names` in the order of their creation, the
root schema first (the code keeps it apart, in `root_schema`); the other fields are the attributes of the schemas with these
names.  `fields`, `methods` and `defns` are the keys of `addl_field_decls`, `addl_method_decls` and
`method_defns`, in order. -/
structure Schemas (N F : Type) where
  names : List N
  super : N → Option N
  level : N → Nat
  subs : N → List N
  fields : N → List F
  methods : N → List F
  defns : N → List F

/-- `root_schema = RecordSchema(TC_SCHEMA_NAME_FOR_ROOT_SCHEMA, None)` (records.py:228-238, 295-297). -/
def initial (root : N) : Schemas N F where
  names := [root]
  super _ := none
  level _ := 0
  subs _ := []
  fields _ := []
  methods _ := []
  defns _ := []

/-- `RecordSchema.__init__` for a schema other than the root (records.py:228-244), once its super-schema is there. -/
def create (sup : N → N) (st : Schemas N F) (x : N) : Schemas N F where
  names := st.names ++ [x]
  super := upd st.super x (some (sup x))
  level := upd st.level x (1 + st.level (sup x))
  subs := upd (upd st.subs x []) (sup x) (upd st.subs x [] (sup x) ++ [x])
  fields := upd st.fields x []
  methods := upd st.methods x []
  defns := upd st.defns x []

/-- `ensure_RecordSchema` (records.py:177-192); `sup` is `sub_to_super_relation` with the root schema
for names that are not in it; the first number is fuel for the recursion. -/
def ensure (sup : N → N) : Nat → Schemas N F → N → Option (Schemas N F)
  | 0, _, _ => none
  | n + 1, st, x =>
    if x ∈ st.names then some st
    else match ensure sup n st (sup x) with
      | none => none
      | some st' => some (create sup st' x)

/-- `self_and_supers` (records.py:282-288); fails (`AttributeError`) on the root schema, which has no super-schema. -/
def selfAndSupers (root : N) (st : Schemas N F) : Nat → N → Option (List N)
  | 0, _ => none
  | n + 1, x =>
    match st.super x with
    | none => none
    | some y =>
      if y = root then some [x]
      else match selfAndSupers root st n y with
        | none => none
        | some ys => some (x :: ys)

/-- `somebody_declares_field`, `somebody_declares_method` (records.py:268-280), for the dictionaries `decls`; the chain is never longer
than the number of schemas. -/
def somebodyDeclares (root : N) (st : Schemas N F) (decls : N → List F) (x : N) (f : F) : Option Bool :=
  match selfAndSupers root st st.names.length x with
  | none => none
  | some ys => some (ys.any (fun y => decide (f ∈ decls y)))

/-- `add_field_decl` (records.py:252-254). -/
def addField (root : N) (st : Schemas N F) (x : N) (f : F) : Option (Schemas N F) :=
  match somebodyDeclares root st st.fields x f with
  | some false => some { st with fields := upd st.fields x (st.fields x ++ [f]) }
  | _ => none

/-- `add_method_decl` (records.py:256-258). -/
def addMethod (root : N) (st : Schemas N F) (x : N) (f : F) : Option (Schemas N F) :=
  match somebodyDeclares root st st.methods x f with
  | some false => some { st with methods := upd st.methods x (st.methods x ++ [f]) }
  | _ => none

/-- `add_method_defn` (records.py:260-266); the flag says whether the complaint about a missing declaration is printed. -/
def addDefn (root : N) (st : Schemas N F) (x : N) (f : F) : Option (Bool × Schemas N F) :=
  match somebodyDeclares root st st.methods x f with
  | none => none
  | some b =>
    if f ∈ st.defns x then none
    else some (!b, { st with defns := upd st.defns x (st.defns x ++ [f]) })

/-- What is done to the schemas: `ensure_RecordSchema`, alone or followed by an addition
(records.py:19-173 and Section.py, where the methods are defined). -/
inductive Op (N F : Type) where
  | touch (x : N)
  | field (x : N) (f : F)
  | method (x : N) (f : F)
  | defn (x : N) (f : F)
deriving DecidableEq, Repr

/-- The schema that is meant. -/
def Op.name : Op N F → N
  | .touch x => x
  | .field x _ => x
  | .method x _ => x
  | .defn x _ => x

/-- The addition. -/
def applyOp (root : N) (st : Schemas N F) : Op N F → Option (Schemas N F)
  | .touch _ => some st
  | .field x f => addField root st x f
  | .method x f => addMethod root st x f
  | .defn x f => match addDefn root st x f with
    | none => none
    | some (_, st') => some st'

/-- One step. -/
def step (sup : N → N) (root : N) (n : Nat) (st : Schemas N F) (op : Op N F) : Option (Schemas N F) :=
  match ensure sup n st op.name with
  | none => none
  | some st' => applyOp root st' op

/-- A history of steps; stops at the first assertion that fails. -/
def run (sup : N → N) (root : N) (n : Nat) : Schemas N F → List (Op N F) → Option (Schemas N F)
  | st, [] => some st
  | st, op :: ops =>
    match step sup root n st op with
    | none => none
    | some st' => run sup root n st' ops

/-- `preorder_traverse_subtree` (records.py:290-293); the number is fuel for the depth. -/
def preorder (st : Schemas N F) : Nat → N → List N
  | 0, _ => []
  | n + 1, x => x :: (st.subs x).flatMap (preorder st n)

/-- `get_depth_of_subtree` (records.py:497-504); the number is fuel for the depth. -/
def depth (st : Schemas N F) : Nat → N → Nat
  | 0, _ => 0
  | n + 1, x => match st.subs x with
    | [] => 1
    | y :: ys => 1 + ((y :: ys).map (depth st n)).foldl max 0

/-! ## The table of methods (records.py:406-495) -/

/-- The keys of the rows; in the code they are texts made from these parts. -/
inductive RowKey (N F : Type) where
  | header (level : Nat)
  | lineAfterHeaders
  | method (x : N) (f : F)
  | lineAfter (x : N)
deriving DecidableEq, Repr

/-- The keys of the columns. -/
inductive ColKey (N : Type) where
  | methodName
  | schema (x : N)
deriving DecidableEq, Repr

/-- What is in a cell: the name of a schema, the name of a method, or a mark for a declaration and a mark for a definition. -/
inductive Cell (N F : Type) where
  | schemaName (x : N)
  | methodName (f : F)
  | marks (declared defined : Bool)
deriving DecidableEq, Repr

/-- `col_keys` (records.py:414-417). -/
def colKeys (rs : List N) : List (ColKey N) := .methodName :: rs.map .schema

/-- `row_keys` (records.py:419-429). -/
def rowKeys (st : Schemas N F) (d : Nat) (rs : List N) : List (RowKey N F) :=
  (List.range' 1 d).map .header ++ .lineAfterHeaders :: rs.flatMap (fun x =>
    (st.methods x).map (.method x) ++ (if (st.methods x).isEmpty then [] else [.lineAfter x]))

/-- `set_cell` (records.py:431-437). -/
def setCell (rows : List (RowKey N F)) (cols : List (ColKey N)) (cells : List ((RowKey N F × ColKey N) × Cell N F))
    (r : RowKey N F) (c : ColKey N) (v : Cell N F) : Option (List ((RowKey N F × ColKey N) × Cell N F)) :=
  if r ∈ rows ∧ c ∈ cols ∧ (r, c) ∉ cells.map (·.1) then some (cells ++ [((r, c), v)]) else none

/-- The calls of `set_cell` for one schema (records.py:439-474), in order. -/
def cellsOf (root : N) (st : Schemas N F) (x : N) : Option (List ((RowKey N F × ColKey N) × Cell N F)) :=
  match selfAndSupers root st st.names.length x with
  | none => none
  | some ys => some (
      ((.header (st.level x), .schema x), .schemaName x) ::
      (st.methods x).map (fun f => ((.method x f, .methodName), .methodName f)) ++
      ys.flatMap (fun y => (st.methods y).map (fun f =>
        ((.method y f, .schema x), .marks (decide (f ∈ st.methods x)) (decide (f ∈ st.defns x))))))

/-- A run of calls of `set_cell`. -/
def setCells (rows : List (RowKey N F)) (cols : List (ColKey N)) :
    List ((RowKey N F × ColKey N) × Cell N F) → List ((RowKey N F × ColKey N) × Cell N F) →
    Option (List ((RowKey N F × ColKey N) × Cell N F))
  | cells, [] => some cells
  | cells, ((r, c), v) :: more =>
    match setCell rows cols cells r c v with
    | none => none
    | some cells' => setCells rows cols cells' more

/-- The loop over the schemas. -/
def tableLoop (root : N) (st : Schemas N F) (rows : List (RowKey N F)) (cols : List (ColKey N)) :
    List N → List ((RowKey N F × ColKey N) × Cell N F) → Option (List ((RowKey N F × ColKey N) × Cell N F))
  | [], cells => some cells
  | x :: xs, cells =>
    match cellsOf root st x with
    | none => none
    | some calls => match setCells rows cols cells calls with
      | none => none
      | some cells' => tableLoop root st rows cols xs cells'

/-- `content_for_rowcol_` as `print_hierarchy` fills it (records.py:406-474) for a schema right below the root; `n` is fuel for the depth
of the traversals. -/
def table (root : N) (st : Schemas N F) (n : Nat) (top : N) : Option (List ((RowKey N F × ColKey N) × Cell N F)) :=
  tableLoop root st (rowKeys st (depth st n top) (preorder st n top)) (colKeys (preorder st n top)) (preorder st n top) []

/-! ## The relation of the program -/

/-- `TC_SCHEMA_NAME_FOR_ROOT_SCHEMA` (records.py:296) -/
def rootName : String := "Empty Record"

/-- `sub_to_super_relation.get(tc_schema_name, TC_SCHEMA_NAME_FOR_ROOT_SCHEMA)` (records.py:184, 199-224). -/
def subToSuper (x : String) : String :=
  if x = "Declarative Environment Record" then "Environment Record"
  else if x = "Object Environment Record" then "Environment Record"
  else if x = "Global Environment Record" then "Environment Record"
  else if x = "Function Environment Record" then "Declarative Environment Record"
  else if x = "Module Environment Record" then "Declarative Environment Record"
  else if x = "Synthetic Module Record" then "Module Record"
  else if x = "Cyclic Module Record" then "Module Record"
  else if x = "Source Text Module Record" then "Cyclic Module Record"
  else rootName

end Verif.Records
