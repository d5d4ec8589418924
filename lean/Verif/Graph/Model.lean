/-!
# Model of `Graph.py`

A vertex type `V` with decidable equality.  Python iterates sets in an unspecified order, so
a graph is given to the algorithms as *some* enumeration of the vertex set and, for every
vertex, *some* enumeration of the set of arcs from it; the theorems hold for every such
enumeration.  A failed assertion or an exception is `none`.  Python's recursion limit is not
modelled.
-/
namespace Verif.Graph
variable {V : Type} [DecidableEq V]

/-- The two building calls (Graph.py:17-23). -/
inductive Op (V : Type) where
  | addVertex (v : V)
  | addArc (src dst : V)
deriving Repr

/-- `Graph` after `__init__` (Graph.py:12-15): the two sets, as lists without repetitions. -/
structure G (V : Type) where
  vertices : List V
  arcs : List (V × V)

/-- `set.add`. -/
def setAdd {α} [DecidableEq α] (s : List α) (a : α) : List α := if a ∈ s then s else s ++ [a]

/-- `add_vertex` / `add_arc` (Graph.py:17-23). -/
def G.step (g : G V) : Op V → G V
  | .addVertex v => { g with vertices := setAdd g.vertices v }
  | .addArc a b => ⟨setAdd (setAdd g.vertices a) b, setAdd g.arcs (a, b)⟩

/-- A graph built by a sequence of calls. -/
def build (ops : List (Op V)) : G V := ops.foldl G.step ⟨[], []⟩

/-- The mutable state of `find_strongly_connected_components` (Graph.py:67-80, 131-138):
`pre` is `preorder_number_of_`, `cl` is `cluster_for_` (as an index into `cluster_`), `S` and
`P` are the stacks (top first), `C` the counter, `clusters` the member lists of `cluster_`. -/
structure St (V : Type) where
  pre : V → Option Nat
  cl : V → Option Nat
  S : List V
  P : List V
  C : Nat
  clusters : List (List V)

/-- The initial state.  Simplification: `cluster_` is empty, i.e. this is the first graph of
the process (the code never empties the global `cluster_`; it is used once). -/
def St.init : St V := ⟨fun _ => none, fun _ => none, [], [], 0, []⟩

/-- `while preorder[P[-1]] > preorder[w]: P.pop()` (Graph.py:105-106). -/
def popTo (pre : V → Option Nat) (w : V) : List V → Option (List V)
  | [] => none
  | p :: ps =>
    match pre p, pre w with
    | some a, some b => if a > b then popTo pre w ps else some (p :: ps)
    | _, _ => none

/-- Popping `S` until `v` has been popped (Graph.py:113-119): the popped vertices, in order,
and the rest. -/
def popScc (v : V) : List V → Option (List V × List V)
  | [] => none
  | w :: ws =>
    if w = v then some ([w], ws)
    else match popScc v ws with
      | some (m, r) => some (w :: m, r)
      | none => none

/-- Step 4 of `rec_search` (Graph.py:109-123). -/
def finish (v : V) (st : St V) : Option (St V) :=
  match st.P with
  | [] => none
  | p :: ps =>
    if p = v then
      match popScc v st.S with
      | none => none
      | some (m, r) =>
        if m.all (fun w => (st.cl w).isNone) then
          some { st with
            S := r, P := ps,
            cl := fun x => if x ∈ m then some st.clusters.length else st.cl x,
            clusters := st.clusters ++ [m] }
        else none
    else some st

/-- The body of the loop over the arcs from `v` (Graph.py:95-106); `rec` is the recursive
call. -/
def scanArc (rec : V → St V → Option (St V)) (st : St V) (w : V) : Option (St V) :=
  match st.pre w with
  | none => rec w st
  | some _ =>
    if w ∈ st.S then
      match popTo st.pre w st.P with
      | some ps => some { st with P := ps }
      | none => none
    else some st

/-- `rec_search` (Graph.py:82-123), with fuel bounding the recursion depth. -/
def search (verts : List V) (succ : V → List V) : Nat → V → St V → Option (St V)
  | 0, _, _ => none
  | n + 1, v, st =>
    if v ∈ verts ∧ st.pre v = none then
      match (succ v).foldlM (scanArc (search verts succ n))
          { st with pre := fun x => if x = v then some st.C else st.pre x,
                    C := st.C + 1, S := v :: st.S, P := v :: st.P } with
      | some st2 => finish v st2
      | none => none
    else none

/-- `find_strongly_connected_components` (Graph.py:63-127). -/
def findSccs (verts : List V) (succ : V → List V) : Option (St V) :=
  verts.foldlM (fun st v => match st.pre v with
    | none => search verts succ verts.length v st
    | some _ => some st) St.init

/-! ## Dependency levels -/

/-- A cluster after `compute_dependency_levels` has filled it in (Graph.py:36-53). -/
structure Cluster (V : Type) where
  members : List V
  cyclic : Bool
  prereqs : List Nat
deriving Repr

/-- The inner double loop of Graph.py:42-50 for cluster `i`; `cluster_for_[p]` raises KeyError
for an unassigned `p`. -/
def scanDeps (cl : V → Option Nat) (succ : V → List V) (i : Nat) (members : List V) :
    Option (Bool × List Nat) :=
  (members.flatMap succ).foldlM (fun (s : Bool × List Nat) p =>
    match cl p with
    | none => none
    | some j => if j = i then some (true, s.2) else some (s.1, if j ∈ s.2 then s.2 else s.2 ++ [j]))
    (false, [])

/-- The part of `compute_dependency_levels` before the levels (Graph.py:36-54), including the
assertion that a cluster with several members contains a cycle.  `le` is the order used by
`members.sort()`. -/
def fillClusters (le : V → V → Bool) (succ : V → List V) (cl : V → Option Nat)
    (cs : List (List V)) : Option (List (Cluster V)) :=
  (cs.zipIdx).mapM (fun (m, i) =>
    let m := m.mergeSort le
    match scanDeps cl succ i m with
    | none => none
    | some (cyc, pre) => if m.length > 1 ∧ cyc = false then none else some ⟨m, cyc, pre⟩)

/-- State of `establish_dependency_levels` (Graph.py:142-177): the `level` attributes of the
clusters handled so far, in order, and the list `levels`. -/
structure LevelSt where
  levelOf : List Nat
  levels : List (List Nat)

/-- The level computed by `get_level_of_cluster` (Graph.py:151-158).  The function returns
None, not the level, when it has just computed it, so a prerequisite without a `level`
attribute makes `max`/`1 +` raise TypeError: `none` here. -/
def levelFor (levelOf : List Nat) : List Nat → Option Nat
  | [] => some 0
  | p :: ps => match (p :: ps).mapM (fun j => levelOf[j]?) with
    | some ls => some (1 + ls.foldl max 0)
    | none => none

/-- `get_level_of_cluster` for the next cluster (Graph.py:147-167). -/
def levelStep (st : LevelSt) (prereqs : List Nat) : Option LevelSt :=
  let i := st.levelOf.length
  match levelFor st.levelOf prereqs with
  | none => none
  | some level =>
    if level < st.levels.length then
      some ⟨st.levelOf ++ [level], st.levels.modify level (· ++ [i])⟩
    else if level = st.levels.length then
      some ⟨st.levelOf ++ [level], st.levels ++ [[i]]⟩
    else none

/-- The comparison `key = lambda cluster: cluster.members[0]` (Graph.py:175); `members[0]`
would raise for an empty cluster; there is none, see `c06_clusters_exact`, so the `none` cases
are never used. -/
def firstLe (le : V → V → Bool) (cs : List (Cluster V)) (i j : Nat) : Bool :=
  match (cs[i]?).bind (·.members.head?), (cs[j]?).bind (·.members.head?) with
  | some a, some b => le a b
  | none, _ => true
  | some _, none => false

/-- `establish_dependency_levels` (Graph.py:142-177); clusters are identified by index, and
each level is sorted by first member. -/
def establishLevels (le : V → V → Bool) (cs : List (Cluster V)) : Option (List (List Nat)) :=
  match cs.foldlM (fun st c => levelStep st c.prereqs) ⟨[], []⟩ with
  | none => none
  | some st => some (st.levels.map (fun l => l.mergeSort (firstLe le cs)))

/-- `compute_dependency_levels` (Graph.py:30-59): the filled-in clusters and the levels. -/
def computeDependencyLevels (le : V → V → Bool) (verts : List V) (succ : V → List V) :
    Option (List (Cluster V) × List (List Nat)) :=
  match findSccs verts succ with
  | none => none
  | some st =>
    match fillClusters le succ st.cl st.clusters with
    | none => none
    | some cs =>
      match establishLevels le cs with
      | none => none
      | some ls => some (cs, ls)

end Verif.Graph
