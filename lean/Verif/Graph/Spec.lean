import Verif.Common
import Verif.Graph.Model
/-! # Specification for `Graph.py`: reachability and enumerations -/
namespace Verif.Graph
variable {V : Type}

/-- The vertices mentioned by the building calls. -/
def IsVertex (ops : List (Op V)) (v : V) : Prop :=
  .addVertex v ∈ ops ∨ (∃ w, .addArc v w ∈ ops) ∨ (∃ w, .addArc w v ∈ ops)

/-- The arcs mentioned by the building calls. -/
def IsArc (ops : List (Op V)) (a b : V) : Prop := .addArc a b ∈ ops

/-- `b` can be reached from `a`. -/
def Reaches (ops : List (Op V)) : V → V → Prop := Star (IsArc ops)

/-- `verts` and `succ` are the orders in which Python happens to iterate over the graph's
sets: each element exactly once. -/
structure IterationOrder (g : G V) (verts : List V) (succ : V → List V) : Prop where
  verts_nodup : verts.Nodup
  verts_mem : ∀ v, v ∈ verts ↔ v ∈ g.vertices
  succ_nodup : ∀ v, (succ v).Nodup
  succ_mem : ∀ v w, w ∈ succ v ↔ (v, w) ∈ g.arcs

end Verif.Graph
