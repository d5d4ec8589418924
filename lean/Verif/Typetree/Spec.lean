import Verif.Typetree.Model
/-!
# Where a name stands in a tree (C104)
-/
namespace Verif.Typetree

/-- `At skip ts path n`: going down from the trees `ts` along the names in `path`, none of which is passed over, one comes to `n`, which is not passed over either. -/
inductive At (skip : Str → Bool) : List Tree → List Str → Str → Prop where
  | here {ts n subs} : Tree.node n subs ∈ ts → skip n = false → At skip ts [] n
  | down {ts m subs path n} : Tree.node m subs ∈ ts → skip m = false → At skip subs path n → At skip ts (m :: path) n

mutual
/-- The names that are not passed over, as often as they occur. -/
def occur (skip : Str → Bool) : Tree → List Str
  | .node n subs => if skip n then [] else n :: occurs skip subs
def occurs (skip : Str → Bool) : List Tree → List Str
  | [] => []
  | t :: ts => occur skip t ++ occurs skip ts
end

/-- Nothing is passed over. -/
def noSkip : Str → Bool := fun _ => false

/-- Completion Records are passed over. -/
def skipCompletion : Str → Bool := fun n => n == "Completion Record".toList

end Verif.Typetree
