import Verif.Trees.Model
/-!
# What can be printed without loss (C95)
-/
namespace Verif.Trees

mutual
/-- No text of a node has a line break in it, and none is the text that is printed for `None`. -/
def Plain : Tree → Prop
  | .nothing => True
  | .node s cs cov => '\n' ∉ s ∧ s ≠ "(nothing)".toList ∧ PlainAll cs ∧ PlainCov cov
def PlainAll : List Tree → Prop
  | [] => True
  | c :: cs => Plain c ∧ PlainAll cs
def PlainCov : Option Tree → Prop
  | none => True
  | some c => Plain c
end

mutual
/-- The number of nodes, and one more for each covered thing. -/
def size : Tree → Nat
  | .nothing => 1
  | .node _ cs cov => 1 + sizeAll cs + sizeCov cov
def sizeAll : List Tree → Nat
  | [] => 0
  | c :: cs => size c + sizeAll cs
def sizeCov : Option Tree → Nat
  | none => 0
  | some c => 1 + size c
end

end Verif.Trees
