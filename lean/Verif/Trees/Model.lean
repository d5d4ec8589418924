import Verif.Common
/-!
# Printing a tree

`print_tree` (shared.py), which writes a parse tree with lines that show its structure.
-/
namespace Verif.Trees

abbrev Str := List Char

/-- A node of a parse tree, as far as it is printed: `None`, or what `tree_slug()` gives, the children, and the `covered_thing` if there is one (shared.py:99-100, 115, 119-128). -/
inductive Tree where
  | nothing
  | node (slug : Str) (children : List Tree) (covered : Option Tree)

/-- `bit_for_first_line` (shared.py:104-111). -/
def first (last : Bool) : Str := if last then "'-".toList else "|-".toList

/-- `bit_for_later_lines` (shared.py:104-111). -/
def later (last : Bool) : Str := if last then "  ".toList else "| ".toList

mutual
/-- `recurse` (shared.py:102-130): the lines that are written. -/
def render : Tree → Str → Bool → List Str
  | .nothing, p, last => [p ++ (first last ++ ' ' :: "(nothing)".toList)]
  | .node s cs cov, p, last => (p ++ (first last ++ ' ' :: s)) :: (renderAll cs (p ++ later last ++ [' ']) ++ renderCov cov (p ++ later last))
/-- The loop over the children (shared.py:121-125). -/
def renderAll : List Tree → Str → List Str
  | [], _ => []
  | c :: cs, p => render c p cs.isEmpty ++ renderAll cs p
/-- The covered thing (shared.py:127-130); `q` is the prefix with the bit for later lines. -/
def renderCov : Option Tree → Str → List Str
  | none, _ => []
  | some c, q => (q ++ "COVERS".toList) :: render c (q ++ [' ']) true
end

/-- `print_tree` (shared.py:99-132): what is written to the file. -/
def printTree (root : Tree) (p : Str) : Str := (render root p true).flatMap (· ++ ['\n'])

end Verif.Trees
