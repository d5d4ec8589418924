import Verif.Sdo.Model
import Verif.Uses.Model
/-!
# Model of what headings and conditions with productions are taken for

The grammar that the coverage of operations is computed from (Pseudocode.py:1510-1515), the keys of the definitions of an operation (Section.py:381-382, 532-541, 603-607,
Pseudocode.py:1334-1346), and the conditions and expressions about parse nodes in pseudocode (pseudocode_semantics.py:4571-4628, 4795-4806, es_parser.py:2073-2105).  The table
of nonterminals is that of C55, the keys of an `<emu-grammar>` are those of C56, and parse nodes are those of C48.
-/
namespace Verif.Heads

open Verif.Sdo (Puk Tree NtDef)
open Verif.Defs (Str Table)
open Verif.Uses (Element)

/-- `info_for_nt_[nt]`, `'A' in nt_info.def_occs` and `nt_info.def_occs['A'].gnode._rhss` (Pseudocode.py:1510-1515), with the items of the right-hand sides. -/
def grammarA (t : Table) (n : Str) : NtDef :=
  match t.lookup n with
  | none => .unknown
  | some info => match info.occs.lookup .A with
    | none => .noMain
    | some d => .main (d.prod.rhss.map Uses.itemsOf)

/-- The members of a list, each once, as in a `set`; the order has no meaning. -/
def setOf {α : Type} [DecidableEq α] : List α → List α
  | [] => []
  | x :: xs => if x ∈ xs then setOf xs else x :: setOf xs

/-- `puk = (lhs, reduced, optbits)` (emu_grammars.py:1149-1150). -/
def toPuk (p : Uses.Puk) : Puk := ⟨p.1, p.2.1, p.2.2⟩

/-- `emu_grammar.puk_set` (emu_grammars.py:922, 1151). -/
def elementKeys (t : Table) (el : Element) : Option (List Puk) :=
  (Uses.checkElement t el).map (fun rs => setOf ((Uses.pukSet rs).map toPuk))

/-- What a definition of an operation is for: any node without a definition of its own, or the productions of some elements.  Most have one element
(Section.py:381-382, 532-541), inline definitions have several (Section.py:603-607). -/
inductive Head where
  | default
  | uses (els : List Element)

/-- `get_puk_set` (Section.py:381-382, 532-541, 603-607). -/
def headKeys (t : Table) : Head → Option (List Puk)
  | .default => some [Sdo.defaultPuk]
  | .uses els => (els.mapM (elementKeys t)).map (fun kss => setOf kss.flatten)

/-- The definitions of an operation with their keys (Pseudocode.py:1334-1346). -/
def rules {R : Type} (t : Table) (heads : List (R × Head)) : Option (List (R × List Puk)) :=
  heads.mapM (fun h => (headKeys t h.2).map (fun ks => (h.1, ks)))

/-! ## Conditions -/

/-- `pnode.puk in puk_set` (pseudocode_semantics.py:4577); none if the node is a terminal, which has no `puk`.  The effect on the focus map is left out. -/
def isOne (ks : List Puk) : Tree → Option Bool
  | .leaf => none
  | .node s r b _ => some (decide (⟨s, r, b⟩ ∈ ks))

mutual
/-- `pnode_unit_derives_a_node_with_puk` (pseudocode_semantics.py:4611-4628): the loop, as recursion. -/
def unitKey (ks : List Puk) : Tree → Option Tree
  | .leaf => none
  | .node s r b cs => if ⟨s, r, b⟩ ∈ ks then some (.node s r b cs) else unitKeys ks cs

/-- `[descendant] = descendant.children`, or `return None` (pseudocode_semantics.py:4626-4628). -/
def unitKeys (ks : List Puk) : List Tree → Option Tree
  | [] => none
  | [c] => unitKey ks c
  | _ :: _ :: _ => none
end

/-- `any(pnode_unit_derives_a_node_with_puk(pnode, …) for h_emu_grammar in h_emu_grammar_)` (pseudocode_semantics.py:4605-4608). -/
def isAny (kss : List (List Puk)) (t : Tree) : Bool := kss.any (fun ks => (unitKey ks t).isSome)

mutual
/-- `preorder_traverse` (es_parser.py:2103-2106). -/
def preorder : Tree → List Tree
  | .leaf => [.leaf]
  | .node s r b cs => .node s r b cs :: preorders cs

/-- `for child in self.children: yield from …` (es_parser.py:2105-2106). -/
def preorders : List Tree → List Tree
  | [] => []
  | c :: cs => preorder c ++ preorders cs
end

/-- `not descendant.is_terminal and descendant.puk in puk_set` (pseudocode_semantics.py:4804). -/
def hasKey (ks : List Puk) : Tree → Bool
  | .leaf => false
  | .node s r b _ => decide (⟨s, r, b⟩ ∈ ks)

/-- "the number of … Parse Nodes contained within" (pseudocode_semantics.py:4798-4806). -/
def countKeys (ks : List Puk) (t : Tree) : Nat := (preorder t).foldl (fun n u => if hasKey ks u then n + 1 else n) 0

mutual
/-- `contains_a` for the name of a nonterminal, which no terminal has as its symbol (es_parser.py:2074-2079). -/
def containsA (n : Str) : Tree → Bool
  | .leaf => false
  | .node s _ _ cs => s = n || containsAny n cs

/-- `any(child.contains_a(symbol) for child in self.children)` (es_parser.py:2078). -/
def containsAny (n : Str) : List Tree → Bool
  | [] => false
  | c :: cs => containsA n c || containsAny n cs
end

mutual
/-- `unit_derives_a` for the name of a nonterminal (es_parser.py:2081-2088). -/
def unitA (n : Str) : Tree → Option Tree
  | .leaf => none
  | .node s r b cs => if s = n then some (.node s r b cs) else unitAs n cs

/-- `[child] = self.children`, or `return None` (es_parser.py:2084-2088). -/
def unitAs (n : Str) : List Tree → Option Tree
  | [] => none
  | [c] => unitA n c
  | _ :: _ :: _ => none
end

end Verif.Heads
