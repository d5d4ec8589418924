import Verif.Heads.Model
import Verif.Sdo.Spec
import Verif.Uses.Spec
/-!
# What headings and conditions with productions mean (C58)

A production in a heading means the nodes that are instances of it.  `Verif.Defs.Spec` says what is defined in the document, `Verif.Uses.Spec` how a production is laid against a
definition, and `Verif.Sdo.Spec` what the parse trees of a grammar are.
-/
namespace Verif.Heads.Spec

open Verif.Heads
open Verif.Sdo (Tree label OnlyBelow)
open Verif.Defs (Str Block Arena)
open Verif.Defs.Spec (IsArena Defines FinalRhss)
open Verif.Uses (Element)
open Verif.Uses.Spec (Match treatment Each IsRhs)
open Verif.Gram (Item BitsOk)

/-- The right-hand sides that the main body defines for `s`. -/
def MainDef (doc : List Block) (s : Str) (rhss : List (List Item)) : Prop :=
  ∃ i p rs, Defines doc i .A s p ∧ FinalRhss doc i rs ∧ Each IsRhs rs rhss

/-- The element shows the right-hand side `its` of `s`, with the optional symbols as the bits say: `1` if it is there, `0` if not. -/
def Shows (el : Element) (s : Str) (its : List Item) (bits : List Char) : Prop :=
  ∃ p ∈ el.prods, p.lhs.name = s ∧ ∃ r ∈ p.rhss, ∃ us st, IsRhs r us ∧ Match us its st ∧ BitsOk (st.filterMap treatment) bits

/-- The node is an instance of a production of the element. -/
def Instance (doc : List Block) (el : Element) (u : Tree) : Prop :=
  ∃ s rhss its bits cs, u = .node s (label its) bits cs ∧ MainDef doc s rhss ∧ its ∈ rhss ∧ Shows el s its bits

/-- The productions of the element are those of the main body. -/
def Main (doc : List Block) (el : Element) : Prop :=
  ∀ p ∈ el.prods, ∀ a, IsArena el.sec a → a = .A ∨ ¬∃ i q, Defines doc i a p.lhs.name q

/-- The node is an instance of one of the productions in the heading. -/
def IsFor (doc : List Block) : Head → Tree → Prop
  | .default, _ => False
  | .uses els, u => ∃ el ∈ els, Instance doc el u

/-- `v` is on the chain of only nonterminals from `t`, and no definition is for a node before it. -/
inductive Chain {R : Type} (doc : List Block) (heads : List (R × Head)) : Tree → Tree → Prop
  | here (t) : Chain doc heads t t
  | next {t u v} : (∀ h ∈ heads, ¬IsFor doc h.2 t) → OnlyBelow t u → Chain doc heads u v → Chain doc heads t v

/-- `v` is `t`, or the only child of … of the only child of `t`. -/
inductive UnitTo : Tree → Tree → Prop
  | here (t) : UnitTo t t
  | next {s r b c v} : UnitTo c v → UnitTo (.node s r b [c]) v

/-- `u` is the nearest node with `P` among `t`, its only child, the only child of that, … -/
def Nearest (P : Tree → Prop) (t u : Tree) : Prop := UnitTo t u ∧ P u ∧ ∀ v, UnitTo t v → P v → UnitTo u v

/-- The node at a place in a tree; a place is a list of positions among children, from the root on. -/
def nodeAt : Tree → List Nat → Option Tree
  | t, [] => some t
  | .leaf, _ :: _ => none
  | .node _ _ _ cs, i :: p => match cs[i]? with
    | none => none
    | some c => nodeAt c p

/-- There are `n` places with `P` in the tree. -/
def Number (P : Tree → Prop) (t : Tree) (n : Nat) : Prop :=
  ∃ ps : List (List Nat), ps.Nodup ∧ ps.length = n ∧ ∀ p, p ∈ ps ↔ ∃ u, nodeAt t p = some u ∧ P u

/-- The node is for the nonterminal `n`. -/
def IsA (n : Str) (u : Tree) : Prop := ∃ r b cs, u = .node n r b cs

end Verif.Heads.Spec
