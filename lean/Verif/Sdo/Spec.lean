import Verif.Sdo.Model
/-!
# What it means for a syntax-directed operation to be defined on a parse tree
-/
namespace Verif.Sdo
open Verif.Gram (Sym Item IKind)

variable {R : Type}

/-! ## Definitions and chains -/

/-- The nonterminal and key at the root of a tree. -/
def Tree.puk? : Tree → Option Puk
  | .leaf => none
  | .node s r b _ => some ⟨s, r, b⟩

/-- The definitions that are given for a key, in order. -/
def rulesFor (defs : List (R × List Puk)) (p : Puk) : List R :=
  (defs.filter (fun d => decide (p ∈ d.2))).map (·.1)

/-- The nonterminal nodes directly below a node, where an optional symbol that is present counts as what it stands for. -/
def belows : List Tree → List Tree
  | [] => []
  | .leaf :: cs => belows cs
  | .node s r b gs :: cs => (if s.getLast? = some '?' then gs else [.node s r b gs]) ++ belows cs

/-- `u` is the only thing below `t` other than terminals ("chain production"). -/
def OnlyBelow (t u : Tree) : Prop := ∃ s r b cs, t = .node s r b cs ∧ belows cs = [u]

/-- `u` is on the chain that starts with `t`, and all nodes before it lack a definition. -/
inductive ChainTo (defs : List (R × List Puk)) : Tree → Tree → Prop
  | here (t) : ChainTo defs t t
  | next {t u v p} : t.puk? = some p → rulesFor defs p = [] → OnlyBelow t u → ChainTo defs u v → ChainTo defs t v

/-- Every optional node has at most one child, anywhere in the tree (as in every tree made by the parser). -/
inductive OptOk : Tree → Prop
  | leaf : OptOk .leaf
  | node {s r b cs} : (∀ c ∈ cs, OptOk c) →
      (∀ s' r' b' gs, .node s' r' b' gs ∈ cs → s'.getLast? = some '?' → gs.length ≤ 1) → OptOk (.node s r b cs)

/-! ## Trees of a grammar -/

/-- The text of a right-hand side without parameters, guards, lookaheads and labels. -/
def label (its : List Item) : List Char :=
  [' '].intercalate (its.flatMap (fun it => match it with
    | .plain (.gnt n _) => [n]
    | .qm (.gnt n _) => [n ++ ['?']]
    | .qm (.other _ t) => [t ++ ['?']]
    | .plain (.other k t) =>
      if k ∈ [IKind.BACKTICKED_THING, .NAMED_CHAR, .U_ANY, .U_PROP, .U_RANGE] then [t] else []))

mutual
/-- A tree of the grammar: each node is an instance of a production of the main text. -/
inductive Conf (G : Name → NtDef) : Name → Tree → Prop
  | node {s rhss its bits cs} : G s = .main rhss → its ∈ rhss → Kids G its bits cs →
      Conf G s (.node s (label its) bits cs)

/-- The children of a node for the items of a right-hand side, with the bits that tell which of the optional symbols are there.
Anything that isn't a nonterminal may stand for any number of terminals. -/
inductive Kids (G : Name → NtDef) : List Item → List Char → List Tree → Prop
  | nil : Kids G [] [] []
  | terminals {k t its bits cs} (n : Nat) : Kids G its bits cs →
      Kids G (.plain (.other k t) :: its) bits (List.replicate n .leaf ++ cs)
  | nt {n ps its bits c cs} : Conf G n c → Kids G its bits cs → Kids G (.plain (.gnt n ps) :: its) bits (c :: cs)
  | absentNt {n ps its bits cs} : Kids G its bits cs →
      Kids G (.qm (.gnt n ps) :: its) ('0' :: bits) (.node (n ++ ['?']) [] [] [] :: cs)
  | presentNt {n ps its bits c cs} : Conf G n c → Kids G its bits cs →
      Kids G (.qm (.gnt n ps) :: its) ('1' :: bits) (.node (n ++ ['?']) n [] [c] :: cs)
  | absentTerminal {k t its bits cs} : Kids G its bits cs →
      Kids G (.qm (.other k t) :: its) ('0' :: bits) (.node (t ++ ['?']) [] [] [] :: cs)
  | presentTerminal {k t its bits cs} : Kids G its bits cs →
      Kids G (.qm (.other k t) :: its) ('1' :: bits) (.node (t ++ ['?']) t [] [.leaf] :: cs)
end

/-- What the theorems assume of a grammar: names of nonterminals don't end with a question mark, and only nonterminals
are optional. -/
structure Plain (G : Name → NtDef) : Prop where
  names : ∀ s rhss, G s = .main rhss → s.getLast? ≠ some '?'
  optional : ∀ s rhss its k t, G s = .main rhss → its ∈ rhss → Item.qm (.other k t) ∉ its

/-- The nonterminals of an instance of a right-hand side, when the bits tell which of the optional symbols are there: first
those that are always there. -/
inductive InstanceNts : List Item → List Char → List Name → Prop
  | nil : InstanceNts [] [] []
  | terminal {k t its bits ns} : InstanceNts its bits ns → InstanceNts (.plain (.other k t) :: its) bits ns
  | nt {n ps its bits ns} : InstanceNts its bits ns → InstanceNts (.plain (.gnt n ps) :: its) bits (n :: ns)
  | absent {s its bits ns} : InstanceNts its bits ns → InstanceNts (.qm s :: its) ('0' :: bits) ns
  | presentNt {n ps its bits ns} : InstanceNts its bits ns → InstanceNts (.qm (.gnt n ps) :: its) ('1' :: bits) (n :: ns)
  | presentTerminal {k t its bits ns} : InstanceNts its bits ns → InstanceNts (.qm (.other k t) :: its) ('1' :: bits) ns

/-- `p` is the key of an instance of a production of `s`, and `ns` are the nonterminals of the instance. -/
def KeyOf (G : Name → NtDef) (s : Name) (p : Puk) (ns : List Name) : Prop :=
  ∃ rhss its, G s = .main rhss ∧ its ∈ rhss ∧ p.lhs = s ∧ p.reduced = label its ∧ InstanceNts its p.bits ns

/-- The nonterminals on which the operation has to be defined, if it is invoked on `roots`: those, and those to which one gets by
chain productions that lack a definition and aren't excepted. -/
inductive Needed (G : Name → NtDef) (defs : List (R × List Puk)) (exc : Name → List Char → Bool) (roots : List Name) :
    Name → Prop
  | root {s} : s ∈ roots → Needed G defs exc roots s
  | chain {s p n} : Needed G defs exc roots s → KeyOf G s p [n] → rulesFor defs p = [] → exc p.lhs p.reduced = false →
      Needed G defs exc roots n

end Verif.Sdo
