import Verif.Early.Model
/-!
# Specification of the traversal for early errors

Everything is said relative to one fixed map `K` that tells which nodes have been found to cover something, and what.
-/
namespace Verif.Early

section
variable {P E : Type}

/-- Which nodes cover something: `some (some t)` if the tree `t`, `some none` if it should but does not. -/
abbrev Covering (P : Type) := Nat → Option (Option (Tree P))

mutual
/-- The nodes of a tree to which rules apply, in preorder: in place of a node that covers a tree, those of that tree; nothing in place of a node that
should cover something but does not. -/
inductive Nodes (K : Covering P) : Tree P → List (Tree P) → Prop
  | leaf : Nodes K .leaf []
  | covers {i s p ts u ns} : K i = some (some u) → Nodes K u ns → Nodes K (.node i s p ts) ns
  | shouldCover {i s p ts} : K i = some none → Nodes K (.node i s p ts) []
  | plain {i s p ts ns} : K i = none → NodesAll K ts ns → Nodes K (.node i s p ts) (.node i s p ts :: ns)
inductive NodesAll (K : Covering P) : List (Tree P) → List (Tree P) → Prop
  | nil : NodesAll K [] []
  | cons {t ts ms ns} : Nodes K t ms → NodesAll K ts ns → NodesAll K (t :: ts) (ms ++ ns)
end

def Tree.id? : Tree P → List Nat
  | .leaf => []
  | .node i _ _ _ => [i]

/-- The rules for a node, applied to it. -/
def progs (L : Lang P E) : Tree P → List (Prog P E)
  | .leaf => []
  | .node i s p ts => match L.rules p with
    | some rs => rs.map (fun r => r (.node i s p ts))
    | none => []

mutual
/-- The errors that a program reports, and the nodes to which rules are applied for the nested calls it makes. -/
inductive Says (L : Lang P E) (K : Covering P) : Prog P E → List E → List Nat → Prop
  | done : Says L K .done [] []
  | report {e k es vs} : Says L K k es vs → Says L K (.report e k) (e :: es) vs
  | cover {i nt k a es vs} : K i = some a → Says L K (k a) es vs → Says L K (.cover i nt k) es vs
  | nested {t k es vs es' vs'} : Whole L K t es vs → Says L K (k es) es' vs' → Says L K (.nested t k) es' (vs ++ vs')
/-- The same for several programs, one after the other. -/
inductive SaysAll (L : Lang P E) (K : Covering P) : List (Prog P E) → List E → List Nat → Prop
  | nil : SaysAll L K [] [] []
  | cons {p ps es vs es' vs'} : Says L K p es vs → SaysAll L K ps es' vs' → SaysAll L K (p :: ps) (es ++ es') (vs ++ vs')
/-- The same for the rules for several nodes. -/
inductive AtNodes (L : Lang P E) (K : Covering P) : List (Tree P) → List E → List Nat → Prop
  | nil : AtNodes L K [] [] []
  | cons {t ts es vs es' vs'} : SaysAll L K (progs L t) es vs → AtNodes L K ts es' vs' → AtNodes L K (t :: ts) (es ++ es') (t.id? ++ vs ++ vs')
/-- The early errors of a tree: those of the rules for its nodes, in preorder. -/
inductive Whole (L : Lang P E) (K : Covering P) : Tree P → List E → List Nat → Prop
  | mk {t ns es vs} : Nodes K t ns → AtNodes L K ns es vs → Whole L K t es vs
end

mutual
/-- The identities in a tree. -/
def ids : Tree P → List Nat
  | .leaf => []
  | .node i _ _ ts => i :: idsAll ts
def idsAll : List (Tree P) → List Nat
  | [] => []
  | t :: ts => ids t ++ idsAll ts
end

/-- The identities of the tree that a node covers. -/
def idsOf (a : Option (Tree P)) : List Nat := (a.map ids).getD []

/-- All nodes are different objects: those of the tree, and those of the trees that nodes cover, which are newer than the node. -/
structure Distinct (t : Tree P) (c : List (Nat × Option (Tree P))) : Prop where
  nodup : (ids t ++ c.flatMap (fun p => idsOf p.2)).Nodup
  keys : (c.map (·.1)).Nodup
  newer : ∀ p ∈ c, ∀ j ∈ idsOf p.2, p.1 < j

/-! ### When the traversal completes -/

/-- What a rule may do: a thing that is parsed for a nonterminal is of that nonterminal, and the errors asked for are those of a Pattern, which `nest` accepts. -/
def Allowed (L : Lang P E) (nest : Tree P → Prop) : Prog P E → Prop
  | .done => True
  | .report _ k => Allowed L nest k
  | .cover i nt k => (∀ u, L.parse i nt = some u → u.sym? = some nt) ∧ ∀ a, Allowed L nest (k a)
  | .nested t k => t.sym? = some "Pattern" ∧ nest t ∧ ∀ es, Allowed L nest (k es)

/-- A tree that is finite even if in place of a node one looks at a tree it can be parsed as, and whose rules are allowed. -/
inductive Finite (L : Lang P E) (nest : Tree P → Prop) : Tree P → Prop
  | leaf : Finite L nest .leaf
  | node {i s p ts} : (∀ t ∈ ts, Finite L nest t) → (∀ nt u, L.parse i nt = some u → Finite L nest u) →
      (∀ q ∈ progs L (.node i s p ts), Allowed L nest q) → Finite L nest (.node i s p ts)

/-- What is remembered as covered has been parsed. -/
def Parsed (L : Lang P E) (c : List (Nat × Option (Tree P))) : Prop := ∀ i u, lookup c i = some (some u) → ∃ nt, L.parse i nt = some u

end
end Verif.Early
