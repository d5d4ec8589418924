import Verif.Gram.ReachModel
/-! # Reachability -/
namespace Verif.Gram
variable {S : Type}

/-- `Reach next roots s`: there is a path from one of the roots to `s`. -/
inductive Reach (next : S → S → Prop) (roots : List S) : S → Prop
  | root {s} : s ∈ roots → Reach next roots s
  | step {s t} : Reach next roots s → next s t → Reach next roots t

/-- An item mentions a nonterminal: it is it, it is it with `?`, it excludes it, or it looks ahead for it. -/
def Mentions (it : RItem S) (t : S) : Prop :=
  it = .gnt t ∨ it = .qm (some t) ∨ (∃ ss, it = .butNot ss ∧ some t ∈ ss) ∨ it = .lacSet (some t)

/-- A symbol of which the definition mentions another. -/
def Uses (G : RGrammar S) (s t : S) : Prop :=
  ∃ rhss, G s = some rhss ∧ ∃ rhs ∈ rhss, ∃ it ∈ rhs, Mentions it t

/-- A symbol with a definition that can be read: without unexpected items. -/
def Readable (G : RGrammar S) (s : S) : Prop :=
  ∃ rhss, G s = some rhss ∧ ∀ rhs ∈ rhss, RItem.other ∉ rhs

/-- An operation that calls another. -/
def Calls (callees : S → Option (List S)) (s t : S) : Prop := ∃ cs, callees s = some cs ∧ t ∈ cs

end Verif.Gram
