import Verif.DFA.Model
/-! # Specification of the automaton, over the items' transitions only -/
namespace Verif.DFA

variable {I S : Type}

/-- `Reached w i`: starting at `item0`, following one transition at a time, reading exactly the
symbols `w` (epsilon transitions read nothing) can end at `i`. -/
inductive Reached (trans : I → List (Option S × I)) (item0 : I) : List S → I → Prop
  | start : Reached trans item0 [] item0
  | eps {w i j} : Reached trans item0 w i → (none, j) ∈ trans i → Reached trans item0 w j
  | sym {w i s j} : Reached trans item0 w i → (some s, j) ∈ trans i → Reached trans item0 (w ++ [s]) j

/-- `Path a w n`: following the automaton's transitions from state 0 along `w` ends at state `n`. -/
inductive Path (a : Aut I S) : List S → Nat → Prop
  | start : Path a [] 0
  | step {w n st c s m} : Path a w n → a.states[n]? = some st → st.info = some c →
      (s, m) ∈ c.transitions → Path a (w ++ [s]) m

/-- A finite set of items that contains the start and is closed under transitions. -/
def FiniteItems (trans : I → List (Option S × I)) (item0 : I) (univ : List I) : Prop :=
  item0 ∈ univ ∧ ∀ i ∈ univ, ∀ s j, (s, j) ∈ trans i → j ∈ univ

end Verif.DFA
