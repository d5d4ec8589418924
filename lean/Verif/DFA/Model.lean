/-!
# Model of `DFA.py`

Items and symbols are abstract types with decidable equality and the orders Python's `sorted`
uses.  `trans i` is the list of pairs that `item.each_transition()` yields (a symbol of `none` is
an epsilon transition).
-/
namespace Verif.DFA

variable {I S : Type} [DecidableEq I] [DecidableEq S]

/-- Insert into a sorted list, before the first element that is not smaller. -/
def insertSorted {α : Type} (le : α → α → Bool) (x : α) : List α → List α
  | [] => [x]
  | y :: ys => if le x y then x :: y :: ys else y :: insertSorted le x ys

/-- Python's `sorted` (stable sort), used at DFA.py:36 and 89. -/
def sorted {α : Type} (le : α → α → Bool) : List α → List α
  | [] => []
  | x :: xs => insertSorted le x (sorted le xs)

/-- The fields that `_close` works on (DFA.py:66-73). -/
structure Clo (I S : Type) where
  items : List I
  unproc : List I
  finals : List I
  titems : List (S × List I)

/-- `_include_item` (DFA.py:95-99). -/
def includeItem (c : Clo I S) (i : I) : Clo I S :=
  if i ∈ c.items then c else { c with items := c.items ++ [i], unproc := c.unproc ++ [i] }

/-- `self.transition_items[symbol].append(next_item)` on a `defaultdict(list)` (DFA.py:73, 84). -/
def addT : List (S × List I) → S → I → List (S × List I)
  | [], s, i => [(s, [i])]
  | (s', is) :: t, s, i => if s' = s then (s', is ++ [i]) :: t else (s', is) :: addT t s i

/-- The body of the inner loop (DFA.py:79-84). -/
def procTrans (c : Clo I S) : Option S × I → Clo I S
  | (none, j) => includeItem c j
  | (some s, j) => { c with titems := addT c.titems s j }

/-- Processing one item (DFA.py:75-86). -/
def procItem (trans : I → List (Option S × I)) (c : Clo I S) (i : I) : Clo I S :=
  let c1 := (trans i).foldl procTrans c
  if trans i = [] then { c1 with finals := c1.finals ++ [i] } else c1

/-- The `while` loop (DFA.py:74-86); `none` when the fuel runs out. -/
def cloLoop (trans : I → List (Option S × I)) : Nat → Clo I S → Option (Clo I S)
  | fuel, c => match c.unproc with
    | [] => some c
    | i :: rest => match fuel with
      | 0 => none
      | n + 1 => cloLoop trans n (procItem trans { c with unproc := rest } i)

/-- What `_close` establishes in a state (DFA.py:66-91). -/
structure Closed (I S : Type) where
  items : List I
  finals : List I
  transitions : List (S × Nat)
deriving Repr, DecidableEq

/-- `State` (DFA.py:53-59); `info` is set by `_close`. -/
structure State (I S : Type) where
  kernel : List I
  accessor : List S
  number : Nat
  info : Option (Closed I S)
deriving Repr, DecidableEq

/-- `Automaton` (DFA.py:11-33): `state_for_kernel_.values()` and `_open_states` (as numbers). -/
structure Aut (I S : Type) where
  states : List (State I S)
  opens : List Nat
deriving Repr, DecidableEq

/-- How construction can fail to produce an automaton. -/
inductive Err where
  | assertion
  | fuel
deriving Repr, DecidableEq

/-- `_ensure_state_for_kernel` (DFA.py:35-46): the state's number and the updated automaton. -/
def ensure (leI : I → I → Bool) (a : Aut I S) (kernel : List I) (acc : List S) : Except Err (Aut I S × Nat) :=
  let k := sorted leI kernel
  match a.states.find? (fun st => st.kernel = k) with
  | some st => if st.accessor.length ≤ acc.length then .ok (a, st.number) else .error .assertion
  | none =>
    let n := a.states.length
    .ok (⟨a.states ++ [⟨k, acc, n, none⟩], a.opens ++ [n]⟩, n)

/-- The loop that fills `transitions` (DFA.py:88-91). -/
def fillTrans (leI : I → I → Bool) (acc : List S) :
    List (S × List I) → Aut I S → List (S × Nat) → Except Err (Aut I S × List (S × Nat))
  | [], a, trs => .ok (a, trs)
  | (s, is) :: rest, a, trs =>
    match ensure leI a is (acc ++ [s]) with
    | .error e => .error e
    | .ok (a', n) => fillTrans leI acc rest a' (trs ++ [(s, n)])

/-- `_close` (DFA.py:65-93) on state number `n`; `post_close` is not modelled. -/
def closeState (leI : I → I → Bool) (leS : S → S → Bool) (trans : I → List (Option S × I)) (fuel : Nat)
    (a : Aut I S) (st : State I S) : Except Err (Aut I S) :=
  match cloLoop trans fuel (st.kernel.foldl includeItem ⟨[], [], [], []⟩) with
  | none => .error .fuel
  | some c =>
    match fillTrans leI st.accessor (sorted (fun x y => leS x.1 y.1) c.titems) a [] with
    | .error e => .error e
    | .ok (a', trs) =>
      .ok { a' with states := a'.states.modify st.number (fun st => { st with info := some ⟨c.items, c.finals, trs⟩ }) }

/-- The `while` loop of `Automaton.__init__` (DFA.py:30-33).  `shouldClose` is the method
`should_be_closed` (DFA.py:61-63), as a function of the state's kernel. -/
def mainLoop (leI : I → I → Bool) (leS : S → S → Bool) (trans : I → List (Option S × I))
    (shouldClose : List I → Bool) (cfuel : Nat) : Nat → Aut I S → Except Err (Aut I S)
  | fuel, a => match a.opens with
    | [] => .ok a
    | n :: rest => match fuel with
      | 0 => .error .fuel
      | fuel + 1 =>
        let a := { a with opens := rest }
        match a.states[n]? with
        | none => .error .assertion
        | some st =>
          if shouldClose st.kernel then
            match closeState leI leS trans cfuel a st with
            | .error e => .error e
            | .ok a' => mainLoop leI leS trans shouldClose cfuel fuel a'
          else mainLoop leI leS trans shouldClose cfuel fuel a

/-- `Automaton.__init__` (DFA.py:12-33). -/
def build (leI : I → I → Bool) (leS : S → S → Bool) (trans : I → List (Option S × I))
    (shouldClose : List I → Bool) (item0 : I) (cfuel fuel : Nat) : Except Err (Aut I S) :=
  match ensure leI ⟨[], []⟩ [item0] [] with
  | .error e => .error e
  | .ok (a, _) => mainLoop leI leS trans shouldClose cfuel fuel a

end Verif.DFA
