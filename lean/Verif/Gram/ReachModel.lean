import Verif.Common
/-!
# Model of two reachability checks

`check_reachability` (emu_grammars.py:737-805), a worklist, and `reach_op` (Pseudocode.py:908-922), a depth-first
search.
-/
namespace Verif.Gram

/-- The items of a right-hand side, as `check_reachability` tells them apart (emu_grammars.py:771-799). -/
inductive RItem (S : Type) where
  /-- `GNT` -/
  | gnt (s : S)
  /-- `RHS_SYMBOL_QM` of a `GNT` or of something else -/
  | qm (s : Option S)
  /-- `BUT_NOT`, with its excludables: nonterminals or others -/
  | butNot (ss : List (Option S))
  /-- `LAC_SET`, with an operand that is a nonterminal or a set -/
  | lacSet (s : Option S)
  /-- `BACKTICKED_THING`, `NAMED_CHAR`, `LAC_SINGLE`, `BUT_ONLY`, `PARAMS`, `U_RANGE`, `U_PROP`, `U_ANY` -/
  | quiet
  /-- anything else (`NLTH`, `LABEL`): the assertion fails -/
  | other
deriving DecidableEq, Repr

/-- What a symbol stands for: none if there is no definition in the main text (`KeyError` at
emu_grammars.py:767-768), else the right-hand sides. -/
abbrev RGrammar (S : Type) := S → Option (List (List (RItem S)))

/-- How a search ends. -/
inductive SearchErr where
  /-- `KeyError` or `AssertionError` -/
  | crash
  /-- the fuel of the model has run out -/
  | fuel
deriving DecidableEq, Repr

variable {S : Type} [DecidableEq S]

/-- `queue` and `lexical_symbols`, the latter in the order of discovery, latest first. -/
structure RState (S : Type) where
  queue : List S
  reached : List S
deriving Repr

/-- `reach` (emu_grammars.py:742-751). -/
def reach (st : RState S) (s : S) : RState S :=
  if s ∈ st.reached then st
  else ⟨if s ∈ st.queue then st.queue else st.queue ++ [s], s :: st.reached⟩

/-- The symbols that an item reaches (emu_grammars.py:771-799); none if the assertion fails. -/
def itemTargets : RItem S → Option (List S)
  | .gnt s => some [s]
  | .qm s => some s.toList
  | .butNot ss => some (ss.filterMap id)
  | .lacSet s => some s.toList
  | .quiet => some []
  | .other => none

/-- The loop over the items (emu_grammars.py:770-799). -/
def reachItems (st : RState S) : List (RItem S) → Option (RState S)
  | [] => some st
  | it :: its =>
    match itemTargets it with
    | none => none
    | some ss => reachItems (ss.foldl reach st) its

/-- The main loop (emu_grammars.py:765-799); the second argument is fuel. -/
def reachLoop (G : RGrammar S) : Nat → RState S → Except SearchErr (RState S)
  | 0, _ => .error .fuel
  | n + 1, st =>
    match st.queue with
    | [] => .ok st
    | s :: q =>
      match G s with
      | none => .error .crash
      | some rhss =>
        match reachItems { st with queue := q } rhss.flatten with
        | none => .error .crash
        | some st' => reachLoop G n st'

/-- `check_reachability` as far as the loop (emu_grammars.py:739-799); `roots` are the symbols of 753-763. -/
def lexicalSymbols (G : RGrammar S) (n : Nat) (roots : List S) : Except SearchErr (List S) :=
  match reachLoop G n (roots.foldl reach ⟨[], []⟩) with
  | .error x => .error x
  | .ok st => .ok st.reached

/-- The report (emu_grammars.py:803-805); `nts` are the defined nonterminals in order, with `num_colons`. -/
def notReached (lexical : List S) (nts : List (S × Nat)) : List S :=
  (nts.filter (fun x => x.2 != 1 && !decide (x.1 ∈ lexical))).map (·.1)

/-! ## Operations -/

/-- `_reached` marks and `op_names_with_no_info`. -/
structure OState (S : Type) where
  reached : List S
  unknown : List S
deriving Repr

/-- The loop over the callees; stops when the fuel has run out. -/
def eachOp (visit : OState S → S → Option (OState S)) : OState S → List S → Option (OState S)
  | st, [] => some st
  | st, s :: ss =>
    match visit st s with
    | none => none
    | some st' => eachOp visit st' ss

/-- `reach_op` (Pseudocode.py:910-922); the second argument is fuel for the depth of the recursion.  `callees` is none for an operation without an entry in
`spec.alg_info_['op']`. -/
def reachOp (callees : S → Option (List S)) : Nat → OState S → S → Option (OState S)
  | 0, _, _ => none
  | n + 1, st, s =>
    if s ∈ st.unknown then some st
    else match callees s with
      | none => some { st with unknown := s :: st.unknown }
      | some cs =>
        if s ∈ st.reached then some st
        else eachOp (reachOp callees n) { st with reached := s :: st.reached } cs

/-- The calls of `reach_op` (Pseudocode.py:924-952), in order. -/
def reachAll (callees : S → Option (List S)) (n : Nat) (roots : List S) : Option (OState S) :=
  eachOp (reachOp callees n) ⟨[], []⟩ roots

end Verif.Gram
