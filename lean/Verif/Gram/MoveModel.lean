import Verif.Common
/-!
# Model of the rearrangement for Annex A (emu_grammars.py:1578-1635)
-/
namespace Verif.Gram
variable {L : Type}

/-- The loop of `span_matching_mark` (emu_grammars.py:1582-1589): `i` is the index of the next line, the last two
arguments are `start_i` and `end_i`. -/
def spanLoop (hit : L → Bool) : List L → Nat → Option Nat → Nat → Option (Nat × Nat)
  | [], _, start, stop => match start with
    | none => none
    | some s => some (s, stop)
  | x :: xs, i, start, stop =>
    if hit x then spanLoop hit xs (i + 1) (some (start.getD i)) (i + 1)
    else spanLoop hit xs (i + 1) start stop

/-- `span_matching_mark` (emu_grammars.py:1580-1590); `hit` is `mark.startswith(mark_to_match)`; none if the
assertion fails. -/
def spanOf (hit : L → Bool) (lines : List L) : Option (Nat × Nat) := spanLoop hit lines 0 none 0

/-- `before_or_after` -/
inductive Where where
  | before | after
deriving DecidableEq, Repr

/-- `dest_i` (emu_grammars.py:1599-1604). -/
def Where.place : Where → Nat → Nat → Nat
  | .before, start, _ => start
  | .after, _, stop => stop

/-- `mov` (emu_grammars.py:1578-1606). -/
def mov (move dest : L → Bool) (w : Where) (lines : List L) : Option (List L) :=
  match spanOf move lines with
  | none => none
  | some (a, b) =>
    let block := (lines.drop a).take (b - a)
    let rest := lines.take a ++ lines.drop b
    match spanOf dest rest with
    | none => none
    | some (c, d) =>
      some (rest.take (w.place c d) ++ block ++ rest.drop (w.place c d))

/-- The loop of `grouped_by_aast` (emu_grammars.py:1622-1635): the current heading and its lines so far. -/
def groupLoop {K : Type} [DecidableEq K] (key : L → K) : List L → Option (K × List L) → List (K × List L)
  | [], cur => match cur with
    | none => []
    | some g => [g]
  | x :: xs, cur =>
    match cur with
    | none => groupLoop key xs (some (key x, [x]))
    | some (k, ls) =>
      if key x ≠ k then (k, ls) :: groupLoop key xs (some (key x, [x]))
      else groupLoop key xs (some (k, ls ++ [x]))

/-- `grouped_by_aast` (emu_grammars.py:1622-1635). -/
def grouped {K : Type} [DecidableEq K] (key : L → K) (lines : List L) : List (K × List L) := groupLoop key lines none

end Verif.Gram
