import Verif.Common
/-!
# Model of the matching of right-hand sides (emu_grammars.py:1134-1152, 1222-1356)
-/
namespace Verif.Gram

/-- The kinds of the items of a right-hand side other than nonterminals and `X?`; the first seven are those that a
use may leave out (emu_grammars.py:1349). -/
inductive IKind where
  | PARAMS | LABEL | BUT_ONLY | BUT_NOT | LAC_SINGLE | LAC_SET | NLTH
  | BACKTICKED_THING | NAMED_CHAR | U_RANGE | U_PROP | U_ANY
deriving DecidableEq, Repr

/-- A symbol, or an annotation: a nonterminal with its parameters (`_nt_name`, `_params`), or something else
with its source text. -/
inductive Sym where
  | gnt (name : List Char) (params : List (List Char))
  | other (kind : IKind) (text : List Char)
deriving DecidableEq, Repr

/-- An item of a right-hand side (`_rhs_items`): a symbol or annotation, or `RHS_SYMBOL_QM` (a symbol with `?`). -/
inductive Item where
  | plain (s : Sym)
  | qm (s : Sym)
deriving DecidableEq, Repr

/-- How a use treats an optional symbol (emu_grammars.py:1140). -/
inductive Optionality where
  | omitted | required | either
deriving DecidableEq, Repr

/-- The notes on a match (emu_grammars.py:1223), under their keys; the counters (`L-670` and so on) are left out.
`complaints` are the messages about parameters (1300-1303, 1318-1321), which are given at once. -/
structure Notes where
  optional : List (Sym × Optionality) := []
  argsIntact : List (List Char) := []
  argsSuppressed : List (List Char) := []
  annIntact : List (List Char) := []
  annSuppressed : List (List Char) := []
  complaints : Nat := 0
deriving DecidableEq, Repr

/-- `for (key, val) in note.items(): notes[key].append(val)` (emu_grammars.py:1235, 1242). -/
def Notes.add (a b : Notes) : Notes where
  optional := a.optional ++ b.optional
  argsIntact := a.argsIntact ++ b.argsIntact
  argsSuppressed := a.argsSuppressed ++ b.argsSuppressed
  annIntact := a.annIntact ++ b.annIntact
  annSuppressed := a.annSuppressed ++ b.annSuppressed
  complaints := a.complaints + b.complaints

/-- `u_item_matches_d_item` for items without `?` (emu_grammars.py:1281-1346). -/
def matchSym (u d : Sym) : Option Notes :=
  match u, d with
  | .gnt un up, .gnt dn dp =>
    if un ≠ dn then none
    else if dp ≠ [] then
      if up ≠ [] then some { argsIntact := [un], complaints := if up ≠ dp then 1 else 0 }
      else some { argsSuppressed := [un] }
    else some { complaints := if up ≠ [] then 1 else 0 }
  | .other uk ut, .other dk dt =>
    if uk ≠ dk then none
    else if ut ≠ dt then none
    else if uk = .LAC_SINGLE ∨ uk = .LAC_SET ∨ uk = .NLTH then some { annIntact := [ut] }
    else some {}
  | _, _ => none

/-- `m['optional-symbol'] = …` -/
def withOptional (m : Option Notes) (d : Sym) (o : Optionality) : Option Notes :=
  match m with
  | none => none
  | some n => some { n with optional := [(d, o)] }

/-- `u_item_matches_d_item` (emu_grammars.py:1254-1346). -/
def matchItem (u d : Item) : Option Notes :=
  match d with
  | .qm ds => match u with
    | .qm us => withOptional (matchSym us ds) ds .either
    | .plain us => withOptional (matchSym us ds) ds .required
  | .plain ds => match u with
    | .qm _ => none
    | .plain us => matchSym us ds

/-- `d_item_doesnt_require_a_matching_u_item` (emu_grammars.py:1348-1356). -/
def needless (d : Item) : Option Notes :=
  match d with
  | .plain (.other k t) =>
    match k with
    | .PARAMS | .LABEL | .BUT_ONLY | .BUT_NOT | .LAC_SINGLE | .LAC_SET | .NLTH => some { annSuppressed := [t] }
    | .BACKTICKED_THING | .NAMED_CHAR | .U_RANGE | .U_PROP | .U_ANY => none
  | .plain (.gnt _ _) => none
  | .qm s => some { optional := [(s, .omitted)] }

/-- The loop of `u_rhs_matches_d_rhs_` (emu_grammars.py:1228-1252); `us` is what is left of the use. -/
def matchLoop : List Item → List Item → Notes → Option Notes
  | us, [], notes => match us with
    | [] => some notes
    | _ :: _ => none
  | us, d :: ds, notes =>
    match us with
    | [] => match needless d with
      | some n => matchLoop [] ds (notes.add n)
      | none => none
    | u :: us' => match matchItem u d with
      | some n => matchLoop us' ds (notes.add n)
      | none => match needless d with
        | some n => matchLoop (u :: us') ds (notes.add n)
        | none => none

/-- `u_rhs_matches_d_rhs_` (emu_grammars.py:1222-1252). -/
def matchRhs (us ds : List Item) : Option Notes := matchLoop us ds {}

/-- `each_optbits_covered_by` (emu_grammars.py:1134-1146). -/
def optbits : List (Sym × Optionality) → List (List Char)
  | [] => [[]]
  | (_, o) :: tail =>
    (if o = .omitted ∨ o = .either then (optbits tail).map ('0' :: ·) else []) ++
    (if o = .required ∨ o = .either then (optbits tail).map ('1' :: ·) else [])

end Verif.Gram
