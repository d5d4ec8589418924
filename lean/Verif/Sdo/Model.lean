import Verif.Gram.RhsModel
/-!
# Model of the coverage check and of the dispatch of syntax-directed operations

`check_sdo_coverage` and `analyze_sdo_coverage_info` (Pseudocode.py:1325-1346, 1352-1602),
`execute_sdo_invocation` (pseudocode_semantics.py:6528-6610), the chain productions of parse nodes
(es_parser.py:2033-2051) and `reduce_rhs` (emu_grammars.py:222-264).
-/
namespace Verif.Sdo
open Verif.Gram (Sym Item IKind)

abbrev Name := List Char

/-- A "production use key": nonterminal, reduced right-hand side, option bits (es_parser.py:1980,
Pseudocode.py:1531). -/
structure Puk where
  lhs : Name
  reduced : List Char
  bits : List Char
deriving DecidableEq, Repr

/-! ## Keys of productions -/

/-- What `reduce_rhs` adds to `pieces` for an item (emu_grammars.py:225-260): none if an assertion fails, else at
most one piece. -/
def piece : Item → Option (List (List Char))
  | .plain (.gnt n _) => some [n]
  | .plain (.other k t) =>
    match k with
    | .BACKTICKED_THING | .NAMED_CHAR | .U_ANY | .U_PROP | .U_RANGE => some [t]
    | .BUT_ONLY | .BUT_NOT | .LABEL | .LAC_SET | .LAC_SINGLE | .NLTH | .PARAMS => some []
  | .qm (.gnt n _) => some [n ++ ['?']]
  | .qm (.other k t) =>
    match k with
    | .BACKTICKED_THING | .NAMED_CHAR => some [t ++ ['?']]
    | _ => none

/-- The loop of `reduce_rhs` (emu_grammars.py:224-260). -/
def pieces : List Item → Option (List (List Char))
  | [] => some []
  | it :: its =>
    match piece it with
    | none => none
    | some ps => match pieces its with
      | none => none
      | some qs => some (ps ++ qs)

/-- `' '.join(pieces)` (emu_grammars.py:263). -/
def joinSp : List (List Char) → List Char
  | [] => []
  | [p] => p
  | p :: q :: ps => p ++ ' ' :: joinSp (q :: ps)

/-- `reduce_rhs` (emu_grammars.py:222-264). -/
def reduceRhs (its : List Item) : Option (List Char) :=
  match pieces its with
  | none => none
  | some ps => some (joinSp ps)

/-- `RSQs` (Pseudocode.py:1516). -/
def rsqs : List Item → List Sym
  | [] => []
  | .qm s :: its => s :: rsqs its
  | .plain _ :: its => rsqs its

/-- The names of `nGNTs` (Pseudocode.py:1518, 1553). -/
def plainNts : List Item → List Name
  | [] => []
  | .plain (.gnt n _) :: its => n :: plainNts its
  | .plain (.other _ _) :: its => plainNts its
  | .qm _ :: its => plainNts its

/-- `each_opt_combo` (Pseudocode.py:1574-1599); `false` is 'omitted' and `true` is 'required'.  None if there are more than
three (`assert 0`). -/
def optCombos : List Sym → Option (List (List (Sym × Bool)))
  | [] => some [[]]
  | [a] => some [[(a, false)], [(a, true)]]
  | [a, b] => some [
      [(a, false), (b, false)], [(a, false), (b, true)],
      [(a, true), (b, false)], [(a, true), (b, true)]]
  | [a, b, c] => some [
      [(a, false), (b, false), (c, false)], [(a, false), (b, false), (c, true)],
      [(a, false), (b, true), (c, false)], [(a, false), (b, true), (c, true)],
      [(a, true), (b, false), (c, false)], [(a, true), (b, false), (c, true)],
      [(a, true), (b, true), (c, false)], [(a, true), (b, true), (c, true)]]
  | _ :: _ :: _ :: _ :: _ => none

/-- `optbits` (Pseudocode.py:1523-1529). -/
def comboBits (combo : List (Sym × Bool)) : List Char :=
  combo.map (fun x => if x.2 then '1' else '0')

/-- `required_nts_in` (Pseudocode.py:1601-1602). -/
def requiredNts : List (Sym × Bool) → List Name
  | [] => []
  | (.gnt n _, true) :: c => n :: requiredNts c
  | (.gnt _ _, false) :: c => requiredNts c
  | (.other _ _, _) :: c => requiredNts c

/-! ## The map of coverage -/

variable {R : Type}

/-- One step of Pseudocode.py:1343-1346: `alg_defn` is appended to the list of `puk`, which is made if it isn't there. -/
def addRule (m : List (Puk × List R)) (p : Puk) (d : R) : List (Puk × List R) :=
  match m with
  | [] => [(p, [d])]
  | (q, ds) :: m' => if q = p then (q, ds ++ [d]) :: m' else (q, ds) :: addRule m' p d

/-- `spec.sdo_coverage_map[op_name]` (Pseudocode.py:1334-1346), from the definitions (those outside annex B) with their `puk_set`s. -/
def coverageMap (defs : List (R × List Puk)) : List (Puk × List R) :=
  defs.foldl (fun m d => d.2.foldl (fun m p => addRule m p d.1) m) []

/-- `coverage_info_for_this_sdo.get(puk, [])` (Pseudocode.py:1534). -/
def getRules (m : List (Puk × List R)) (p : Puk) : List R :=
  match m with
  | [] => []
  | (q, ds) :: m' => if q = p then ds else getRules m' p

/-! ## The check -/

/-- `emu_grammars.info_for_nt_[nt]`: no entry (`KeyError`), an entry without a definition in the main text
(`'A' not in nt_info.def_occs`), or the right-hand sides (Pseudocode.py:1510-1515). -/
inductive NtDef where
  | unknown
  | noMain
  | main (rhss : List (List Item))

/-- The lines of the report on an operation (Pseudocode.py:1542, 1564, 1568). -/
inductive Msg where
  | multi (p : Puk) (n : Nat)
  | needs (p : Puk)
  | unused (p : Puk)
deriving DecidableEq, Repr

/-- How the check ends other than with a report. -/
inductive Err where
  /-- `KeyError` or `AssertionError` -/
  | crash
  /-- the fuel of the model has run out -/
  | fuel
deriving DecidableEq, Repr

/-- `nt_queue`, `used_keys` and the lines put so far. -/
structure St where
  queue : List Name
  used : List Puk
  out : List Msg
deriving Repr

/-- `queue_ensure` (Pseudocode.py:1502-1503). -/
def ensure (q : List Name) (n : Name) : List Name := if n ∈ q then q else q ++ [n]

/-- The body of the loop over `each_opt_combo` (Pseudocode.py:1522-1564); `exc` is `is_sdo_coverage_exception` for the
operation. -/
def oneCombo (m : List (Puk × List R)) (exc : Name → List Char → Bool) (lhs : Name) (red : List Char)
    (gnts : List Name) (st : St) (combo : List (Sym × Bool)) : St :=
  let puk : Puk := ⟨lhs, red, comboBits combo⟩
  let st := { st with used := puk :: st.used }
  match getRules m puk with
  | [_] => st
  | _ :: _ :: rest => { st with out := st.out ++ [.multi puk (rest.length + 2)] }
  | [] =>
    if exc lhs red then st
    else match gnts ++ requiredNts combo with
      | [n] => { st with queue := ensure st.queue n }
      | _ => { st with out := st.out ++ [.needs puk] }

/-- The body of the loop over `_rhss` (Pseudocode.py:1515-1564). -/
def oneRhs (m : List (Puk × List R)) (exc : Name → List Char → Bool) (lhs : Name) (st : St) (its : List Item) :
    Option St :=
  match reduceRhs its with
  | none => none
  | some red => match optCombos (rsqs its) with
    | none => none
    | some combos => some (combos.foldl (oneCombo m exc lhs red (plainNts its)) st)

/-- The loop over `_rhss` (Pseudocode.py:1515-1564). -/
def eachRhs (m : List (Puk × List R)) (exc : Name → List Char → Bool) (lhs : Name) : St → List (List Item) → Option St
  | st, [] => some st
  | st, its :: rhss =>
    match oneRhs m exc lhs st its with
    | none => none
    | some st' => eachRhs m exc lhs st' rhss

/-- `for lhs_nt in nt_queue` (Pseudocode.py:1507-1564), which also goes through what is appended meanwhile; `i` is the index of
the iteration and the last argument but two is fuel. -/
def queueLoop (G : Name → NtDef) (m : List (Puk × List R)) (exc : Name → List Char → Bool) :
    Nat → Nat → St → Except Err St
  | 0, _, _ => .error .fuel
  | k + 1, i, st =>
    match st.queue[i]? with
    | none => .ok st
    | some lhs =>
      match G lhs with
      | .unknown => .error .crash
      | .noMain => queueLoop G m exc k (i + 1) st
      | .main rhss => match eachRhs m exc lhs st rhss with
        | none => .error .crash
        | some st' => queueLoop G m exc k (i + 1) st'

/-- The report on one operation (Pseudocode.py:1502-1568); `roots` is `nt_queue` at the start, without duplicates.  The order of the
lines about unused rules (sorted by key) is not modelled. -/
def analyze (G : Name → NtDef) (defs : List (R × List Puk)) (exc : Name → List Char → Bool) (roots : List Name)
    (fuel : Nat) : Except Err (List Msg) :=
  match queueLoop G (coverageMap defs) exc fuel 0 ⟨roots, [], []⟩ with
  | .error e => .error e
  | .ok st => .ok (st.out ++
      (((coverageMap defs).map (·.1)).filter (fun p => !decide (p ∈ st.used))).map .unused)

/-! ## Dispatch -/

/-- A parse node (es_parser.py:1944-2051): a terminal, or a node with its symbol, reduced right-hand side, option bits and
children.  The extents are left out. -/
inductive Tree where
  | leaf
  | node (sym : Name) (reduced bits : List Char) (children : List Tree)

/-- How an invocation ends: the definition (with the focus node on which it is executed), no definition, at the node where
the chain ends ("SPEC BUG"), or a crash (`AssertionError`, `AttributeError`, `ValueError`). -/
inductive Outcome (R : Type) where
  | rule (focus : Tree) (d : R)
  | noRule (focus : Tree)
  | crash

/-- `sdo_defns = sdo_map[puk]; assert len(sdo_defns) == 1` (pseudocode_semantics.py:6606-6608). -/
def only (t : Tree) : List R → Outcome R
  | [d] => .rule t d
  | _ => .crash

/-- `child.symbol.endswith('?')` (es_parser.py:2041). -/
def isOpt (s : Name) : Bool := s.getLast? = some '?'

mutual
/-- The chain rule (pseudocode_semantics.py:6573-6604): the definition for the key of the node, or else what the chain rule
gives for `direct_chain`.  `puk in sdo_map` is the same as having a rule, as no list in the map is empty.  A terminal has no `puk`. -/
def dispatch (m : List (Puk × List R)) : Tree → Outcome R
  | .leaf => .crash
  | .node s r b cs =>
    match getRules m ⟨s, r, b⟩ with
    | d :: ds => only (.node s r b cs) (d :: ds)
    | [] => match chains m cs with
      | none => .crash
      | some [o] => o
      | some _ => .noRule (.node s r b cs)

/-- For each of `nt_children` (es_parser.py:2038-2046), what `dispatch` gives; none if an optional child has several children
(`[nt_child] = child.children`). -/
def chains (m : List (Puk × List R)) : List Tree → Option (List (Outcome R))
  | [] => some []
  | .leaf :: cs => chains m cs
  | .node s r b gs :: cs =>
    match chains m cs with
    | none => none
    | some os =>
      if isOpt s then
        match dispatches m gs with
        | [] => some os
        | [o] => some (o :: os)
        | _ => none
      else some (dispatch m (.node s r b gs) :: os)

/-- `dispatch` for each of some nodes. -/
def dispatches (m : List (Puk × List R)) : List Tree → List (Outcome R)
  | [] => []
  | c :: cs => dispatch m c :: dispatches m cs
end

/-- `('*default*', '', '')` (pseudocode_semantics.py:6565). -/
def defaultPuk : Puk := ⟨['*','d','e','f','a','u','l','t','*'], [], []⟩

/-- The operations with a default definition (pseudocode_semantics.py:6556-6565). -/
def dispatchDefault (m : List (Puk × List R)) : Tree → Outcome R
  | .leaf => .crash
  | .node s r b cs =>
    match getRules m ⟨s, r, b⟩ with
    | d :: ds => only (.node s r b cs) (d :: ds)
    | [] => only (.node s r b cs) (getRules m defaultPuk)

end Verif.Sdo
