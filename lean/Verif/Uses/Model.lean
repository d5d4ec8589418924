import Verif.Defs.Model
import Verif.Gram.RhsModel
/-!
# Model of the check of the productions that do not define (emu_grammars.py:153-264, 917-1220)

Such a production is a use of productions that are defined elsewhere.  It is compared with the entries of the table that C55 is about, by the matching of right-hand sides of
C27.  A failed assertion, a missing key, and an attribute asked of `None`, is `none`.  The line of the log for an element without keys is left out.
-/
namespace Verif.Uses

open Verif.Defs (Str Sign Param Kind Body Rhs Prodn Arena DProd Table)
open Verif.Gram (IKind Notes matchRhs matchItem needless optbits)

/-! ## The items of a right-hand side -/

/-- The first group of a `PARAM` (emu_grammars.py:362). -/
def signText : Sign → Str
  | .bare => []
  | .plus => ['+']
  | .tilde => ['~']
  | .query => ['?']

/-- The groups of a `PARAM`, as one text: a name begins with a letter (emu_grammars.py:270, 362). -/
def paramText (a : Param) : Str := signText a.sign ++ a.name

/-- The source text of `PARAMS`: the metagrammar leaves no choice (emu_grammars.py:334). -/
def paramsText (as : List Param) : Str := '[' :: (", ".toList.intercalate (as.map paramText) ++ [']'])

/-- The kinds of items. -/
def kindOf : Kind → IKind
  | .backticked => .BACKTICKED_THING
  | .namedChar => .NAMED_CHAR
  | .lacSingle => .LAC_SINGLE
  | .lacSet => .LAC_SET
  | .nlth => .NLTH
  | .butOnly => .BUT_ONLY
  | .butNot => .BUT_NOT

/-- An item without its `?`, with `_nt_name` and `_params` (emu_grammars.py:266-271). -/
def symOf : Defs.Sym → Gram.Sym
  | .gnt g => .gnt g.name (g.args.map paramText)
  | .other k text _ => .other (kindOf k) text

/-- An item. -/
def itemOf : Defs.Item → Gram.Item
  | .plain s => .plain (symOf s)
  | .qm s => .qm (symOf s)

/-- The items of a body (emu_grammars.py:165-172).  Which of the three kinds of description of characters it is, is left out: the text tells. -/
def bodyItems : Body → List Gram.Item
  | .empty => []
  | .unicode text => [.plain (.other .U_ANY text)]
  | .items is => is.map itemOf

/-- `_rhs_items` (emu_grammars.py:153-207). -/
def itemsOf : Rhs → List Gram.Item
  | .line guard body label =>
    (if guard ≠ [] then [.plain (.other .PARAMS (paramsText guard))] else []) ++ bodyItems body ++
      (if label ≠ [] then [.plain (.other .LABEL label)] else [])
  | .thing text => [.plain (.other .BACKTICKED_THING text)]
  | .bare is => is.map itemOf

/-- What `reduce_rhs` keeps of an item (emu_grammars.py:225-261).  For `X?` where X is none of the three kinds of symbols the code fails an assertion; the metagrammar has no such
items (emu_grammars.py:327-328). -/
def piece : Gram.Item → Option Str
  | .plain (.gnt name _) => some name
  | .plain (.other k text) => match k with
    | .BACKTICKED_THING | .NAMED_CHAR | .U_ANY | .U_PROP | .U_RANGE => some text
    | .BUT_ONLY | .BUT_NOT | .LABEL | .LAC_SET | .LAC_SINGLE | .NLTH | .PARAMS => none
  | .qm (.gnt name _) => some (name ++ ['?'])
  | .qm (.other _ text) => some (text ++ ['?'])

/-- `reduce_rhs` (emu_grammars.py:222-264). -/
def reduce (is : List Gram.Item) : Str := " ".toList.intercalate (is.filterMap piece)

/-! ## The check of one production -/

/-- The messages.  `r` is the number of a right-hand side of the use, `i` that of an item in it. -/
inductive Msg where
  | undefinedLhs
  | colons (u d : Nat)
  | params (u d : List Str)
  | unusualParams (u : List Str)
  | paramsNone
  | annotation (r i : Nat)
  | args (r i : Nat) (u d : List Str)
  | argsNone (r i : Nat)
  | argsMixed (suppressed intact : List Str)
  | annsMixed (suppressed intact : List Str)
  | noMatch (r : Nat)
  | manyMatch (r : Nat) (number : Nat)
  | outOfOrder (ds : List Nat)
  | same (us : List Nat) (d : Nat)
deriving DecidableEq, Repr

/-- The sections where a use may repeat the parameters (emu_grammars.py:989-995). -/
def repeating : List Str :=
  ["sec-rules-of-automatic-semicolon-insertion".toList, "sec-identifiers-static-semantics-early-errors".toList, "sec-primary-expression".toList,
   "sec-static-semantics-template-early-errors".toList, "sec-arrow-function-definitions".toList]

/-- The comparison of the parameters: `u_lhs_args_are_suppressed`, and the messages (emu_grammars.py:974-1019).  `id` is `cc_section.attrs['id']`. -/
def checkParams (id : Option Str) (up dp : List Str) : Option (Option Bool × List Msg) :=
  if dp ≠ [] then
    if up ≠ [] then
      if up ≠ dp then some (some false, [.params up dp])
      else match id with
        | none => none
        | some i => if i ∈ repeating then some (some false, []) else some (some false, [.unusualParams up])
    else some (some true, [])
  else if up ≠ [] then some (none, [.paramsNone])
  else some (none, [])

/-- How an item of a use counts: a symbol, an annotation of some kind, or an error (emu_grammars.py:1032-1038). -/
inductive Role where
  | symbol
  | annotation (k : IKind)
  | wrong
deriving DecidableEq, Repr

/-- `if u_rhs_item_n.kind in …` (emu_grammars.py:1033-1038). -/
def role : Gram.Item → Role
  | .qm _ => .symbol
  | .plain (.gnt _ _) => .symbol
  | .plain (.other k _) => match k with
    | .BACKTICKED_THING | .NAMED_CHAR | .BUT_NOT => .symbol
    | .LAC_SINGLE | .LAC_SET | .NLTH | .PARAMS | .LABEL => .annotation k
    | .BUT_ONLY | .U_RANGE | .U_PROP | .U_ANY => .wrong

/-- The pairs of a nonterminal and a kind of annotation that are allowed (emu_grammars.py:1044-1050). -/
def allowed : List (Str × IKind) :=
  [("NotEscapeSequence".toList, .LAC_SET), ("NotEscapeSequence".toList, .LAC_SINGLE), ("CharacterEscape".toList, .LAC_SET),
   ("ClassAtomNoDash".toList, .LAC_SINGLE), ("ExtendedAtom".toList, .LAC_SINGLE)]

/-- Whether no message is due for an annotation (emu_grammars.py:1041-1053). -/
def tolerated (title lhs : Str) (k : IKind) : Bool :=
  (title = "Rules of Automatic Semicolon Insertion".toList && (k = .NLTH || k = .PARAMS || k = .LABEL)) || (lhs, k) ∈ allowed

/-- The messages on the annotations of a right-hand side, from item `i` on (emu_grammars.py:1031-1056). -/
def annMsgs (title lhs : Str) (r : Nat) : Nat → List Gram.Item → Option (List Msg)
  | _, [] => some []
  | i, x :: xs => match role x with
    | .symbol => annMsgs title lhs r (i + 1) xs
    | .annotation k =>
      (annMsgs title lhs r (i + 1) xs).map ((if tolerated title lhs k then [] else [.annotation r i]) ++ ·)
    | .wrong => none

/-- The loop over the right-hand sides of the use, from number `r` on (emu_grammars.py:1029-1056). -/
def annsMsgs (title lhs : Str) : Nat → List (List Gram.Item) → Option (List Msg)
  | _, [] => some []
  | r, us :: rest => match annMsgs title lhs r 0 us with
    | none => none
    | some ms => (annsMsgs title lhs (r + 1) rest).map (ms ++ ·)

/-- The messages of `u_item_matches_d_item` on two items without `?` (emu_grammars.py:1306-1330). -/
def symMsgs (r i : Nat) : Gram.Sym → Gram.Sym → List Msg
  | .gnt un up, .gnt dn dp =>
    if un ≠ dn then []
    else if dp ≠ [] then (if up ≠ [] ∧ up ≠ dp then [.args r i up dp] else [])
    else (if up ≠ [] then [.argsNone r i] else [])
  | _, _ => []

/-- The messages of `u_item_matches_d_item` (emu_grammars.py:1254-1346). -/
def itemMsgs (r i : Nat) : Gram.Item → Gram.Item → List Msg
  | .qm u, .qm d => symMsgs r i u d
  | .plain u, .qm d => symMsgs r i u d
  | .plain u, .plain d => symMsgs r i u d
  | .qm _, .plain _ => []

/-- The messages of `u_rhs_matches_d_rhs_`, which are given whether the two turn out to match or not; the loop is that of `Gram.matchLoop`, and `i` is `u_offset`
(emu_grammars.py:1222-1252). -/
def loopMsgs (r : Nat) : Nat → List Gram.Item → List Gram.Item → List Msg
  | _, _, [] => []
  | i, [], d :: ds => match needless d with
    | some _ => loopMsgs r i [] ds
    | none => []
  | i, u :: us, d :: ds =>
    itemMsgs r i u d ++ match matchItem u d with
      | some _ => loopMsgs r (i + 1) us ds
      | none => match needless d with
        | some _ => loopMsgs r i (u :: us) ds
        | none => []

/-- `notes['nt-args suppressed'].insert(0, lhs_nt)` and so on (emu_grammars.py:1081-1086). -/
def withLhs (lhs : Str) (suppressed : Option Bool) (n : Notes) : Notes :=
  match suppressed with
  | none => n
  | some true => { n with argsSuppressed := lhs :: n.argsSuppressed }
  | some false => { n with argsIntact := lhs :: n.argsIntact }

/-- The messages on the notes of a match (emu_grammars.py:1088-1100). -/
def noteMsgs (n : Notes) : List Msg :=
  (if n.argsSuppressed ≠ [] ∧ n.argsIntact ≠ [] then [.argsMixed n.argsSuppressed n.argsIntact] else []) ++
    (if n.annSuppressed ≠ [] ∧ n.annIntact ≠ [] then [.annsMixed n.annSuppressed n.annIntact] else [])

/-- The messages for a right-hand side of the use and one of the definition (emu_grammars.py:1070-1100). -/
def pairMsgs (lhs : Str) (suppressed : Option Bool) (r : Nat) (us ds : List Gram.Item) : List Msg :=
  loopMsgs r 0 us ds ++ match matchRhs us ds with
    | none => []
    | some n => noteMsgs (withLhs lhs suppressed n)

/-- Production use key: the nonterminal, the reduced right-hand side and the option bits (emu_grammars.py:1149-1150). -/
abbrev Puk := Str × Str × Str

/-- The keys for a right-hand side of the use and one of the definition (emu_grammars.py:1148-1151). -/
def pairPuks (lhs : Str) (us ds : List Gram.Item) : List Puk :=
  match matchRhs us ds with
  | none => []
  | some n => (optbits n.optional).map (fun bits => (lhs, reduce ds, bits))

/-- The loops over the pairs of right-hand sides (emu_grammars.py:1066-1067), with what is made for each. -/
def pairs {β : Type} (f : Nat → List Gram.Item → Nat → List Gram.Item → List β) (uss dss : List (List Gram.Item)) : List β :=
  uss.zipIdx.flatMap (fun u => dss.zipIdx.flatMap (fun d => f u.2 u.1 d.2 d.1))

/-- `matches` (emu_grammars.py:1062-1077). -/
def hits (uss dss : List (List Gram.Item)) : List (Nat × Nat) :=
  pairs (fun i us j ds => if (matchRhs us ds).isSome then [(i, j)] else []) uss dss

/-- `dis_for_ui_[u_i]` (emu_grammars.py:1158-1160). -/
def disFor (ms : List (Nat × Nat)) (u : Nat) : List Nat := (ms.filter (fun m => m.1 = u)).map (·.2)

/-- `uis_for_di_[d_i]` (emu_grammars.py:1202-1204). -/
def uisFor (ms : List (Nat × Nat)) (d : Nat) : List Nat := (ms.filter (fun m => m.2 = d)).map (·.1)

/-- `u_rhs.d_i` (emu_grammars.py:1164-1177). -/
def foundFor (dis : List Nat) : Option Nat :=
  match dis with
  | [] => none
  | [d] => some d
  | d :: ds => some (ds.foldl min d)

/-- The messages on how many right-hand sides of the definition one of the use matches (emu_grammars.py:1165-1176). -/
def numberMsgs (u : Nat) (dis : List Nat) : List Msg :=
  match dis.length with
  | 0 => [.noMatch u]
  | 1 => []
  | n + 2 => [.manyMatch u (n + 2)]

/-- Insertion into a sorted list. -/
def insertNat (x : Nat) : List Nat → List Nat
  | [] => [x]
  | y :: ys => if x ≤ y then x :: y :: ys else y :: insertNat x ys

/-- `sorted` on numbers. -/
def sortNat : List Nat → List Nat
  | [] => []
  | x :: xs => insertNat x (sortNat xs)

/-- The message on the order (emu_grammars.py:1184-1192). -/
def orderMsgs (dis : List Nat) : List Msg :=
  if dis = sortNat dis then [] else [.outOfOrder (dis.map (· + 1))]

/-- The message on a right-hand side of the definition that several match (emu_grammars.py:1208-1217). -/
def sameMsgs (d : Nat) (uis : List Nat) : List Msg :=
  match uis.length with
  | 0 => []
  | 1 => []
  | _ + 2 => [.same (uis.map (· + 1)) (d + 1)]

/-- What the check of a production gives: the messages, the keys, and `d_i` of each of its right-hand sides, if its nonterminal is defined. -/
structure Report where
  msgs : List Msg
  puks : List Puk
  found : Option (List (Option Nat))
deriving DecidableEq, Repr

/-- The comparison of the right-hand sides (emu_grammars.py:1060-1217), after the messages `before`. -/
def compare (lhs : Str) (suppressed : Option Bool) (before : List Msg) (uss dss : List (List Gram.Item)) : Option Report :=
  let ms := hits uss dss
  if ms.map (·.1) = sortNat (ms.map (·.1)) then
    some {
      msgs := before ++ pairs (fun i us _ ds => pairMsgs lhs suppressed i us ds) uss dss ++
        (List.range uss.length).flatMap (fun u => numberMsgs u (disFor ms u)) ++ orderMsgs (ms.map (·.2)) ++
        (List.range dss.length).flatMap (fun d => sameMsgs d (uisFor ms d))
      puks := pairs (fun _ us _ ds => pairPuks lhs us ds) uss dss
      found := some ((List.range uss.length).map (fun u => foundFor (disFor ms u))) }
  else none

/-- An `<emu-grammar>` that is no definition: the section it is in, the `id` of that, and the productions. -/
structure Element where
  sec : Defs.Sec
  id : Option Str
  prods : List Prodn
deriving DecidableEq, Repr

/-- The check of a use against the defining production (emu_grammars.py:964-1217). -/
def checkAgainst (el : Element) (p : Prodn) (colons : Nat) (d : Prodn) : Option Report :=
  match checkParams el.id p.params d.params with
  | none => none
  | some (suppressed, ms) =>
    match annsMsgs el.sec.title p.lhs.name 0 (p.rhss.map itemsOf) with
    | none => none
    | some as =>
      compare p.lhs.name suppressed ((if p.colons ≠ colons then [.colons p.colons colons] else []) ++ ms ++ as)
        (p.rhss.map itemsOf) (d.rhss.map itemsOf)

/-- The body of the loop over the productions (emu_grammars.py:940-1217). -/
def checkUse (t : Table) (el : Element) (p : Prodn) : Option Report :=
  match t.lookup p.lhs.name with
  | none => some ⟨[.undefinedLhs], [], none⟩
  | some info => match Defs.appropriate info (Defs.arenaOf el.sec) with
    | none => none
    | some d => checkAgainst el p info.colons d.prod

/-- The loop over the productions of an element (emu_grammars.py:940-1217). -/
def checkElement (t : Table) (el : Element) : Option (List Report) := el.prods.mapM (checkUse t el)

/-- `check_non_defining_prodns` (emu_grammars.py:917-1220). -/
def check (t : Table) (els : List Element) : Option (List (List Report)) := els.mapM (checkElement t)

/-- `puk_set` of an element: what the productions add to it (emu_grammars.py:922, 1151), as a list with the same members. -/
def pukSet (rs : List Report) : List Puk := rs.flatMap Report.puks

end Verif.Uses
