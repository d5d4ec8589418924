import Verif.Earley.LexModel
/-!
# Model of `SyntacticTIP` in `es_parser.py`

The object that supplies the syntactic parser with tokens, and that carries out automatic semicolon
insertion (es_parser.py:1127-1794). Modelled for a first parse: `_end_token_i` keeps its initial
value `sys.maxsize` (es_parser.py:1143); `set_reparse_bounds` and the branch 1519-1523 are left out.
The lexical parse of one input element is a parameter.
-/
namespace Verif.Earley

/-- Something in `_input_elements`: a tree made by the lexical parser, the end-of-input marker
(es_parser.py:1567) or an automatically inserted semicolon (es_parser.py:1334). -/
inductive Elem
  | node (n : Node LexLeaf)
  | eoi (p : Nat)
  | semi (p : Nat)
deriving DecidableEq

/-- A terminal instance handed to the syntactic parser: `ES_ParseNode(T_lit(c), (s, e))`
(es_parser.py:1222, 1334), a named token (1225) or the end of the input (1218). -/
inductive SynLeaf
  | lit (c : List Char) (s e : Nat)
  | named (n : Node LexLeaf)
  | eoi (p : Nat)
deriving DecidableEq

/-- What `SyntacticTIP` works on: the source text, the lexical parser (goal symbol and start position;
es_parser.py:1570-1574), and the set `ReservedWords` (es_parser.py:993-1009). -/
structure SynEnv where
  text : List Char
  lex : String → Nat → Except Err (Node LexLeaf)
  reserved : List (List Char)

/-- The state of a `SyntacticTIP` (es_parser.py:1128-1140). `toks` holds each token with its `ies_i`;
`seen` is `_current_token_i + 1`; `latest` is `temp_posn_of_latest_asi`, with `none` for −1. -/
structure Syn where
  elems : List Elem
  toks : List (Elem × Nat)
  seen : Nat
  scout : Nat
  done : Bool
  latest : Option Nat

/-- `start_posn` and `end_posn`. -/
def Elem.extent : Elem → Nat × Nat
  | .node n => lexExtent n
  | .eoi p => (p, p)
  | .semi p => (p, p)

/-- `text()`. -/
def Elem.text (text : List Char) (x : Elem) : List Char := slice text x.extent.1 x.extent.2

/-- es_parser.py:1591: the symbols of what is not a token. -/
def gapSymbols : List String := ["WhiteSpace", "LineTerminator", "Comment"]

/-- `symbol in [...]`, for a node. -/
def symbolIn (names : List String) : Node LexLeaf → Bool
  | .leaf _ => false
  | .nt p _ _ _ _ => decide (p.ogLhs ∈ names)

/-- es_parser.py:1589-1592: an input element is not a token if it has one child, which is white space,
a line terminator or a comment. -/
def Elem.isGap : Elem → Bool
  | .node (.nt _ _ _ _ [c]) => symbolIn gapSymbols c
  | _ => false

/-- es_parser.py:2074-2079 `contains_a`. -/
def containsA (name : String) : Node LexLeaf → Bool
  | .leaf _ => false
  | .nt p _ _ _ cs => decide (p.ogLhs = name) || containsAny cs
where
  /-- `any(child.contains_a(symbol) for child in children)`. -/
  containsAny : List (Node LexLeaf) → Bool
  | [] => false
  | c :: r => containsA name c || containsAny r

/-- es_parser.py:1353-1362: symbols to look below. -/
def wrappers : List String :=
  ["InputElementDiv", "InputElementRegExp", "InputElementRegExpOrTemplateTail", "InputElementTemplateTail",
   "InputElement_common", "TemplateSubstitutionTail", "CommonToken", "Template"]

/-- es_parser.py:1368-1379: symbols that the syntactic grammar refers to. -/
def namedTokens : List String :=
  ["IdentifierName", "NoSubstitutionTemplate", "NumericLiteral", "RegularExpressionLiteral", "StringLiteral",
   "TemplateHead", "TemplateMiddle", "TemplateTail"]

/-- es_parser.py:1383-1387: punctuators. -/
def punctuators : List String := ["Punctuator", "DivPunctuator", "RightBracePunctuator"]

/-- es_parser.py:1341-1396 `get_named_token`, below the input element. -/
def namedNode : Node LexLeaf → Except Err (Option (Node LexLeaf))
  | .leaf l => if l.sym = .lit ";" then .ok none else .error .crash
  | .nt p b s e cs =>
    if p.ogLhs ∈ wrappers then onlyChild cs
    else if p.ogLhs ∈ namedTokens then .ok (some (.nt p b s e cs))
    else if p.ogLhs ∈ punctuators then .ok none
    else .error .crash
where
  /-- `assert len(tok.children) == 1; [tok] = tok.children` (es_parser.py:1365-1366). -/
  onlyChild : List (Node LexLeaf) → Except Err (Option (Node LexLeaf))
  | [] => .error .crash
  | [c] => namedNode c
  | _ :: _ :: _ => .error .crash

/-- es_parser.py:1341-1396 `get_named_token`. -/
def namedToken : Elem → Except Err (Option (Node LexLeaf))
  | .node n => namedNode n
  | .eoi _ => .ok none
  | .semi _ => .ok none

/-- es_parser.py:1400-1443 `get_lexical_goal_symbol`. -/
def goalSymbol (expected : List Term) : Except Err String :=
  let rel := decide (Term.named "RegularExpressionLiteral" ∈ expected)
  let tail := decide (Term.named "TemplateTail" ∈ expected)
  if tail != decide (Term.named "TemplateMiddle" ∈ expected) then .error .crash
  else if rel && tail then .ok "InputElementRegExpOrTemplateTail"
  else if rel then .ok "InputElementRegExp"
  else if tail then .ok "InputElementTemplateTail"
  else .ok "InputElementDiv"

/-- es_parser.py:1583-1598: install an input element in the stream. -/
def Syn.install (st : Syn) (x : Elem) : Syn :=
  { st with
    elems := st.elems ++ [x]
    toks := if x.isGap then st.toks else st.toks ++ [(x, st.elems.length)] }

/-- es_parser.py:1558-1602 `_get_one_input_element`. -/
def getOne (S : SynEnv) (goal : String) (st : Syn) : Except Err (Bool × Syn) :=
  if st.done then .ok (false, st)
  else if st.scout = S.text.length then
    .ok (true, Syn.install { st with done := true } (.eoi st.scout))
  else
    match S.lex goal st.scout with
    | .error e => .error e
    | .ok n =>
      if (lexExtent n).1 = st.scout ∧ (lexExtent n).1 < (lexExtent n).2 ∧ (lexExtent n).2 ≤ S.text.length then
        .ok (true, Syn.install { st with scout := (lexExtent n).2 } (.node n))
      else .error .crash

/-- es_parser.py:1541-1553 `_scout_ahead`. The number of rounds is bounded by the fuel; the wrapper
below gives enough. -/
def scoutLoop (S : SynEnv) : Nat → Syn → Except Err Syn
  | 0, _ => .error .fuel
  | f + 1, st =>
    match getOne S "InputElement_common" st with
    | .error .parse => .ok st
    | .error e => .error e
    | .ok (false, st') => .ok st'
    | .ok (true, st') => scoutLoop S f st'

/-- es_parser.py:1541-1553 `_scout_ahead`: each round but the last two reads at least one character. -/
def scoutAhead (S : SynEnv) (st : Syn) : Except Err Syn :=
  scoutLoop S (S.text.length - st.scout + 2) st

/-- es_parser.py:1128-1140 `SyntacticTIP.__init__`. -/
def synInit (S : SynEnv) : Except Err Syn := scoutAhead S ⟨[], [], 0, 0, false, none⟩

/-- es_parser.py:1512-1537 `advance_token_cursor`. -/
def advance (S : SynEnv) (goal : String) (st : Syn) : Except Err (Elem × Syn) :=
  let i := st.seen
  let st := { st with seen := i + 1 }
  if i < st.toks.length then
    match st.toks[i]? with
    | some t => .ok (t.1, st)
    | none => .error .crash
  else if i = st.toks.length then
    match getOne S goal st with
    | .error e => .error e
    | .ok (false, _) => .error .crash
    | .ok (true, st') =>
      if i < st'.toks.length then
        match scoutAhead S st' with
        | .error e => .error e
        | .ok st'' =>
          match st''.toks[i]? with
          | some t => .ok (t.1, st'')
          | none => .error .crash
      else .error .crash
  else .error .crash

/-- es_parser.py:1606-1623 `insert_before_current_token`. -/
def insertBefore (x : Elem) (st : Syn) : Except Err Syn :=
  match st.toks[st.seen - 1]? with
  | none => .error .crash
  | some t =>
    if st.elems[t.2]? = some t.1 then
      .ok { st with
        elems := st.elems.take t.2 ++ x :: st.elems.drop t.2
        toks := st.toks.take (st.seen - 1) ++
          (x, t.2) :: (st.toks.drop (st.seen - 1)).map (fun q => (q.1, q.2 + 1)) }
    else .error .crash

/-- es_parser.py:1780-1794 `a_LineTerminator_occurs_in`. -/
def ltOccurs : List Elem → Except Err Bool
  | [] => .ok false
  | .node (.nt p _ _ _ [c]) :: r =>
    if ¬ "InputElement".toList.isPrefixOf p.ogLhs.toList then .error .crash
    else if ¬ symbolIn gapSymbols c then .error .crash
    else if symbolIn ["LineTerminator"] c then .ok true
    else if symbolIn ["Comment"] c && containsA "LineTerminator" c then .ok true
    else ltOccurs r
  | _ :: _ => .error .crash

/-- es_parser.py:1767-1771: where the gap before token number `k` begins in `_input_elements`. -/
def gapStart (toks : List (Elem × Nat)) : Nat → Nat
  | 0 => 0
  | k + 1 => match toks[k]? with
    | some t => t.2 + 1
    | none => 0

/-- es_parser.py:1750-1778 `rel_gap_contains_a_LineTerminator`, for the gap before token number
`foll`. -/
def gapHasLT (st : Syn) (foll : Nat) : Except Err Bool :=
  if st.toks.length < st.seen ∨ (st.seen = 0 ∧ st.toks = []) then .error .crash
  else if st.toks.length < foll then .error .crash
  else
    let hi := match st.toks[foll]? with
      | some t => t.2
      | none => st.elems.length
    ltOccurs ((st.elems.take hi).drop (gapStart st.toks foll))

/-- es_parser.py:1706-1748 `rel_token_matches_symbol`, for token number `i`. -/
def tokIs (S : SynEnv) (st : Syn) (i : Nat) (t : String) : Bool :=
  match st.toks[i]? with
  | some x => decide (x.1.text S.text = t.toList)
  | none => false

/-- es_parser.py:1635-1682 `lookahead_matches_terminal_sequence`. -/
def lookMatches (S : SynEnv) (st : Syn) : List La → Except Err Bool
  | [.term (.lit a)] => .ok (tokIs S st st.seen a)
  | [.term (.lit a), .term (.lit b)] => .ok (tokIs S st st.seen a && tokIs S st (st.seen + 1) b)
  | [.term (.lit a), .noLT, .term (.lit b)] =>
    if tokIs S st st.seen a then
      match gapHasLT st (st.seen + 1) with
      | .error e => .error e
      | .ok true => .ok false
      | .ok false => .ok (tokIs S st (st.seen + 1) b)
    else .ok false
  | _ => .error .crash

/-- `any(… for ts in constraint.tss)` (es_parser.py:1451-1454). -/
def anyLook (S : SynEnv) (st : Syn) : List (List La) → Except Err Bool
  | [] => .ok false
  | ts :: r =>
    match lookMatches S st ts with
    | .error e => .error e
    | .ok true => .ok true
    | .ok false => anyLook S st r

/-- The text of a terminal instance. -/
def SynLeaf.extent : SynLeaf → Nat × Nat
  | .lit _ s e => (s, e)
  | .named n => lexExtent n
  | .eoi p => (p, p)

/-- es_parser.py:1447-1480 `check_constraint`. The symbol `IdentifierName` can only be that of a named
token. -/
def synCheck (S : SynEnv) (st : Syn) (prev : Option (Node SynLeaf)) : Con → Except Err Bool
  | .lookahead m tss =>
    match anyLook S st tss with
    | .error e => .error e
    | .ok b => .ok (if m then b else !b)
  | .noLT =>
    match gapHasLT st st.seen with
    | .error e => .error e
    | .ok b => .ok (!b)
  | .butNot b =>
    match prev with
    | some (.leaf (.named n)) =>
      if hasSymbol "IdentifierName" n = true ∧ b = [.nt "ReservedWord"] then
        .ok (!decide (nodeText S.text n ∈ S.reserved))
      else .error .crash
    | _ => .error .crash
  | .butOnlyIf _ => .error .crash

/-- es_parser.py:1215-1231: one expected terminal against the token. The outer `none` is the failed
assertion on the type of the terminal. -/
def matchOne (tok : Elem) (named : Option (Node LexLeaf)) (txt : List Char) : Term → Except Err (Option SynLeaf)
  | .lit c => .ok (if c.toList = txt then some (.lit txt tok.extent.1 tok.extent.2) else none)
  | .named n =>
    match tok with
    | .eoi p => .ok (if Term.named n = endOfInput then some (.eoi p) else none)
    | _ =>
      match named with
      | none => .ok none
      | some m => .ok (if hasSymbol n m then some (.named m) else none)
  | _ => .error .crash

/-- es_parser.py:1213-1231: the loop over the expected terminals. -/
def matchAll (tok : Elem) (named : Option (Node LexLeaf)) (txt : List Char) :
    List Term → Except Err (List (Term × SynLeaf))
  | [] => .ok []
  | t :: r =>
    match matchOne tok named txt t, matchAll tok named txt r with
    | .error e, _ => .error e
    | _, .error e => .error e
    | .ok none, .ok ms => .ok ms
    | .ok (some l), .ok ms => .ok ((t, l) :: ms)

/-- es_parser.py:1196-1205: the text that the token counts as. -/
def tokenText (S : SynEnv) : Elem → List Char
  | .semi _ => [';']
  | x => x.text S.text

/-- es_parser.py:1246-1279: whether the rules allow a semicolon before the current token. -/
def asiAllowed (S : SynEnv) (tok : Elem) (kludge : Option Kludge) (st : Syn) : Except Err Bool :=
  match tok with
  | .eoi _ => .ok true
  | _ =>
    match gapHasLT st (st.seen - 1) with
    | .error e => .error e
    | .ok b => .ok (b || decide (tok.text S.text = ['}']) || decide (kludge = some .doWhile))

/-- es_parser.py:1281-1337: insert the semicolon, unless something stands against it. -/
def asiInsert (pos : Nat) (expected : List Term) (kludge : Option Kludge) (st : Syn) :
    Except Err (Option (List (Term × SynLeaf) × Nat) × Syn) :=
  if st.latest = some pos then .ok (none, st)
  else
    let st := { st with latest := some pos }
    let semis := expected.filter (fun t => decide (t = .lit ";"))
    if semis.length = 0 then .ok (none, st)
    else if semis.length ≠ 1 then .error .crash
    else if kludge = some .emptyStatement then .ok (none, st)
    else
      match insertBefore (.semi pos) st with
      | .error e => .error e
      | .ok st' => .ok (some ([(.lit ";", .lit [';'] pos pos)], pos), st')

/-- es_parser.py:1233-1337: what happens once the expected terminals have been compared with the
token. -/
def synDecide (S : SynEnv) (tok : Elem) (pos : Nat) (expected : List Term) (kludge : Option Kludge)
    (ms : List (Term × SynLeaf)) (st : Syn) : Except Err (Option (List (Term × SynLeaf) × Nat) × Syn) :=
  if ms ≠ [] then .ok (some (ms, tok.extent.2), st)
  else
    match asiAllowed S tok kludge st with
    | .error e => .error e
    | .ok false => .ok (none, st)
    | .ok true => asiInsert pos expected kludge st

/-- es_parser.py:1162-1337 `get_next_terminal_instances`. -/
def synNext (S : SynEnv) (st : Syn) (pos : Nat) (expected : List Term) (kludge : Option Kludge) :
    Except Err (Option (List (Term × SynLeaf) × Nat) × Syn) :=
  match goalSymbol expected with
  | .error e => .error e
  | .ok goal =>
    match advance S goal st with
    | .error e => .error e
    | .ok (tok, st) =>
      match namedToken tok with
      | .error e => .error e
      | .ok named =>
        match matchAll tok named (tokenText S tok) expected with
        | .error e => .error e
        | .ok ms => synDecide S tok pos expected kludge ms st

/-- `SyntacticTIP` as a provider of terminals. -/
def synTip (S : SynEnv) : Tip Syn SynLeaf where
  next := synNext S
  check st prev _ con := synCheck S st prev con
  leafStart l := l.extent.1
  leafEnd l := l.extent.2
  isEoi l := match l with
    | .eoi _ => true
    | _ => false

/-- es_parser.py:1018, 1049-1053: the syntactic parser on a source text. -/
def synCfg (S : SynEnv) (G : Grammar) (goal : String) : Cfg Syn SynLeaf :=
  ⟨G, synTip S, true, true, goal⟩

/-- es_parser.py:1049-1053: the first parse of a source text by the syntactic parser. -/
def synParse (S : SynEnv) (G : Grammar) (goal : String) (fuel : Nat) : Except Err (Node SynLeaf) :=
  match synInit S with
  | .error e => .error e
  | .ok st => run (synCfg S G goal) fuel st 0

end Verif.Earley
