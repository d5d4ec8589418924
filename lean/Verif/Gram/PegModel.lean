import Verif.Common
/-!
# Model of the parser for `emu-grammar` elements (`simple_parse` in emu_grammars.py)
-/
namespace Verif.Gram

/-- The result kind of a rule of the metagrammar (`rkind`): make a node, pass up, nothing. -/
inductive RKind where
  /-- `'n'` -/
  | node
  /-- `'^'` -/
  | up
  /-- `' '` -/
  | blank
deriving DecidableEq, Repr

/-- A rule of the metagrammar (emu_grammars.py:299-372): `(pkind, rkind, *args)`.  For `'+'` the
delimiters are none if there are only two arguments or if they are the empty string (the code tests
them for truth, 469, 502); its `rkind` is not used. -/
inductive Rule (N : Type) where
  /-- `'|'` -/
  | alt (rk : RKind) (args : List N)
  /-- `'_'` -/
  | seq (rk : RKind) (args : List N)
  /-- `'?'` -/
  | opt (rk : RKind) (args : List N)
  /-- `'+'` -/
  | plus (element separator : N) (left right : Option N)
  /-- `'/'` -/
  | term (rk : RKind)
deriving Repr

/-- The goals that `attempt` treats specially (emu_grammars.py:555-572). -/
inductive Role where
  | indent | outdent | nlai | eoi | plain
deriving DecidableEq, Repr

/-- What the parser works with: the grammar (none for a goal that is not in it, which is then itself a
pattern), the role of a goal, whether an absent goal looks like a name (`[A-Z_]+`, 411), and, as a parameter, the
end of the match of a goal's pattern at a position of the text (539). -/
structure PegEnv (N : Type) where
  grammar : N → Option (Rule N)
  role : N → Role
  looksLikeName : N → Bool
  rx : N → Nat → Option Nat

/-- What a node is called: the goal, or `OMITTED_OPTIONAL` (emu_grammars.py:460). -/
inductive GKind (N : Type) where
  | goal (g : N)
  | omitted
deriving DecidableEq, Repr

/-- `GNode` (emu_grammars.py:598-602); an element of a list may be `None` (497).  The groups of a match are
not modelled. -/
inductive GNode (N : Type) where
  | mk (start stop : Nat) (kind : GKind N) (children : List (Option (GNode N)))

/-- Why an attempt ends without an answer. -/
inductive PegErr where
  /-- an assertion fails -/
  | crash
  /-- the fuel of the model has run out -/
  | fuel
deriving DecidableEq, Repr

/-- The answer of `attempt`: `None`, or the position and indentation after the match with its node. -/
abbrev Out (N : Type) := Option (Nat × Int × Option (GNode N))

variable {N : Type}

/-- The rule for a goal (emu_grammars.py:408-414). -/
def ruleOf (W : PegEnv N) (g : N) : Option (Rule N) :=
  match W.grammar g with
  | some r => some r
  | none => if W.looksLikeName g then none else some (.term .blank)

/-- Alternatives (emu_grammars.py:416-423). -/
def tryAlts (rec : N → Nat → Int → Except PegErr (Out N)) (rk : RKind) (p : Nat) (i : Int) :
    List N → Except PegErr (Out N)
  | [] => .ok none
  | a :: as =>
    match rec a p i with
    | .error x => .error x
    | .ok none => tryAlts rec rk p i as
    | .ok (some r) => if rk = .up then .ok (some r) else .error .crash

/-- How far a row of goals got: all of it, with the nodes that are not `None`, or a failure, with the
indentation at that moment. -/
inductive RowOut (N : Type) where
  | failed (indent : Int)
  | done (p : Nat) (i : Int) (children : List (GNode N))

/-- `if child: children.append(child)` (emu_grammars.py:433, 467). -/
def keep (child : Option (GNode N)) (cs : List (GNode N)) : List (GNode N) :=
  match child with
  | none => cs
  | some c => c :: cs

/-- The loop over the goals of a row (emu_grammars.py:429-433, 450-467). -/
def tryRow (rec : N → Nat → Int → Except PegErr (Out N)) :
    List N → Nat → Int → Except PegErr (RowOut N)
  | [], p, i => .ok (.done p i [])
  | a :: as, p, i =>
    match rec a p i with
    | .error x => .error x
    | .ok none => .ok (.failed i)
    | .ok (some (p', i', child)) =>
      match tryRow rec as p' i' with
      | .error x => .error x
      | .ok (.failed i'') => .ok (.failed i'')
      | .ok (.done p'' i'' cs) => .ok (.done p'' i'' (keep child cs))

/-- The result of a concatenation (emu_grammars.py:435-444); none if an assertion fails. -/
def seqNode (rk : RKind) (g : N) (p q : Nat) (cs : List (GNode N)) : Option (Option (GNode N)) :=
  match rk, cs with
  | .node, cs => some (some (.mk p q (.goal g) (cs.map some)))
  | .up, [c] => some (some c)
  | _, _ => none

/-- The result of an optional thing that is there (emu_grammars.py:468-478). -/
def optNode (rk : RKind) (g : N) (p q : Nat) (cs : List (GNode N)) : Option (Option (GNode N)) :=
  match rk, cs with
  | .node, cs => some (some (.mk p q (.goal g) (cs.map some)))
  | .up, [c] => some (some c)
  | .blank, _ => some none
  | _, _ => none

/-- The result of an omitted optional thing (emu_grammars.py:452-465). -/
def omittedNode (rk : RKind) (g : N) (p : Nat) : Option (GNode N) :=
  match rk with
  | .node => some (.mk p p (.goal g) [])
  | .up => some (.mk p p .omitted [])
  | .blank => none

/-- The loop over the elements of a list (emu_grammars.py:501-524); the first argument is fuel,
`latest` is `latest_sep_start_posn`. -/
def tryList (rec : N → Nat → Int → Except PegErr (Out N)) (element separator : N) :
    Nat → Nat → Nat → Int → List (Option (GNode N)) → Except PegErr (Option (Nat × Int × List (Option (GNode N))))
  | 0, _, _, _, _ => .error .fuel
  | m + 1, latest, p, i, elements =>
    match rec element p i with
    | .error x => .error x
    | .ok none => match elements with
      | [] => .ok none
      | e :: es => .ok (some (latest, i, e :: es))
    | .ok (some (p', i', x)) =>
      match rec separator p' i' with
      | .error x => .error x
      | .ok none => .ok (some (p', i', elements ++ [x]))
      | .ok (some (p'', i'', _)) => tryList rec element separator m p' p'' i'' (elements ++ [x])

/-- A delimiter of a list, if there is one (emu_grammars.py:494-499, 526-531). -/
def tryDelim (rec : N → Nat → Int → Except PegErr (Out N)) (d : Option N) (p : Nat) (i : Int) :
    Except PegErr (Option (Nat × Int)) :=
  match d with
  | none => .ok (some (p, i))
  | some d =>
    match rec d p i with
    | .error x => .error x
    | .ok none => .ok none
    | .ok (some (p', i', _)) => .ok (some (p', i'))

/-- The effect of a terminal that has matched (emu_grammars.py:554-572): the indentation afterwards, none
if the match is not good; `hi` is `end_posn`. -/
def layout (role : Role) (p e : Nat) (i : Int) (hi : Nat) : Except PegErr (Option Int) :=
  match role with
  | .indent => .ok (some (i + 2))
  | .outdent => .ok (some (i - 2))
  | .nlai =>
    if ((e : Int) - p - 1) % 2 = 0 then
      if (e : Int) - p - 1 = i then .ok (some i) else .ok none
    else .error .crash
  | .eoi => if e < hi then .ok none else .ok (some i)
  | .plain => .ok (some i)

/-- A regular expression (emu_grammars.py:536-581). -/
def tryTerm (W : PegEnv N) (hi : Nat) (rk : RKind) (g : N) (p : Nat) (i : Int) : Except PegErr (Out N) :=
  match W.rx g p with
  | none => .ok none
  | some e =>
    match layout (W.role g) p e i hi with
    | .error x => .error x
    | .ok none => .ok none
    | .ok (some i') =>
      match rk with
      | .node => .ok (some (e, i', some (.mk p e (.goal g) [])))
      | .blank => .ok (some (e, i', none))
      | .up => .error .crash

/-- A list with its delimiters (emu_grammars.py:480-534); `m` is fuel for the loop. -/
def tryPlus (rec : N → Nat → Int → Except PegErr (Out N)) (m : Nat) (g : N) (element separator : N)
    (left right : Option N) (p : Nat) (i : Int) : Except PegErr (Out N) :=
  match tryDelim rec left p i with
  | .error x => .error x
  | .ok none => .ok none
  | .ok (some (p', i')) =>
    match tryList rec element separator m p' p' i' [] with
    | .error x => .error x
    | .ok none => .ok none
    | .ok (some (p'', i'', elements)) =>
      match tryDelim rec right p'' i'' with
      | .error x => .error x
      | .ok none => .ok none
      | .ok (some (p''', i''')) => .ok (some (p''', i''', some (.mk p p''' (.goal g) elements)))

/-- A concatenation (emu_grammars.py:425-444). -/
def trySeq (rec : N → Nat → Int → Except PegErr (Out N)) (rk : RKind) (g : N) (args : List N) (p : Nat) (i : Int) :
    Except PegErr (Out N) :=
  match tryRow rec args p i with
  | .error x => .error x
  | .ok (.failed _) => .ok none
  | .ok (.done p' i' cs) =>
    match seqNode rk g p p' cs with
    | none => .error .crash
    | some r => .ok (some (p', i', r))

/-- An optional row (emu_grammars.py:446-478).  On failure the position is restored, the indentation
is not. -/
def tryOpt (rec : N → Nat → Int → Except PegErr (Out N)) (rk : RKind) (g : N) (args : List N) (p : Nat) (i : Int) :
    Except PegErr (Out N) :=
  match tryRow rec args p i with
  | .error x => .error x
  | .ok (.failed i') => .ok (some (p, i', omittedNode rk g p))
  | .ok (.done p' i' cs) =>
    match optNode rk g p p' cs with
    | none => .error .crash
    | some r => .ok (some (p', i', r))

/-- `attempt` (emu_grammars.py:390-584); the first argument is fuel.  Tracing and the record of
expectations for the error message are not modelled. -/
def attempt (W : PegEnv N) (hi : Nat) : Nat → N → Nat → Int → Except PegErr (Out N)
  | 0, _, _, _ => .error .fuel
  | n + 1, g, p, i =>
    match ruleOf W g with
    | none => .error .crash
    | some (.alt rk args) => tryAlts (attempt W hi n) rk p i args
    | some (.seq rk args) => trySeq (attempt W hi n) rk g args p i
    | some (.opt rk args) => tryOpt (attempt W hi n) rk g args p i
    | some (.plus e s l r) => tryPlus (attempt W hi n) n g e s l r p i
    | some (.term rk) => tryTerm W hi rk g p i

/-- `simple_parse` (emu_grammars.py:376-387, 586-594): none after a syntax error has been reported. -/
def simpleParse (W : PegEnv N) (n : Nat) (g : N) (start hi : Nat) (i : Int) :
    Except PegErr (Option (Option (GNode N))) :=
  match attempt W hi n g start i with
  | .error x => .error x
  | .ok none => .ok none
  | .ok (some (p, i', node)) => if p = hi ∧ i' = i then .ok (some node) else .error .crash

/-! ## The metagrammar -/

/-- The goals of the metagrammar (emu_grammars.py:299-372); `pat` is a pattern that stands for itself. -/
inductive MGoal where
  | EMU_GRAMMAR_CONTENT_1 | EMU_GRAMMAR_CONTENT_2 | BLOCK_PRODUCTIONS | BLOCK_PRODUCTION
  | MULTILINE_PRODUCTION | OPTIONAL_COMMENT_LINE | MULTILINE_R | MULTILINE_ONE_OF
  | LINES_OF_BACKTICKED_THINGS | U_ONELINE_PRODUCTION | ONELINE_PRODUCTION | ONELINE_R | ONELINE_ONE_OF
  | BACKTICKED_THINGS | MULTILINE_RHSS | RHS_LINE | OPTIONAL_GUARD | OPTIONAL_LABEL | RHS_BODY
  | RHS_ITEMS | RHS_ITEM | RHS_SYMBOL_QM | RHS_SYMBOL | GNT | OPTIONAL_PARAMS | PARAMS
  | RHS_CONSTRAINT | LOOKAHEAD_CONSTRAINT | LAC_SINGLE | LAC_SINGLE_OP | LAC_SET | LAC_SET_OP
  | LAC_SET_OPERAND | SET_OF_TERMINAL_SEQ | TERMINAL_SEQ | TERMINAL_ITEM | BUT_ONLY | BUT_NOT | EXCLUSION
  | EXCLUDABLES | EXCLUDABLE | INDENT | OUTDENT | EOI | NLAI | COLONS | PARAM | NT | LABEL | EMPTY | NLTH
  | U_RANGE | U_PROP | U_ANY | BACKTICKED_THING | NAMED_CHAR
  | pat (s : List Char)
deriving DecidableEq, Repr

open MGoal in
/-- `metagrammar` (emu_grammars.py:299-372); the patterns of the terminals are not written out. -/
def metagrammar : MGoal → Option (Rule MGoal)
  | EMU_GRAMMAR_CONTENT_1 => some (.seq .up [ONELINE_PRODUCTION, EOI])
  | EMU_GRAMMAR_CONTENT_2 => some (.seq .up [INDENT, BLOCK_PRODUCTIONS, OUTDENT, NLAI, EOI])
  | BLOCK_PRODUCTIONS => some (.plus BLOCK_PRODUCTION (pat ['\\', 'n']) none none)
  | BLOCK_PRODUCTION => some (.alt .up [MULTILINE_PRODUCTION, U_ONELINE_PRODUCTION])
  | MULTILINE_PRODUCTION => some (.seq .node [OPTIONAL_COMMENT_LINE, NLAI, GNT, pat [' '], COLONS, MULTILINE_R])
  | OPTIONAL_COMMENT_LINE => some (.opt .blank [NLAI, pat ['/', '/', ' ', 'e', 'm', 'u', '-', 'f', 'o', 'r', 'm', 'a', 't', ' ', 'i', 'g', 'n', 'o', 'r', 'e']])
  | MULTILINE_R => some (.alt .up [MULTILINE_ONE_OF, MULTILINE_RHSS])
  | MULTILINE_ONE_OF => some (.seq .node [pat [' ', 'o', 'n', 'e', ' ', 'o', 'f'], INDENT, NLAI, LINES_OF_BACKTICKED_THINGS, OUTDENT])
  | LINES_OF_BACKTICKED_THINGS => some (.plus BACKTICKED_THINGS NLAI none none)
  | U_ONELINE_PRODUCTION => some (.seq .up [NLAI, ONELINE_PRODUCTION])
  | ONELINE_PRODUCTION => some (.seq .node [GNT, pat [' '], COLONS, pat [' '], ONELINE_R])
  | ONELINE_R => some (.alt .up [ONELINE_ONE_OF, RHS_BODY])
  | ONELINE_ONE_OF => some (.seq .node [pat ['o', 'n', 'e', ' ', 'o', 'f', ' '], BACKTICKED_THINGS])
  | BACKTICKED_THINGS => some (.plus BACKTICKED_THING (pat [' ']) none none)
  | MULTILINE_RHSS => some (.plus RHS_LINE (pat []) (some INDENT) (some OUTDENT))
  | RHS_LINE => some (.seq .node [NLAI, OPTIONAL_GUARD, RHS_BODY, OPTIONAL_LABEL])
  | OPTIONAL_GUARD => some (.opt .up [PARAMS, pat [' ']])
  | OPTIONAL_LABEL => some (.opt .up [pat [' '], LABEL])
  | RHS_BODY => some (.alt .up [U_RANGE, U_PROP, U_ANY, EMPTY, RHS_ITEMS])
  | RHS_ITEMS => some (.plus RHS_ITEM (pat [' ']) none none)
  | RHS_ITEM => some (.alt .up [RHS_SYMBOL_QM, RHS_SYMBOL, RHS_CONSTRAINT])
  | RHS_SYMBOL_QM => some (.seq .node [RHS_SYMBOL, pat ['\\', '?']])
  | RHS_SYMBOL => some (.alt .up [GNT, BACKTICKED_THING, NAMED_CHAR])
  | GNT => some (.seq .node [NT, OPTIONAL_PARAMS])
  | OPTIONAL_PARAMS => some (.opt .up [PARAMS])
  | PARAMS => some (.plus PARAM (pat [',', ' ']) (some (pat ['\\', '['])) (some (pat ['\\', ']'])))
  | RHS_CONSTRAINT => some (.alt .up [LOOKAHEAD_CONSTRAINT, NLTH, BUT_ONLY, BUT_NOT])
  | LOOKAHEAD_CONSTRAINT => some (.alt .up [LAC_SINGLE, LAC_SET])
  | LAC_SINGLE => some (.seq .node [pat ['\\', '[', 'l', 'o', 'o', 'k', 'a', 'h', 'e', 'a', 'd', ' '], LAC_SINGLE_OP, pat [' '], TERMINAL_SEQ, pat ['\\', ']']])
  | LAC_SET => some (.seq .node [pat ['\\', '[', 'l', 'o', 'o', 'k', 'a', 'h', 'e', 'a', 'd', ' '], LAC_SET_OP, pat [' '], LAC_SET_OPERAND, pat ['\\', ']']])
  | LAC_SET_OPERAND => some (.alt .up [NT, SET_OF_TERMINAL_SEQ])
  | SET_OF_TERMINAL_SEQ => some (.plus TERMINAL_SEQ (pat [',', ' ']) (some (pat ['{', ' '])) (some (pat [' ', '}'])))
  | TERMINAL_SEQ => some (.plus TERMINAL_ITEM (pat [' ']) none none)
  | TERMINAL_ITEM => some (.alt .up [BACKTICKED_THING, NAMED_CHAR, NLTH])
  | BUT_NOT => some (.seq .node [pat ['b', 'u', 't', ' ', 'n', 'o', 't', ' '], EXCLUSION])
  | EXCLUSION => some (.alt .up [EXCLUDABLES, EXCLUDABLE])
  | EXCLUDABLES => some (.plus EXCLUDABLE (pat [' ', 'o', 'r', ' ', '|', ' ']) (some (pat ['o', 'n', 'e', ' ', 'o', 'f', ' '])) none)
  | EXCLUDABLE => some (.alt .up [NT, BACKTICKED_THING])
  | INDENT | OUTDENT | EOI | NLAI => some (.term .blank)
  | LAC_SINGLE_OP | LAC_SET_OP | BUT_ONLY | COLONS | PARAM | NT | LABEL | EMPTY | NLTH | U_RANGE | U_PROP | U_ANY
  | BACKTICKED_THING | NAMED_CHAR => some (.term .node)
  | pat _ => none

/-- The special goals, by name (emu_grammars.py:555-568). -/
def metaRole : MGoal → Role
  | .INDENT => .indent
  | .OUTDENT => .outdent
  | .NLAI => .nlai
  | .EOI => .eoi
  | _ => .plain

/-- `re.fullmatch(r'[A-Z_]+', goal)` (emu_grammars.py:411). -/
def nameLike (s : List Char) : Bool :=
  !s.isEmpty && s.all (fun c => (decide ('A'.toNat ≤ c.toNat) && decide (c.toNat ≤ 'Z'.toNat)) || decide (c = '_'))

/-- The parser with the metagrammar, for given patterns. -/
def metaEnv (rx : MGoal → Nat → Option Nat) : PegEnv MGoal where
  grammar := metagrammar
  role := metaRole
  looksLikeName g := match g with | .pat s => nameLike s | _ => true
  rx := rx

/-! ## The patterns of the metagrammar -/

/-- A regular expression as they occur in the metagrammar.  Repetition takes all it can and a choice is never
reconsidered: in these patterns nothing that follows a repetition can begin with a character of its class,
and at most one branch of a choice can begin with a given character, or nothing follows, so that going back, as `re` would,
never gives another match. -/
inductive Pat where
  /-- these characters -/
  | lit (cs : List Char)
  /-- one character of a class -/
  | one (ok : Char → Bool)
  /-- `*` -/
  | many (ok : Char → Bool)
  | cat (a b : Pat)
  | alt (a b : Pat)

/-- How many characters a pattern matches at the beginning of a text (`mo.end() - mo.start()`,
emu_grammars.py:539-550). -/
def Pat.size : Pat → List Char → Option Nat
  | .lit cs, s => if cs.isPrefixOf s then some cs.length else none
  | .one ok, s => match s with
    | [] => none
    | c :: _ => if ok c then some 1 else none
  | .many ok, s => some (s.takeWhile ok).length
  | .cat a b, s => match a.size s with
    | none => none
    | some n => match b.size (s.drop n) with
      | none => none
      | some m => some (n + m)
  | .alt a b, s => match a.size s with
    | some n => some n
    | none => b.size s

/-- `+` -/
def Pat.plus (ok : Char → Bool) : Pat := .cat (.one ok) (.many ok)

/-- `[A-Z]` -/
def isUpper (c : Char) : Bool := decide ('A'.toNat ≤ c.toNat) && decide (c.toNat ≤ 'Z'.toNat)

/-- `[a-zA-Z]` -/
def isLetter (c : Char) : Bool := isUpper c || (decide ('a'.toNat ≤ c.toNat) && decide (c.toNat ≤ 'z'.toNat))

/-- `[0-9A-F]` -/
def isHex (c : Char) : Bool :=
  (decide ('0'.toNat ≤ c.toNat) && decide (c.toNat ≤ '9'.toNat)) || (decide ('A'.toNat ≤ c.toNat) && decide (c.toNat ≤ 'F'.toNat))

/-- The meaning of a backslash. -/
def unescape : List Char → List Char
  | [] => []
  | '\\' :: 'n' :: cs => '\n' :: unescape cs
  | '\\' :: c :: cs => c :: unescape cs
  | c :: cs => c :: unescape cs

/-- `[empty]` (emu_grammars.py:365) -/
def EMPTY_ : List Char := ['[', 'e', 'm', 'p', 't', 'y', ']']

/-- `[no LineTerminator here]` (emu_grammars.py:366) -/
def NLTH_ : List Char := ['[', 'n', 'o', ' ', 'L', 'i', 'n', 'e', 'T', 'e', 'r', 'm', 'i', 'n', 'a', 't', 'o', 'r', ' ', 'h', 'e', 'r', 'e', ']']

/-- `&gt; any Unicode code point` (emu_grammars.py:367-369) -/
def U_ANY_ : List Char := ['&', 'g', 't', ';', ' ', 'a', 'n', 'y', ' ', 'U', 'n', 'i', 'c', 'o', 'd', 'e', ' ', 'c', 'o', 'd', 'e', ' ', 'p', 'o', 'i', 'n', 't']

/-- ` in the inclusive interval from U+` (emu_grammars.py:367) -/
def U_RANGE_ : List Char := [' ', 'i', 'n', ' ', 't', 'h', 'e', ' ', 'i', 'n', 'c', 'l', 'u', 's', 'i', 'v', 'e', ' ', 'i', 'n', 't', 'e', 'r', 'v', 'a', 'l', ' ', 'f', 'r', 'o', 'm', ' ', 'U', '+']

/-- ` to U+` (emu_grammars.py:367) -/
def TO_ : List Char := [' ', 't', 'o', ' ', 'U', '+']

/-- ` with the Unicode property &ldquo;` (emu_grammars.py:368) -/
def U_PROP_ : List Char := [' ', 'w', 'i', 't', 'h', ' ', 't', 'h', 'e', ' ', 'U', 'n', 'i', 'c', 'o', 'd', 'e', ' ', 'p', 'r', 'o', 'p', 'e', 'r', 't', 'y', ' ', '&', 'l', 'd', 'q', 'u', 'o', ';']

/-- `&rdquo;` (emu_grammars.py:368) -/
def RDQUO_ : List Char := ['&', 'r', 'd', 'q', 'u', 'o', ';']

/-- `&isin;` (emu_grammars.py:343) -/
def ISIN_ : List Char := ['&', 'i', 's', 'i', 'n', ';']

/-- `&notin;` (emu_grammars.py:343) -/
def NOTIN_ : List Char := ['&', 'n', 'o', 't', 'i', 'n', ';']

/-- `[> but only if ` (emu_grammars.py:349) -/
def BUT_ONLY_ : List Char := ['[', '>', ' ', 'b', 'u', 't', ' ', 'o', 'n', 'l', 'y', ' ', 'i', 'f', ' ']

/-- ` or | ` (emu_grammars.py:353) -/
def OR_ : List Char := [' ', 'o', 'r', ' ', '|', ' ']

/-- The patterns of the terminals (emu_grammars.py:336-371); `isWord` is `\w`. -/
def metaPattern (isWord : Char → Bool) : MGoal → Pat
  | .INDENT | .OUTDENT | .EOI => .lit []
  | .NLAI => .cat (.lit ['\n']) (.plus (· == ' '))
  | .COLONS => .plus (· == ':')
  | .PARAM => .cat (.alt (.one (fun c => c == '~' || c == '+' || c == '?')) (.lit [])) (.cat (.one isUpper) (.many isLetter))
  | .NT => .alt (.cat (.one isUpper) (.many isWord)) (.alt (.cat (.lit ['u', 'r', 'i']) (.many isWord)) (.lit ['@']))
  | .LABEL => .cat (.lit ['#']) (.plus isWord)
  | .EMPTY => .lit EMPTY_
  | .NLTH => .lit NLTH_
  | .U_RANGE => .cat (.lit (U_ANY_ ++ U_RANGE_)) (.cat (.plus isHex) (.cat (.lit TO_) (.plus isHex)))
  | .U_PROP => .cat (.lit (U_ANY_ ++ U_PROP_)) (.cat (.plus isWord) (.lit RDQUO_))
  | .U_ANY => .lit U_ANY_
  | .BACKTICKED_THING => .cat (.lit ['`']) (.cat (.alt (.plus (fun c => !(c == '`' || c == ' '))) (.lit ['`'])) (.lit ['`']))
  | .NAMED_CHAR => .cat (.lit ['&', 'l', 't', ';']) (.cat (.plus isUpper) (.lit ['&', 'g', 't', ';']))
  | .LAC_SINGLE_OP => .alt (.lit ['=', '=']) (.lit ['!', '='])
  | .LAC_SET_OP => .alt (.lit ISIN_) (.lit NOTIN_)
  | .BUT_ONLY => .cat (.lit BUT_ONLY_) (.cat (.plus (fun c => !(c == ']' || c == '['))) (.lit [']']))
  | .pat s => if s = OR_ then .alt (.lit [' ', 'o', 'r', ' ']) (.lit [' ']) else .lit (unescape s)
  | _ => .lit []

/-- `re.compile(pattern).match(shared.spec_text, at_start_posn)` (emu_grammars.py:539): the end of the match. -/
def matchText (isWord : Char → Bool) (text : List Char) (g : MGoal) (p : Nat) : Option Nat :=
  match (metaPattern isWord g).size (text.drop p) with
  | none => none
  | some n => some (p + n)

end Verif.Gram
