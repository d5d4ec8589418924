import Verif.Earley.Model
/-!
# Model of the lexical terminal provider

Models `LexicalTIP` (es_parser.py:1798-1919), `lexical_Rsymbol_matches_char` and
`char_matches_any_of_the_symbols` (es_parser.py:2146-2237), and the lexical branch of `parse`
(es_parser.py:1076-1096).

`unicodedata.category` and the table `char_set_` (filled once from the grammar by
`gather_char_sets`, es_parser.py:960-989) are parameters.
-/
namespace Verif.Earley

/-- What the lexical matcher consults: `unicodedata.category` and `char_set_`. -/
structure LexEnv where
  category : Char → String
  charSet : String → Option (List Char)

/-- A terminal `ES_ParseNode` made by `LexicalTIP` (es_parser.py:1825): its symbol and extent. -/
structure LexLeaf where
  sym : Term
  s : Nat
  e : Nat
deriving DecidableEq, Repr

/-- es_parser.py:20-36 `character_named_`; `none` is a `KeyError`. -/
def characterNamed (n : String) : Option Char :=
  if n = "ZWNBSP" then some '\ufeff'
  else if n = "TAB" then some '\u0009'
  else if n = "VT" then some '\u000b'
  else if n = "FF" then some '\u000c'
  else if n = "LF" then some '\u000a'
  else if n = "CR" then some '\u000d'
  else if n = "LS" then some '\u2028'
  else if n = "PS" then some '\u2029'
  else none

/-- es_parser.py:2183. -/
def otherIdStart : List Char := ['\u1885', '\u1886', '\u309b', '\u309c', '\u2118', '\u212e']
/-- es_parser.py:2184. -/
def otherIdContinue : List Char :=
  ['\u00b7', '\u0387', '\u1369', '\u136a', '\u136b', '\u136c', '\u136d', '\u136e', '\u136f', '\u1370',
   '\u1371', '\u19da', '\u200c', '\u200d', '\u30fb', '\uff65']

/-- es_parser.py:2181-2204. -/
def uPropMatches (env : LexEnv) (p : String) (ch : Char) : Option Bool :=
  if p = "ID_Start" then
    some (decide (env.category ch ∈ ["Lu", "Ll", "Lt", "Lm", "Lo", "Nl"]) || decide (ch ∈ otherIdStart))
  else if p = "ID_Continue" then
    some ((decide (env.category ch ∈ ["Lu", "Ll", "Lt", "Lm", "Lo", "Nl", "Mn", "Mc", "Nd", "Pc"])
      || decide (ch ∈ otherIdStart) || decide (ch ∈ otherIdContinue)) && decide (ch ≠ '\u2e2f'))
  else none

/-- es_parser.py:2154-2204 `lexical_Rsymbol_matches_char` on a terminal symbol; `none` is a failed
assertion or lookup. -/
def lexMatches (env : LexEnv) (t : Term) (ch : Char) : Option Bool :=
  if t = acceptance then some false
  else match t with
    | .lit s =>
      match s.toList with
      | [c] => some (decide (c = ch))
      | _ => none
    | .named n =>
      if n = "USP" then some (decide (env.category ch = "Zs"))
      else (characterNamed n).map (fun c => decide (ch = c))
    | .uRange lo hi => some (decide (lo ≤ ch.toNat) && decide (ch.toNat ≤ hi))
    | .uProp p => uPropMatches env p ch

/-- es_parser.py:2154-2237 on something excluded by "but not": a terminal, or a nonterminal that stands
for a set of characters (2232-2234). -/
def exMatches (env : LexEnv) (ch : Char) : Ex → Option Bool
  | .term t => lexMatches env t ch
  | .nt n => (env.charSet n).map (fun cs => decide (ch ∈ cs))

/-- A loop that returns `True` at the first match (es_parser.py:2148-2152, 1897-1902). -/
def anyMatch {α : Type} (f : α → Option Bool) : List α → Option Bool
  | [] => some false
  | a :: r =>
    match f a with
    | none => none
    | some true => some true
    | some false => anyMatch f r

/-- es_parser.py:2058-2059 `ES_ParseNode.text`: a slice of the source text. -/
def slice (text : List Char) (s e : Nat) : List Char := (text.drop s).take (e - s)

/-- Start and end of a node made by the lexical parser. -/
def lexExtent : Node LexLeaf → Nat × Nat
  | .leaf l => (l.s, l.e)
  | .nt _ _ s e _ => (s, e)

/-- `prec_node.text()`. -/
def nodeText (text : List Char) (n : Node LexLeaf) : List Char := slice text (lexExtent n).1 (lexExtent n).2

/-- `prec_node.symbol == name`: a terminal's symbol is never equal to a string. -/
def hasSymbol (name : String) : Node LexLeaf → Bool
  | .leaf _ => false
  | .nt p _ _ _ _ => decide (p.ogLhs = name)

/-- The value of a hexadecimal digit. -/
def hexDigit (c : Char) : Option Nat :=
  if '0' ≤ c ∧ c ≤ '9' then some (c.toNat - '0'.toNat)
  else if 'a' ≤ c ∧ c ≤ 'f' then some (c.toNat - 'a'.toNat + 10)
  else if 'A' ≤ c ∧ c ≤ 'F' then some (c.toNat - 'A'.toNat + 10)
  else none

/-- `int(text, 16)` (es_parser.py:1855, 1867) on a nonempty string of hexadecimal digits. Python also
accepts a sign, a prefix, surrounding blanks and underscores; the model treats those as a failure. -/
def hexValue (cs : List Char) : Option Nat :=
  if cs = [] then none
  else cs.foldl (fun acc c => match acc, hexDigit c with
    | some v, some d => some (16 * v + d)
    | _, _ => none) (some 0)

/-- es_parser.py:1851-1890: the texts of the "but only if" conditions that the code knows, with the
symbol they are about and the test they make. -/
def onlyIfTable (c : String) : Option (String × (Nat → Bool)) :=
  if c = "the MV of |HexDigits| &le; 0x10FFFF" then some ("HexDigits", fun v => decide (v ≤ 0x10FFFF))
  else if c = "the MV of |HexDigits| > 0x10FFFF" then some ("HexDigits", fun v => decide (v > 0x10FFFF))
  else if c = "the MV of |Hex4Digits| is in the inclusive interval from 0xD800 to 0xDBFF" then
    some ("Hex4Digits", fun v => decide (0xD800 ≤ v) && decide (v ≤ 0xDBFF))
  else if c = "the MV of |Hex4Digits| is in the inclusive interval from 0xDC00 to 0xDFFF" then
    some ("Hex4Digits", fun v => decide (0xDC00 ≤ v) && decide (v ≤ 0xDFFF))
  else if c = "the MV of |Hex4Digits| is not in the inclusive interval from 0xD800 to 0xDFFF" then
    some ("Hex4Digits", fun v => !(decide (0xD800 ≤ v) && decide (v ≤ 0xDFFF)))
  else none

/-- es_parser.py:1877: the one condition that is accepted without being checked. -/
def unchecked : String :=
  "the CapturingGroupNumber of |DecimalEscape| is &le; CountLeftCapturingParensWithin(the |Pattern| containing |DecimalEscape|)"

/-- es_parser.py:1850-1890: a "but only if" constraint. -/
def checkOnlyIf (text : List Char) (prev : Option (Node LexLeaf)) (c : String) : Option Bool :=
  if c = unchecked then some true
  else match onlyIfTable c, prev with
    | some (sym, test), some n => if hasSymbol sym n then (hexValue (nodeText text n)).map test else none
    | _, _ => none

/-- es_parser.py:1847-1848: a "but not" constraint. -/
def checkButNot (env : LexEnv) (text : List Char) (prev : Option (Node LexLeaf)) (b : List Ex) : Option Bool :=
  match prev with
  | none => none
  | some n =>
    match nodeText text n with
    | [ch] => (anyMatch (exMatches env ch) b).map (fun x => !x)
    | _ => none

/-- es_parser.py:1897-1902: does the next character match one terminal sequence? -/
def laMatches (env : LexEnv) (ch : Char) : List La → Option Bool
  | [.term t] => lexMatches env t ch
  | _ => none

/-- es_parser.py:1892-1916: a lookahead constraint. -/
def checkLookahead (env : LexEnv) (text : List Char) (pos : Nat) (isMatch : Bool) (tss : List (List La)) :
    Option Bool :=
  (match text[pos]? with
    | some ch => anyMatch (laMatches env ch) tss
    | none => some false).map (fun any => if isMatch then any else !any)

/-- es_parser.py:1846-1919 `LexicalTIP.check_constraint`; `none` is a failure other than a parse error. -/
def lexCheck (env : LexEnv) (text : List Char) (prev : Option (Node LexLeaf)) (pos : Nat) : Con → Option Bool
  | .butNot b => checkButNot env text prev b
  | .butOnlyIf c => checkOnlyIf text prev c
  | .lookahead m tss => checkLookahead env text pos m tss
  | .noLT => none

/-- es_parser.py:1822-1826: the loop over the expected terminals. -/
def lexRats (env : LexEnv) (ch : Char) (pos : Nat) : List Term → Option (List (Term × LexLeaf))
  | [] => some []
  | t :: ts =>
    match lexMatches env t ch with
    | none => none
    | some b =>
      (lexRats env ch pos ts).map (fun r => if b then (t, ⟨t, pos, pos + 1⟩) :: r else r)

/-- es_parser.py:1802-1842 `LexicalTIP.get_next_terminal_instances`. -/
def lexNext (env : LexEnv) (text : List Char) (pos : Nat) (expected : List Term) (kludge : Option Kludge) :
    Except Err (Option (List (Term × LexLeaf) × Nat) × Unit) :=
  if kludge ≠ none then .error .crash
  else if text.length < pos then .error .crash
  else match text[pos]? with
    | none => .ok (none, ())
    | some ch =>
      match lexRats env ch pos expected with
      | none => .error .crash
      | some [] => .ok (none, ())
      | some (r :: rs) => .ok (some (r :: rs, pos + 1), ())

/-- es_parser.py:1798-1919 `LexicalTIP`. -/
def lexTip (env : LexEnv) (text : List Char) : Tip Unit LexLeaf where
  next _ pos expected kludge := lexNext env text pos expected kludge
  check _ prev pos con := match lexCheck env text prev pos con with
    | some b => .ok b
    | none => .error .crash
  leafStart l := l.s
  leafEnd l := l.e
  isEoi l := decide (l.sym = endOfInput)

/-- es_parser.py:1017, 1570-1574: the lexical parser on a text, from a position. -/
def lexCfg (env : LexEnv) (G : Grammar) (goal : String) (text : List Char) : Cfg Unit LexLeaf :=
  ⟨G, lexTip env text, false, false, goal⟩

/-- es_parser.py:1076-1096: the lexical branch of `parse`: the whole text must be consumed. -/
def lexParse (env : LexEnv) (G : Grammar) (goal : String) (text : List Char) (fuel : Nat) :
    Except Err (Node LexLeaf) :=
  match run (lexCfg env G goal text) fuel () 0 with
  | .error e => .error e
  | .ok n => if (lexExtent n).2 ≠ text.length then .error .parse else .ok n

end Verif.Earley
