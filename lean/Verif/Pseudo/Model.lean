import Verif.Common
/-!
# Model of `Pseudocode_Parser.py`

The tokenizer of pseudocode with its indent and outdent tokens, the indentation that
`parse_and_handle_errors` starts it with, and the conversion of a grammar file to productions.
The general LR parser itself (`LR_Parser`) is not part of the repository.
-/
namespace Verif.Pseudo

/-- What a token is: the left-hand side of its production (Pseudocode_Parser.py:110-203).  The
three kinds the tokenizer or the layout depend on are separate; all others carry their name. -/
inductive Kind where
  /-- `{_eos_}` -/
  | eos
  /-- `{nlai}` -/
  | nlai
  /-- `{space}` -/
  | space
  /-- `{_indent_}` (Pseudocode_Parser.py:104) -/
  | indent
  /-- `{_outdent_}` (Pseudocode_Parser.py:105) -/
  | outdent
  /-- any other left-hand side -/
  | other (name : String)
deriving DecidableEq, Repr

/-- A token `(prod, tok_s_posn, tok_e_posn, text)` (Pseudocode_Parser.py:80, 84). -/
structure Tok where
  kind : Kind
  start : Nat
  stop : Nat
  text : List Char
deriving DecidableEq, Repr

/-- The patterns of the tokenizer other than the first three (Pseudocode_Parser.py:117-203), as a
parameter: what the first of them to match at a position is called, and how long the match is. -/
abbrev Others := List Char → Nat → Nat → Option (String × Nat)

/-- The character at a position before `hi` (the pattern does not see further: `endpos`). -/
def charAt (s : List Char) (hi p : Nat) : Option Char := if p < hi then s[p]? else none

/-- `$` without MULTILINE: the end, or just before a newline that ends the text
(Pseudocode_Parser.py:111-115). -/
def atEos (s : List Char) (hi p : Nat) : Bool :=
  decide (p = hi) || (decide (p + 1 = hi) && decide (charAt s hi p = some '\n'))

/-- The number of blanks at the start of a list of characters. -/
def leadingBlanks : List Char → Nat
  | c :: cs => if c = ' ' then leadingBlanks cs + 1 else 0
  | [] => 0

/-- `s[p:q]`. -/
def slice (s : List Char) (p q : Nat) : List Char := (s.take q).drop p

/-- `self.reo.match(s, posn, end_posn)` (Pseudocode_Parser.py:45; the alternatives in order,
110-203): the kind of the token and its end. -/
def matchAt (others : Others) (s : List Char) (hi p : Nat) : Option (Kind × Nat) :=
  if atEos s hi p then some (.eos, p)
  else if charAt s hi p = some '\n' then some (.nlai, p + 1 + leadingBlanks (slice s (p + 1) hi))
  else if charAt s hi p = some ' ' then some (.space, p + 1)
  else (others s hi p).map (fun r => (.other r.1, p + r.2))

/-- Why tokenizing stops without a result. -/
inductive TokErr where
  /-- no pattern matches (Pseudocode_Parser.py:46-51) -/
  | stuck
  /-- `assert change_in_indentation % indent_unit == 0` (Pseudocode_Parser.py:71) -/
  | oddIndent
  /-- the fuel of the model has run out; the program would still be running -/
  | running
deriving DecidableEq, Repr

/-- The dent tokens before a line (Pseudocode_Parser.py:68-80). -/
def dents (change : Int) (p : Nat) : List Tok :=
  List.replicate (change / 2).natAbs ⟨if change / 2 > 0 then .indent else .outdent, p, p, []⟩

/-- The loop of `Tokenizer.tokenize` (Pseudocode_Parser.py:41-88); `n` is fuel. -/
def tokenize (others : Others) (s : List Char) (hi : Nat) (dent : Bool) :
    Nat → Nat → Nat → Except TokErr (List Tok)
  | 0, _, _ => .error .running
  | n + 1, p, prev =>
    match matchAt others s hi p with
    | none => .error .stuck
    | some (.eos, e) => .ok [⟨.eos, p, e, slice s p e⟩]
    | some (.nlai, e) =>
      if dent then
        if (((slice s p e).length - 1 : Nat) - prev : Int) % 2 = 0 then
          match tokenize others s hi dent n e ((slice s p e).length - 1) with
          | .error x => .error x
          | .ok ts =>
            .ok (dents (((slice s p e).length - 1 : Nat) - prev) p ++ ⟨.nlai, p, e, slice s p e⟩ :: ts)
        else .error .oddIndent
      else match tokenize others s hi dent n e prev with
        | .error x => .error x
        | .ok ts => .ok (⟨.nlai, p, e, slice s p e⟩ :: ts)
    | some (k, e) =>
      match tokenize others s hi dent n e prev with
      | .error x => .error x
      | .ok ts => .ok (⟨k, p, e, slice s p e⟩ :: ts)

/-- The search for the start of a line (Pseudocode_Parser.py:253-256). -/
def lineStart (s : List Char) : Nat → Nat
  | 0 => 0
  | p + 1 => if s[p]? = some '\n' then p + 1 else lineStart s p

/-- The search for the end of the indentation (Pseudocode_Parser.py:260-264): positions
`p, …, start`, none if they are all blank (the assertion fails) or the text ends (IndexError). -/
def indentEnd (s : List Char) (start : Nat) : Nat → Nat → Option Nat
  | 0, _ => none
  | n + 1, p =>
    match s[p]? with
    | none => none
    | some c => if c = ' ' then indentEnd s start n (p + 1) else some p

/-- `this_line_indentation` (Pseudocode_Parser.py:251-267). -/
def lineIndentation (s : List Char) (start : Nat) : Option Nat :=
  (indentEnd s start (start + 1 - lineStart s start) (lineStart s start)).map (· - lineStart s start)

/-- The tokens that `parse_and_handle_errors` works on, without the entry token
(Pseudocode_Parser.py:251-277).  The fuel is enough when all patterns match something. -/
def parserTokens (others : Others) (s : List Char) (start hi : Nat) : Option (Except TokErr (List Tok)) :=
  (lineIndentation s start).map (tokenize others s hi true (hi - start + 1) start)

/-! ## Grammar files -/

/-- `str.split('\n')` (Pseudocode_Parser.py:423). -/
def splitLines : List Char → List (List Char)
  | [] => [[]]
  | c :: cs =>
    if c = '\n' then [] :: splitLines cs
    else match splitLines cs with
      | [] => [[c]]
      | l :: ls => (c :: l) :: ls

/-- `[A-Z_]`. -/
def ntStart (c : Char) : Bool := decide ('A' ≤ c ∧ c ≤ 'Z') || decide (c = '_')

/-- `[A-Z_0-9]`. -/
def ntRest (c : Char) : Bool := ntStart c || decide ('0' ≤ c ∧ c ≤ '9')

/-- The rest of a nonterminal after its first letter: `[A-Z_0-9]*\}`; returns the characters and
what follows the brace. -/
def ntTail : List Char → Option (List Char × List Char)
  | [] => none
  | c :: cs =>
    if c = '}' then some ([], cs)
    else if ntRest c then (ntTail cs).map (fun r => (c :: r.1, r.2)) else none

/-- A match of `nt_pattern` (Pseudocode_Parser.py:416) at the start: the match, and the rest. -/
def ntPrefix : List Char → Option (List Char × List Char)
  | '{' :: c :: cs => if ntStart c then (ntTail cs).map (fun r => ('{' :: c :: (r.1 ++ ['}']), r.2)) else none
  | _ => none

/-- `re.match(r'^%s$' % nt_pattern, item)` (Pseudocode_Parser.py:472).  `$` also matches before a
final newline; pieces contain none, as the text has been split into lines. -/
def isNt (item : List Char) : Bool := decide ((ntPrefix item).map (·.2) = some [])

/-- `re.match(f'^({nt_pattern}) :$', line)`, the group (Pseudocode_Parser.py:432-434). -/
def lhsOf (line : List Char) : Option (List Char) :=
  match ntPrefix line with
  | some (nt, [' ', ':']) => some nt
  | _ => none

/-- `re.match(r'^ *#', line)` (Pseudocode_Parser.py:427). -/
def isComment : List Char → Bool
  | [] => false
  | c :: cs => if c = ' ' then isComment cs else decide (c = '#')

/-- What comes from outside: the white space of `str.lstrip`, the pattern of the right-hand-side
pieces (Pseudocode_Parser.py:477-513; the end of the match, if any), and the translation of pieces that
start with `\u` (452; none if `int` or `chr` raise). -/
structure GrammarEnv where
  white : Char → Bool
  piece : List Char → Nat → Option Nat
  escape : List Char → Option (List Char)

/-- `Production` with its `rhs_pieces`; the left-hand side is `None` for alternatives before the first
left-hand side. -/
structure Production where
  lhs : Option (List Char)
  rhs : List Char
  pieces : List (List Char)
deriving DecidableEq, Repr

/-- Why a grammar file is refused. -/
inductive GrammarErr where
  /-- Pseudocode_Parser.py:433 -/
  | badLhs
  /-- Pseudocode_Parser.py:435 -/
  | repeatedLhs
  /-- `sys.exit(1)` (456-460), or `int`/`chr` raise (452) -/
  | badPiece
  /-- Pseudocode_Parser.py:463 -/
  | epsilon
  /-- Pseudocode_Parser.py:473 -/
  | undefined
  /-- the fuel of the model has run out: an empty match, the program would still be running -/
  | running
deriving DecidableEq, Repr

/-- `{EPSILON}` -/
def epsilon : List Char := ['{', 'E', 'P', 'S', 'I', 'L', 'O', 'N', '}']

/-- The text of a piece (Pseudocode_Parser.py:451-452). -/
def pieceText (G : GrammarEnv) (text : List Char) : Option (List Char) :=
  if ['\\', 'u'] <+: text then G.escape text else some text

/-- The loop over the pieces of a right-hand side (Pseudocode_Parser.py:444-460); `n` is fuel. -/
def pieces (G : GrammarEnv) (rhs : List Char) : Nat → Nat → Except GrammarErr (List (List Char))
  | 0, _ => .error .running
  | n + 1, p =>
    if p = rhs.length then .ok []
    else match G.piece rhs p with
      | none => .error .badPiece
      | some e =>
        match pieceText G (slice rhs p e) with
        | none => .error .badPiece
        | some t =>
          match pieces G rhs n e with
          | .error x => .error x
          | .ok ts => .ok (t :: ts)

/-- The alternative on a line (Pseudocode_Parser.py:439-466). -/
def alternative (G : GrammarEnv) (lhs : Option (List Char)) (line : List Char) : Except GrammarErr Production :=
  match pieces G (line.dropWhile G.white) ((line.dropWhile G.white).length + 1) 0 with
  | .error x => .error x
  | .ok ps =>
    if epsilon ∈ ps then
      if ps = [epsilon] then .ok ⟨lhs, line.dropWhile G.white, []⟩ else .error .epsilon
    else .ok ⟨lhs, line.dropWhile G.white, ps⟩

/-- The loop over the lines (Pseudocode_Parser.py:423-466). -/
def convertLines (G : GrammarEnv) : List (List Char) → List (List Char) → Option (List Char) →
    Except GrammarErr (List (List Char) × List Production)
  | [], seen, _ => .ok (seen, [])
  | line :: lines, seen, cur =>
    if line = [] then convertLines G lines seen cur
    else if isComment line then convertLines G lines seen cur
    else if line.head? ≠ some ' ' then
      match lhsOf line with
      | none => .error .badLhs
      | some nt =>
        if nt ∈ seen then .error .repeatedLhs
        else convertLines G lines (seen ++ [nt]) (some nt)
    else match alternative G cur line with
      | .error x => .error x
      | .ok prod =>
        match convertLines G lines seen cur with
        | .error x => .error x
        | .ok (seen', prods) => .ok (seen', prod :: prods)

/-- `convert_grammar_string_to_productions` (Pseudocode_Parser.py:418-475). -/
def convertGrammar (G : GrammarEnv) (text : List Char) : Except GrammarErr (List Production) :=
  match convertLines G (splitLines text) [] none with
  | .error x => .error x
  | .ok (seen, prods) =>
    if prods.all (fun p => p.pieces.all (fun r => !isNt r || decide (r ∈ seen))) then .ok prods
    else .error .undefined

end Verif.Pseudo
