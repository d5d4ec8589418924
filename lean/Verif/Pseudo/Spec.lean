import Verif.Pseudo.Model
/-! # Specifications for the pseudocode tokenizer and the grammar files -/
namespace Verif.Pseudo

/-! ## Layout tokens -/

/-- A token that stands for a change of depth. -/
def Tok.isDent (t : Tok) : Prop := t.kind = .indent ∨ t.kind = .outdent

instance (t : Tok) : Decidable t.isDent := by unfold Tok.isDent; infer_instance

/-- The tokens that cover text, without the dents. -/
def withoutDents (ts : List Tok) : List Tok := ts.filter (fun t => !decide t.isDent)

/-- The number of indent tokens. -/
def indents (ts : List Tok) : Int := (ts.filter (fun t => decide (t.kind = .indent))).length

/-- The number of outdent tokens. -/
def outdents (ts : List Tok) : Int := (ts.filter (fun t => decide (t.kind = .outdent))).length

/-- The indentation of the line that begins with a line break token: the blanks after the newline. -/
def Tok.indentation (t : Tok) : Nat := t.text.length - 1

/-- The indentation of the line reached after the given tokens: that of the last line break, or the
initial one. -/
def lastIndentation (init : Nat) (ts : List Tok) : Nat :=
  ((ts.filter (fun t => decide (t.kind = .nlai))).getLast?.map Tok.indentation).getD init

/-- A text of a line break token: a newline and blanks. -/
def LineBreak (s : List Char) : Prop := ∃ (n : Nat), s = '\n' :: List.replicate n ' '

/-- The tokens lie end to end from `p` to `q`. -/
inductive Tiles (s : List Char) : Nat → List Tok → Nat → Prop
  | nil (p) : Tiles s p [] p
  | cons {p q t ts} : t.start = p → t.start ≤ t.stop → t.text = slice s t.start t.stop →
      Tiles s t.stop ts q → Tiles s p (t :: ts) q

/-- Patterns always match something, inside the text. -/
def Proper (others : Others) : Prop :=
  ∀ s hi p k len, others s hi p = some (k, len) → 0 < len ∧ p + len ≤ hi

/-- The position starts a line. -/
def StartsLine (s : List Char) (p : Nat) : Prop := p = 0 ∨ ∃ (q : Nat), p = q + 1 ∧ s[q]? = some '\n'

/-! ## Grammar files -/

/-- What a line of a grammar file is. -/
inductive Line where
  | skip
  | lhs
  | alt
deriving DecidableEq

/-- A line is skipped if it is empty or its first non-blank is `#`; otherwise it gives an alternative
if it starts with a blank and a left-hand side if it does not. -/
def classify (line : List Char) : Line :=
  if line = [] ∨ (line.dropWhile (fun c => decide (c = ' '))).head? = some '#' then .skip
  else if line.head? = some ' ' then .alt
  else .lhs

/-- A nonterminal: a brace, a capital letter or underscore, capital letters, underscores and digits, a
brace. -/
def Nonterminal (item : List Char) : Prop :=
  ∃ (c : Char) (cs : List Char), item = '{' :: c :: (cs ++ ['}']) ∧ ntStart c = true ∧ ∀ d ∈ cs, ntRest d = true

/-- The names declared by the left-hand sides of the lines, in order. -/
def declared (lines : List (List Char)) : List (List Char) :=
  (lines.filter (fun l => decide (classify l = .lhs))).map (fun l => l.take (l.length - 2))

/-- A well-formed left-hand side: a nonterminal, a blank and a colon. -/
def LhsLine (line : List Char) : Prop := ∃ nt, Nonterminal nt ∧ line = nt ++ [' ', ':']

/-- The numbers of the lines that are alternatives, in ascending order. -/
def alternatives (lines : List (List Char)) : List Nat :=
  (List.range lines.length).filter (fun i => decide ((lines[i]?).map classify = some .alt))

/-- The text of some lines: they are joined by newlines. -/
def joinLines : List (List Char) → List Char
  | [] => []
  | [l] => l
  | l :: ls => l ++ '\n' :: joinLines ls

/-- `text` falls into the pieces, each what the pattern matches at its place. -/
inductive Pieces (G : GrammarEnv) (rhs : List Char) : Nat → List (List Char) → Prop
  | done : Pieces G rhs rhs.length []
  | piece {p e t ts} : p ≠ rhs.length → G.piece rhs p = some e →
      (if ['\\', 'u'] <+: slice rhs p e then G.escape (slice rhs p e) = some t else t = slice rhs p e) →
      Pieces G rhs e ts → Pieces G rhs p (t :: ts)

/-- `ps` is the list of items an alternative denotes: the pieces of the line after its white space; a
lone `{EPSILON}` stands for no items, and `{EPSILON}` occurs in no other way. -/
def Items (G : GrammarEnv) (line : List Char) (ps : List (List Char)) : Prop :=
  (ps = [] ∧ Pieces G (line.dropWhile G.white) 0 [epsilon]) ∨
  (epsilon ∉ ps ∧ Pieces G (line.dropWhile G.white) 0 ps)

/-- `AlternativeOf G lines i prod`: line `i` is an alternative, and `prod` is its production: its
left-hand side is the last one declared above it. -/
def AlternativeOf (G : GrammarEnv) (lines : List (List Char)) (i : Nat) (prod : Production) : Prop :=
  ∃ line, lines[i]? = some line ∧ classify line = .alt ∧
    prod.lhs = (declared (lines.take i)).getLast? ∧ prod.rhs = line.dropWhile G.white ∧
    Items G line prod.pieces

/-- A grammar file in order: every left-hand side is well formed, none is repeated, every alternative
has items, and every nonterminal among them is declared. -/
structure Accepted (G : GrammarEnv) (lines : List (List Char)) (prods : List Production) : Prop where
  lhsOk : ∀ l ∈ lines, classify l = .lhs → LhsLine l
  once : (declared lines).Nodup
  count : prods.length = (alternatives lines).length
  each : ∀ (k i : Nat) (prod : Production), (alternatives lines)[k]? = some i → prods[k]? = some prod →
    AlternativeOf G lines i prod
  defined : ∀ prod ∈ prods, ∀ item ∈ prod.pieces, Nonterminal item → item ∈ declared lines

/-- The pattern of pieces always matches something, inside the text. -/
def GrammarEnv.Proper (G : GrammarEnv) : Prop := ∀ rhs p e, G.piece rhs p = some e → p < e ∧ e ≤ rhs.length

end Verif.Pseudo
