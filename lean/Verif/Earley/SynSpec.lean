import Verif.Earley.Spec
import Verif.Earley.SynModel
/-!
# Specification: tokens and automatic semicolon insertion
-/
namespace Verif.Earley

/-- The goal symbols for input elements. -/
def lexGoals : List String :=
  ["InputElement_common", "InputElementDiv", "InputElementRegExp", "InputElementRegExpOrTemplateTail",
   "InputElementTemplateTail"]

/-- `ns` are input elements that together make up the first `p` characters of the text, each being what
the lexical parser finds, for one of the goal symbols, where the one before it ended. -/
inductive Lexed (S : SynEnv) : List (Node LexLeaf) → Nat → Prop
  | nil : Lexed S [] 0
  | snoc {ns p n q goal} : Lexed S ns p → goal ∈ lexGoals → S.lex goal p = .ok n → lexExtent n = (p, q) → p < q →
      q ≤ S.text.length → Lexed S (ns ++ [n]) q

/-- The tree `n` has a node with the given symbol in it. -/
inductive Contains (name : String) : Node LexLeaf → Prop
  | here {p b s e cs} : p.ogLhs = name → Contains name (.nt p b s e cs)
  | child {p b s e cs c} : c ∈ cs → Contains name c → Contains name (.nt p b s e cs)

/-- White space, line terminators and comments separate tokens. -/
def IsGap (x : Elem) : Prop :=
  ∃ p b s e q b' s' e' cs, x = .node (.nt p b s e [.nt q b' s' e' cs]) ∧
    (q.ogLhs = "WhiteSpace" ∨ q.ogLhs = "LineTerminator" ∨ q.ogLhs = "Comment")

/-- A line terminator, or a comment with a line terminator in it. -/
def IsLineBreak (x : Elem) : Prop :=
  ∃ p b s e q b' s' e' cs, x = .node (.nt p b s e [.nt q b' s' e' cs]) ∧
    (q.ogLhs = "LineTerminator" ∨ (q.ogLhs = "Comment" ∧ Contains "LineTerminator" (.nt q b' s' e' cs)))

/-- The token `n` is, for the syntactic grammar, the named token `m`: its only descendant at the level
of identifier names, literals and template parts. -/
inductive NamedBy : Node LexLeaf → Node LexLeaf → Prop
  | here {p b s e cs} : p.ogLhs ∈ namedTokens → NamedBy (.nt p b s e cs) (.nt p b s e cs)
  | down {p b s e c m} : p.ogLhs ∈ wrappers → NamedBy c m → NamedBy (.nt p b s e [c]) m

/-- The token `x` is, for the syntactic parser, an instance `l` of the terminal `t`. -/
def Instance (S : SynEnv) : Elem → Term → SynLeaf → Prop
  | .semi p, t, l => t = .lit ";" ∧ l = .lit [';'] p p
  | .eoi p, t, l => (t = endOfInput ∧ l = .eoi p) ∨ (t = .lit "" ∧ l = .lit [] p p)
  | .node n, t, l =>
    (∃ c, t = .lit c ∧ c.toList = nodeText S.text n ∧ l = .lit c.toList (lexExtent n).1 (lexExtent n).2) ∨
    (∃ name p b s e cs, t = .named name ∧ NamedBy n (.nt p b s e cs) ∧ p.ogLhs = name ∧ l = .named (.nt p b s e cs))

/-- Not an inserted semicolon. -/
def Elem.isReal : Elem → Bool
  | .semi _ => false
  | _ => true

/-- The tokens among the input elements. -/
def tokensOf (es : List Elem) : List Elem := es.filter (fun x => !x.isGap)

/-- What comes from the text among the input elements. -/
def realOf (es : List Elem) : List Elem := es.filter Elem.isReal

/-- Where semicolons have been inserted. -/
def semisOf : List Elem → List Nat
  | [] => []
  | .semi p :: r => p :: semisOf r
  | _ :: r => semisOf r

/-- A history of requests to the provider: what it handed out each time, its state, and the position
that the parser has reached. -/
inductive Calls (S : SynEnv) : List (List (Term × SynLeaf)) → Syn → Nat → Prop
  | start {st} : synInit S = .ok st → Calls S [] st 0
  | next {rs st pos expected kludge rats pos' st'} : Calls S rs st pos →
      synNext S st pos expected kludge = .ok (some (rats, pos'), st') → Calls S (rs ++ [rats]) st' pos'

/-- `before ++ gap ++ tok :: after`: the token `tok` is the `k`-th (counting from 0) and `gap` is what
separates it from the token before it. -/
structure TokenAt (k : Nat) (before gap : List Elem) (tok : Elem) : Prop where
  gaps : ∀ g ∈ gap, IsGap g
  isTok : ¬ IsGap tok
  prev : before = [] ∨ ∃ b y, before = b ++ [y] ∧ ¬ IsGap y
  count : (tokensOf before).length = k

/-- What one request does: the state of the stream around the next token, and the two outcomes. -/
inductive Step (S : SynEnv) (k pos : Nat) (expected : List Term) (kludge : Option Kludge) (es es' : List Elem)
    (rats : List (Term × SynLeaf)) (pos' : Nat) : Prop
  /-- The next token of the text is one that is expected: it is handed out. -/
  | token (before gap : List Elem) (tok : Elem) (after more : List Elem)
      (eq : es ++ more = before ++ gap ++ tok :: after) (at_ : TokenAt k before gap tok)
      (eq' : es' = before ++ gap ++ tok :: after) (end_ : pos' = tok.extent.2) (some_ : rats ≠ [])
      (rats_ : ∀ t l, (t, l) ∈ rats ↔ t ∈ expected ∧ Instance S tok t l)
  /-- The next token is not expected: a semicolon is put before it, if a rule says so. -/
  | semi (before gap : List Elem) (tok : Elem) (after more : List Elem)
      (eq : es ++ more = before ++ gap ++ tok :: after) (at_ : TokenAt k before gap tok)
      (offending : ∀ t l, t ∈ expected → ¬ Instance S tok t l)
      (rule : (∃ p, tok = .eoi p) ∨ (∃ g ∈ gap, IsLineBreak g) ∨ tok.text S.text = ['}'] ∨ kludge = some .doWhile)
      (wanted : .lit ";" ∈ expected) (noEmpty : kludge ≠ some .emptyStatement)
      (fresh : ∀ p ∈ semisOf es, p < pos)
      (eq' : es' = before ++ gap ++ .semi pos :: tok :: after) (end_ : pos' = pos)
      (rats_ : rats = [(.lit ";", .lit [';'] pos pos)])

/-- The next token is not expected, and no semicolon may be put before it: no rule says so, or none is
expected, or it would be an empty statement, or one has been put there already. -/
def Refused (S : SynEnv) (k pos : Nat) (expected : List Term) (kludge : Option Kludge) (es : List Elem) : Prop :=
  ∃ before gap tok after more, es ++ more = before ++ gap ++ tok :: after ∧ TokenAt k before gap tok ∧
    (∀ t l, t ∈ expected → ¬ Instance S tok t l) ∧
    ¬ (((∃ p, tok = .eoi p) ∨ (∃ g ∈ gap, IsLineBreak g) ∨ tok.text S.text = ['}'] ∨ kludge = some .doWhile) ∧
      Term.lit ";" ∈ expected ∧ kludge ≠ some .emptyStatement ∧ ∀ p ∈ semisOf es, p < pos)

/-! ## Constraints of the syntactic grammar -/

/-- Token number `k` is spelled `s`. -/
def Spelled (S : SynEnv) (es : List Elem) (k : Nat) (s : String) : Prop :=
  ∃ tok, (tokensOf es)[k]? = some tok ∧ tok.text S.text = s.toList

/-- There is a line break after the first `k` tokens and before the next one, if any. -/
def BreakBefore (es : List Elem) (k : Nat) : Prop :=
  ∃ before gap after, es = before ++ gap ++ after ∧ (before = [] ∨ ∃ b y, before = b ++ [y] ∧ ¬ IsGap y) ∧
    (tokensOf before).length = k ∧ (∀ g ∈ gap, IsGap g) ∧ ∃ g ∈ gap, IsLineBreak g

/-- The tokens from number `k` on begin with the given sequence. -/
def Ahead (S : SynEnv) (es : List Elem) (k : Nat) : List La → Prop
  | [.term (.lit a)] => Spelled S es k a
  | [.term (.lit a), .term (.lit b)] => Spelled S es k a ∧ Spelled S es (k + 1) b
  | [.term (.lit a), .noLT, .term (.lit b)] => Spelled S es k a ∧ ¬ BreakBefore es (k + 1) ∧ Spelled S es (k + 1) b
  | _ => False

/-- The constraint is satisfied before token number `k`, after the node `prev`. -/
def TokHolds (S : SynEnv) (es : List Elem) (k : Nat) (prev : Option (Node SynLeaf)) : Con → Prop
  | .lookahead true tss => ∃ ts ∈ tss, Ahead S es k ts
  | .lookahead false tss => ∀ ts ∈ tss, ¬ Ahead S es k ts
  | .noLT => ¬ BreakBefore es k
  | .butNot b => ∃ n, prev = some (.leaf (.named n)) ∧ b = [.nt "ReservedWord"] ∧ nodeText S.text n ∉ S.reserved
  | .butOnlyIf _ => False

/-- The text from `p` on consists of input elements that the lexical parser finds whatever the
syntactic context is, with the goal symbol for common input elements. -/
inductive Common (S : SynEnv) : Nat → List (Node LexLeaf) → Prop
  | nil : Common S S.text.length []
  | cons {p n q ns} : p < S.text.length → S.lex "InputElement_common" p = .ok n → lexExtent n = (p, q) → p < q →
      q ≤ S.text.length → Common S q ns → Common S p (n :: ns)

/-- The position after the first `k` tokens. -/
def posAfter (es : List Elem) : Nat → Nat
  | 0 => 0
  | k + 1 => match (tokensOf es)[k]? with
    | some tok => tok.extent.2
    | none => 0

/-- The tokens of `es` as the input of a derivation: place `k` is before token number `k`. A constraint
there is about the input elements `view k` known when the parser was at that place: those may lack
semicolons that were inserted further on. -/
def tokenWorld (S : SynEnv) (es : List Elem) (view : Nat → List Elem) : World SynLeaf where
  scan k t l := ∃ tok, (tokensOf es)[k]? = some tok ∧ Instance S tok t l
  holds k prev con := TokHolds S (view k) k prev con
  «at» k p := p = posAfter es k
  first l := l.extent.1
  last l := l.extent.2

/-- `es'` came to be from `es` after the first `k` tokens had been handed out: these are the same, what
came from the text is still there, and all other tokens of `es` came from the text. -/
structure Became (k : Nat) (es es' : List Elem) : Prop where
  first : (tokensOf es).take k = (tokensOf es').take k
  text : realOf es <+: realOf es'
  rest : ∀ x ∈ (tokensOf es).drop k, x.isReal = true

/-- The input elements of a text of common input elements, with the end marker. -/
def commonElems (S : SynEnv) (ns : List (Node LexLeaf)) : List Elem := ns.map .node ++ [.eoi S.text.length]

/-- A grammar that does not ask for an empty token. -/
def NoEmptyLit (G : Grammar) : Prop := ∀ n ps p, G n = some ps → p ∈ ps → Rthing.term (.lit "") ∉ p.rhs

end Verif.Earley
