import Verif.Layout.Model
/-!
# Specification of the checks of the layout
-/
namespace Verif.Layout
open Verif.HTML (Str Attrs Node)
open Verif.Validate (Kind)

/-- Spaces and newlines are white space. -/
structure WhiteOk (white : Char → Bool) : Prop where
  space : white ' ' = true
  newline : white '\n' = true

/-- The text has spaces from `a` to `b`. -/
def Spaces (text : Str) (a b : Nat) : Prop := a ≤ b ∧ ∀ (i : Nat), a ≤ i → i < b → text[i]? = some ' '

/-! ### Lines -/

/-- The line with the position `p` starts at `s`. -/
def LineStart (text : Str) (p s : Nat) : Prop :=
  s ≤ p ∧ (s = 0 ∨ 0 < s ∧ text[s - 1]? = some '\n') ∧ ∀ (i : Nat), s ≤ i → i < p → text[i]? ≠ some '\n'

/-- The line with the position `p` ends at `e`, where there is a newline or the end of the text. -/
def LineEnd (text : Str) (p e : Nat) : Prop :=
  p ≤ e ∧ (text[e]? = some '\n' ∨ text[e]? = none) ∧ ∀ (i : Nat), p ≤ i → i < e → ∃ c, text[i]? = some c ∧ c ≠ '\n'

/-- Nothing but white space from `a` to `b` (where there is text). -/
def Clear (white : Char → Bool) (text : Str) (a b : Nat) : Prop := ∀ (i : Nat) c, a ≤ i → i < b → text[i]? = some c → white c = true

/-- A line that starts in the text from `a` to `b`, is not blank, and has only spaces before its first other character: its indentation and the position of that character. -/
def Row (white : Char → Bool) (text : Str) (a b : Nat) (r : Nat × Nat) : Prop :=
  ∃ (p : Nat) (c : Char), a ≤ p ∧ text[p]? = some '\n' ∧ r.2 = p + 1 + r.1 ∧ Spaces text (p + 1) r.2 ∧ r.2 < b ∧ text[r.2]? = some c ∧ white c = false

/-- All these lines, in order. -/
def Rows (white : Char → Bool) (text : Str) (a b : Nat) (rs : List (Nat × Nat)) : Prop :=
  rs.Pairwise (fun r r' => r.2 < r'.2) ∧ ∀ r, r ∈ rs ↔ Row white text a b r

/-- The indentation that a deeper line is to have, below the levels that are open (the innermost first). -/
def want (emi : Nat) : List Nat → Nat
  | [] => emi
  | t :: _ => t + 2

/-- The messages about lines that are read one after the other.  A line that is deeper than all open levels opens a level, which is to be two deeper than the last; another belongs to the outermost level that
is not less deep, and closes those inside. -/
inductive Reads (emi : Nat) : List Nat → List (Nat × Nat) → List Msg → Prop
  | done {st} : Reads emi st [] []
  | deeper {st x p rs ms} : (∀ t ∈ st, t < x) → Reads emi (x :: st) rs ms →
      Reads emi st ((x, p) :: rs) ((if x = want emi st then [] else [⟨p, .indent (want emi st) x⟩]) ++ ms)
  | level {inner t st x p rs ms} : (∀ s ∈ st, s < x) → x ≤ t → Reads emi (t :: st) rs ms →
      Reads emi (inner ++ t :: st) ((x, p) :: rs) ((if x = t then [] else [⟨p, .below t x⟩]) ++ ms)

/-- The lines are laid out well: the first has the indentation `emi`, none has less, each is by an even number of spaces deeper than that, and at most two deeper than the one before. -/
def WellLaid (emi : Nat) (xs : List Nat) : Prop :=
  (∀ x, xs.head? = some x → x = emi) ∧ (∀ x ∈ xs, ∃ d, x = emi + 2 * d) ∧ ∀ (i : Nat) x y, xs[i]? = some x → xs[i + 1]? = some y → y ≤ x + 2

/-! ### Elements -/

section
variable (white : Char → Bool) (kind : Str → Option Kind) (text : Str)

/-- What is said of a tag at `p`, in the line of `q`, that is expected with the indentation `k`. -/
inductive TagSays (q p : Nat) (name : Str) (k : Nat) : Msg → Prop
  | indent {s} : LineStart text q s → Clear white text s p → p - s ≠ k → TagSays q p name k ⟨p, .indent k (p - s)⟩
  | notFirst {s} : LineStart text q s → ¬ Clear white text s p → TagSays q p name k ⟨p, .notFirst name⟩

/-- What is said of the content from `a` to `b`. -/
def ContentSays (a b k : Nat) (m : Msg) : Prop := ∃ rs ms, Rows white text a b rs ∧ Reads k [] rs ms ∧ m ∈ ms

/-- There is a newline from `a` to `b`. -/
def Broken (a b : Nat) : Prop := ∃ (i : Nat), a ≤ i ∧ i < b ∧ text[i]? = some '\n'

/-- An element in several lines. -/
inductive Tall : Node → Prop
  | mk {s e name attrs inner kids} : name ∉ ["#DOC".toList, "#LITERAL".toList] → Broken text s e → Tall (.mk s e name attrs inner kids)

/-- `<pre>` with nothing but `<code>`. -/
inductive Listing : Node → Prop
  | mk {s e attrs inner s' e' attrs' inner' kids'} : Listing (.mk s e "pre".toList attrs inner [.mk s' e' "code".toList attrs' inner' kids'])

/-- An element with content that is looked at: neither a comment nor `<pre><code>`. -/
inductive Ordinary : Node → Prop
  | mk {s e name attrs inner kids} : name ≠ "#COMMENT".toList → ¬ Listing (.mk s e name attrs inner kids) → Ordinary (.mk s e name attrs inner kids)

/-- It has an element of the block level in it. -/
inductive HasBlock : Node → Prop
  | mk {s e name attrs inner kids s' e' name' attrs' inner' kids'} : .mk s' e' name' attrs' inner' kids' ∈ kids → name' ∉ ["#COMMENT".toList, "#LITERAL".toList] →
      kind name' = some .block → HasBlock (.mk s e name attrs inner kids)

/-- It has `<br>` in it. -/
inductive HasBreak : Node → Prop
  | mk {s e name attrs inner kids s' e' attrs' inner' kids'} : .mk s' e' "br".toList attrs' inner' kids' ∈ kids → kind "br".toList = some .inline →
      HasBreak (.mk s e name attrs inner kids)

/-- The elements in it are looked at: it has some of the block level, and is not one that is parsed as a whole. -/
inductive Opened : Node → Prop
  | mk {s e name attrs inner kids} : name ∉ ["emu-grammar".toList, "emu-alg".toList, "emu-eqn".toList] → HasBlock kind (.mk s e name attrs inner kids) →
      Opened (.mk s e name attrs inner kids)

/-- The indentation expected in an element that starts at `s` with the indentation `k`: two more, but the same in `html`, `head`, `body`, and in `thead` and `tbody` unless the line after the start tag is indented. -/
inductive Inside (name : Str) (s k : Nat) : Nat → Prop
  | same : name ∈ ["html".toList, "head".toList, "body".toList] → Inside name s k k
  | rows {e} : name ∈ ["thead".toList, "tbody".toList] → LineEnd text s e → e + 1 < text.length → Clear white text (e + 1) (e + 1 + k + 2) → Inside name s k (k + 2)
  | flat {e} : name ∈ ["thead".toList, "tbody".toList] → LineEnd text s e → ¬ (e + 1 < text.length ∧ Clear white text (e + 1) (e + 1 + k + 2)) → Inside name s k k
  | deeper : name ∉ ["html".toList, "head".toList, "body".toList, "thead".toList, "tbody".toList] → Inside name s k (k + 2)

/-- The elements that are looked at, each with the indentation that is expected. -/
inductive Visited (doc : List Node) : Node → Nat → Prop
  | top {n} : n ∈ doc → Visited doc n 0
  | inside {s e name attrs inner kids k l j c} : Visited doc (.mk s e name attrs inner kids) k → Tall text (.mk s e name attrs inner kids) →
      Ordinary (.mk s e name attrs inner kids) → Opened kind (.mk s e name attrs inner kids) →
      LineStart text s l → Inside white text name s (s - l) j → c ∈ kids → Visited doc c j

/-- What is said of an element that is expected with the indentation `k`. -/
inductive Says (k : Nat) : Node → Msg → Prop
  | startTag {s e name attrs inner kids m} : name ≠ "#LITERAL".toList → TagSays white text s s name k m → Says k (.mk s e name attrs inner kids) m
  | comment {s e attrs inner kids l m} : Tall text (.mk s e "#COMMENT".toList attrs inner kids) → LineStart text s l →
      ContentSays white text (s + 4) (e - 3) (s - l + 2) m → Says k (.mk s e "#COMMENT".toList attrs inner kids) m
  | code {s e attrs inner s' e' attrs' a b kids' l m} : Tall text (.mk s e "pre".toList attrs inner [.mk s' e' "code".toList attrs' (some (a, b)) kids']) → LineStart text s l →
      ContentSays white text a b (s - l + 2) m → Says k (.mk s e "pre".toList attrs inner [.mk s' e' "code".toList attrs' (some (a, b)) kids']) m
  | endCode {s e attrs inner s' e' attrs' a b kids' m} : Tall text (.mk s e "pre".toList attrs inner [.mk s' e' "code".toList attrs' (some (a, b)) kids']) →
      TagSays white text e b "code".toList k m → Says k (.mk s e "pre".toList attrs inner [.mk s' e' "code".toList attrs' (some (a, b)) kids']) m
  | content {s e name attrs a b kids l m} : Tall text (.mk s e name attrs (some (a, b)) kids) → Ordinary (.mk s e name attrs (some (a, b)) kids) →
      ¬ Opened kind (.mk s e name attrs (some (a, b)) kids) → LineStart text s l → ContentSays white text a b (s - l + 2) m → Says k (.mk s e name attrs (some (a, b)) kids) m
  | endTag {s e name attrs a b kids m} : Tall text (.mk s e name attrs (some (a, b)) kids) → Ordinary (.mk s e name attrs (some (a, b)) kids) →
      ¬ (name = "p".toList ∧ HasBreak kind (.mk s e name attrs (some (a, b)) kids) ∧ ¬ (a < b ∧ text[a]? = some '\n')) →
      TagSays white text e b name k m → Says k (.mk s e name attrs (some (a, b)) kids) m

/-- An element at which the program stops: a document in the document, an element in several lines without an end tag, or `<code>` that is not `javascript`. -/
inductive Stops : Node → Prop
  | doc {s e attrs inner kids} : Stops (.mk s e "#DOC".toList attrs inner kids)
  | code {s e attrs inner s' e' attrs' inner' kids'} : Tall text (.mk s e "pre".toList attrs inner [.mk s' e' "code".toList attrs' inner' kids']) →
      attrs'.lookup "class".toList ≠ some (some "javascript".toList) ∨ inner' = none → Stops (.mk s e "pre".toList attrs inner [.mk s' e' "code".toList attrs' inner' kids'])
  | open {s e name attrs kids} : Tall text (.mk s e name attrs none kids) → Ordinary (.mk s e name attrs none kids) → Stops (.mk s e name attrs none kids)

end

/-- Every element is in the text: it starts before it ends, and its end tag is in the text. -/
inductive Ordered (text : Str) : List Node → Prop
  | nil : Ordered text []
  | cons {s e name attrs inner kids ns} : s ≤ e → e ≤ text.length → (∀ a b, inner = some (a, b) → b ≤ text.length) → Ordered text kids → Ordered text ns → Ordered text (.mk s e name attrs inner kids :: ns)

/-! ### Blank lines, trailing white space, characters -/

/-- A blank line that starts at `a` and has its newline at `q`. -/
def Blank (text : Str) (a q : Nat) : Prop := Spaces text a q ∧ text[q]? = some '\n'

/-- So many blank lines, from `a` on; the last has its newline at `q`. -/
inductive Blanks (text : Str) : Nat → Nat → Nat → Prop
  | one {a q} : Blank text a q → Blanks text 1 a q
  | more {n a q q'} : Blank text a q → Blanks text n (q + 1) q' → Blanks text (n + 1) a q'

/-- Two or more blank lines after a line end here. -/
def ExtraBlanks (text : Str) (q : Nat) : Prop :=
  ∃ (p n : Nat), text[p]? = some '\n' ∧ 2 ≤ n ∧ Blanks text n (p + 1) q ∧ ¬ ∃ q', Blank text (q + 1) q'

/-- The text has the word at `p`. -/
def WordAt (text w : Str) (p : Nat) : Prop := ∃ pre post, text = pre ++ w ++ post ∧ pre.length = p

/-- A blank line that starts here, after another line, and is followed by the end tag of a clause. -/
def BlankBeforeEnd (text : Str) (x : Nat) : Prop :=
  ∃ q r, 0 < x ∧ text[x - 1]? = some '\n' ∧ Blank text x q ∧ Spaces text (q + 1) r ∧ WordAt text "</emu-clause>".toList r

/-- Spaces and tabs at the end of a line start here. -/
def Trailing (text : Str) (p : Nat) : Prop :=
  ∃ q, p < q ∧ (∀ (i : Nat), p ≤ i → i < q → text[i]? = some ' ' ∨ text[i]? = some '\t') ∧ (text[q]? = none ∨ text[q]? = some '\n') ∧
    (p = 0 ∨ text[p - 1]? ≠ some ' ' ∧ text[p - 1]? ≠ some '\t')

/-- A newline, a printable ASCII character, or one of these. -/
def Usual (c : Char) : Prop :=
  c = '\n' ∨ (' '.toNat ≤ c.toNat ∧ c.toNat ≤ '~'.toNat) ∨ c ∈ "«»×π—“”…ℝℤ→∞≠≤≥𝔽".toList

end Verif.Layout
