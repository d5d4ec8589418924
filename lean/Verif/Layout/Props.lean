import Verif.Layout.TreeLemmas
import Verif.Layout.BlankLemmas
import Verif.HTML.Props
/-!
# C63: indentation.  C64: blank lines, trailing white space and characters
-/
namespace Verif.Layout
open Verif.HTML (Str Attrs Node litName commentName docName parse WordOk NestedSeq Nested)
open Verif.Validate (slice Suf slice_suf Kind nKids)

/-! ### Lines that are laid out well -/

inductive Prog (emi : Nat) : List Nat → Prop
  | one : Prog emi [emi]
  | more {t st} : Prog emi (t :: st) → Prog emi ((t + 2) :: t :: st)

theorem prog_mem {emi t : Nat} {st : List Nat} (h : Prog emi (t :: st)) : ∀ y, y ∈ t :: st ↔ (∃ d, y = emi + 2 * d) ∧ y ≤ t := by
  generalize hl : t :: st = l at h
  induction h generalizing t st with
  | one =>
    cases hl
    intro y
    simp only [List.mem_singleton]
    exact ⟨fun h => ⟨⟨0, by omega⟩, by omega⟩, fun ⟨⟨d, h1⟩, h2⟩ => by omega⟩
  | @more t' st' h ih =>
    cases hl
    have ih := ih rfl
    intro y
    rw [List.mem_cons, ih]
    obtain ⟨d', hd'⟩ := ((ih t').1 (List.mem_cons_self ..)).1
    constructor
    · rintro (rfl | ⟨h1, h2⟩)
      · exact ⟨⟨d' + 1, by omega⟩, Nat.le_refl _⟩
      · exact ⟨h1, by omega⟩
    · rintro ⟨⟨d, rfl⟩, h2⟩
      by_cases he : emi + 2 * d = t' + 2
      · exact .inl he
      · exact .inr ⟨⟨d, rfl⟩, by omega⟩

theorem prog_tail {emi t t' : Nat} {st : List Nat} (h : Prog emi (t :: t' :: st)) : Prog emi (t' :: st) ∧ t = t' + 2 := by
  cases h with
  | more h => exact ⟨h, rfl⟩

theorem prog_suffix {emi t : Nat} {st : List Nat} : ∀ {inner : List Nat}, Prog emi (inner ++ t :: st) → Prog emi (t :: st)
  | [], h => h
  | [_], h => (prog_tail h).1
  | _ :: b :: l, h => prog_suffix (inner := b :: l) (prog_tail h).1

theorem prog_lt {emi t : Nat} {st : List Nat} (h : Prog emi (t :: st)) : ∀ s ∈ st, s < t := by
  intro s hs
  cases st with
  | nil => cases hs
  | cons t' st =>
    obtain ⟨h1, h2⟩ := prog_tail h
    have := ((prog_mem h1 s).1 hs).2
    omega

/-- From a level on. -/
def LaidFrom (emi t : Nat) (xs : List Nat) : Prop :=
  (∀ x, xs.head? = some x → x ≤ t + 2) ∧ (∀ x ∈ xs, ∃ d, x = emi + 2 * d) ∧ ∀ (i : Nat) x y, xs[i]? = some x → xs[i + 1]? = some y → y ≤ x + 2

theorem laid_cons {emi t x : Nat} {xs : List Nat} : LaidFrom emi t (x :: xs) ↔ x ≤ t + 2 ∧ (∃ d, x = emi + 2 * d) ∧ LaidFrom emi x xs := by
  constructor
  · rintro ⟨h1, h2, h3⟩
    refine ⟨h1 x rfl, h2 x (List.mem_cons_self ..), fun y hy => ?_, fun y hy => h2 y (List.mem_cons_of_mem _ hy), fun i a b ha hb => h3 (i + 1) a b ha hb⟩
    exact h3 0 x y rfl (by rw [List.head?_eq_getElem?] at hy; exact hy)
  · rintro ⟨h1, h2, h3, h4, h5⟩
    refine ⟨fun y hy => by cases hy; exact h1, fun y hy => ?_, fun i a b ha hb => ?_⟩
    · rcases List.mem_cons.1 hy with rfl | hy
      · exact h2
      · exact h4 y hy
    · cases i with
      | zero => cases ha; exact h3 b (by rw [List.head?_eq_getElem?]; exact hb)
      | succ i => exact h5 i a b ha hb

theorem reads_clean (emi : Nat) : ∀ (rs : List (Nat × Nat)) (t : Nat) (st : List Nat), Prog emi (t :: st) → (Reads emi (t :: st) rs [] ↔ LaidFrom emi t (rs.map (·.1)))
  | [], t, st, _ => by
    refine ⟨fun _ => ⟨fun x hx => (by cases hx), fun x hx => (by cases hx), fun i x y hx => (by simp at hx)⟩, fun _ => .done⟩
  | (x, p) :: rs, t, st, hp => by
    rw [List.map_cons, laid_cons]
    constructor
    · intro h
      generalize hs : t :: st = S at h
      generalize hr : (x, p) :: rs = R at h
      generalize hm : ([] : List Msg) = M at h
      cases h with
      | done => cases hr
      | deeper g1 g2 =>
        cases hr; subst hs
        obtain ⟨e1, e2⟩ := List.append_eq_nil_iff.1 hm.symm
        split at e1
        · rename_i he
          rw [want] at he
          subst he
          rw [e2] at g2
          have hp' := Prog.more hp
          exact ⟨Nat.le_refl _, ((prog_mem hp' _).1 (List.mem_cons_self ..)).1, (reads_clean emi rs _ _ hp').1 g2⟩
        · cases e1
      | @level inner t' st' _ _ _ _ g1 g2 g3 =>
        cases hr
        obtain ⟨e1, e2⟩ := List.append_eq_nil_iff.1 hm.symm
        split at e1
        · rename_i he
          subst he
          rw [e2] at g3
          have hm := (prog_mem hp x).1 (by rw [hs]; simp)
          rw [hs] at hp
          have hp' := prog_suffix hp
          exact ⟨by omega, hm.1, (reads_clean emi rs _ _ hp').1 g3⟩
        · cases e1
    · rintro ⟨h1, ⟨d, hd⟩, h3⟩
      obtain ⟨d', hd'⟩ := ((prog_mem hp t).1 (List.mem_cons_self ..)).1
      by_cases he : x = t + 2
      · subst he
        have hp' := Prog.more hp
        have := Reads.deeper (p := p) (fun s hs => by have := ((prog_mem hp s).1 hs).2; omega) ((reads_clean emi rs _ _ hp').2 h3)
        simpa [want] using this
      · obtain ⟨inner, st', hs⟩ := List.append_of_mem ((prog_mem hp x).2 ⟨⟨d, hd⟩, by omega⟩)
        rw [hs] at hp ⊢
        have hp' := prog_suffix hp
        have := Reads.level (inner := inner) (p := p) (prog_lt hp') (Nat.le_refl x) ((reads_clean emi rs _ _ hp').2 h3)
        simpa using this

theorem reads_well (emi : Nat) (rs : List (Nat × Nat)) : Reads emi [] rs [] ↔ WellLaid emi (rs.map (·.1)) := by
  cases rs with
  | nil => exact ⟨fun _ => ⟨fun x hx => (by cases hx), fun x hx => (by cases hx), fun i x y hx => (by simp at hx)⟩, fun _ => .done⟩
  | cons r rs =>
    obtain ⟨x, p⟩ := r
    have hw : WellLaid emi (((x, p) :: rs).map (·.1)) ↔ x = emi ∧ LaidFrom emi x (rs.map (·.1)) := by
      rw [List.map_cons]
      constructor
      · rintro ⟨h1, h2, h3⟩
        exact ⟨h1 x rfl, (laid_cons (t := x)).1 ⟨fun y hy => (by cases hy; exact Nat.le_add_right ..), h2, h3⟩ |>.2.2⟩
      · rintro ⟨rfl, h⟩
        obtain ⟨_, g2, g3⟩ := (laid_cons (emi := x) (t := x)).2 ⟨by omega, ⟨0, rfl⟩, h⟩
        exact ⟨fun y hy => (by cases hy; rfl), g2, g3⟩
    rw [hw]
    constructor
    · intro h
      generalize hs : ([] : List Nat) = S at h
      generalize hr : (x, p) :: rs = R at h
      generalize hm : ([] : List Msg) = M at h
      cases h with
      | done => cases hr
      | deeper g1 g2 =>
        cases hr; subst hs
        obtain ⟨e1, e2⟩ := List.append_eq_nil_iff.1 hm.symm
        split at e1
        · rename_i he
          rw [want] at he
          subst he
          rw [e2] at g2
          exact ⟨rfl, (reads_clean x rs x [] .one).1 g2⟩
        · cases e1
      | level g1 g2 g3 => simp at hs
    · rintro ⟨rfl, h⟩
      have := Reads.deeper (emi := x) (st := []) (x := x) (p := p) (fun s hs => (by cases hs)) ((reads_clean x rs x [] .one).2 h)
      simpa [want] using this

/-! ### C63 -/

/-- C63: the lines of a content give the messages that reading them one after the other gives. -/
theorem c63_lines (emi : Nat) (rs : List (Nat × Nat)) : ∃ ms, Reads emi [] rs ms ∧ (checkLines rs.length emi rs).Perm ms := read_lines emi rs

/-- C63: there is one way of reading. -/
theorem c63_unique (emi : Nat) (st : List Nat) (rs : List (Nat × Nat)) (ms ms' : List Msg) (h : Reads emi st rs ms) (h' : Reads emi st rs ms') : ms = ms' := reads_unique h h'

/-- C63: nothing is said of a content exactly if it is laid out well. -/
theorem c63_well_laid (white : Char → Bool) (hw : WhiteOk white) (text : Str) (a b k : Nat) :
    inlineMsgs white text a b k = [] ↔ ∃ rs, Rows white text a b rs ∧ WellLaid k (rs.map (·.1)) := by
  obtain ⟨ms, h1, h2⟩ := read_lines k (rows white 0 a (slice text a b))
  constructor
  · intro h
    rw [inlineMsgs] at h
    rw [h, List.nil_perm] at h2
    subst h2
    exact ⟨_, rows_spec hw a, (reads_well _ _).1 h1⟩
  · rintro ⟨rs, g1, g2⟩
    obtain rfl := rows_unique g1 (rows_spec hw a)
    have := reads_unique h1 ((reads_well _ _).2 g2)
    subst this
    exact List.perm_nil.1 h2

/-- C63: the message "expected indent<T, got x" is only given for lines with an indent below T: it asks for what the line has. -/
theorem c63_below_message_witness (emi : Nat) (st : List Nat) (rs : List (Nat × Nat)) (ms : List Msg) (h : Reads emi st rs ms) (p t x : Nat) (hm : ⟨p, .below t x⟩ ∈ ms) : x < t := by
  induction h with
  | done => cases hm
  | deeper _ _ ih =>
    rcases List.mem_append.1 hm with g | g
    · split at g
      · cases g
      · cases List.mem_singleton.1 g
    · exact ih g
  | level _ h2 _ ih =>
    rcases List.mem_append.1 hm with g | g
    · split at g
      · cases g
      · cases List.mem_singleton.1 g
        omega
    · exact ih g

mutual
theorem ordered_node {text : Str} : ∀ n, Nested n → n.stop ≤ text.length → Ordered text [n]
  | .mk s e name attrs inner kids, h, hl => by
    generalize hn : Node.mk s e name attrs inner kids = n at h
    cases h with
    | leaf h1 =>
      cases hn
      exact .cons h1 hl (fun a b h => (by cases h)) .nil .nil
    | @elem _ _ _ _ i j _ h1 h2 h3 =>
      cases hn
      have hl' : e ≤ text.length := hl
      refine .cons ?_ hl' (fun a b h => ?_) (ordered_seq kids h3 (by omega)) .nil
      · have := seq_le kids h3
        omega
      · cases h; omega
theorem seq_le : ∀ ns {a b}, NestedSeq a ns b → a ≤ b
  | [], _, _, h => by cases h with | nil h => exact h
  | n :: ns, _, _, h => by
    cases h with
    | cons h1 h2 h3 =>
      have h4 := seq_le ns h3
      have h5 := node_le n h2
      omega
theorem node_le : ∀ n, Nested n → n.start ≤ n.stop
  | .mk s e name attrs inner kids, h => by
    generalize hn : Node.mk s e name attrs inner kids = n at h
    cases h with
    | leaf h1 => cases hn; exact h1
    | elem h1 h2 h3 =>
      cases hn
      have := seq_le kids h3
      show s ≤ e
      omega
theorem ordered_seq {text : Str} : ∀ ns {a b}, NestedSeq a ns b → b ≤ text.length → Ordered text ns
  | [], _, _, _, _ => .nil
  | n :: ns, _, _, h, hl => by
    cases h with
    | cons h1 h2 h3 =>
      have h4 := seq_le ns h3
      have := ordered_node (text := text) n h2 (by omega)
      cases this with
      | cons g1 g2 g3 g4 _ => exact .cons g1 g2 g3 g4 (ordered_seq ns h3 hl)
end

variable {white : Char → Bool} {isWord : Char → Bool}

theorem parsed (hwo : WordOk isWord) {text : Str} {doc : Node} {msgs : List (Nat × Str)} (h : parse isWord text = some (doc, msgs)) : Ordered text (nKids doc) := by
  obtain ⟨kids, rfl, hn⟩ := Verif.HTML.c12_nested hwo text doc msgs h
  exact ordered_seq kids hn (Nat.le_refl _)

/-- C63: the messages about the indentation of a document that has been parsed. -/
theorem c63_messages (hw : WhiteOk white) (hwo : WordOk isWord) (kind : Str → Option Kind) (text : Str) (doc : Node) (msgs : List (Nat × Str)) (hp : parse isWord text = some (doc, msgs))
    (ms : List Msg) (h : checkIndentation white kind text doc = some ms) (m : Msg) :
    m ∈ ms ↔ ∃ n k, Visited white kind text (nKids doc) n k ∧ Says white kind text k n m := by
  simp only [visited_iff]
  exact ((good_nodes hw 0 (nKids doc) (parsed hwo hp)).1 ms h).1 m

/-- C63: where the program stops. -/
theorem c63_stops (hw : WhiteOk white) (hwo : WordOk isWord) (kind : Str → Option Kind) (text : Str) (doc : Node) (msgs : List (Nat × Str)) (hp : parse isWord text = some (doc, msgs)) :
    checkIndentation white kind text doc = none ↔ ∃ n k, Visited white kind text (nKids doc) n k ∧ Stops text n := by
  simp only [visited_iff]
  have g := good_nodes (kind := kind) hw 0 (nKids doc) (parsed hwo hp)
  refine ⟨g.2, fun h => ?_⟩
  cases hc : checkIndentation white kind text doc with
  | none => rfl
  | some ms => exact absurd h (g.1 ms hc).2

/-! ### C64 -/

theorem whole (text : Str) : Suf text text.length 0 text := by
  have := slice_suf text 0 text.length
  simpa [slice] using this

/-- C64: two or more adjacent blank lines. -/
theorem c64_extra_blanks (text : Str) : (extraBlanks 0 0 text).Pairwise (· < ·) ∧ ∀ q, q ∈ extraBlanks 0 0 text ↔ ExtraBlanks text q := by
  refine ⟨sorted_extra text 0 0 (whole text), fun q => ?_⟩
  rw [mem_extra text 0 0 (whole text)]
  exact ⟨fun ⟨p, n, _, h⟩ => ⟨p, n, h⟩, fun ⟨p, n, h⟩ => ⟨p, n, Nat.zero_le _, h⟩⟩

/-- C64: a blank line before the end tag of a clause. -/
theorem c64_blank_before_end (text : Str) : (endBlanks 0 0 text).Pairwise (· < ·) ∧ ∀ x, x ∈ endBlanks 0 0 text ↔ BlankBeforeEnd text x := by
  refine ⟨sorted_ends text 0 0 (whole text), fun x => ?_⟩
  rw [mem_ends text 0 0 (whole text)]
  constructor
  · rintro ⟨p0, _, rfl, h1, q, r, h2⟩
    exact ⟨q, r, by omega, h1, h2⟩
  · rintro ⟨q, r, h0, h1, h2⟩
    exact ⟨x - 1, by omega, by omega, h1, q, r, h2⟩

/-- C64: trailing white space. -/
theorem c64_trailing (text : Str) : (trailing 0 0 text).Pairwise (· < ·) ∧ ∀ p, p ∈ trailing 0 0 text ↔ Trailing text p := by
  refine ⟨sorted_trailing text 0 0 (whole text), fun p => ?_⟩
  rw [mem_trailing text 0 0 (whole text)]
  constructor
  · rintro ⟨_, ⟨q, h1, h2, h3⟩, h4⟩
    exact ⟨q, h1, h2, h3, h4.imp id (fun h => ⟨fun g => h (.inl g), fun g => h (.inr g)⟩)⟩
  · rintro ⟨q, h1, h2, h3, h4⟩
    exact ⟨by omega, ⟨q, h1, h2, h3⟩, h4.imp id (fun h g => g.elim h.1 h.2)⟩

/-- C64: unusual characters. -/
theorem c64_unusual (text : Str) : (unusual 0 text).Pairwise (fun a b => a.1 < b.1) ∧ ∀ p n, (p, n) ∈ unusual 0 text ↔ ∃ c, text[p]? = some c ∧ n = c.toNat ∧ ¬ Usual c := by
  refine ⟨sorted_unusual text 0 (whole text), fun p n => ?_⟩
  rw [mem_unusual text 0 (whole text)]
  exact ⟨fun h => h.2, fun h => ⟨Nat.zero_le _, h⟩⟩

/-! ### Cases -/

def exWhite (c : Char) : Bool := c = ' ' || c = '\n' || c = '\t'
example : WhiteOk exWhite := ⟨rfl, rfl⟩

def exKind (n : Str) : Option Kind :=
  if n ∈ ["emu-clause".toList, "p".toList, "pre".toList, "ul".toList, "li".toList, "thead".toList, "tr".toList, "emu-alg".toList, "body".toList] then some .block
  else if n ∈ ["br".toList, "code".toList, "b".toList] then some .inline else none

/-- The messages for a text that can be parsed. -/
def exShow (s : String) : Option (Option (List Msg)) :=
  match parse Verif.HTML.asciiWord s.toList with
  | none => none
  | some (d, _) => some (checkIndentation exWhite exKind s.toList d)

example : exShow "<emu-clause id=\"a\">\n  <p>x</p>\n   <p>y</p> <p>z</p>\n</emu-clause>\n" = some (some [⟨34, .indent 2 3⟩, ⟨43, .notFirst "p".toList⟩]) := by decide +kernel
example : exShow " <ul>\n   <li>x</li>\n </ul>\n" = some (some [⟨1, .indent 0 1⟩, ⟨21, .indent 0 1⟩]) := by decide +kernel
example : exShow "<p>\n  a\n    b\n   c\n  d\n      e\n</p>\n" = some (some [⟨17, .below 4 3⟩, ⟨29, .indent 4 6⟩]) := by decide +kernel
example : exShow "<pre><code class=\"javascript\">\n  a\n </code></pre>\n" = some (some [⟨36, .indent 0 1⟩]) := by decide +kernel
example : exShow "<pre><code>\n  a\n </code></pre>\n" = some none := by decide +kernel
example : exShow "<!--\n  a\n b\n-->\n" = some (some [⟨10, .below 2 1⟩]) := by decide +kernel
example : exShow "<p>a\n  <br>\n  b</p>\n" = some (some []) := by decide +kernel
example : exShow "<p>\n  a<br>\n  b</p>\n" = some (some [⟨15, .notFirst "p".toList⟩]) := by decide +kernel
example : exShow "<thead>\n  <tr>x</tr>\n</thead>\n<thead>\n<tr>x</tr>\n</thead>\n" = some (some []) := by decide +kernel
example : exShow "<body>\n<p>x</p>\n</body>\n" = some (some []) := by decide +kernel
example : exShow "<br id=\"x\ny\">\n" = some none := by decide +kernel

example : WellLaid 2 [2, 4, 6, 4, 2, 4] := by
  refine ⟨fun x hx => (by cases hx; rfl), fun x hx => ?_, fun i x y hx hy => ?_⟩
  · simp only [List.mem_cons, List.not_mem_nil, or_false] at hx
    rcases hx with rfl | rfl | rfl | rfl | rfl | rfl
    · exact ⟨0, rfl⟩
    · exact ⟨1, rfl⟩
    · exact ⟨2, rfl⟩
    · exact ⟨1, rfl⟩
    · exact ⟨0, rfl⟩
    · exact ⟨1, rfl⟩
  · match i, hx, hy with
    | 0, hx, hy => cases hx; cases hy; decide
    | 1, hx, hy => cases hx; cases hy; decide
    | 2, hx, hy => cases hx; cases hy; decide
    | 3, hx, hy => cases hx; cases hy; decide
    | 4, hx, hy => cases hx; cases hy; decide
    | _ + 5, hx, hy => simp at hy

/-- The message that asks for what the line has. -/
example : checkLines 3 2 [(2, 10), (4, 20), (3, 30)] = [⟨30, .below 4 3⟩] := by decide +kernel

example : extraBlanks 0 0 "a\n\n\n  \nb\n\nc\n\n\n".toList = [6, 13] := by decide +kernel
example : endBlanks 0 0 "x\n  \n  </emu-clause>\n\n</emu-clause>".toList = [2, 21] := by decide +kernel
example : trailing 0 0 "a \t\n b  c\n \n d ".toList = [1, 10, 14] := by decide +kernel
example : unusual 0 "a\t«é\n~".toList = [(1, 9), (3, 233)] := by decide +kernel

end Verif.Layout
