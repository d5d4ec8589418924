import Verif.Pseudo.Lemmas
import Verif.Pseudo.GrammarLemmas
/-! # Properties of the pseudocode tokenizer and the grammar files (C19, C20) -/
namespace Verif.Pseudo

/-! ## C19 -/

/-- The tokens, dents included, lie end to end over the text from `p` to the place where the end of
the text is recognized; that is at `hi`, or at a newline just before it.  A line break token is a newline
with all the blanks after it, so its length shows the indentation of the line. -/
theorem c19_text (others : Others) (ho : Proper others) (s : List Char) (hi : Nat) (hs : hi ≤ s.length)
    (n p init : Nat) (ts : List Tok) (h : tokenize others s hi true n p init = .ok ts) :
    (∃ (q : Nat) (front : List Tok) (t : Tok), ts = front ++ [t] ∧ t.kind = .eos ∧ t.start = q ∧ t.stop = q ∧
      Tiles s p ts q ∧ (q = hi ∨ (q + 1 = hi ∧ s[q]? = some '\n')) ∧ ∀ u ∈ front, u.kind ≠ .eos) ∧
    (∀ t ∈ ts, t.kind = .nlai → LineBreak t.text ∧ (t.stop < hi → s[t.stop]? ≠ some ' ')) := by
  have hl := tokenize_laid ho hs n p init ts h
  obtain ⟨q, front, t, h1, h2, h3, h4, h5, h6, h7⟩ := hl.tiles
  refine ⟨⟨q, front, t, h1, h2, h4, h5, h3, ?_, fun u hu => (h7 u hu).1⟩, hl.breaks⟩
  rw [atEos, Bool.or_eq_true, Bool.and_eq_true, decide_eq_true_iff, decide_eq_true_iff, decide_eq_true_iff] at h6
  rcases h6 with h6 | ⟨h6, h8⟩
  · exact Or.inl h6
  · exact Or.inr ⟨h6, (charAt_some h8).2⟩

/-- Before any token that covers text, the indents seen so far exceed the outdents by half the
difference between the indentation of the current line and the initial one; the line break token
already belongs to the line that it begins. -/
theorem c19_depth (others : Others) (ho : Proper others) (s : List Char) (hi : Nat) (hs : hi ≤ s.length)
    (n p init : Nat) (ts : List Tok) (h : tokenize others s hi true n p init = .ok ts)
    (pre post : List Tok) (t : Tok) (hsplit : ts = pre ++ t :: post) (hd : ¬ t.isDent) :
    2 * (indents pre - outdents pre) =
      (if t.kind = .nlai then (t.indentation : Int) else lastIndentation init pre) - init :=
  (tokenize_laid ho hs n p init ts h).depth pre t post hsplit hd

/-- Dents cover no text and occur only in runs of one kind directly before a line break: together with
`c19_depth`, a line break is preceded by exactly as many indents (or outdents) as the line is deeper
(or less deep) than the line before. -/
theorem c19_runs (others : Others) (ho : Proper others) (s : List Char) (hi : Nat) (hs : hi ≤ s.length)
    (n p init : Nat) (ts : List Tok) (h : tokenize others s hi true n p init = .ok ts)
    (pre post : List Tok) (t : Tok) (hsplit : ts = pre ++ t :: post) (hd : t.isDent) :
    t.stop = t.start ∧ t.text = [] ∧ ∃ u post', post = u :: post' ∧ (u.kind = t.kind ∨ u.kind = .nlai) :=
  (tokenize_laid ho hs n p init ts h).runs pre t post hsplit hd

/-- At the end of the input the indents exceed the outdents by half the difference between the
indentation of the last line and the initial one; so all indents are closed iff these are equal. -/
theorem c19_end (others : Others) (ho : Proper others) (s : List Char) (hi : Nat) (hs : hi ≤ s.length)
    (n p init : Nat) (ts : List Tok) (h : tokenize others s hi true n p init = .ok ts) :
    2 * (indents ts - outdents ts) = (lastIndentation init ts : Int) - init := by
  have hl := tokenize_laid ho hs n p init ts h
  obtain ⟨q, front, t, h1, h2, _⟩ := hl.tiles
  have hd : ¬ t.isDent := by rintro (e | e) <;> rw [h2] at e <;> cases e
  have hn : t.kind ≠ .nlai := by rw [h2]; decide
  have := hl.depth front t [] h1 hd
  rw [if_neg hn] at this
  rw [h1, indents_append, outdents_append, indents_cons_other hd, outdents_cons_other hd,
    lastIndentation_append_other (by intro x hx; rw [List.mem_singleton] at hx; rw [hx]; exact hn)]
  simpa [indents, outdents] using this

/-- Layout is refused only for indentations of the other parity: a text is tokenized with dents iff it is
without, and all its lines are indented by an even number of blanks more or less than the first.
The tokens that cover text are then the same. -/
theorem c19_accepted (others : Others) (ho : Proper others) (s : List Char) (hi : Nat) (hs : hi ≤ s.length)
    (n p init : Nat) :
    ((∃ ts, tokenize others s hi true n p init = .ok ts) ↔
      ∃ raw, tokenize others s hi false n p init = .ok raw ∧
        ∀ t ∈ raw, t.kind = .nlai → t.indentation % 2 = init % 2) ∧
    ∀ ts raw, tokenize others s hi true n p init = .ok ts → tokenize others s hi false n p init = .ok raw →
      withoutDents ts = raw := by
  refine ⟨⟨?_, ?_⟩, ?_⟩
  · rintro ⟨ts, h⟩
    obtain ⟨h1, h2⟩ := tokenize_without ho hs n p init init ts h
    exact ⟨_, h1, fun t ht => h2 t (List.mem_filter.mp ht).1⟩
  · rintro ⟨raw, h1, h2⟩
    exact tokenize_with ho hs n p init init raw h1 h2
  · intro ts raw h1 h2
    have := (tokenize_without ho hs n p init init ts h1).1
    rw [h2] at this
    injection this with this
    exact this.symm

/-- The initial indentation the parser uses is that of the line on which the pseudocode starts. -/
theorem c19_initial (s : List Char) (start n : Nat) :
    lineIndentation s start = some n ↔ ∃ b, StartsLine s b ∧ b + n ≤ start ∧
      (∀ (q : Nat), b ≤ q → q < start → s[q]? ≠ some '\n') ∧
      (∀ (q : Nat), b ≤ q → q < b + n → s[q]? = some ' ') ∧ ∃ c, s[b + n]? = some c ∧ c ≠ ' ' := by
  obtain ⟨h1, h2, h3⟩ := lineStart_spec s start
  constructor
  · intro h
    rw [lineIndentation, Option.map_eq_some_iff] at h
    obtain ⟨q, hq, e⟩ := h
    obtain ⟨i1, i2, i3, i4⟩ := indentEnd_spec s start _ _ q hq
    have e' : lineStart s start + n = q := by omega
    refine ⟨lineStart s start, h2, by omega, h3, ?_, ?_⟩
    · intro r hr hr'
      exact i3 r hr (by omega)
    · rw [e']; exact i4
  · rintro ⟨b, k1, k2, k3, k4, c, k5, k6⟩
    have hb : b = lineStart s start := by
      rcases Nat.lt_trichotomy b (lineStart s start) with hlt | heq | hlt
      · rcases h2 with h2 | ⟨q, h2, h2'⟩
        · omega
        · exact absurd h2' (k3 q (by omega) (by omega))
      · exact heq
      · rcases k1 with k1 | ⟨q, k1, k1'⟩
        · omega
        · exact absurd k1' (h3 q (by omega) (by omega))
    subst hb
    have hlen : lineStart s start + n < s.length := by
      rcases Nat.lt_or_ge (lineStart s start + n) s.length with h | h
      · exact h
      · rw [List.getElem?_eq_none h] at k5; cases k5
    obtain ⟨r, hr⟩ := indentEnd_total s start (start + 1 - lineStart s start) (lineStart s start)
      (lineStart s start + n) (by omega) (by omega) hlen (by rw [k5]; simpa using k6)
    obtain ⟨i1, i2, i3, c', i4, i5⟩ := indentEnd_spec s start _ _ r hr
    have : r = lineStart s start + n := by
      rcases Nat.lt_trichotomy r (lineStart s start + n) with hlt | heq | hlt
      · rw [k4 r i1 hlt] at i4; injection i4 with i4; exact absurd i4.symm i5
      · exact heq
      · rw [i3 _ (by omega) hlt] at k5; injection k5 with k5; exact absurd k5.symm k6
    rw [lineIndentation, hr, Option.map_some, this]
    congr 1
    omega

/-- The tokenizer ends on every text. -/
theorem c19_ends (others : Others) (ho : Proper others) (s : List Char) (start hi : Nat) (hs : hi ≤ s.length)
    (hle : start ≤ hi) : parserTokens others s start hi ≠ some (.error .running) := by
  intro h
  rw [parserTokens, Option.map_eq_some_iff] at h
  obtain ⟨init, _, h⟩ := h
  exact tokenize_ends ho hs true _ start init hle (by omega) h

/-- Words of one letter, for the examples. -/
def letters : Others := fun s hi p => if p < hi ∧ s[p]? = some 'a' then some ("{low_word}", 1) else none

theorem letters_proper : Proper letters := by
  intro s hi p k len h
  rw [letters] at h
  split at h
  · rename_i hc
    injection h with h; injection h with h1 h2
    omega
  · cases h

/-- A text with three lines below the first; the second is deeper and the third goes back. -/
def exText : List Char := ['\n', ' ', ' ', 'a', '\n', ' ', ' ', ' ', ' ', 'a', '\n', ' ', ' ', 'a', '\n', ' ']

example : tokenize letters exText 14 true 15 0 2 = .ok
    [⟨.nlai, 0, 3, ['\n', ' ', ' ']⟩, ⟨.other "{low_word}", 3, 4, ['a']⟩, ⟨.indent, 4, 4, []⟩,
     ⟨.nlai, 4, 9, ['\n', ' ', ' ', ' ', ' ']⟩, ⟨.other "{low_word}", 9, 10, ['a']⟩, ⟨.outdent, 10, 10, []⟩,
     ⟨.nlai, 10, 13, ['\n', ' ', ' ']⟩, ⟨.other "{low_word}", 13, 14, ['a']⟩, ⟨.eos, 14, 14, []⟩] := rfl
/-- A last line with an odd difference. -/
example : tokenize letters exText 16 true 15 0 2 = .error .oddIndent := rfl
/-- The pseudocode starts on a line with an indentation of two. -/
example : lineIndentation [' ', ' ', '<', 'a', '>', '\n'] 5 = some 2 := rfl
example : parserTokens letters [' ', ' ', '<', 'a', '>', '\n', ' ', ' ', ' ', ' ', 'a', '\n', ' ', ' '] 5 14 =
    some (.ok [⟨.indent, 5, 5, []⟩, ⟨.nlai, 5, 10, ['\n', ' ', ' ', ' ', ' ']⟩,
      ⟨.other "{low_word}", 10, 11, ['a']⟩, ⟨.outdent, 11, 11, []⟩, ⟨.nlai, 11, 14, ['\n', ' ', ' ']⟩,
      ⟨.eos, 14, 14, []⟩]) := rfl

/-- The program does not keep the depth at or above the base: a line may be less indented than the
first, and outdents then outnumber indents. -/
theorem c19_below_base_witness : ∃ (s : List Char) (ts pre post : List Tok),
    tokenize letters s s.length true (s.length + 1) 0 2 = .ok ts ∧ ts = pre ++ post ∧
    indents pre < outdents pre :=
  ⟨['\n', 'a'], [⟨.outdent, 0, 0, []⟩, ⟨.nlai, 0, 1, ['\n']⟩, ⟨.other "{low_word}", 1, 2, ['a']⟩, ⟨.eos, 2, 2, []⟩],
    [⟨.outdent, 0, 0, []⟩], [⟨.nlai, 0, 1, ['\n']⟩, ⟨.other "{low_word}", 1, 2, ['a']⟩, ⟨.eos, 2, 2, []⟩],
    rfl, rfl, by decide⟩

/-- The program does not close indents at the end of the input; and a newline that ends the input
gives no line break token, so it does not close them either. -/
theorem c19_unclosed_witness : ∃ (s : List Char) (ts : List Tok),
    tokenize letters s s.length true (s.length + 1) 0 0 = .ok ts ∧ s.getLast? = some '\n' ∧
    outdents ts < indents ts :=
  ⟨['\n', ' ', ' ', 'a', '\n'],
    [⟨.indent, 0, 0, []⟩, ⟨.nlai, 0, 3, ['\n', ' ', ' ']⟩, ⟨.other "{low_word}", 3, 4, ['a']⟩, ⟨.eos, 4, 4, []⟩],
    rfl, rfl, by decide⟩

/-! ## C20 -/

/-- A grammar file with the given lines is converted to `prods` iff it is in order and `prods` are its
productions: one for each alternative, in the order of the file, with the left-hand side that was
declared last above it. -/
theorem c20_productions (G : GrammarEnv) (hG : G.Proper) (lines : List (List Char)) (hne : lines ≠ [])
    (hnl : ∀ l ∈ lines, '\n' ∉ l) (prods : List Production) :
    convertGrammar G (joinLines lines) = .ok prods ↔ Accepted G lines prods :=
  convertGrammar_iff hG lines hne hnl prods

/-- A repeated left-hand side is refused. -/
theorem c20_repeated (G : GrammarEnv) (hG : G.Proper) (lines : List (List Char)) (hne : lines ≠ [])
    (hnl : ∀ l ∈ lines, '\n' ∉ l) (i j : Nat) (hij : i < j) (l : List Char) (hl : classify l = .lhs)
    (hi : lines[i]? = some l) (hj : lines[j]? = some l) (prods : List Production) :
    convertGrammar G (joinLines lines) ≠ .ok prods := by
  intro h
  have hn := ((convertGrammar_iff hG lines hne hnl prods).mp h).once
  obtain ⟨hi', ei⟩ := List.getElem?_eq_some_iff.mp hi
  have e1 : lines = lines.take i ++ l :: lines.drop (i + 1) := by
    conv => lhs; rw [← List.take_append_drop i lines, List.drop_eq_getElem_cons hi', ei]
  have hmem : l ∈ lines.drop (i + 1) := by
    have : (lines.drop (i + 1))[j - (i + 1)]? = some l := by
      rw [List.getElem?_drop]
      have : i + 1 + (j - (i + 1)) = j := by omega
      rw [this, hj]
    exact List.mem_of_getElem? this
  have hd : declared lines = declared (lines.take i) ++ l.take (l.length - 2) :: declared (lines.drop (i + 1)) := by
    rw [← declared_cons_lhs hl, declared, declared, declared, ← List.map_append, ← List.filter_append, ← e1]
  rw [hd, List.nodup_append] at hn
  refine (List.nodup_cons.mp hn.2.1).1 ?_
  rw [declared]
  exact List.mem_map.mpr ⟨l, List.mem_filter.mpr ⟨hmem, by simpa using hl⟩, rfl⟩

/-- An alternative in which `{EPSILON}` is not alone is refused. -/
theorem c20_epsilon (G : GrammarEnv) (hG : G.Proper) (lines : List (List Char)) (hne : lines ≠ [])
    (hnl : ∀ l ∈ lines, '\n' ∉ l) (l : List Char) (hmem : l ∈ lines) (hl : classify l = .alt)
    (ps : List (List Char)) (hps : Pieces G (l.dropWhile G.white) 0 ps) (he : epsilon ∈ ps) (ha : ps ≠ [epsilon])
    (prods : List Production) : convertGrammar G (joinLines lines) ≠ .ok prods := by
  intro h
  have hacc := (convertGrammar_iff hG lines hne hnl prods).mp h
  obtain ⟨i, hi, ei⟩ := List.mem_iff_getElem.mp hmem
  have hai : i ∈ alternatives lines := by
    rw [alternatives, List.mem_filter, List.mem_range]
    refine ⟨hi, ?_⟩
    rw [List.getElem?_eq_getElem hi, ei, Option.map_some, hl]
    rfl
  obtain ⟨k, hk, ek⟩ := List.mem_iff_getElem.mp hai
  have hk' : k < prods.length := by rw [hacc.count]; exact hk
  obtain ⟨line, h1, h2, h3, h4, h5⟩ := hacc.each k i prods[k] (by rw [List.getElem?_eq_getElem hk, ek])
    (List.getElem?_eq_getElem hk')
  rw [List.getElem?_eq_getElem hi, ei] at h1
  injection h1 with h1
  subst h1
  rcases h5 with ⟨_, h6⟩ | ⟨h6, h7⟩
  · exact ha (hps.unique h6)
  · rw [← hps.unique h7] at h6
    exact h6 he

/-- An alternative with an undeclared nonterminal is refused. -/
theorem c20_undefined (G : GrammarEnv) (hG : G.Proper) (lines : List (List Char)) (hne : lines ≠ [])
    (hnl : ∀ l ∈ lines, '\n' ∉ l) (l : List Char) (hmem : l ∈ lines) (hl : classify l = .alt)
    (ps : List (List Char)) (hps : Pieces G (l.dropWhile G.white) 0 ps) (item : List Char) (he : item ∈ ps)
    (hnt : Nonterminal item) (hne' : item ≠ epsilon) (hund : item ∉ declared lines)
    (prods : List Production) : convertGrammar G (joinLines lines) ≠ .ok prods := by
  intro h
  have hacc := (convertGrammar_iff hG lines hne hnl prods).mp h
  obtain ⟨i, hi, ei⟩ := List.mem_iff_getElem.mp hmem
  have hai : i ∈ alternatives lines := by
    rw [alternatives, List.mem_filter, List.mem_range]
    refine ⟨hi, ?_⟩
    rw [List.getElem?_eq_getElem hi, ei, Option.map_some, hl]
    rfl
  obtain ⟨k, hk, ek⟩ := List.mem_iff_getElem.mp hai
  have hk' : k < prods.length := by rw [hacc.count]; exact hk
  obtain ⟨line, h1, h2, h3, h4, h5⟩ := hacc.each k i prods[k] (by rw [List.getElem?_eq_getElem hk, ek])
    (List.getElem?_eq_getElem hk')
  rw [List.getElem?_eq_getElem hi, ei] at h1
  injection h1 with h1
  subst h1
  rcases h5 with ⟨_, h6⟩ | ⟨h6, h7⟩
  · rw [hps.unique h6, List.mem_singleton] at he
    exact hne' he
  · rw [hps.unique h7] at he
    exact hund (hacc.defined _ (List.getElem_mem hk') item he hnt)

/-- Pieces of the examples: a nonterminal of one letter, or a single character. -/
def exEnv : GrammarEnv where
  white c := decide (c = ' ')
  piece rhs p :=
    if rhs.length ≤ p then none
    else if rhs[p]? = some '{' ∧ rhs[p + 2]? = some '}' then some (p + 3)
    else if epsilon <+: rhs.drop p then some (p + epsilon.length) else some (p + 1)
  escape _ := none

theorem exEnv_proper : exEnv.Proper := by
  intro rhs p e h
  dsimp only [exEnv] at h
  split at h
  · cases h
  · rename_i hlt
    split at h
    · rename_i hc
      injection h with h
      have : p + 2 < rhs.length := by
        rcases Nat.lt_or_ge (p + 2) rhs.length with x | x
        · exact x
        · rw [List.getElem?_eq_none x] at hc; cases hc.2
      omega
    · split at h
      · rename_i hpre
        injection h with h
        have h1 := hpre.length_le
        rw [List.length_drop] at h1
        have : epsilon.length = 9 := rfl
        omega
      · injection h with h
        omega

/-- A grammar with two left-hand sides, a comment, a blank line and an empty alternative. -/
def exLines : List (List Char) :=
  [['{', 'A', '}', ' ', ':'], [' ', ' ', 'x', '{', 'B', '}'], [' ', 'y'], [' ', '#', 'n'], [],
   ['{', 'B', '}', ' ', ':'], ' ' :: epsilon]

example : convertGrammar exEnv (joinLines exLines) = .ok
    [⟨some ['{', 'A', '}'], ['x', '{', 'B', '}'], [['x'], ['{', 'B', '}']]⟩, ⟨some ['{', 'A', '}'], ['y'], [['y']]⟩,
     ⟨some ['{', 'B', '}'], epsilon, []⟩] := rfl
example : exLines ≠ [] ∧ ∀ l ∈ exLines, '\n' ∉ l := by decide
example : convertGrammar exEnv (joinLines (exLines ++ [['{', 'A', '}', ' ', ':']])) = .error .repeatedLhs := rfl
example : convertGrammar exEnv (joinLines (exLines ++ [' ' :: 'x' :: epsilon])) = .error .epsilon := rfl
example : convertGrammar exEnv (joinLines (exLines ++ [[' ', '{', 'C', '}']])) = .error .undefined := rfl

end Verif.Pseudo
