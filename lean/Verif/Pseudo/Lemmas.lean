import Verif.Pseudo.Spec
/-! # Lemmas on the tokenizer and the grammar files -/
namespace Verif.Pseudo

/-! ## Tokenizer -/

theorem length_slice (s : List Char) (p q : Nat) : (slice s p q).length = min q s.length - p := by
  simp [slice]

theorem leadingBlanks_le (l : List Char) : leadingBlanks l ≤ l.length := by
  induction l with
  | nil => exact Nat.le_refl _
  | cons c cs ih =>
    rw [leadingBlanks]
    split
    · simp only [List.length_cons]; omega
    · exact Nat.zero_le _

theorem take_leadingBlanks (l : List Char) :
    l.take (leadingBlanks l) = List.replicate (leadingBlanks l) ' ' := by
  induction l with
  | nil => rfl
  | cons c cs ih =>
    rw [leadingBlanks]
    split
    · rename_i h
      rw [List.take_succ_cons, ih, h, List.replicate_succ]
    · rfl

theorem not_blank_after (l : List Char) : l[leadingBlanks l]? ≠ some ' ' := by
  induction l with
  | nil => simp
  | cons c cs ih =>
    rw [leadingBlanks]
    split
    · simpa using ih
    · rename_i h; simpa using h

theorem charAt_some {s : List Char} {hi p : Nat} {c : Char} (h : charAt s hi p = some c) :
    p < hi ∧ s[p]? = some c := by
  rw [charAt] at h
  split at h
  · exact ⟨‹_›, h⟩
  · cases h

theorem slice_cons {s : List Char} {p q : Nat} {c : Char} (hc : s[p]? = some c) (hpq : p < q) :
    slice s p q = c :: slice s (p + 1) q := by
  have hp : p < s.length := by
    rcases Nat.lt_or_ge p s.length with h | h
    · exact h
    · rw [List.getElem?_eq_none h] at hc; cases hc
  have he : s[p] = c := by rw [List.getElem?_eq_getElem hp] at hc; exact Option.some.inj hc
  have hl : p < (s.take q).length := by rw [List.length_take]; omega
  rw [slice, List.drop_eq_getElem_cons hl]
  simp [slice, he]

theorem slice_prefix (s : List Char) (p k hi : Nat) (h : p + k ≤ hi) :
    slice s p (p + k) = (slice s p hi).take k := by
  rw [slice, slice, List.drop_take, List.drop_take, List.take_take]
  congr 1
  omega

/-- The text of a line break token is a newline and all the blanks after it. -/
theorem lineBreak_text {s : List Char} {hi p : Nat} (h : charAt s hi p = some '\n') (hs : hi ≤ s.length) :
    slice s p (p + 1 + leadingBlanks (slice s (p + 1) hi)) =
      '\n' :: List.replicate (leadingBlanks (slice s (p + 1) hi)) ' ' ∧
    p + 1 + leadingBlanks (slice s (p + 1) hi) ≤ hi := by
  have ⟨hp, hc⟩ := charAt_some h
  have hle := leadingBlanks_le (slice s (p + 1) hi)
  rw [length_slice] at hle
  refine ⟨?_, by omega⟩
  rw [slice_cons hc (by omega), slice_prefix s (p + 1) _ hi (by omega), take_leadingBlanks]

/-- What a match can be. -/
theorem matchAt_cases {others : Others} (ho : Proper others) {s : List Char} {hi p : Nat} (hs : hi ≤ s.length)
    {k : Kind} {e : Nat} (h : matchAt others s hi p = some (k, e)) :
    (k = .eos ∧ e = p ∧ atEos s hi p = true) ∨
    (atEos s hi p = false ∧ p < e ∧ e ≤ hi ∧
      ((k = .nlai ∧ ∃ n, slice s p e = '\n' :: List.replicate n ' ' ∧
          (e < hi → s[e]? ≠ some ' ')) ∨ k = .space ∨ ∃ n, k = .other n)) := by
  rw [matchAt] at h
  split at h
  · rename_i ha
    injection h with h; injection h with h1 h2
    exact Or.inl ⟨h1.symm, h2.symm, ha⟩
  · rename_i ha
    refine Or.inr ⟨by simpa using ha, ?_⟩
    split at h
    · rename_i hn
      injection h with h; injection h with h1 h2
      obtain ⟨ht, hle⟩ := lineBreak_text hn hs
      subst h2
      refine ⟨by omega, hle, Or.inl ⟨h1.symm, _, ht, fun hlt => ?_⟩⟩
      have e : ∀ (k : Nat), p + 1 + k < hi → (slice s (p + 1) hi)[k]? = s[p + 1 + k]? := by
        intro k hk
        rw [slice, List.getElem?_drop, List.getElem?_take_of_lt hk]
      rw [← e _ hlt]
      exact not_blank_after (slice s (p + 1) hi)
    · split at h
      · rename_i hb
        injection h with h; injection h with h1 h2
        have := (charAt_some hb).1
        exact ⟨by omega, by omega, Or.inr (Or.inl h1.symm)⟩
      · cases hoe : others s hi p with
        | none => rw [hoe] at h; cases h
        | some r =>
          rw [hoe] at h
          obtain ⟨k', len⟩ := r
          injection h with h; injection h with h1 h2
          obtain ⟨h3, h4⟩ := ho _ _ _ _ _ hoe
          exact ⟨by dsimp only at h2; omega, by dsimp only at h2; omega, Or.inr (Or.inr ⟨_, h1.symm⟩)⟩

theorem indents_append (a b : List Tok) : indents (a ++ b) = indents a + indents b := by
  simp [indents]

theorem outdents_append (a b : List Tok) : outdents (a ++ b) = outdents a + outdents b := by
  simp [outdents]

theorem indents_cons_other {t : Tok} (h : ¬ t.isDent) (b : List Tok) : indents (t :: b) = indents b := by
  have : t.kind ≠ .indent := fun e => h (Or.inl e)
  simp [indents, this]

theorem outdents_cons_other {t : Tok} (h : ¬ t.isDent) (b : List Tok) : outdents (t :: b) = outdents b := by
  have : t.kind ≠ .outdent := fun e => h (Or.inr e)
  simp [outdents, this]

theorem dents_isDent {c : Int} {p : Nat} {t : Tok} (h : t ∈ dents c p) :
    t.isDent ∧ t.start = p ∧ t.stop = p ∧ t.text = [] := by
  rw [dents, List.mem_replicate] at h
  obtain ⟨_, rfl⟩ := h
  refine ⟨?_, rfl, rfl, rfl⟩
  rw [Tok.isDent]
  dsimp only
  split
  · exact Or.inl rfl
  · exact Or.inr rfl

theorem dents_same {c : Int} {p : Nat} {t t' : Tok} (h : t ∈ dents c p) (h' : t' ∈ dents c p) : t = t' := by
  rw [dents, List.mem_replicate] at h h'
  rw [h.2, h'.2]

theorem dents_balance {c : Int} {p : Nat} (h : c % 2 = 0) :
    2 * (indents (dents c p) - outdents (dents c p)) = c := by
  rw [dents, indents, outdents, List.filter_replicate, List.filter_replicate]
  by_cases hp : c / 2 > 0
  · simp only [hp, if_true]
    simp
    omega
  · simp only [hp, if_false]
    simp
    omega

theorem lastIndentation_append_other {init : Nat} {a b : List Tok} (h : ∀ t ∈ b, t.kind ≠ .nlai) :
    lastIndentation init (a ++ b) = lastIndentation init a := by
  rw [lastIndentation, List.filter_append, List.filter_eq_nil_iff (l := b) |>.mpr (by
    intro t ht; simpa using h t ht), List.append_nil, lastIndentation]

theorem lastIndentation_cons_other {init : Nat} {t : Tok} {b : List Tok} (h : t.kind ≠ .nlai) :
    lastIndentation init (t :: b) = lastIndentation init b := by
  rw [lastIndentation, List.filter_cons_of_neg (by simpa using h), lastIndentation]

theorem lastIndentation_nlai {init : Nat} {a b : List Tok} {t : Tok} (h : t.kind = .nlai) :
    lastIndentation init (a ++ t :: b) = lastIndentation t.indentation b := by
  rw [lastIndentation, lastIndentation, List.filter_append, List.filter_cons_of_pos (by simpa using h)]
  cases hb : b.filter (fun t => decide (t.kind = .nlai)) with
  | nil => simp
  | cons x xs =>
    rw [List.getLast?_append, List.getLast?_cons_cons, List.getLast?_cons]
    rfl

theorem Tiles.append {s : List Char} {p q r : Nat} {a b : List Tok} (h : Tiles s p a q) (h' : Tiles s q b r) :
    Tiles s p (a ++ b) r := by
  induction h with
  | nil => exact h'
  | cons h1 h2 h3 _ ih => exact .cons h1 h2 h3 (ih h')

theorem tiles_dents (s : List Char) (p : Nat) : ∀ (ds : List Tok), (∀ t ∈ ds, t.start = p ∧ t.stop = p ∧ t.text = []) →
    Tiles s p ds p
  | [], _ => .nil p
  | t :: ds, h => by
    obtain ⟨h1, h2, h3⟩ := h t (List.mem_cons_self ..)
    refine .cons h1 (by omega) ?_ ?_
    · rw [h1, h2, h3, slice]; simp
    · rw [h2]; exact tiles_dents s p ds (fun t ht => h t (List.mem_cons_of_mem _ ht))

/-- What is known of a tokenization from `p` with previous indentation `prev`. -/
structure Laid (s : List Char) (hi prev p : Nat) (ts : List Tok) : Prop where
  tiles : ∃ (q : Nat) (front : List Tok) (t : Tok), ts = front ++ [t] ∧ t.kind = .eos ∧ Tiles s p ts q ∧
    t.start = q ∧ t.stop = q ∧ atEos s hi q = true ∧ ∀ u ∈ front, u.kind ≠ .eos ∧ atEos s hi u.start = false
  breaks : ∀ t ∈ ts, t.kind = .nlai → LineBreak t.text ∧ (t.stop < hi → s[t.stop]? ≠ some ' ')
  depth : ∀ pre t post, ts = pre ++ t :: post → ¬ t.isDent →
    2 * (indents pre - outdents pre) =
      (if t.kind = .nlai then (t.indentation : Int) else lastIndentation prev pre) - prev
  runs : ∀ pre t post, ts = pre ++ t :: post → t.isDent →
    t.stop = t.start ∧ t.text = [] ∧ ∃ u post', post = u :: post' ∧ (u.kind = t.kind ∨ u.kind = .nlai)

theorem append_eq_cases {α} {a b pre post : List α} {t : α} (h : a ++ b = pre ++ t :: post) :
    (∃ post', a = pre ++ t :: post' ∧ post = post' ++ b) ∨ (∃ pre', pre = a ++ pre' ∧ b = pre' ++ t :: post) := by
  rcases List.append_eq_append_iff.mp h with ⟨x, h1, h2⟩ | ⟨x, h1, h2⟩
  · exact Or.inr ⟨x, h1, h2⟩
  · cases x with
    | nil => exact Or.inr ⟨[], by simpa using h1.symm, by simpa using h2.symm⟩
    | cons y ys =>
      injection h2 with h2 h3
      subst h2
      exact Or.inl ⟨ys, h1, h3⟩

/-- A token that is neither a line break nor the end. -/
theorem Laid.plain {s : List Char} {hi prev p : Nat} {ts : List Tok} {t : Tok} (h : Laid s hi prev t.stop ts)
    (hk : t.kind ≠ .eos) (hn : t.kind ≠ .nlai) (hd : ¬ t.isDent) (hs : t.start = p) (hle : t.start ≤ t.stop)
    (ht : t.text = slice s t.start t.stop) (ha : atEos s hi p = false) : Laid s hi prev p (t :: ts) := by
  refine ⟨?_, ?_, ?_, ?_⟩
  · obtain ⟨q, front, x, h1, h2, h3, h4, h5, h6, h7⟩ := h.tiles
    refine ⟨q, t :: front, x, by rw [h1]; rfl, h2, .cons hs hle ht h3, h4, h5, h6, ?_⟩
    intro u hu
    rcases List.mem_cons.mp hu with e | hu
    · subst e; exact ⟨hk, by rw [hs]; exact ha⟩
    · exact h7 u hu
  · intro u hu hkind
    rcases List.mem_cons.mp hu with e | hu
    · subst e; exact absurd hkind hn
    · exact h.breaks u hu hkind
  · intro pre u post he hu
    cases pre with
    | nil =>
      injection he with e1 e2
      subst e1
      rw [if_neg hn]
      simp [indents, outdents, lastIndentation]
    | cons x xs =>
      injection he with e1 e2
      subst e1
      rw [indents_cons_other hd, outdents_cons_other hd, h.depth xs u post e2 hu]
      split
      · rfl
      · rw [lastIndentation_cons_other hn]
  · intro pre u post he hu
    cases pre with
    | nil => injection he with e1 e2; subst e1; exact absurd hu hd
    | cons x xs => injection he with e1 e2; exact h.runs xs u post e2 hu

/-- A line break with its dents. -/
theorem Laid.line {s : List Char} {hi prev p : Nat} {ts : List Tok} {t : Tok} {n : Nat}
    (h : Laid s hi n t.stop ts) (hk : t.kind = .nlai) (hs : t.start = p) (hle : t.start ≤ t.stop)
    (ht : t.text = slice s t.start t.stop) (hb : LineBreak t.text) (hmax : t.stop < hi → s[t.stop]? ≠ some ' ')
    (hn : t.indentation = n) (heven : ((n : Int) - prev) % 2 = 0) (ha : atEos s hi p = false) :
    Laid s hi prev p (dents ((n : Int) - prev) p ++ t :: ts) := by
  have hd : ¬ t.isDent := by
    rintro (e | e) <;> rw [hk] at e <;> cases e
  have hall : ∀ u ∈ dents ((n : Int) - prev) p, u.isDent ∧ u.start = p ∧ u.stop = p ∧ u.text = [] :=
    fun u hu => dents_isDent hu
  have hkind : ∀ u ∈ dents ((n : Int) - prev) p, u.kind ≠ .nlai ∧ u.kind ≠ .eos := by
    intro u hu
    rcases (hall u hu).1 with e | e <;> rw [e] <;> exact ⟨by decide, by decide⟩
  refine ⟨?_, ?_, ?_, ?_⟩
  · obtain ⟨q, front, x, h1, h2, h3, h4, h5, h6, h7⟩ := h.tiles
    refine ⟨q, dents ((n : Int) - prev) p ++ t :: front, x, by rw [h1]; simp, h2,
      (tiles_dents s p _ (fun u hu => (hall u hu).2)).append (.cons hs hle ht h3), h4, h5, h6, ?_⟩
    intro u hu
    rcases List.mem_append.mp hu with hu | hu
    · exact ⟨(hkind u hu).2, by rw [(hall u hu).2.1]; exact ha⟩
    · rcases List.mem_cons.mp hu with e | hu
      · subst e; exact ⟨by rw [hk]; decide, by rw [hs]; exact ha⟩
      · exact h7 u hu
  · intro u hu hu'
    rcases List.mem_append.mp hu with hu | hu
    · exact absurd hu' (hkind u hu).1
    · rcases List.mem_cons.mp hu with e | hu
      · subst e; exact ⟨hb, hmax⟩
      · exact h.breaks u hu hu'
  · intro pre u post he hu
    rcases append_eq_cases he with ⟨post', e1, _⟩ | ⟨pre', e1, e2⟩
    · exact absurd (hall u (by rw [e1]; simp)).1 hu
    · cases pre' with
      | nil =>
        injection e2 with e2 e3
        subst e2
        rw [e1, List.append_nil, dents_balance heven, if_pos hk, hn]
      | cons x xs =>
        injection e2 with e2 e3
        subst e2
        rw [e1, indents_append, outdents_append, indents_cons_other hd, outdents_cons_other hd,
          lastIndentation_nlai hk, hn]
        have h1 := h.depth xs u post e3 hu
        have h2 := dents_balance (p := p) heven
        omega
  · intro pre u post he hu
    rcases append_eq_cases he with ⟨post', e1, e2⟩ | ⟨pre', e1, e2⟩
    · have hmem : u ∈ dents ((n : Int) - prev) p := by rw [e1]; simp
      refine ⟨by rw [(hall u hmem).2.1, (hall u hmem).2.2.1], (hall u hmem).2.2.2, ?_⟩
      cases post' with
      | nil => exact ⟨t, ts, e2, Or.inr hk⟩
      | cons y ys =>
        refine ⟨y, ys ++ t :: ts, e2, Or.inl ?_⟩
        rw [dents_same (t := y) (t' := u) (by rw [e1]; simp) hmem]
    · cases pre' with
      | nil => injection e2 with e2 e3; subst e2; exact absurd hu hd
      | cons x xs => injection e2 with e2 e3; exact h.runs xs u post e3 hu

/-- Tokenizing with dents lays the tokens out. -/
theorem tokenize_laid {others : Others} (ho : Proper others) {s : List Char} {hi : Nat} (hs : hi ≤ s.length) :
    ∀ (n p prev : Nat) (ts : List Tok), tokenize others s hi true n p prev = .ok ts → Laid s hi prev p ts
  | 0, _, _, _, h => by cases h
  | n + 1, p, prev, ts, h => by
    rw [tokenize] at h
    cases hm : matchAt others s hi p with
    | none => rw [hm] at h; cases h
    | some r =>
      obtain ⟨k, e⟩ := r
      rw [hm] at h
      rcases matchAt_cases ho hs hm with ⟨h1, h2, h3⟩ | ⟨h1, h2, h3, h4⟩
      · subst h1 h2
        dsimp only at h
        injection h with h
        subst h
        refine ⟨⟨e, [], _, rfl, rfl, .cons rfl (Nat.le_refl _) rfl (.nil _), rfl, rfl, h3, by simp⟩, ?_, ?_, ?_⟩
        · intro t ht; rw [List.mem_singleton] at ht; subst ht; intro h; cases h
        · intro pre t post he ht
          cases pre with
          | nil =>
            injection he with e1 e2; subst e1
            simp [indents, outdents, lastIndentation]
          | cons x xs => simp at he
        · intro pre t post he ht
          cases pre with
          | nil =>
            injection he with e1 e2; subst e1
            rcases ht with ht | ht <;> cases ht
          | cons x xs => simp at he
      · rcases h4 with ⟨h4, m, h5, h6⟩ | h4
        · subst h4
          dsimp only at h
          rw [if_pos rfl] at h
          split at h
          · rename_i heven
            cases hr : tokenize others s hi true n e ((slice s p e).length - 1) with
            | error x => rw [hr] at h; cases h
            | ok ts' =>
              rw [hr] at h
              injection h with h
              subst h
              exact Laid.line (t := ⟨.nlai, p, e, slice s p e⟩) (tokenize_laid ho hs n e _ ts' hr) rfl rfl
                (by dsimp only; omega) rfl ⟨m, h5⟩ h6 rfl heven h1
          · cases h
        · have hk : k ≠ .eos ∧ k ≠ .nlai ∧ k ≠ .indent ∧ k ≠ .outdent := by
            rcases h4 with e | ⟨_, e⟩ <;> rw [e] <;> simp
          have h' : (match tokenize others s hi true n e prev with
              | .error x => .error x
              | .ok ts => .ok (⟨k, p, e, slice s p e⟩ :: ts)) = Except.ok (ε := TokErr) ts := by
            rcases h4 with e | ⟨_, e⟩ <;> subst e <;> exact h
          cases hr : tokenize others s hi true n e prev with
          | error x => rw [hr] at h'; cases h'
          | ok ts' =>
            rw [hr] at h'
            injection h' with h'
            subst h'
            refine Laid.plain (t := ⟨k, p, e, slice s p e⟩) (tokenize_laid ho hs n e _ ts' hr) hk.1 hk.2.1 ?_ rfl
              (by dsimp only; omega) rfl h1
            rintro (e | e)
            · exact hk.2.2.1 e
            · exact hk.2.2.2 e

/-- One step of the tokenizer that is neither the end nor a line break. -/
theorem tokenize_plain {others : Others} {s : List Char} {hi : Nat} {dent : Bool} {n p prev e : Nat} {k : Kind}
    (hm : matchAt others s hi p = some (k, e)) (hk : k = .space ∨ ∃ m, k = .other m) :
    tokenize others s hi dent (n + 1) p prev =
      (match tokenize others s hi dent n e prev with
        | .error x => .error x
        | .ok ts => .ok (⟨k, p, e, slice s p e⟩ :: ts)) := by
  rw [tokenize, hm]
  rcases hk with e | ⟨_, e⟩ <;> subst e <;> rfl

/-- One step of the tokenizer at a line break. -/
theorem tokenize_line {others : Others} {s : List Char} {hi : Nat} {dent : Bool} {n p prev e : Nat}
    (hm : matchAt others s hi p = some (.nlai, e)) :
    tokenize others s hi dent (n + 1) p prev =
      (if dent then
        if (((slice s p e).length - 1 : Nat) - prev : Int) % 2 = 0 then
          match tokenize others s hi dent n e ((slice s p e).length - 1) with
          | .error x => .error x
          | .ok ts =>
            .ok (dents (((slice s p e).length - 1 : Nat) - prev) p ++ ⟨.nlai, p, e, slice s p e⟩ :: ts)
        else .error .oddIndent
      else match tokenize others s hi dent n e prev with
        | .error x => .error x
        | .ok ts => .ok (⟨.nlai, p, e, slice s p e⟩ :: ts)) := by
  rw [tokenize, hm]
  rfl

/-- The tokenizer always ends: it needs no more steps than there are characters, and one. -/
theorem tokenize_ends {others : Others} (ho : Proper others) {s : List Char} {hi : Nat} (hs : hi ≤ s.length)
    (dent : Bool) : ∀ (n p prev : Nat), p ≤ hi → hi < p + n → tokenize others s hi dent n p prev ≠ .error .running
  | 0, p, prev, hp, hn => by omega
  | n + 1, p, prev, hp, hn => by
    cases hm : matchAt others s hi p with
    | none => rw [tokenize, hm]; exact fun h => by cases h
    | some r =>
      obtain ⟨k, e⟩ := r
      rcases matchAt_cases ho hs hm with ⟨h1, h2, h3⟩ | ⟨h1, h2, h3, h4⟩
      · subst h1; rw [tokenize, hm]; exact fun h => by cases h
      · have ih := fun prev => tokenize_ends ho hs dent n e prev h3 (by omega)
        rcases h4 with ⟨h4, _⟩ | h4
        · subst h4
          rw [tokenize_line hm]
          split
          · split
            · cases hr : tokenize others s hi dent n e ((slice s p e).length - 1) with
              | error x => intro h; exact ih _ (hr.trans (by injection h with h; rw [h]))
              | ok ts => exact fun h => by cases h
            · exact fun h => by cases h
          · cases hr : tokenize others s hi dent n e prev with
            | error x => intro h; exact ih _ (hr.trans (by injection h with h; rw [h]))
            | ok ts => exact fun h => by cases h
        · rw [tokenize_plain hm h4]
          cases hr : tokenize others s hi dent n e prev with
          | error x => intro h; exact ih _ (hr.trans (by injection h with h; rw [h]))
          | ok ts => exact fun h => by cases h

theorem withoutDents_dents (c : Int) (p : Nat) (ts : List Tok) : withoutDents (dents c p ++ ts) = withoutDents ts := by
  rw [withoutDents, List.filter_append, List.filter_eq_nil_iff (l := dents c p) |>.mpr (by
    intro t ht; simpa using (dents_isDent ht).1), List.nil_append, withoutDents]

theorem withoutDents_cons {t : Tok} (h : ¬ t.isDent) (ts : List Tok) :
    withoutDents (t :: ts) = t :: withoutDents ts := by
  rw [withoutDents, List.filter_cons_of_pos (by simpa using h), withoutDents]

/-- With and without dents. -/
theorem tokenize_without {others : Others} (ho : Proper others) {s : List Char} {hi : Nat} (hs : hi ≤ s.length) :
    ∀ (n p prev prev' : Nat) (ts : List Tok), tokenize others s hi true n p prev = .ok ts →
      tokenize others s hi false n p prev' = .ok (withoutDents ts) ∧
      ∀ t ∈ ts, t.kind = .nlai → t.indentation % 2 = prev % 2
  | 0, _, _, _, _, h => by cases h
  | n + 1, p, prev, prev', ts, h => by
    cases hm : matchAt others s hi p with
    | none => rw [tokenize, hm] at h; cases h
    | some r =>
      obtain ⟨k, e⟩ := r
      rcases matchAt_cases ho hs hm with ⟨h1, h2, h3⟩ | ⟨h1, h2, h3, h4⟩
      · subst h1
        rw [tokenize, hm] at h ⊢
        injection h with h
        subst h
        refine ⟨rfl, ?_⟩
        intro t ht; rw [List.mem_singleton] at ht; subst ht; intro h; cases h
      · rcases h4 with ⟨h4, m, h5, _⟩ | h4
        · subst h4
          rw [tokenize_line hm] at h ⊢
          rw [if_pos rfl] at h
          rw [if_neg (by decide)]
          split at h
          · rename_i heven
            cases hr : tokenize others s hi true n e ((slice s p e).length - 1) with
            | error x => rw [hr] at h; cases h
            | ok ts' =>
              rw [hr] at h
              injection h with h
              subst h
              obtain ⟨i1, i2⟩ := tokenize_without ho hs n e _ prev' ts' hr
              rw [i1, withoutDents_dents, withoutDents_cons (by rintro (x | x) <;> cases x)]
              refine ⟨rfl, ?_⟩
              have hpar : ((slice s p e).length - 1) % 2 = prev % 2 := by omega
              intro t ht hk
              rcases List.mem_append.mp ht with ht | ht
              · rcases (dents_isDent ht).1 with x | x <;> rw [hk] at x <;> cases x
              · rcases List.mem_cons.mp ht with x | ht
                · subst x; exact hpar
                · rw [i2 t ht hk, hpar]
          · cases h
        · rw [tokenize_plain hm h4] at h ⊢
          cases hr : tokenize others s hi true n e prev with
          | error x => rw [hr] at h; cases h
          | ok ts' =>
            rw [hr] at h
            injection h with h
            subst h
            obtain ⟨i1, i2⟩ := tokenize_without ho hs n e _ prev' ts' hr
            have hk : k ≠ .nlai ∧ k ≠ .indent ∧ k ≠ .outdent := by
              rcases h4 with e | ⟨_, e⟩ <;> rw [e] <;> simp
            rw [i1, withoutDents_cons (fun x => x.elim hk.2.1 hk.2.2)]
            refine ⟨rfl, ?_⟩
            intro t ht hk'
            rcases List.mem_cons.mp ht with x | ht
            · subst x; exact absurd hk' hk.1
            · exact i2 t ht hk'

/-- Lines whose indentations have the parity of the first are accepted. -/
theorem tokenize_with {others : Others} (ho : Proper others) {s : List Char} {hi : Nat} (hs : hi ≤ s.length) :
    ∀ (n p prev prev' : Nat) (raw : List Tok), tokenize others s hi false n p prev' = .ok raw →
      (∀ t ∈ raw, t.kind = .nlai → t.indentation % 2 = prev % 2) →
      ∃ ts, tokenize others s hi true n p prev = .ok ts
  | 0, _, _, _, _, h, _ => by cases h
  | n + 1, p, prev, prev', raw, h, hpar => by
    cases hm : matchAt others s hi p with
    | none => rw [tokenize, hm] at h; cases h
    | some r =>
      obtain ⟨k, e⟩ := r
      rcases matchAt_cases ho hs hm with ⟨h1, h2, h3⟩ | ⟨h1, h2, h3, h4⟩
      · subst h1
        rw [tokenize, hm]
        exact ⟨_, rfl⟩
      · rcases h4 with ⟨h4, m, h5, _⟩ | h4
        · subst h4
          rw [tokenize_line hm] at h ⊢
          rw [if_neg (by decide)] at h
          rw [if_pos rfl]
          cases hr : tokenize others s hi false n e prev' with
          | error x => rw [hr] at h; cases h
          | ok raw' =>
            rw [hr] at h
            injection h with h
            subst h
            have h0 := hpar _ (List.mem_cons_self ..) rfl
            dsimp only [Tok.indentation] at h0
            rw [if_pos (by omega)]
            obtain ⟨ts', ht⟩ := tokenize_with ho hs n e ((slice s p e).length - 1) prev' raw' hr (fun t ht hk => by
              rw [hpar t (List.mem_cons_of_mem _ ht) hk, h0])
            rw [ht]
            exact ⟨_, rfl⟩
        · rw [tokenize_plain hm h4] at h ⊢
          cases hr : tokenize others s hi false n e prev' with
          | error x => rw [hr] at h; cases h
          | ok raw' =>
            rw [hr] at h
            injection h with h
            subst h
            obtain ⟨ts', ht⟩ := tokenize_with ho hs n e prev prev' raw' hr (fun t ht hk =>
              hpar t (List.mem_cons_of_mem _ ht) hk)
            rw [ht]
            exact ⟨_, rfl⟩

/-! ### The first indentation -/

theorem lineStart_spec (s : List Char) : ∀ (p : Nat), lineStart s p ≤ p ∧ StartsLine s (lineStart s p) ∧
    ∀ (q : Nat), lineStart s p ≤ q → q < p → s[q]? ≠ some '\n'
  | 0 => ⟨Nat.le_refl _, Or.inl rfl, fun _ _ h => absurd h (Nat.not_lt_zero _)⟩
  | p + 1 => by
    rw [lineStart]
    split
    · rename_i h
      exact ⟨Nat.le_refl _, Or.inr ⟨p, rfl, h⟩, fun _ h1 h2 => by omega⟩
    · rename_i h
      obtain ⟨h1, h2, h3⟩ := lineStart_spec s p
      refine ⟨by omega, h2, fun q h4 h5 => ?_⟩
      rcases Nat.lt_or_ge q p with h6 | h6
      · exact h3 q h4 h6
      · have : q = p := by omega
        rw [this]; exact h

theorem indentEnd_spec (s : List Char) (start : Nat) : ∀ (n p q : Nat), indentEnd s start n p = some q →
    p ≤ q ∧ q < p + n ∧ (∀ (r : Nat), p ≤ r → r < q → s[r]? = some ' ') ∧ ∃ c, s[q]? = some c ∧ c ≠ ' '
  | 0, _, _, h => by cases h
  | n + 1, p, q, h => by
    rw [indentEnd] at h
    cases hc : s[p]? with
    | none => rw [hc] at h; cases h
    | some c =>
      rw [hc] at h
      dsimp only at h
      split at h
      · rename_i hb
        obtain ⟨h1, h2, h3, h4⟩ := indentEnd_spec s start n (p + 1) q h
        refine ⟨by omega, by omega, fun r hr hr' => ?_, h4⟩
        rcases Nat.lt_or_ge p r with h5 | h5
        · exact h3 r h5 hr'
        · have : r = p := by omega
          rw [this, hc, hb]
      · rename_i hb
        injection h with h
        subst h
        exact ⟨Nat.le_refl _, by omega, fun r h1 h2 => by omega, c, hc, hb⟩

theorem indentEnd_total (s : List Char) (start : Nat) : ∀ (n p q : Nat), p ≤ q → q < p + n → q < s.length →
    s[q]? ≠ some ' ' → ∃ r, indentEnd s start n p = some r
  | 0, p, q, h1, h2, _, _ => by omega
  | n + 1, p, q, h1, h2, h3, h4 => by
    rw [indentEnd]
    rw [List.getElem?_eq_getElem (by omega : p < s.length)]
    dsimp only
    split
    · rename_i hb
      have hpq : p ≠ q := by
        intro e; subst e
        rw [List.getElem?_eq_getElem h3] at h4
        exact h4 (by rw [hb])
      exact indentEnd_total s start n (p + 1) q (by omega) (by omega) h3 h4
    · exact ⟨_, rfl⟩

end Verif.Pseudo
