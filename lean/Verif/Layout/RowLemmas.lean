import Verif.Layout.LineLemmas
/-! # Lemmas about the lines of a content -/
namespace Verif.Layout
open Verif.HTML (Str Attrs Node litName commentName docName)
open Verif.Validate (slice Suf slice_suf suf_tail suf_head suf_nil)

theorem suf_drop {text : Str} {b p : Nat} {s : Str} (h : Suf text b p s) (n : Nat) : Suf text b (p + n) (s.drop n) := by
  intro i
  rw [List.getElem?_drop, h (n + i), show p + (n + i) = p + n + i by omega]

theorem suf_get {text : Str} {b p : Nat} {s : Str} (h : Suf text b p s) {i : Nat} {c : Char} (hi : s[i]? = some c) : p + i < b ∧ text[p + i]? = some c := by
  rw [h i] at hi
  split at hi
  · rename_i hb; exact ⟨hb, hi⟩
  · cases hi

theorem suf_at {text : Str} {b p : Nat} {s : Str} (h : Suf text b p s) {j : Nat} {c : Char} (h1 : p ≤ j) (h2 : j < b) (hc : text[j]? = some c) : s[j - p]? = some c := by
  rw [h (j - p), show p + (j - p) = j by omega, if_pos h2, hc]

theorem take_while_get {P : Char → Bool} : ∀ (s : Str) (i : Nat), i < (s.takeWhile P).length → ∃ c, s[i]? = some c ∧ P c = true
  | [], i, h => by simp at h
  | c :: cs, i, h => by
    rw [List.takeWhile_cons] at h
    split at h
    · rename_i hc
      cases i with
      | zero => exact ⟨c, rfl, hc⟩
      | succ i =>
        rw [List.getElem?_cons_succ]
        exact take_while_get cs i (by simpa using h)
    · simp at h

theorem drop_while_head {P : Char → Bool} : ∀ (s : Str) (d : Char) (r : Str), s.drop (s.takeWhile P).length = d :: r → P d = false
  | [], d, r, h => by simp at h
  | c :: cs, d, r, h => by
    rw [List.takeWhile_cons] at h
    split at h
    · exact drop_while_head cs d r (by simpa using h)
    · rename_i hc
      simp only [List.length_nil, List.drop_zero, List.cons.injEq] at h
      rw [← h.1]; simpa using hc

theorem drop_while_get {P : Char → Bool} {s : Str} {c : Char} (h : s[(s.takeWhile P).length]? = some c) : P c = false := by
  cases hd : s.drop (s.takeWhile P).length with
  | nil =>
    have : (s.drop (s.takeWhile P).length)[0]? = some c := by rw [List.getElem?_drop]; simpa using h
    rw [hd] at this; cases this
  | cons d r =>
    have : (s.drop (s.takeWhile P).length)[0]? = some c := by rw [List.getElem?_drop]; simpa using h
    rw [hd] at this
    cases this
    exact drop_while_head s _ r hd

/-- The spaces at the start. -/
theorem lead_spaces {text : Str} {b p : Nat} {s : Str} (h : Suf text b p s) : Spaces text p (p + (s.takeWhile (· = ' ')).length) := by
  refine ⟨by omega, fun i h1 h2 => ?_⟩
  obtain ⟨c, hc, hs⟩ := take_while_get (P := (· = ' ')) s (i - p) (by omega)
  have := (suf_get h hc).2
  rw [show p + (i - p) = i by omega] at this
  rw [this, of_decide_eq_true hs]

variable {white : Char → Bool} {text : Str} {b : Nat}

theorem row_at (hw : WhiteOk white) {p : Nat} {cs : Str} (hs : Suf text b (p + 1) cs) (hp : text[p]? = some '\n') (r : Nat × Nat) :
    (∃ c, r.2 = p + 1 + r.1 ∧ Spaces text (p + 1) r.2 ∧ r.2 < b ∧ text[r.2]? = some c ∧ white c = false) ↔
    ∃ c t, cs.drop (cs.takeWhile (· = ' ')).length = c :: t ∧ white c = false ∧ r = ((cs.takeWhile (· = ' ')).length, p + 1 + (cs.takeWhile (· = ' ')).length) := by
  have hl := lead_spaces hs
  constructor
  · rintro ⟨c, h1, h2, h3, h4, h5⟩
    have hn : r.1 = (cs.takeWhile (· = ' ')).length := by
      refine Nat.le_antisymm ?_ ?_
      · refine Nat.le_of_not_lt fun hlt => ?_
        have h6 := h2.2 (p + 1 + (cs.takeWhile (· = ' ')).length) (by omega) (by omega)
        have h7 := suf_at hs (by omega) (by omega) h6
        rw [show p + 1 + (cs.takeWhile (· = ' ')).length - (p + 1) = (cs.takeWhile (· = ' ')).length by omega] at h7
        have h8 := drop_while_get h7
        simp at h8
      · refine Nat.le_of_not_lt fun hlt => ?_
        have h6 := hl.2 r.2 (by omega) (by omega)
        rw [h4] at h6
        rw [Option.some_inj.1 h6, hw.space] at h5
        cases h5
    have h7 := suf_at hs (by omega) h3 h4
    rw [h1, show p + 1 + r.1 - (p + 1) = r.1 by omega, hn] at h7
    refine ⟨c, cs.drop ((cs.takeWhile (· = ' ')).length + 1), ?_, h5, Prod.ext hn (by rw [h1, hn])⟩
    obtain ⟨hlt, hg⟩ := List.getElem?_eq_some_iff.1 h7
    rw [List.drop_eq_getElem_cons hlt, hg]
  · rintro ⟨c, t, h1, h2, rfl⟩
    have h3 := suf_drop hs (cs.takeWhile (· = ' ')).length
    rw [h1] at h3
    exact ⟨c, rfl, hl, (suf_head h3).1, (suf_head h3).2, h2⟩

theorem row_split (p : Nat) (r : Nat × Nat) : Row white text p b r ↔
    (text[p]? = some '\n' ∧ ∃ c, r.2 = p + 1 + r.1 ∧ Spaces text (p + 1) r.2 ∧ r.2 < b ∧ text[r.2]? = some c ∧ white c = false) ∨ Row white text (p + 1) b r := by
  constructor
  · rintro ⟨q, c, h0, h1, h2, h3, h4, h5, h6⟩
    by_cases hq : q = p
    · subst hq
      exact .inl ⟨h1, c, h2, h3, h4, h5, h6⟩
    · exact .inr ⟨q, c, by omega, h1, h2, h3, h4, h5, h6⟩
  · rintro (⟨h1, c, h2, h3, h4, h5, h6⟩ | ⟨q, c, h0, h1, h2, h3, h4, h5, h6⟩)
    · exact ⟨p, c, Nat.le_refl _, h1, h2, h3, h4, h5, h6⟩
    · exact ⟨q, c, by omega, h1, h2, h3, h4, h5, h6⟩

theorem row_skip {p q : Nat} (r : Nat × Nat) (hq : p ≤ q) (h : ∀ (i : Nat), p ≤ i → i < q → text[i]? ≠ some '\n') : Row white text p b r ↔ Row white text q b r := by
  constructor
  · rintro ⟨j, c, h0, h1, h2⟩
    exact ⟨j, c, Nat.le_of_not_lt fun hl => h j h0 hl h1, h1, h2⟩
  · rintro ⟨j, c, h0, h1, h2⟩
    exact ⟨j, c, by omega, h1, h2⟩

theorem mem_rows (hw : WhiteOk white) : ∀ (s : Str) (k p : Nat), Suf text b p s → ∀ r, r ∈ rows white k p s ↔ Row white text (p + k) b r
  | [], k, p, hs, r => by
    rw [rows]
    constructor
    · intro h; cases h
    · rintro ⟨q, c, h0, h1, h2, h3, h4, h5, h6⟩
      have := suf_nil hs r.2 (by omega) h4
      rw [h5] at this; cases this
  | _ :: cs, k + 1, p, hs, r => by
    rw [rows, mem_rows hw cs k (p + 1) (suf_tail hs), show p + 1 + k = p + (k + 1) by omega]
  | c :: cs, 0, p, hs, r => by
    have hc := (suf_head hs).2
    have ht := suf_tail hs
    rw [rows, Nat.add_zero, row_split]
    by_cases he : c = '\n'
    · rw [if_pos he]
      have hp : text[p]? = some '\n' := by rw [hc, he]
      rw [row_at hw ht hp]
      dsimp only
      split
      · rename_i hd
        rw [mem_rows hw cs 0 (p + 1) ht, Nat.add_zero]
        exact ⟨.inr, fun h => h.elim (fun ⟨_, c, t, g, _⟩ => by rw [hd] at g; cases g) id⟩
      · rename_i d t hd
        by_cases hd' : white d = true
        · rw [if_pos hd', mem_rows hw cs 0 (p + 1) ht, Nat.add_zero]
          refine ⟨.inr, fun h => h.elim (fun ⟨_, c, t, g, g', _⟩ => ?_) id⟩
          rw [hd] at g; cases g; rw [hd'] at g'; cases g'
        · rw [if_neg hd', List.mem_cons, mem_rows hw cs _ (p + 1) ht]
          rw [← row_skip (p := p + 1) r (by omega)]
          · constructor
            · rintro (rfl | h)
              · exact .inl ⟨hp, d, t, hd, by simpa using hd', rfl⟩
              · exact .inr h
            · rintro (⟨_, c, t, _, _, rfl⟩ | h)
              · exact .inl rfl
              · exact .inr h
          · intro i h1 h2 hi
            have hl := lead_spaces ht
            by_cases hlt : i < p + 1 + (cs.takeWhile (· = ' ')).length
            · rw [hl.2 i h1 hlt] at hi; cases hi
            · have h3 := suf_drop ht (cs.takeWhile (· = ' ')).length
              rw [hd] at h3
              have h4 := (suf_head h3).2
              rw [show p + 1 + (cs.takeWhile (· = ' ')).length = i by omega, hi] at h4
              rw [← Option.some_inj.1 h4, hw.newline] at hd'
              exact hd' rfl
    · rw [if_neg he, mem_rows hw cs 0 (p + 1) ht, Nat.add_zero]
      refine ⟨.inr, fun h => h.elim (fun g => ?_) id⟩
      have g1 : text[p]? = some '\n' := g.1
      rw [hc] at g1
      exact absurd (Option.some_inj.1 g1) he

theorem sorted_rows (hw : WhiteOk white) : ∀ (s : Str) (k p : Nat), Suf text b p s → (rows white k p s).Pairwise (fun r r' => r.2 < r'.2)
  | [], k, p, hs => by rw [rows]; exact .nil
  | _ :: cs, k + 1, p, hs => by rw [rows]; exact sorted_rows hw cs k (p + 1) (suf_tail hs)
  | c :: cs, 0, p, hs => by
    rw [rows]
    have ht := suf_tail hs
    split
    · dsimp only
      split
      · exact sorted_rows hw cs 0 (p + 1) ht
      · split
        · exact sorted_rows hw cs 0 (p + 1) ht
        · refine List.pairwise_cons.2 ⟨fun r hr => ?_, sorted_rows hw cs _ (p + 1) ht⟩
          obtain ⟨q, c, h0, _, h2, _⟩ := (mem_rows hw cs _ (p + 1) ht r).1 hr
          simp only
          omega
    · exact sorted_rows hw cs 0 (p + 1) ht

theorem rows_spec (hw : WhiteOk white) (a : Nat) : Rows white text a b (rows white 0 a (slice text a b)) :=
  ⟨sorted_rows hw _ 0 a (slice_suf text a b), fun r => by rw [mem_rows hw _ 0 a (slice_suf text a b), Nat.add_zero]⟩

theorem rows_unique {a : Nat} {rs rs' : List (Nat × Nat)} (h : Rows white text a b rs) (h' : Rows white text a b rs') : rs = rs' := by
  have hnd : ∀ {l : List (Nat × Nat)}, l.Pairwise (fun r r' => r.2 < r'.2) → l.Nodup := fun h => h.imp (fun {x y} hxy e => by rw [e] at hxy; exact Nat.lt_irrefl _ hxy)
  have hp : rs.Perm rs' := (List.perm_ext_iff_of_nodup (hnd h.1) (hnd h'.1)).2 fun r => by rw [h.2, h'.2]
  exact hp.eq_of_pairwise (fun x y _ _ h1 h2 => by omega) h.1 h'.1

/-! ### Reading the lines -/

theorem groups_ne (top : Nat) : ∀ rs, groups top rs ≠ []
  | [] => by simp [groups]
  | r :: rs => by
    rw [groups]
    split
    · simp
    · split <;> simp

/-- The first group, and what comes after it. -/
theorem groups_split (top : Nat) : ∀ rs, ∃ g gs rest, groups top rs = g :: gs ∧ rs = g ++ rest ∧ (∀ r ∈ g, top < r.1) ∧
    (rest = [] ∧ gs = [] ∨ ∃ r rest', rest = r :: rest' ∧ r.1 ≤ top ∧ gs = groups top rest')
  | [] => ⟨[], [], [], rfl, rfl, fun r hr => (by cases hr), .inl ⟨rfl, rfl⟩⟩
  | r :: rs => by
    by_cases h : r.1 ≤ top
    · exact ⟨[], groups top rs, r :: rs, by rw [groups, if_pos h], rfl, fun r hr => (by cases hr), .inr ⟨r, rs, rfl, h, rfl⟩⟩
    · obtain ⟨g, gs, rest, h1, h2, h3, h4⟩ := groups_split top rs
      refine ⟨r :: g, gs, rest, by rw [groups, if_neg h, h1], by rw [h2]; rfl, ?_, h4⟩
      intro x hx
      rcases List.mem_cons.1 hx with rfl | hx
      · omega
      · exact h3 x hx

def low (top : Nat) (rs : List (Nat × Nat)) : List Msg := rs.flatMap (fun r => if r.1 < top then [⟨r.2, .below top r.1⟩] else [])

theorem low_high {top : Nat} {g : List (Nat × Nat)} (h : ∀ r ∈ g, top < r.1) : low top g = [] := by
  rw [low, List.flatMap_eq_nil_iff]
  intro r hr
  rw [if_neg (by have := h r hr; omega)]

/-- Lines that are deeper than the open levels, and then others that do not depend on the levels opened by them. -/
theorem read_block (emi : Nat) : ∀ (n : Nat) (rs : List (Nat × Nat)) (st : List Nat) (more : List (Nat × Nat)) (ms' : List Msg), rs.length ≤ n → (∀ r ∈ rs, ∀ t ∈ st, t < r.1) →
    (∀ d, Reads emi (d ++ st) more ms') → ∃ ms, Reads emi st (rs ++ more) (ms ++ ms') ∧ (checkLines n (want emi st) rs).Perm ms
  | n, [], st, more, ms', _, _, h => ⟨[], by simpa using h [], by cases n <;> exact .refl _⟩
  | 0, _ :: _, _, _, _, hl, _, _ => by simp at hl
  | n + 1, (top, x) :: rest, st, more, ms', hl, hd, h => by
    have inner : ∀ (k : Nat) (rest : List (Nat × Nat)), rest.length ≤ k → rest.length ≤ n → (∀ r ∈ rest, ∀ t ∈ st, t < r.1) →
        ∃ ms, Reads emi (top :: st) (rest ++ more) (ms ++ ms') ∧ (low top rest ++ (groups top rest).flatMap (checkLines n (top + 2))).Perm ms := by
      intro k
      induction k with
      | zero =>
        intro rest hk _ _
        have : rest = [] := List.length_eq_zero_iff.1 (by omega)
        subst this
        exact ⟨[], by simpa using h [top], by cases n <;> exact .refl _⟩
      | succ k ih =>
        intro rest hk hn hd
        obtain ⟨g, gs, tl, h1, h2, h3, h4⟩ := groups_split top rest
        subst h2
        have hdg : ∀ r ∈ g, ∀ t ∈ top :: st, t < r.1 := by
          intro r hr t ht
          rcases List.mem_cons.1 ht with rfl | ht
          · exact h3 r hr
          · exact hd r (List.mem_append.2 (.inl hr)) t ht
        have hlen : g.length + tl.length ≤ n := by simpa using hn
        rcases h4 with ⟨rfl, rfl⟩ | ⟨r, tl', rfl, hr, rfl⟩
        · obtain ⟨ms, hm, hp⟩ := read_block emi n g (top :: st) more ms' (by omega) hdg (fun d => by simpa using h (d ++ [top]))
          refine ⟨ms, by simpa using hm, ?_⟩
          rw [h1, List.append_nil, low_high h3]
          simpa [want] using hp
        · obtain ⟨r1, r2⟩ := r
          simp only [List.length_append, List.length_cons] at hk hlen
          obtain ⟨ms2, hm2, hp2⟩ := ih tl' (by omega) (by omega) (fun r hr => hd r (by simp [hr]))
          have hdr := hd (r1, r2) (by simp)
          obtain ⟨ms1, hm1, hp1⟩ := read_block emi n g (top :: st) ((r1, r2) :: (tl' ++ more)) ((if r1 = top then [] else [⟨r2, .below top r1⟩]) ++ (ms2 ++ ms')) (by omega) hdg
            (fun d => .level (fun s hs => hdr s hs) hr hm2)
          refine ⟨ms1 ++ ((if r1 = top then [] else [⟨r2, .below top r1⟩]) ++ ms2), by simpa using hm1, ?_⟩
          have hlow : low top (g ++ (r1, r2) :: tl') = (if r1 = top then [] else [⟨r2, .below top r1⟩]) ++ low top tl' := by
            have e1 : low top (g ++ (r1, r2) :: tl') = low top g ++ low top ((r1, r2) :: tl') := List.flatMap_append ..
            have e2 : (if r1 < top then [(⟨r2, .below top r1⟩ : Msg)] else []) = if r1 = top then [] else [⟨r2, .below top r1⟩] := by
              dsimp only at hr
              by_cases hlt : r1 < top
              · rw [if_pos hlt, if_neg (by omega)]
              · rw [if_neg hlt, if_pos (by omega)]
            rw [e1, low_high h3, List.nil_append]
            show List.flatMap _ _ = _
            rw [List.flatMap_cons, e2]
            rfl
          rw [hlow, h1, List.flatMap_cons]
          have hp1' : (checkLines n (top + 2) g).Perm ms1 := hp1
          generalize hM : (if r1 = top then [] else [(⟨r2, .below top r1⟩ : Msg)]) = M
          generalize checkLines n (top + 2) g = A at hp1' ⊢
          generalize hG : (groups top tl').flatMap (checkLines n (top + 2)) = G at hp2 ⊢
          have : (M ++ low top tl' ++ (A ++ G)).Perm (A ++ (M ++ (low top tl' ++ G))) := by
            have e : (M ++ low top tl' ++ (A ++ G)) = (M ++ low top tl') ++ A ++ G := by simp
            rw [e]
            refine ((List.perm_append_comm (l₁ := M ++ low top tl') (l₂ := A)).append_right G).trans ?_
            simp
          exact this.trans (hp1'.append (hp2.append_left M))
    obtain ⟨ms, hm, hp⟩ := inner rest.length rest (Nat.le_refl _) (by simpa using hl) (fun r hr => hd r (List.mem_cons_of_mem _ hr))
    refine ⟨(if top = want emi st then [] else [⟨x, .indent (want emi st) top⟩]) ++ ms, ?_, ?_⟩
    · rw [List.append_assoc]
      exact .deeper (fun t ht => hd (top, x) (List.mem_cons_self ..) t ht) hm
    · rw [checkLines, List.append_assoc]
      exact hp.append_left _
termination_by n => n

theorem read_lines (emi : Nat) (rs : List (Nat × Nat)) : ∃ ms, Reads emi [] rs ms ∧ (checkLines rs.length emi rs).Perm ms := by
  obtain ⟨ms, h1, h2⟩ := read_block emi rs.length rs [] [] [] (Nat.le_refl _) (fun r _ t ht => (by cases ht)) (fun d => .done)
  exact ⟨ms, by simpa using h1, h2⟩

theorem split_unique {x t t' : Nat} {st st' : List Nat} : ∀ {d d' : List Nat}, d ++ t :: st = d' ++ t' :: st' → (∀ s ∈ st, s < x) → (∀ s ∈ st', s < x) → x ≤ t → x ≤ t' → t = t' ∧ st = st'
  | [], [], h, _, _, _, _ => by simpa using h
  | [], e :: d', h, h1, _, _, h4 => by
    simp only [List.nil_append, List.cons_append, List.cons.injEq] at h
    have := h1 t' (by rw [h.2]; simp)
    omega
  | e :: d, [], h, _, h2, h3, _ => by
    simp only [List.nil_append, List.cons_append, List.cons.injEq] at h
    have := h2 t (by rw [← h.2]; simp)
    omega
  | e :: d, e' :: d', h, h1, h2, h3, h4 => by
    simp only [List.cons_append, List.cons.injEq] at h
    exact split_unique h.2 h1 h2 h3 h4

theorem reads_unique {emi : Nat} {st : List Nat} {rs : List (Nat × Nat)} {ms ms' : List Msg} (h : Reads emi st rs ms) (h' : Reads emi st rs ms') : ms = ms' := by
  induction h generalizing ms' with
  | done => cases h'; rfl
  | @deeper st x p rs ms hd _ ih =>
    generalize hg : (x, p) :: rs = l at h'
    cases h' with
    | done => cases hg
    | deeper _ h2 => cases hg; rw [ih h2]
    | @level d t st' _ _ _ _ h1 h2 h3 =>
      cases hg
      have := hd t (by simp)
      omega
  | @level d t st x p rs ms h1 h2 _ ih =>
    generalize hg : (x, p) :: rs = l at h'
    generalize hst : d ++ t :: st = st' at h'
    cases h' with
    | done => cases hg
    | deeper g1 g2 =>
      cases hg; subst hst
      have := g1 t (by simp)
      omega
    | level g1 g2 g3 =>
      cases hg
      obtain ⟨rfl, rfl⟩ := split_unique hst h1 g1 h2 g2
      rw [ih g3]

theorem contentSays_iff (hw : WhiteOk white) (a : Nat) (k : Nat) (m : Msg) : m ∈ inlineMsgs white text a b k ↔ ContentSays white text a b k m := by
  obtain ⟨ms, h1, h2⟩ := read_lines k (rows white 0 a (slice text a b))
  rw [inlineMsgs, h2.mem_iff]
  constructor
  · intro h; exact ⟨_, ms, rows_spec hw a, h1, h⟩
  · rintro ⟨rs, ms', g1, g2, g3⟩
    obtain rfl := rows_unique g1 (rows_spec hw a)
    rwa [reads_unique h1 g2]

end Verif.Layout
