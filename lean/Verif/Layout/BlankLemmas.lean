import Verif.Layout.RowLemmas
/-! # Lemmas about blank lines, trailing white space and characters -/
namespace Verif.Layout
open Verif.HTML (Str)
open Verif.Validate (slice Suf slice_suf suf_tail suf_head suf_nil)

variable {text : Str}

theorem suf_eq {p : Nat} {s : Str} (h : Suf text text.length p s) : s = text.drop p := by
  apply List.ext_getElem?
  intro i
  rw [h i, List.getElem?_drop]
  split
  · rfl
  · rw [List.getElem?_eq_none (by omega)]

theorem suf_none {p : Nat} (h : Suf text text.length p []) {j : Nat} (hj : p ≤ j) : text[j]? = none := by
  by_cases hb : j < text.length
  · exact suf_nil h j hj hb
  · exact List.getElem?_eq_none (by omega)

theorem blank_unique {a q q' : Nat} (h : Blank text a q) (h' : Blank text a q') : q = q' := by
  have key : ∀ {q q' : Nat}, Blank text a q → Blank text a q' → ¬ q < q' := by
    intro q q' h h' hl
    have := h'.1.2 q h.1.1 hl
    rw [h.2] at this; cases this
  have := key h h'
  have := key h' h
  omega

theorem blankLine_some {p : Nat} {s : Str} {k : Nat} (hs : Suf text text.length p s) (h : blankLine s = some k) : 0 < k ∧ Blank text p (p + k - 1) := by
  unfold blankLine at h
  split at h
  · rename_i t hd
    cases h
    have h1 := lead_spaces hs
    have h2 := suf_drop hs (s.takeWhile (· = ' ')).length
    rw [hd] at h2
    exact ⟨by omega, by rw [show p + ((s.takeWhile (· = ' ')).length + 1) - 1 = p + (s.takeWhile (· = ' ')).length by omega]; exact ⟨h1, (suf_head h2).2⟩⟩
  · cases h

theorem blankLine_none {p : Nat} {s : Str} (hs : Suf text text.length p s) (h : blankLine s = none) : ¬ ∃ q, Blank text p q := by
  rintro ⟨q, h1, h2⟩
  have hlt : q < text.length := (List.getElem?_eq_some_iff.1 h2).1
  have hl := lead_spaces hs
  have hq : q = p + (s.takeWhile (· = ' ')).length := by
    refine Nat.le_antisymm (Nat.le_of_not_lt fun g => ?_) (Nat.le_of_not_lt fun g => ?_)
    · have h3 := h1.2 (p + (s.takeWhile (· = ' ')).length) (by omega) g
      have h4 := suf_at hs (by omega) (by omega) h3
      rw [show p + (s.takeWhile (· = ' ')).length - p = (s.takeWhile (· = ' ')).length by omega] at h4
      have h5 := drop_while_get h4
      simp at h5
    · have := hl.2 q h1.1 g
      rw [h2] at this; cases this
  have h3 := suf_at hs h1.1 hlt h2
  rw [show q - p = (s.takeWhile (· = ' ')).length by omega] at h3
  obtain ⟨hlt', hg⟩ := List.getElem?_eq_some_iff.1 h3
  unfold blankLine at h
  rw [List.drop_eq_getElem_cons hlt', hg] at h
  cases h

theorem blanks_head {n a q : Nat} (h : Blanks text n a q) : ∃ q', Blank text a q' := by
  cases h with
  | one h => exact ⟨_, h⟩
  | more h _ => exact ⟨_, h⟩

theorem blanks_le {n a q : Nat} (h : Blanks text n a q) : a ≤ q ∧ 0 < n := by
  induction h with
  | one h => exact ⟨h.1.1, by omega⟩
  | more h _ ih => have := h.1.1; omega

theorem blanks_unique {n n' a q q' : Nat} (h : Blanks text n a q) (h' : Blanks text n' a q') (hm : ¬ ∃ x, Blank text (q + 1) x) (hm' : ¬ ∃ x, Blank text (q' + 1) x) : n = n' ∧ q = q' := by
  induction h generalizing n' with
  | one h =>
    cases h' with
    | one h' => exact ⟨rfl, blank_unique h h'⟩
    | more h' h2 =>
      obtain rfl := blank_unique h h'
      exact absurd (blanks_head h2) hm
  | more h h2 ih =>
    cases h' with
    | one h' =>
      obtain rfl := blank_unique h h'
      exact absurd (blanks_head h2) hm'
    | more h' h2' =>
      obtain rfl := blank_unique h h'
      obtain ⟨rfl, rfl⟩ := ih h2' hm
      exact ⟨rfl, rfl⟩

theorem blanks_inside {n a q n' q' p : Nat} (h : Blanks text n a q) (h1 : a ≤ p) (h2 : p ≤ q) (hp : text[p]? = some '\n') (h' : Blanks text n' (p + 1) q')
    (hm : ¬ ∃ x, Blank text (q + 1) x) (hm' : ¬ ∃ x, Blank text (q' + 1) x) : q = q' := by
  induction h with
  | @one a0 q0 h =>
    by_cases hq : p = q0
    · subst hq; exact absurd (blanks_head h') hm
    · have := h.1.2 p h1 (by omega)
      rw [hp] at this; cases this
  | @more n a q1 q2 h g ih =>
    by_cases hlt : p < q1
    · have := h.1.2 p h1 hlt
      rw [hp] at this; cases this
    · by_cases he : p = q1
      · subst he
        exact (blanks_unique g h' hm hm').2
      · exact ih (by omega) h2 hm

theorem blankLines_spec : ∀ (n : Nat) (p : Nat) (s : Str), s.length ≤ n → Suf text text.length p s → ∀ l c, blankLines n s = (l, c) →
    (c = 0 ∧ l = 0 ∨ 0 < l ∧ Blanks text c p (p + l - 1)) ∧ ¬ ∃ q, Blank text (p + l) q
  | 0, p, s, hn, hs, l, c, h => by
    cases h
    refine ⟨.inl ⟨rfl, rfl⟩, ?_⟩
    have : s = [] := List.length_eq_zero_iff.1 (by omega)
    subst this
    exact blankLine_none hs rfl
  | n + 1, p, s, hn, hs, l, c, h => by
    rw [blankLines] at h
    cases hb : blankLine s with
    | none =>
      rw [hb] at h
      cases h
      exact ⟨.inl ⟨rfl, rfl⟩, blankLine_none hs hb⟩
    | some k =>
      rw [hb] at h
      obtain ⟨h1, h2⟩ := blankLine_some hs hb
      dsimp only at h
      cases hr : blankLines n (s.drop k) with
      | mk l' c' =>
        rw [hr] at h
        cases h
        have hdl : (s.drop k).length ≤ n := by rw [List.length_drop]; omega
        obtain ⟨i1, i2⟩ := blankLines_spec n (p + k) (s.drop k) hdl (suf_drop hs k) l' c' hr
        refine ⟨.inr ⟨by omega, ?_⟩, by rwa [show p + (k + l') = p + k + l' by omega]⟩
        rcases i1 with ⟨rfl, rfl⟩ | ⟨i0, i1⟩
        · exact .one h2
        · refine .more h2 ?_
          rw [show p + k - 1 + 1 = p + k by omega, show p + (k + l') - 1 = p + k + l' - 1 by omega]
          exact i1

/-- From `lo` on. -/
def Ext (text : Str) (lo q : Nat) : Prop := ∃ (p n : Nat), lo ≤ p ∧ text[p]? = some '\n' ∧ 2 ≤ n ∧ Blanks text n (p + 1) q ∧ ¬ ∃ q', Blank text (q + 1) q'

theorem mem_extra : ∀ (s : Str) (k p : Nat), Suf text text.length p s → ∀ q, q ∈ extraBlanks k p s ↔ Ext text (p + k) q
  | [], k, p, hs, q => by
    rw [extraBlanks]
    refine ⟨fun h => (by cases h), ?_⟩
    rintro ⟨p0, n, h1, h2, _⟩
    rw [suf_none hs (by omega)] at h2; cases h2
  | _ :: cs, k + 1, p, hs, q => by rw [extraBlanks, mem_extra cs k (p + 1) (suf_tail hs), show p + 1 + k = p + (k + 1) by omega]
  | c :: cs, 0, p, hs, q => by
    have hc := (suf_head hs).2
    have ht := suf_tail hs
    have hsplit : Ext text (p + 0) q ↔ (text[p]? = some '\n' ∧ ∃ n, 2 ≤ n ∧ Blanks text n (p + 1) q ∧ ¬ ∃ q', Blank text (q + 1) q') ∨ Ext text (p + 1) q := by
      constructor
      · rintro ⟨p0, n, h1, h2, h3, h4, h5⟩
        by_cases hp : p0 = p
        · subst hp; exact .inl ⟨h2, n, h3, h4, h5⟩
        · exact .inr ⟨p0, n, by omega, h2, h3, h4, h5⟩
      · rintro (⟨h2, n, h3, h4, h5⟩ | ⟨p0, n, h1, h2, h3, h4, h5⟩)
        · exact ⟨p, n, by omega, h2, h3, h4, h5⟩
        · exact ⟨p0, n, by omega, h2, h3, h4, h5⟩
    rw [extraBlanks, hsplit]
    by_cases he : c = '\n'
    · rw [if_pos he]
      have hp : text[p]? = some '\n' := by rw [hc, he]
      cases hr : blankLines cs.length cs with
      | mk l n =>
        dsimp only
        obtain ⟨i1, i2⟩ := blankLines_spec cs.length (p + 1) cs (Nat.le_refl _) ht l n hr
        by_cases h2 : 2 ≤ n
        · rw [if_pos h2, List.mem_cons, mem_extra cs l (p + 1) ht]
          rcases i1 with ⟨rfl, _⟩ | ⟨i0, i1⟩
          · omega
          rw [show p + 1 + l - 1 = p + l by omega] at i1
          rw [show p + 1 + l = p + l + 1 by omega] at i2
          constructor
          · rintro (rfl | ⟨p0, n', g1, g2, g3, g4, g5⟩)
            · exact .inl ⟨hp, n, h2, i1, i2⟩
            · exact .inr ⟨p0, n', by omega, g2, g3, g4, g5⟩
          · rintro (⟨_, n', g1, g2, g3⟩ | ⟨p0, n', g1, g2, g3, g4, g5⟩)
            · exact .inl (blanks_unique g2 i1 g3 i2).2
            · by_cases hp0 : p0 ≤ p + l
              · exact .inl (blanks_inside i1 g1 hp0 g2 g4 i2 g5).symm
              · exact .inr ⟨p0, n', by omega, g2, g3, g4, g5⟩
        · rw [if_neg h2, mem_extra cs 0 (p + 1) ht]
          refine ⟨.inr, fun h => h.elim (fun ⟨_, n', g1, g2, g3⟩ => ?_) id⟩
          rcases i1 with ⟨rfl, rfl⟩ | ⟨i0, i1⟩
          · exact absurd (blanks_head g2) i2
          · have := (blanks_unique g2 i1 g3 (by rwa [show p + 1 + l - 1 + 1 = p + 1 + l by omega])).1
            omega
    · rw [if_neg he, mem_extra cs 0 (p + 1) ht]
      refine ⟨.inr, fun h => h.elim (fun g => ?_) id⟩
      have g1 := g.1
      rw [hc] at g1
      exact absurd (Option.some_inj.1 g1) he

theorem sorted_extra : ∀ (s : Str) (k p : Nat), Suf text text.length p s → (extraBlanks k p s).Pairwise (· < ·)
  | [], k, p, hs => by rw [extraBlanks]; exact .nil
  | _ :: cs, k + 1, p, hs => by rw [extraBlanks]; exact sorted_extra cs k (p + 1) (suf_tail hs)
  | c :: cs, 0, p, hs => by
    have ht := suf_tail hs
    rw [extraBlanks]
    split
    · cases hr : blankLines cs.length cs with
      | mk l n =>
        dsimp only
        split
        · refine List.pairwise_cons.2 ⟨fun q hq => ?_, sorted_extra cs _ (p + 1) ht⟩
          obtain ⟨p0, n', g1, _, _, g4, _⟩ := (mem_extra cs l (p + 1) ht q).1 hq
          have := (blanks_le g4).1
          omega
        · exact sorted_extra cs _ (p + 1) ht
    · exact sorted_extra cs _ (p + 1) ht

/-! ### Before the end of a clause -/

theorem wordAt_iff {p : Nat} {s w : Str} (hs : Suf text text.length p s) (hw : w ≠ []) : w.isPrefixOf s = true ↔ WordAt text w p := by
  rw [List.isPrefixOf_iff_prefix, suf_eq hs]
  constructor
  · rintro ⟨t, ht⟩
    have hlen : p ≤ text.length := by
      refine Nat.le_of_not_lt fun h => ?_
      rw [List.drop_eq_nil_of_le (by omega)] at ht
      exact hw (List.append_eq_nil_iff.1 ht).1
    refine ⟨text.take p, t, ?_, by rw [List.length_take]; omega⟩
    rw [List.append_assoc, ht, List.take_append_drop]
  · rintro ⟨pre, post, rfl, rfl⟩
    exact ⟨post, by rw [List.append_assoc, List.drop_left]⟩

/-- A blank line at `x`, and an end tag. -/
def Bef (text : Str) (x : Nat) : Prop := ∃ q r, Blank text x q ∧ Spaces text (q + 1) r ∧ WordAt text "</emu-clause>".toList r

theorem wordAt_head {w : Str} {c : Char} {r : Nat} (h : WordAt text (c :: w) r) : text[r]? = some c := by
  obtain ⟨pre, post, rfl, rfl⟩ := h
  simp

theorem wordAt_get {w : Str} {r i : Nat} {c : Char} (h : WordAt text w r) (hi : w[i]? = some c) : text[r + i]? = some c := by
  obtain ⟨pre, post, rfl, rfl⟩ := h
  obtain ⟨hlt, _⟩ := List.getElem?_eq_some_iff.1 hi
  rw [List.append_assoc, List.getElem?_append_right (by omega), Nat.add_sub_cancel_left, List.getElem?_append_left hlt, hi]

theorem endClause_eq : endClause = '<' :: "/emu-clause>".toList := by decide

theorem spaces_word {a r r' : Nat} (h : Spaces text a r) (h' : Spaces text a r') (hw : WordAt text endClause r) (hw' : WordAt text endClause r') : r = r' := by
  rw [endClause_eq] at hw hw'
  have a1 := wordAt_head hw
  have a2 := wordAt_head hw'
  refine Nat.le_antisymm (Nat.le_of_not_lt fun g => ?_) (Nat.le_of_not_lt fun g => ?_)
  · rw [h.2 r' h'.1 g] at a2; cases a2
  · rw [h'.2 r h.1 g] at a1; cases a1

theorem blankEnd_some {p : Nat} {s : Str} {l : Nat} (hs : Suf text text.length p s) (h : blankEnd s = some l) :
    ∃ q r, Blank text p q ∧ Spaces text (q + 1) r ∧ WordAt text endClause r ∧ p + l = r + endClause.length := by
  rw [blankEnd] at h
  cases hb : blankLine s with
  | none => rw [hb] at h; cases h
  | some k =>
    rw [hb] at h
    obtain ⟨h1, h2⟩ := blankLine_some hs hb
    dsimp only at h
    split at h
    · rename_i hp
      cases h
      have h3 := suf_drop hs k
      have h4 := lead_spaces h3
      have h5 := suf_drop h3 ((s.drop k).takeWhile (· = ' ')).length
      rw [wordAt_iff h5 (by decide)] at hp
      exact ⟨p + k - 1, p + k + ((s.drop k).takeWhile (· = ' ')).length, h2, by rw [show p + k - 1 + 1 = p + k by omega]; exact h4, hp, by omega⟩
    · cases h

theorem blankEnd_none {p : Nat} {s : Str} (hs : Suf text text.length p s) (h : blankEnd s = none) : ¬ Bef text p := by
  rintro ⟨q, r, h1, h2, h3⟩
  rw [blankEnd] at h
  cases hb : blankLine s with
  | none => exact blankLine_none hs hb ⟨q, h1⟩
  | some k =>
    rw [hb] at h
    obtain ⟨g1, g2⟩ := blankLine_some hs hb
    have hq := blank_unique h1 g2
    dsimp only at h
    have h4 := suf_drop hs k
    have h5 := lead_spaces h4
    have h6 := suf_drop h4 ((s.drop k).takeWhile (· = ' ')).length
    split at h
    · cases h
    · rename_i hp
      rw [wordAt_iff h6 (by decide)] at hp
      have hr : r = p + k + ((s.drop k).takeWhile (· = ' ')).length := by
        rw [show q + 1 = p + k by omega] at h2
        have hhead : text[r]? = some '<' := by rw [show "</emu-clause>".toList = '<' :: "/emu-clause>".toList by decide] at h3; exact wordAt_head h3
        refine Nat.le_antisymm (Nat.le_of_not_lt fun g => ?_) (Nat.le_of_not_lt fun g => ?_)
        · have h7 := h2.2 _ (by omega) g
          have hlt : r < text.length := (List.getElem?_eq_some_iff.1 hhead).1
          have h8 := suf_at h4 (by omega) (by omega) h7
          rw [Nat.add_sub_cancel_left] at h8
          have h9 := drop_while_get h8
          simp at h9
        · have := h5.2 r h2.1 g
          rw [hhead] at this; cases this
      exact hp (hr ▸ h3)

theorem mem_ends : ∀ (s : Str) (k p : Nat), Suf text text.length p s → ∀ x, x ∈ endBlanks k p s ↔ ∃ p0, p + k ≤ p0 ∧ x = p0 + 1 ∧ text[p0]? = some '\n' ∧ Bef text x
  | [], k, p, hs, x => by
    rw [endBlanks]
    refine ⟨fun h => (by cases h), ?_⟩
    rintro ⟨p0, h1, _, h2, _⟩
    rw [suf_none hs (by omega)] at h2; cases h2
  | _ :: cs, k + 1, p, hs, x => by rw [endBlanks, mem_ends cs k (p + 1) (suf_tail hs), show p + 1 + k = p + (k + 1) by omega]
  | c :: cs, 0, p, hs, x => by
    have hc := (suf_head hs).2
    have ht := suf_tail hs
    have hsplit : (∃ p0, p + 0 ≤ p0 ∧ x = p0 + 1 ∧ text[p0]? = some '\n' ∧ Bef text x) ↔ (text[p]? = some '\n' ∧ x = p + 1 ∧ Bef text x) ∨
        ∃ p0, p + 1 ≤ p0 ∧ x = p0 + 1 ∧ text[p0]? = some '\n' ∧ Bef text x := by
      constructor
      · rintro ⟨p0, h1, h2, h3, h4⟩
        by_cases hp : p0 = p
        · subst hp; exact .inl ⟨h3, h2, h4⟩
        · exact .inr ⟨p0, by omega, h2, h3, h4⟩
      · rintro (⟨h3, h2, h4⟩ | ⟨p0, h1, h2, h3, h4⟩)
        · exact ⟨p, by omega, h2, h3, h4⟩
        · exact ⟨p0, by omega, h2, h3, h4⟩
    rw [endBlanks, hsplit]
    by_cases he : c = '\n'
    · rw [if_pos he]
      have hp : text[p]? = some '\n' := by rw [hc, he]
      cases hb : blankEnd cs with
      | some l =>
        dsimp only
        obtain ⟨q, r, h1, h2, h3, h4⟩ := blankEnd_some ht hb
        rw [List.mem_cons, mem_ends cs l (p + 1) ht]
        constructor
        · rintro (rfl | ⟨p0, g1, g2, g3, g4⟩)
          · exact .inl ⟨hp, rfl, q, r, h1, h2, h3⟩
          · exact .inr ⟨p0, by omega, g2, g3, g4⟩
        · rintro (⟨_, g, _⟩ | ⟨p0, g1, g2, g3, g4⟩)
          · exact .inl g
          · refine .inr ⟨p0, Nat.le_of_not_lt fun hlt => ?_, g2, g3, g4⟩
            by_cases c1 : p0 < q
            · rw [h1.1.2 p0 g1 c1] at g3; cases g3
            · by_cases c2 : p0 = q
              · subst c2 g2
                obtain ⟨q', r', k1, k2, k3⟩ := g4
                have k4 := k1.1.1
                have hq' : q' = r := by
                  refine Nat.le_antisymm (Nat.le_of_not_lt fun g => ?_) (Nat.le_of_not_lt fun g => ?_)
                  · have := k1.1.2 r h2.1 g
                    rw [endClause_eq] at h3
                    rw [wordAt_head h3] at this; cases this
                  · have := h2.2 q' k4 g
                    rw [k1.2] at this; cases this
                have := k1.2
                rw [endClause_eq] at h3
                rw [hq', wordAt_head h3] at this; cases this
              · by_cases c3 : p0 < r
                · rw [h2.2 p0 (by omega) c3] at g3; cases g3
                · have hlt' : p0 - r < endClause.length := by omega
                  have h5 := wordAt_get h3 (i := p0 - r) (c := endClause[p0 - r]) (List.getElem?_eq_getElem hlt')
                  rw [show r + (p0 - r) = p0 by omega, g3] at h5
                  have hno : '\n' ∉ endClause := by decide
                  exact hno (by rw [Option.some_inj.1 h5]; exact List.getElem_mem _)
      | none =>
        dsimp only
        rw [mem_ends cs 0 (p + 1) ht]
        refine ⟨.inr, fun h => h.elim (fun ⟨_, g1, g2⟩ => ?_) id⟩
        subst g1
        exact absurd g2 (blankEnd_none ht hb)
    · rw [if_neg he, mem_ends cs 0 (p + 1) ht]
      refine ⟨.inr, fun h => h.elim (fun g => ?_) id⟩
      have g1 := g.1
      rw [hc] at g1
      exact absurd (Option.some_inj.1 g1) he

theorem sorted_ends : ∀ (s : Str) (k p : Nat), Suf text text.length p s → (endBlanks k p s).Pairwise (· < ·)
  | [], k, p, hs => by rw [endBlanks]; exact .nil
  | _ :: cs, k + 1, p, hs => by rw [endBlanks]; exact sorted_ends cs k (p + 1) (suf_tail hs)
  | c :: cs, 0, p, hs => by
    have ht := suf_tail hs
    rw [endBlanks]
    split
    · cases hr : blankEnd cs with
      | some l =>
        dsimp only
        refine List.pairwise_cons.2 ⟨fun q hq => ?_, sorted_ends cs _ (p + 1) ht⟩
        obtain ⟨p0, g1, g2, _⟩ := (mem_ends cs l (p + 1) ht q).1 hq
        omega
      | none => exact sorted_ends cs _ (p + 1) ht
    · exact sorted_ends cs _ (p + 1) ht

/-! ### Trailing white space -/

def Bl (text : Str) (i : Nat) : Prop := text[i]? = some ' ' ∨ text[i]? = some '\t'

def Eol (text : Str) (p : Nat) : Prop := ∃ q, p < q ∧ (∀ (i : Nat), p ≤ i → i < q → Bl text i) ∧ (text[q]? = none ∨ text[q]? = some '\n')

theorem isBlank_iff {c : Char} : isBlank c = true ↔ c = ' ' ∨ c = '\t' := by simp [isBlank]

theorem bl_iff {i : Nat} {c : Char} (h : text[i]? = some c) : Bl text i ↔ isBlank c = true := by
  rw [isBlank_iff, Bl, h, Option.some_inj, Option.some_inj]

theorem eol_bl {p : Nat} (h : Eol text p) : Bl text p := by
  obtain ⟨q, h1, h2, _⟩ := h
  exact h2 p (Nat.le_refl _) h1

theorem eol_unique {p q q' : Nat} (h1 : p < q) (h2 : ∀ (i : Nat), p ≤ i → i < q → Bl text i) (h3 : ¬ Bl text q) (g1 : p < q') (g2 : ∀ (i : Nat), p ≤ i → i < q' → Bl text i) (g3 : ¬ Bl text q') : q = q' := by
  refine Nat.le_antisymm (Nat.le_of_not_lt fun g => ?_) (Nat.le_of_not_lt fun g => ?_)
  · exact g3 (h2 q' (by omega) g)
  · exact h3 (g2 q (by omega) g)

theorem eol_end {q : Nat} (h : text[q]? = none ∨ text[q]? = some '\n') : ¬ Bl text q := by
  rintro (g | g)
  · rcases h with h | h
    · rw [g] at h; cases h
    · rw [g] at h; cases h
  · rcases h with h | h
    · rw [g] at h; cases h
    · rw [g] at h; cases h

theorem mem_trailing : ∀ (s : Str) (k p : Nat), Suf text text.length p s → ∀ x, x ∈ trailing k p s ↔ p + k ≤ x ∧ Eol text x ∧ (x = p + k ∨ ¬ Bl text (x - 1))
  | [], k, p, hs, x => by
    rw [trailing]
    refine ⟨fun h => (by cases h), ?_⟩
    rintro ⟨h1, h2, _⟩
    have := eol_bl h2
    rw [Bl, suf_none hs (by omega)] at this
    rcases this with h | h <;> cases h
  | _ :: cs, k + 1, p, hs, x => by rw [trailing, mem_trailing cs k (p + 1) (suf_tail hs), show p + 1 + k = p + (k + 1) by omega]
  | c :: cs, 0, p, hs, x => by
    have hc := (suf_head hs).2
    have ht := suf_tail hs
    rw [trailing]
    by_cases hb : isBlank c = true
    · rw [if_pos hb]
      have hbp : Bl text p := (bl_iff hc).2 hb
      have hrun : ∀ (i : Nat), p ≤ i → i < p + 1 + (cs.takeWhile isBlank).length → Bl text i := by
        intro i h1 h2
        by_cases hi : i = p
        · exact hi ▸ hbp
        · obtain ⟨d, hd, hd'⟩ := take_while_get (P := isBlank) cs (i - (p + 1)) (by omega)
          have := (suf_get ht hd).2
          rw [show p + 1 + (i - (p + 1)) = i by omega] at this
          exact (bl_iff this).2 hd'
      have hdrop := suf_drop ht (cs.takeWhile isBlank).length
      have hstop : ¬ Bl text (p + 1 + (cs.takeWhile isBlank).length) := by
        cases hd : cs.drop (cs.takeWhile isBlank).length with
        | nil =>
          rw [hd] at hdrop
          rw [Bl, suf_none hdrop (Nat.le_refl _)]
          rintro (h | h) <;> cases h
        | cons d r =>
          rw [hd] at hdrop
          rw [bl_iff (suf_head hdrop).2, drop_while_head cs d r hd]
          exact fun h => by cases h
      have hit : (text[p + 1 + (cs.takeWhile isBlank).length]? = none ∨ text[p + 1 + (cs.takeWhile isBlank).length]? = some '\n') →
          (x ∈ p :: trailing (cs.takeWhile isBlank).length (p + 1) cs ↔ p + 0 ≤ x ∧ Eol text x ∧ (x = p + 0 ∨ ¬ Bl text (x - 1))) := by
        intro he
        rw [List.mem_cons, mem_trailing cs _ (p + 1) ht]
        constructor
        · rintro (rfl | ⟨h1, h2, h3⟩)
          · exact ⟨by omega, ⟨_, by omega, hrun, he⟩, .inl rfl⟩
          · refine ⟨by omega, h2, .inr ?_⟩
            rcases h3 with rfl | h3
            · exact absurd (eol_bl h2) hstop
            · exact h3
        · rintro ⟨h1, h2, h3⟩
          rcases h3 with rfl | h3
          · exact .inl rfl
          · by_cases hx : x ≤ p
            · exact .inl (by omega)
            · refine .inr ⟨Nat.le_of_not_lt fun g => h3 (hrun (x - 1) (by omega) (by omega)), h2, .inr h3⟩
      have miss : ¬ Eol text p → (x ∈ trailing 0 (p + 1) cs ↔ p + 0 ≤ x ∧ Eol text x ∧ (x = p + 0 ∨ ¬ Bl text (x - 1))) := by
        intro he
        rw [mem_trailing cs 0 (p + 1) ht]
        have hn : ¬ Eol text (p + 1) := by
          rintro ⟨q, h1, h2, h3⟩
          refine he ⟨q, by omega, fun i g1 g2 => ?_, h3⟩
          by_cases hi : i = p
          · exact hi ▸ hbp
          · exact h2 i (by omega) g2
        constructor
        · rintro ⟨h1, h2, h3⟩
          refine ⟨by omega, h2, .inr ?_⟩
          rcases h3 with rfl | h3
          · exact absurd h2 hn
          · exact h3
        · rintro ⟨h1, h2, h3⟩
          rcases h3 with rfl | h3
          · exact absurd h2 he
          · by_cases hx : x = p
            · subst hx; exact absurd h2 he
            · exact ⟨by omega, h2, .inr h3⟩
      dsimp only
      cases hd : cs.drop (cs.takeWhile isBlank).length with
      | nil =>
        rw [hd] at hdrop
        exact hit (.inl (suf_none hdrop (Nat.le_refl _)))
      | cons d r =>
        rw [hd] at hdrop
        dsimp only
        by_cases hn : d = '\n'
        · rw [if_pos hn]
          exact hit (.inr (by rw [(suf_head hdrop).2, hn]))
        · rw [if_neg hn]
          refine miss fun ⟨q, g1, g2, g3⟩ => ?_
          have := eol_unique g1 g2 (eol_end g3) (by omega) hrun hstop
          subst this
          rcases g3 with g3 | g3
          · rw [(suf_head hdrop).2] at g3; cases g3
          · rw [(suf_head hdrop).2] at g3; exact hn (Option.some_inj.1 g3)
    · rw [if_neg hb, mem_trailing cs 0 (p + 1) ht]
      have hbp : ¬ Bl text p := fun h => hb ((bl_iff hc).1 h)
      constructor
      · rintro ⟨h1, h2, h3⟩
        refine ⟨by omega, h2, .inr ?_⟩
        rcases h3 with rfl | h3
        · simpa using hbp
        · exact h3
      · rintro ⟨h1, h2, h3⟩
        have hx : x ≠ p := fun h => hbp (h ▸ eol_bl h2)
        refine ⟨by omega, h2, ?_⟩
        rcases h3 with h3 | h3
        · omega
        · exact .inr h3

theorem sorted_trailing : ∀ (s : Str) (k p : Nat), Suf text text.length p s → (trailing k p s).Pairwise (· < ·)
  | [], k, p, hs => by rw [trailing]; exact .nil
  | _ :: cs, k + 1, p, hs => by rw [trailing]; exact sorted_trailing cs k (p + 1) (suf_tail hs)
  | c :: cs, 0, p, hs => by
    have ht := suf_tail hs
    have hcons : (p :: trailing (cs.takeWhile isBlank).length (p + 1) cs).Pairwise (· < ·) := by
      refine List.pairwise_cons.2 ⟨fun x hx => ?_, sorted_trailing cs _ (p + 1) ht⟩
      have := ((mem_trailing cs _ (p + 1) ht x).1 hx).1
      omega
    rw [trailing]
    split
    · dsimp only
      split
      · exact hcons
      · split
        · exact hcons
        · exact sorted_trailing cs _ (p + 1) ht
    · exact sorted_trailing cs _ (p + 1) ht

/-! ### Characters -/

theorem usual_iff (c : Char) : usual c = true ↔ Usual c := by
  have hmem : c ∈ "«»×π—“”…ℝℤ→∞≠≤≥𝔽".toList ↔
      c.toNat ∈ [0xab, 0xbb, 0xd7, 0x3c0, 0x2014, 0x201c, 0x201d, 0x2026, 0x211d, 0x2124, 0x2192, 0x221e, 0x2260, 0x2264, 0x2265, 0x1d53d] := by
    have e : "«»×π—“”…ℝℤ→∞≠≤≥𝔽".toList.map Char.toNat = [0xab, 0xbb, 0xd7, 0x3c0, 0x2014, 0x201c, 0x201d, 0x2026, 0x211d, 0x2124, 0x2192, 0x221e, 0x2260, 0x2264, 0x2265, 0x1d53d] := by decide
    rw [← e, List.mem_map]
    refine ⟨fun h => ⟨c, h, rfl⟩, ?_⟩
    rintro ⟨d, hd, hcd⟩
    have : d = c := Char.ext (UInt32.toNat_inj.1 hcd)
    exact this ▸ hd
  have e1 : ' '.toNat = 0x20 := rfl
  have e2 : '~'.toNat = 0x7e := rfl
  rw [Usual, hmem, usual, Bool.or_eq_true, Bool.or_eq_true, Bool.and_eq_true, e1, e2]
  simp only [decide_eq_true_eq, or_assoc]

theorem mem_unusual : ∀ (s : Str) (p : Nat), Suf text text.length p s → ∀ x n, (x, n) ∈ unusual p s ↔ p ≤ x ∧ ∃ c, text[x]? = some c ∧ n = c.toNat ∧ ¬ Usual c
  | [], p, hs, x, n => by
    rw [unusual]
    refine ⟨fun h => (by cases h), ?_⟩
    rintro ⟨h1, c, h2, _⟩
    rw [suf_none hs h1] at h2; cases h2
  | c :: cs, p, hs, x, n => by
    have hc := (suf_head hs).2
    have ht := suf_tail hs
    rw [unusual]
    by_cases hu : usual c = true
    · rw [if_pos hu, mem_unusual cs (p + 1) ht]
      refine ⟨fun h => ⟨by omega, h.2⟩, ?_⟩
      rintro ⟨h1, d, h2, h3, h4⟩
      refine ⟨?_, d, h2, h3, h4⟩
      by_cases hx : x = p
      · subst hx
        rw [hc] at h2
        exact absurd ((usual_iff c).1 hu) (Option.some_inj.1 h2 ▸ h4)
      · omega
    · rw [if_neg hu, List.mem_cons, mem_unusual cs (p + 1) ht]
      constructor
      · rintro (h | h)
        · cases h
          exact ⟨Nat.le_refl _, c, hc, rfl, fun g => hu ((usual_iff c).2 g)⟩
        · exact ⟨by omega, h.2⟩
      · rintro ⟨h1, d, h2, h3, h4⟩
        by_cases hx : x = p
        · subst hx
          rw [hc] at h2
          rw [h3, Option.some_inj.1 h2]
          exact .inl rfl
        · exact .inr ⟨by omega, d, h2, h3, h4⟩

theorem sorted_unusual : ∀ (s : Str) (p : Nat), Suf text text.length p s → (unusual p s).Pairwise (fun a b => a.1 < b.1)
  | [], p, hs => by rw [unusual]; exact .nil
  | c :: cs, p, hs => by
    have ht := suf_tail hs
    rw [unusual]
    split
    · exact sorted_unusual cs (p + 1) ht
    · refine List.pairwise_cons.2 ⟨fun x hx => ?_, sorted_unusual cs (p + 1) ht⟩
      obtain ⟨x, n⟩ := x
      have := ((mem_unusual cs (p + 1) ht x n).1 hx).1
      simp only
      omega

end Verif.Layout
