import Verif.StepRefs.Spec
import Verif.StepRefs.TextLemmas
/-! Lemmas on lines. -/
namespace Verif.StepRefs
open Verif.HTML (Str Attrs Node)
open Verif.Validate (nStart nStop nName nKids slice)
open Verif.Tables (strip)

variable (cfg : Cfg)

theorem strip_iff (space : Char → Bool) (s t : Str) : strip space s = t ↔
    ∃ l r, s = l ++ t ++ r ∧ (∀ c ∈ l, space c = true) ∧ (∀ c ∈ r, space c = true) ∧
      (∀ c, t.head? = some c → space c = false) ∧ (∀ c, t.getLast? = some c → space c = false) := by
  have h := Verif.Tables.strip_iff (cfg := ⟨[], space, fun _ => none⟩) s t
  rw [h]
  unfold Verif.Tables.Stripped
  have e1 : (∀ c r, t = c :: r → space c = false) ↔ ∀ c, t.head? = some c → space c = false := by
    constructor
    · intro h c hc
      cases t with
      | nil => simp at hc
      | cons d t => simp at hc; exact h c t (by rw [hc])
    · rintro h c r rfl; exact h c rfl
  have e2 : (∀ c r, t = r ++ [c] → space c = false) ↔ ∀ c, t.getLast? = some c → space c = false := by
    constructor
    · intro h c hc
      obtain ⟨r, hr⟩ := List.getLast?_eq_some_iff.1 hc
      exact h c r hr
    · rintro h c r rfl; exact h c (by simp)
  simp only [e1, e2]

theorem takeWhile_nl (a b : Str) (h : '\n' ∉ a) : (a ++ '\n' :: b).takeWhile (· ≠ '\n') = a := by
  induction a with
  | nil => simp
  | cons c a ih =>
    simp only [List.mem_cons, not_or] at h
    have hc : (decide (c ≠ '\n')) = true := decide_eq_true (fun e => h.1 e.symm)
    rw [List.cons_append, List.takeWhile_cons, hc]
    simp only [if_true]
    rw [ih h.2]

theorem split_nl (s : Str) (h : '\n' ∈ s) : ∃ a b, s = a ++ '\n' :: b ∧ '\n' ∉ a := by
  induction s with
  | nil => exact absurd h (by simp)
  | cons c s ih =>
    by_cases hc : c = '\n'
    · exact ⟨[], s, by rw [hc]; rfl, by simp⟩
    · obtain ⟨a, b, h1, h2⟩ := ih ((List.mem_cons.1 h).resolve_left (fun e => hc e.symm))
      refine ⟨c :: a, b, by rw [h1]; rfl, ?_⟩
      simp only [List.mem_cons, not_or]
      exact ⟨fun e => hc e.symm, h2⟩

theorem lineAt_iff (st : Nat) (line : Str) : lineAt cfg st = some line ↔ LineAt cfg st line := by
  unfold lineAt LineAt
  constructor
  · intro h
    simp only at h
    by_cases hc : '\n' ∈ (cfg.text.take st).reverse ∧ '\n' ∈ cfg.text.drop st
    · rw [if_pos hc] at h
      injection h with h
      obtain ⟨a, b, h1, h2⟩ := split_nl _ hc.1
      obtain ⟨c, d, h3, h4⟩ := split_nl _ hc.2
      rw [h1, h3, takeWhile_nl a b h2, takeWhile_nl c d h4, strip_iff] at h
      obtain ⟨l, r, g1, g2⟩ := h
      have ht : cfg.text.take st = b.reverse ++ '\n' :: a.reverse := by
        have := congrArg List.reverse h1
        simpa using this
      have hst : st ≤ cfg.text.length := by
        rcases Nat.lt_or_ge cfg.text.length st with h | h
        · rw [List.drop_of_length_le (by omega)] at h3
          exact absurd h3 (by simp)
        · exact h
      refine ⟨b.reverse, a.reverse, c, d, l, r, ?_, ?_, by simpa using h2, h4, g1, g2⟩
      · conv => lhs; rw [← List.take_append_drop st cfg.text, ht, h3]
        simp
      · have := congrArg List.length ht
        simp at this
        simp
        omega
    · rw [if_neg hc] at h; exact absurd h (by simp)
  · rintro ⟨pre, a, b, post, l, r, h1, h2, h3, h4, h5, h6⟩
    have e : cfg.text = (pre ++ '\n' :: a) ++ (b ++ '\n' :: post) := by rw [h1]; simp
    have ht : cfg.text.take st = pre ++ '\n' :: a := by rw [e, List.take_left' (by simp; omega)]
    have hd : cfg.text.drop st = b ++ '\n' :: post := by rw [e, List.drop_left' (by simp; omega)]
    have hr : (cfg.text.take st).reverse = a.reverse ++ '\n' :: pre.reverse := by rw [ht]; simp
    simp only [hr, hd]
    rw [if_pos ⟨by simp, by simp⟩, takeWhile_nl _ _ (by simpa using h3), takeWhile_nl _ _ h4, List.reverse_reverse]
    rw [(strip_iff cfg.space (a ++ b) line).2 ⟨l, r, h5, h6⟩]

/-! ### The line of a step -/

theorem occursIn_iff (pat : Str) : ∀ s, occursIn pat s = true ↔ ∃ u v, s = u ++ pat ++ v
  | [] => by
    simp only [occursIn, List.isEmpty_iff]
    constructor
    · rintro rfl; exact ⟨[], [], rfl⟩
    · rintro ⟨u, v, h⟩
      cases pat with
      | nil => rfl
      | cons c p => simp at h
  | c :: s => by
    simp only [occursIn, Bool.or_eq_true, List.isPrefixOf_iff_prefix, occursIn_iff pat s]
    constructor
    · rintro (⟨v, h⟩ | ⟨u, v, h⟩)
      · exact ⟨[], v, h.symm⟩
      · exact ⟨c :: u, v, by rw [h]; simp⟩
    · rintro ⟨u, v, h⟩
      cases u with
      | nil => exact Or.inl ⟨v, h.symm⟩
      | cons d u =>
        simp only [List.cons_append, List.cons.injEq] at h
        exact Or.inr ⟨u, v, h.2⟩

theorem linesOf_ne (s : Str) : linesOf s ≠ [] := by
  induction s with
  | nil => simp [linesOf]
  | cons c s ih =>
    unfold linesOf
    split
    · simp
    · cases h : linesOf s with
      | nil => exact absurd h ih
      | cons l ls => simp

theorem linesOf_line (a : Str) (h : '\n' ∉ a) : linesOf a = [a] := by
  induction a with
  | nil => rfl
  | cons c a ih =>
    simp only [List.mem_cons, not_or] at h
    unfold linesOf
    rw [if_neg (fun e => h.1 e.symm), ih h.2]

theorem linesOf_append (a b : Str) (h : '\n' ∉ a) : linesOf (a ++ '\n' :: b) = a :: linesOf b := by
  induction a with
  | nil => simp [linesOf]
  | cons c a ih =>
    simp only [List.mem_cons, not_or] at h
    rw [List.cons_append]
    conv => lhs; unfold linesOf
    rw [if_neg (fun e => h.1 e.symm), ih h.2]

/-- An occurrence of a text without newlines is on one side of a newline. -/
theorem occurs_split {pat a b : Str} (hp : '\n' ∉ pat) (h : ∃ u v, a ++ '\n' :: b = u ++ pat ++ v) :
    (∃ u v, a = u ++ pat ++ v) ∨ (pat ≠ [] ∧ ∃ u v, b = u ++ pat ++ v) ∨ pat = [] := by
  by_cases hpe : pat = []
  · exact Or.inr (Or.inr hpe)
  obtain ⟨u, v, h⟩ := h
  rw [List.append_assoc] at h
  rcases List.append_eq_append_iff.1 h with ⟨w, h1, h2⟩ | ⟨w, h1, h2⟩
  · cases w with
    | nil =>
      simp only [List.nil_append] at h2
      cases pat with
      | nil => exact absurd rfl hpe
      | cons c p =>
        simp only [List.cons_append, List.cons.injEq] at h2
        exact absurd (by rw [← h2.1]; exact List.mem_cons_self) hp
    | cons c w =>
      simp only [List.cons_append, List.cons.injEq] at h2
      exact Or.inr (Or.inl ⟨hpe, w, v, by rw [h2.2]; simp⟩)
  · rcases List.append_eq_append_iff.1 h2 with ⟨x, h3, h4⟩ | ⟨x, h3, h4⟩
    · left
      exact ⟨u, x, by rw [h1, h3]; simp⟩
    · cases x with
      | nil => left; exact ⟨u, [], by rw [h1]; simp at h3; rw [h3]; simp⟩
      | cons c x =>
        simp only [List.cons_append, List.cons.injEq] at h4
        exact absurd (by rw [h3, ← h4.1]; simp) hp

theorem refdLine_find (pat : Str) (hp : '\n' ∉ pat) (hne : pat ≠ []) : ∀ (n : Nat) (src : Str), src.length < n → ∀ l,
    (linesOf src).find? (occursIn pat) = some l ↔
      ∃ pre post, src = pre ++ (l ++ post) ∧ '\n' ∉ l ∧ (pre = [] ∨ pre.getLast? = some '\n') ∧ (post = [] ∨ post.head? = some '\n') ∧
        (∃ u v, l = u ++ pat ++ v) ∧ ¬ ∃ u v, pre = u ++ pat ++ v
  | 0, src, h, l => absurd h (by omega)
  | n + 1, src, h, l => by
    by_cases hs : '\n' ∈ src
    · obtain ⟨a, b, rfl, ha⟩ := split_nl src hs
      rw [linesOf_append a b ha, List.find?_cons]
      have ih := refdLine_find pat hp hne n b (by simp at h; omega)
      cases ho : occursIn pat a with
      | true =>
        simp only [Option.some.injEq]
        have hoa := (occursIn_iff pat a).1 ho
        constructor
        · rintro rfl
          refine ⟨[], '\n' :: b, by simp, ha, Or.inl rfl, Or.inr rfl, hoa, ?_⟩
          rintro ⟨u, v, e⟩
          cases pat with
          | nil => exact hne rfl
          | cons c p => simp at e
        · rintro ⟨pre, post, h1, h2, h3, h4, h5, h6⟩
          rcases h3 with rfl | h3
          · simp only [List.nil_append] at h1
            rcases h4 with rfl | h4
            · exact absurd (by rw [← (show a ++ '\n' :: b = l by simpa using h1)]; simp) h2
            · cases post with
              | nil => simp at h4
              | cons c post =>
                simp at h4
                subst h4
                have := congrArg (List.takeWhile (· ≠ '\n')) h1
                rwa [takeWhile_nl a b ha, takeWhile_nl l post h2] at this
          · exfalso
            apply h6
            obtain ⟨pre', hpre⟩ := List.getLast?_eq_some_iff.1 h3
            obtain ⟨u, v, hu⟩ := hoa
            have hpe : ∃ w, pre = a ++ w := by
              rw [hpre, List.append_assoc] at h1
              rcases List.append_eq_append_iff.1 h1 with ⟨w, g1, g2⟩ | ⟨w, g1, g2⟩
              · exact ⟨w ++ ['\n'], by rw [hpre, g1]; simp⟩
              · cases w with
                | nil => exact ⟨['\n'], by rw [hpre, g1]; simp⟩
                | cons c w =>
                  simp only [List.cons_append, List.nil_append, List.cons.injEq] at g2
                  exact absurd (by rw [g1, ← g2.1]; simp) ha
            obtain ⟨w, hw⟩ := hpe
            exact ⟨u, v ++ w, by rw [hw, hu]; simp⟩
      | false =>
        have hna : ¬ ∃ u v, a = u ++ pat ++ v := by
          intro hh
          rw [(occursIn_iff pat a).2 hh] at ho
          exact absurd ho (by decide)
        rw [ih l]
        constructor
        · rintro ⟨pre, post, h1, h2, h3, h4, h5, h6⟩
          refine ⟨a ++ '\n' :: pre, post, by rw [h1]; simp, h2, Or.inr ?_, h4, h5, ?_⟩
          · rcases h3 with rfl | h3
            · simp
            · cases pre with
              | nil => simp at h3
              | cons c pre =>
                rw [List.getLast?_append]
                have : ('\n' :: c :: pre).getLast? = some '\n' := by rw [List.getLast?_cons_cons]; exact h3
                rw [this]; rfl
          · intro hh
            rcases occurs_split hp hh with g | g | g
            · exact hna g
            · exact h6 g.2
            · exact hne g
        · rintro ⟨pre, post, h1, h2, h3, h4, h5, h6⟩
          rcases h3 with rfl | h3
          · exfalso
            simp only [List.nil_append] at h1
            have hla : l = a := by
              rcases h4 with rfl | h4
              · exact absurd (by rw [← (show a ++ '\n' :: b = l by simpa using h1)]; simp) h2
              · cases post with
                | nil => simp at h4
                | cons c post =>
                  simp at h4
                  subst h4
                  have := congrArg (List.takeWhile (· ≠ '\n')) h1
                  rw [takeWhile_nl a b ha, takeWhile_nl l post h2] at this
                  exact this.symm
            rw [hla] at h5
            exact hna h5
          · obtain ⟨pre', hpre⟩ := List.getLast?_eq_some_iff.1 h3
            have hpe : ∃ w, pre = a ++ '\n' :: w := by
              rw [hpre, List.append_assoc] at h1
              rcases List.append_eq_append_iff.1 h1 with ⟨w, g1, g2⟩ | ⟨w, g1, g2⟩
              · cases w with
                | nil => exact ⟨[], by rw [hpre, g1]; simp⟩
                | cons c w =>
                  simp only [List.cons_append, List.cons.injEq] at g2
                  exact ⟨w ++ ['\n'], by rw [hpre, g1, ← g2.1]; simp⟩
              · cases w with
                | nil => exact ⟨[], by rw [hpre, g1]; simp⟩
                | cons c w =>
                  simp only [List.cons_append, List.nil_append, List.cons.injEq] at g2
                  exact absurd (by rw [g1, ← g2.1]; simp) ha
            obtain ⟨w, hw⟩ := hpe
            refine ⟨w, post, ?_, h2, ?_, h4, h5, ?_⟩
            · rw [hw, List.append_assoc] at h1
              have := (List.append_cancel_left h1)
              simpa using this
            · cases w with
              | nil => exact Or.inl rfl
              | cons c w =>
                right
                rw [hw, List.getLast?_append, List.getLast?_cons_cons] at h3
                cases hg : (c :: w).getLast? with
                | none => simp at hg
                | some d => rw [hg] at h3; simpa using h3
            · rintro ⟨u, v, e⟩
              exact h6 ⟨a ++ '\n' :: u, v, by rw [hw, e]; simp⟩
    · rw [linesOf_line src hs, List.find?_cons]
      cases ho : occursIn pat src with
      | true =>
        simp only [Option.some.injEq]
        constructor
        · rintro rfl
          refine ⟨[], [], by simp, hs, Or.inl rfl, Or.inl rfl, (occursIn_iff pat src).1 ho, ?_⟩
          rintro ⟨u, v, e⟩
          cases pat with
          | nil => exact hne rfl
          | cons c p => simp at e
        · rintro ⟨pre, post, h1, h2, h3, h4, h5, h6⟩
          have hp' : pre = [] := by
            rcases h3 with h | h
            · exact h
            · exact absurd (by rw [h1]; exact List.mem_append_left _ (List.mem_of_getLast? h)) hs
          have hq' : post = [] := by
            rcases h4 with h | h
            · exact h
            · exact absurd (by rw [h1]; exact List.mem_append_right _ (List.mem_append_right _ (List.mem_of_head? h))) hs
          rw [h1, hp', hq']; simp
      | false =>
        constructor
        · intro hh; exact absurd hh (by simp)
        · rintro ⟨pre, post, h1, h2, h3, h4, ⟨u, v, h5⟩, h6⟩
          rw [(occursIn_iff pat src).2 ⟨pre ++ u, v ++ post, by rw [h1, h5]; simp⟩] at ho
          exact absurd ho (by decide)

theorem not_nl_idChar : idChar '\n' = false := by decide

theorem dropWhile_iff (space : Char → Bool) (s t : Str) : s.dropWhile space = t ↔
    ∃ sp, s = sp ++ t ∧ (∀ c ∈ sp, space c = true) ∧ ∀ c, t.head? = some c → space c = false := by
  constructor
  · rintro rfl
    refine ⟨s.takeWhile space, by rw [List.takeWhile_append_dropWhile], ?_, ?_⟩
    · exact fun c hc => (List.all_eq_true.1 (List.all_takeWhile (p := space) (l := s))) c hc
    · intro c hc
      have := List.head?_dropWhile_not space s
      rw [hc] at this
      simpa using this
  · rintro ⟨sp, rfl, h1, h2⟩
    rw [List.dropWhile_append_of_pos h1]
    cases t with
    | nil => rfl
    | cons c t => rw [List.dropWhile_cons, h2 c rfl]; simp

theorem refdLine_iff (src x line : Str) (hx : ∀ c ∈ x, idChar c = true) : refdLine cfg src x = some line ↔ StepLine cfg src x line := by
  have hp : '\n' ∉ ("id=\"".toList ++ x ++ ['"']) := by
    simp only [List.mem_append, not_or]
    refine ⟨⟨by decide, fun h => ?_⟩, by decide⟩
    have := hx _ h
    rw [not_nl_idChar] at this
    exact absurd this (by decide)
  have hf := refdLine_find _ hp (by simp) (src.length + 1) src (by omega)
  unfold refdLine StepLine
  rw [Option.map_eq_some_iff]
  constructor
  · rintro ⟨l, h1, h2⟩
    obtain ⟨pre, post, g1, g2, g3, g4, g5, g6⟩ := (hf l).1 h1
    obtain ⟨sp, k1, k2, k3⟩ := (dropWhile_iff _ _ _).1 h2
    exact ⟨pre, l, sp, post, by rw [g1, k1], k1, g2, g3, g4, g5, g6, k2, k3⟩
  · rintro ⟨pre, l, sp, post, g1, k1, g2, g3, g4, g5, g6, k2, k3⟩
    exact ⟨l, (hf l).2 ⟨pre, post, by rw [g1, k1], g2, g3, g4, g5, g6⟩, (dropWhile_iff _ _ _).2 ⟨sp, k1, k2, k3⟩⟩

end Verif.StepRefs
