import Verif.Layout.Spec
import Verif.Validate.LitLemmas
/-! # Lemmas about lines -/
namespace Verif.Layout
open Verif.HTML (Str Attrs Node litName commentName docName)
open Verif.Validate (nStart nStop nName nAttrs nInner nKids slice className Kind Suf slice_suf suf_tail suf_head suf_nil)

theorem lastBreak_spec (text : Str) (b : Nat) : ∀ (s : Str) (p best : Nat), Suf text b p s → LineStart text p best → LineStart text (p + s.length) (lastBreak p best s)
  | [], p, best, _, h => by simpa [lastBreak] using h
  | c :: cs, p, best, hs, h => by
    rw [lastBreak, List.length_cons, show p + (cs.length + 1) = p + 1 + cs.length by omega]
    refine lastBreak_spec text b cs _ _ (suf_tail hs) ?_
    have hc := (suf_head hs).2
    by_cases he : c = '\n'
    · rw [if_pos he]
      exact ⟨Nat.le_refl _, .inr ⟨by omega, by rw [show p + 1 - 1 = p by omega, hc, he]⟩, fun i h1 h2 => by omega⟩
    · rw [if_neg he]
      refine ⟨by have := h.1; omega, h.2.1, fun i h1 h2 => ?_⟩
      by_cases hi : i < p
      · exact h.2.2 i h1 hi
      · rw [show i = p by omega, hc]
        exact fun g => he (Option.some_inj.1 g)

theorem take_suf (text : Str) (p : Nat) : Suf text p 0 (text.take p) := by
  have := slice_suf text 0 p
  simpa [slice] using this

theorem lineStart_spec (text : Str) (p : Nat) : LineStart text p (lineStart text p) := by
  have h := lastBreak_spec text p (text.take p) 0 0 (take_suf text p) ⟨Nat.le_refl _, .inl rfl, fun i h1 h2 => by omega⟩
  rw [Nat.zero_add] at h
  refine ⟨Nat.le_trans h.1 (by rw [List.length_take]; exact Nat.min_le_left ..), h.2.1, fun i h1 h2 => ?_⟩
  by_cases hi : i < (text.take p).length
  · exact h.2.2 i h1 hi
  · rw [List.length_take] at hi
    rw [List.getElem?_eq_none (by omega)]
    exact fun g => by cases g

theorem lineStart_unique {text : Str} {p s s' : Nat} (h : LineStart text p s) (h' : LineStart text p s') : s = s' := by
  have key : ∀ {s s' : Nat}, LineStart text p s → LineStart text p s' → ¬ s < s' := by
    intro s s' h h' hl
    rcases h'.2.1 with h0 | ⟨h0, h1⟩
    · omega
    · exact h.2.2 (s' - 1) (by omega) (by have := h'.1; omega) h1
  have a := key h h'
  have b := key h' h
  omega

theorem lineStart_iff {text : Str} {p s : Nat} : LineStart text p s ↔ s = lineStart text p :=
  ⟨fun h => lineStart_unique h (lineStart_spec text p), fun h => h ▸ lineStart_spec text p⟩

theorem lineEnd_spec (text : Str) (p : Nat) : LineEnd text p (lineEnd text p) := by
  have key : ∀ (s : Str) (p : Nat), Suf text text.length p s → LineEnd text p (p + (s.takeWhile (· ≠ '\n')).length) := by
    intro s
    induction s with
    | nil =>
      intro p hs
      refine ⟨by omega, .inr ?_, fun i h1 h2 => by simp at h2; omega⟩
      by_cases hp : p < text.length
      · simpa using suf_nil hs p (Nat.le_refl _) hp
      · simp; omega
    | cons c cs ih =>
      intro p hs
      have hc := (suf_head hs).2
      by_cases he : c = '\n'
      · subst he
        simp only [List.takeWhile_cons, ne_eq, not_true_eq_false, decide_false, Bool.false_eq_true, if_false, List.length_nil, Nat.add_zero]
        exact ⟨Nat.le_refl _, .inl hc, fun i h1 h2 => by omega⟩
      · have := ih (p + 1) (suf_tail hs)
        simp only [List.takeWhile_cons, ne_eq, he, not_false_eq_true, decide_true, if_true, List.length_cons]
        rw [show ∀ n, p + (n + 1) = p + 1 + n by omega]
        refine ⟨by have := this.1; omega, this.2.1, fun i h1 h2 => ?_⟩
        by_cases hi : i = p
        · exact ⟨c, hi ▸ hc, he⟩
        · exact this.2.2 i (by omega) h2
  refine key (text.drop p) p ?_
  have := slice_suf text p text.length
  simpa [slice] using this

theorem lineEnd_unique {text : Str} {p e e' : Nat} (h : LineEnd text p e) (h' : LineEnd text p e') : e = e' := by
  have key : ∀ {e e' : Nat}, LineEnd text p e → LineEnd text p e' → ¬ e < e' := by
    intro e e' h h' hl
    obtain ⟨c, hc, hn⟩ := h'.2.2 e h.1 hl
    rcases h.2.1 with g | g
    · rw [hc] at g; exact hn (Option.some_inj.1 g)
    · rw [hc] at g; cases g
  have a := key h h'
  have b := key h' h
  omega

theorem broken_iff {text : Str} {s e : Nat} (h : s ≤ e) : Broken text s e ↔ lineStart text s ≠ lineStart text e := by
  have hs := lineStart_spec text s
  have he := lineStart_spec text e
  constructor
  · rintro ⟨i, h1, h2, h3⟩ g
    exact he.2.2 i (by have := hs.1; omega) h2 h3
  · intro g
    refine Classical.byContradiction fun hn => g ?_
    refine lineStart_unique ⟨Nat.le_trans hs.1 h, hs.2.1, fun i h1 h2 h3 => ?_⟩ he
    by_cases hi : i < s
    · exact hs.2.2 i h1 hi h3
    · exact hn ⟨i, by omega, h2, h3⟩

/-! ### Tags -/

theorem slice_all (white : Char → Bool) (text : Str) (a b : Nat) : (slice text a b).all white = true ↔ Clear white text a b := by
  rw [List.all_eq_true]
  constructor
  · intro h i c h1 h2 hc
    refine h c (List.mem_iff_getElem?.2 ⟨i - a, ?_⟩)
    rw [slice_suf text a b (i - a), if_pos (by omega), show a + (i - a) = i by omega, hc]
  · intro h c hc
    obtain ⟨i, hi⟩ := List.mem_iff_getElem?.1 hc
    rw [slice_suf text a b i] at hi
    split at hi
    · rename_i hb
      exact h (a + i) c (by omega) hb hi
    · cases hi

theorem tagMsgs_iff (white : Char → Bool) (text : Str) (q p : Nat) (name : Str) (k : Nat) (hp : p ≤ text.length) (m : Msg) :
    m ∈ tagMsgs white text (lineStart text q) p name k ↔ TagSays white text q p name k m := by
  have hlen : (slice text (lineStart text q) p).length = p - lineStart text q := by
    rw [slice, List.length_drop, List.length_take, Nat.min_eq_left hp]
  have hor : (slice text (lineStart text q) p = [] ∨ (slice text (lineStart text q) p).all white = true) ↔ Clear white text (lineStart text q) p := by
    rw [← slice_all]
    exact ⟨fun h => h.elim (fun h => by rw [h]; rfl) id, .inr⟩
  rw [tagMsgs]
  by_cases hc : Clear white text (lineStart text q) p
  · rw [if_pos (hor.2 hc), hlen]
    by_cases hk : p - lineStart text q = k
    · rw [if_pos hk]
      constructor
      · intro h; cases h
      · rintro (⟨hs, _, h3⟩ | ⟨hs, h2⟩)
        · rw [lineStart_iff.1 hs] at h3; exact absurd hk h3
        · rw [lineStart_iff.1 hs] at h2; exact absurd hc h2
    · rw [if_neg hk, List.mem_singleton]
      constructor
      · rintro rfl
        exact .indent (lineStart_spec text q) hc hk
      · rintro (⟨hs, _, _⟩ | ⟨hs, h2⟩)
        · rw [lineStart_iff.1 hs]
        · rw [lineStart_iff.1 hs] at h2; exact absurd hc h2
  · rw [if_neg (fun h => hc (hor.1 h)), List.mem_singleton]
    constructor
    · rintro rfl
      exact .notFirst (lineStart_spec text q) hc
    · rintro (⟨hs, h2, _⟩ | ⟨hs, _⟩)
      · rw [lineStart_iff.1 hs] at h2; exact absurd h2 hc
      · rfl

end Verif.Layout
