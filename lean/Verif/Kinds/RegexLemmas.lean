import Verif.Kinds.Model
import Verif.Kinds.Spec
/-!
# Regular expressions: matching by derivatives is matching
-/
namespace Verif.Kinds
open Verif.Sections (isWord)
open Verif.Paths.Spec (Word)

/-- The texts of a regular expression. -/
inductive Matches : Rx → Str → Prop
  | empty : Matches .empty []
  | char {p c} : p c = true → Matches (.char p) [c]
  | seq {a b s t} : Matches a s → Matches b t → Matches (.seq a b) (s ++ t)
  | left {a b s} : Matches a s → Matches (.alt a b) s
  | right {a b s} : Matches b s → Matches (.alt a b) s
  | stop {a} : Matches (.star a) []
  | more {a s t} : Matches a s → Matches (.star a) t → Matches (.star a) (s ++ t)

theorem m_nothing {s : Str} : Matches .nothing s ↔ False := ⟨fun h => (by cases h), False.elim⟩

theorem m_empty {s : Str} : Matches .empty s ↔ s = [] :=
  ⟨fun h => (by cases h; rfl), fun h => h ▸ .empty⟩

theorem m_char {p : Char → Bool} {s : Str} : Matches (.char p) s ↔ ∃ c, s = [c] ∧ p c = true :=
  ⟨fun h => (by cases h with | char h => exact ⟨_, rfl, h⟩), fun ⟨_, e, h⟩ => e ▸ .char h⟩

theorem m_seq {a b : Rx} {s : Str} : Matches (.seq a b) s ↔ ∃ u v, s = u ++ v ∧ Matches a u ∧ Matches b v :=
  ⟨fun h => (by cases h with | seq h1 h2 => exact ⟨_, _, rfl, h1, h2⟩), fun ⟨_, _, e, h1, h2⟩ => e ▸ .seq h1 h2⟩

theorem m_alt {a b : Rx} {s : Str} : Matches (.alt a b) s ↔ Matches a s ∨ Matches b s :=
  ⟨fun h => (by cases h with
    | left h => exact .inl h
    | right h => exact .inr h), fun h => h.elim .left .right⟩

theorem m_star {a : Rx} {s : Str} : Matches (.star a) s ↔ ∃ xs : List Str, s = xs.flatten ∧ ∀ x ∈ xs, Matches a x := by
  constructor
  · intro h
    generalize hr : Rx.star a = r at h
    induction h with
    | stop => cases hr; exact ⟨[], rfl, by simp⟩
    | more h1 _ _ ih =>
      cases hr
      obtain ⟨xs, rfl, h⟩ := ih rfl
      exact ⟨_ :: xs, rfl, by simpa using ⟨h1, h⟩⟩
    | _ => cases hr
  · rintro ⟨xs, rfl, h⟩
    induction xs with
    | nil => exact .stop
    | cons x xs ih => exact .more (h x (by simp)) (ih (fun y hy => h y (by simp [hy])))

theorem nullable_iff (r : Rx) : r.nullable = true ↔ Matches r [] := by
  induction r with
  | nothing => simp [Rx.nullable, m_nothing]
  | empty => simp [Rx.nullable, m_empty]
  | char p => simp [Rx.nullable, m_char]
  | seq a b ha hb =>
    simp only [Rx.nullable, Bool.and_eq_true, ha, hb, m_seq]
    constructor
    · rintro ⟨h1, h2⟩; exact ⟨[], [], rfl, h1, h2⟩
    · rintro ⟨u, v, e, h1, h2⟩
      obtain ⟨rfl, rfl⟩ := List.append_eq_nil_iff.1 e.symm
      exact ⟨h1, h2⟩
  | alt a b ha hb => simp [Rx.nullable, ha, hb, m_alt]
  | star a _ => simp only [Rx.nullable, true_iff]; exact .stop

theorem deriv_iff (c : Char) (r : Rx) (s : Str) : Matches (r.deriv c) s ↔ Matches r (c :: s) := by
  induction r generalizing s with
  | nothing => simp [Rx.deriv, m_nothing]
  | empty => simp [Rx.deriv, m_nothing, m_empty]
  | char p =>
    simp only [Rx.deriv, m_char]
    split
    · rename_i h
      rw [m_empty]
      constructor
      · rintro rfl; exact ⟨c, rfl, h⟩
      · rintro ⟨d, e, -⟩; cases e; rfl
    · rename_i h
      rw [m_nothing, false_iff]
      rintro ⟨d, e, h'⟩; cases e; exact h h'
  | alt a b ha hb => simp [Rx.deriv, m_alt, ha, hb]
  | seq a b ha hb =>
    have key : Matches (.seq (a.deriv c) b) s ↔ ∃ u v, s = u ++ v ∧ Matches a (c :: u) ∧ Matches b v := by simp only [m_seq, ha]
    simp only [Rx.deriv]
    split
    · rename_i hn
      rw [m_alt, key, hb, m_seq]
      constructor
      · rintro (⟨u, v, rfl, h1, h2⟩ | h)
        · exact ⟨c :: u, v, rfl, h1, h2⟩
        · exact ⟨[], c :: s, rfl, (nullable_iff a).1 hn, h⟩
      · rintro ⟨u, v, e, h1, h2⟩
        cases u with
        | nil => exact .inr (by rw [e]; exact h2)
        | cons d u => cases e; exact .inl ⟨u, v, rfl, h1, h2⟩
    · rename_i hn
      rw [key, m_seq]
      constructor
      · rintro ⟨u, v, rfl, h1, h2⟩; exact ⟨c :: u, v, rfl, h1, h2⟩
      · rintro ⟨u, v, e, h1, h2⟩
        cases u with
        | nil => exact absurd ((nullable_iff a).2 h1) hn
        | cons d u => cases e; exact ⟨u, v, rfl, h1, h2⟩
  | star a ha =>
    simp only [Rx.deriv, m_seq, ha]
    constructor
    · rintro ⟨u, v, rfl, h1, h2⟩; exact .more h1 h2
    · intro h
      generalize hr : Rx.star a = r at h
      generalize ht : c :: s = t at h
      induction h with
      | stop => cases ht
      | @more a' s' t' h1 h2 _ ih =>
        cases hr
        cases s' with
        | nil => exact ih rfl ht
        | cons d s' => cases ht; exact ⟨s', t', rfl, h1, h2⟩
      | _ => cases hr

/-- Matching by derivatives is matching. -/
theorem full_iff (r : Rx) (s : Str) : full r s = true ↔ Matches r s := by
  unfold full
  induction s generalizing r with
  | nil => exact nullable_iff r
  | cons c s ih => rw [List.foldl_cons, ih, deriv_iff]

/-! ## Common patterns -/

theorem m_lit {t : String} {s : Str} : Matches (lit t) s ↔ s = t.toList := by
  unfold lit
  generalize t.toList = l
  induction l generalizing s with
  | nil => exact m_empty
  | cons c l ih =>
    rw [List.foldr_cons, m_seq]
    constructor
    · rintro ⟨u, v, rfl, h1, h2⟩
      obtain ⟨d, rfl, h⟩ := m_char.1 h1
      rw [ih.1 h2, show d = c by simpa using h]; rfl
    · rintro rfl; exact ⟨[c], l, rfl, .char (by simp), ih.2 rfl⟩

theorem m_cat_nil {s : Str} : Matches (cat []) s ↔ s = [] := m_empty

theorem m_cat {r : Rx} {rs : List Rx} {s : Str} : Matches (cat (r :: rs)) s ↔ ∃ u v, s = u ++ v ∧ Matches r u ∧ Matches (cat rs) v := m_seq

theorem m_one {r : Rx} {s : Str} : Matches (cat [r]) s ↔ Matches r s := by
  simp [m_cat, m_cat_nil]

theorem m_any {rs : List Rx} {s : Str} : Matches (any rs) s ↔ ∃ r ∈ rs, Matches r s := by
  induction rs with
  | nil => simp [any, m_nothing]
  | cons r rs ih =>
    have : Matches (any (r :: rs)) s ↔ Matches r s ∨ Matches (any rs) s := m_alt
    rw [this, ih]; simp

theorem m_chars {p : Char → Bool} {s : Str} : Matches (.star (.char p)) s ↔ ∀ c ∈ s, p c = true := by
  constructor
  · intro h
    obtain ⟨xs, rfl, h'⟩ := m_star.1 h
    intro c hc
    obtain ⟨x, hx, hc⟩ := List.mem_flatten.1 hc
    obtain ⟨d, rfl, hd⟩ := m_char.1 (h' x hx)
    rw [List.mem_singleton.1 hc]; exact hd
  · intro h
    induction s with
    | nil => exact .stop
    | cons c s ih => exact .more (s := [c]) (.char (h c (by simp))) (ih (fun d hd => h d (by simp [hd])))

theorem m_plus_chars {p : Char → Bool} {s : Str} : Matches (plus (.char p)) s ↔ s ≠ [] ∧ ∀ c ∈ s, p c = true := by
  unfold plus
  rw [m_seq]
  constructor
  · rintro ⟨u, v, rfl, h1, h2⟩
    obtain ⟨c, rfl, hc⟩ := m_char.1 h1
    refine ⟨by simp, ?_⟩
    intro d hd
    rcases List.mem_cons.1 hd with rfl | hd
    · exact hc
    · exact m_chars.1 h2 d hd
  · rintro ⟨h1, h2⟩
    cases s with
    | nil => exact absurd rfl h1
    | cons c s => exact ⟨[c], s, rfl, .char (h2 c (by simp)), m_chars.2 (fun d hd => h2 d (by simp [hd]))⟩

theorem m_plus {a : Rx} {s : Str} : Matches (plus a) s ↔ ∃ xs : List Str, xs ≠ [] ∧ s = xs.flatten ∧ ∀ x ∈ xs, Matches a x := by
  unfold plus
  rw [m_seq]
  constructor
  · rintro ⟨u, v, rfl, h1, h2⟩
    obtain ⟨xs, rfl, h⟩ := m_star.1 h2
    exact ⟨u :: xs, by simp, rfl, by simpa using ⟨h1, h⟩⟩
  · rintro ⟨xs, hn, rfl, h⟩
    cases xs with
    | nil => exact absurd rfl hn
    | cons x xs => exact ⟨x, xs.flatten, rfl, h x (by simp), m_star.2 ⟨xs, rfl, fun y hy => h y (by simp [hy])⟩⟩

theorem m_word {s : Str} : Matches (plus w) s ↔ Word s := by
  unfold w Word
  rw [m_plus_chars]
  simp [isWord]

theorem m_line {s : Str} : Matches (plus dot) s ↔ Spec.Some' s := by
  unfold dot Spec.Some' Spec.Line
  rw [m_plus_chars]
  constructor
  · rintro ⟨h1, h2⟩; exact ⟨h1, fun h => by simpa using h2 _ h⟩
  · rintro ⟨h1, h2⟩; exact ⟨h1, fun c hc => by simp only [bne_iff_ne, ne_eq]; rintro rfl; exact h2 hc⟩

theorem m_lines {s : Str} : Matches (.star dot) s ↔ Spec.Line s := by
  unfold dot Spec.Line
  rw [m_chars]
  constructor
  · intro h2 h; simpa using h2 _ h
  · intro h2 c hc; simp only [bne_iff_ne, ne_eq]; rintro rfl; exact h2 hc

theorem m_dot {s : Str} : Matches dot s ↔ ∃ c, s = [c] ∧ c ≠ '\n' := by
  unfold dot; rw [m_char]; simp

end Verif.Kinds
