import Verif.Refs.Spec
/-!
# The references in the text
-/
namespace Verif.Refs
open Verif.Refs.Spec
open Verif.Defs (Str)

variable (word : Char → Bool)

/-- The text starts with a reference. -/
def Here (s b : Str) : Prop := ∃ after, s = '|' :: (b ++ '|' :: after) ∧ '|' ∉ b ∧ ∃ c w, b = c :: w ∧ word c = true ∧ w ≠ []

theorem takeWhile_bar (b after : Str) (h : '|' ∉ b) :
    (b ++ '|' :: after).takeWhile (· ≠ '|') = b ∧ (b ++ '|' :: after).dropWhile (· ≠ '|') = '|' :: after := by
  induction b with
  | nil => simp
  | cons c b ih =>
    simp only [List.mem_cons, not_or] at h
    have hc : (c ≠ '|') := fun e => h.1 e.symm
    have := ih h.2
    simp only [List.cons_append, List.takeWhile_cons, List.dropWhile_cons]
    rw [if_pos (decide_eq_true hc), if_pos (decide_eq_true hc), this.1, this.2]
    exact ⟨rfl, rfl⟩

theorem takeWhile_free (s : Str) : '|' ∉ s.takeWhile (· ≠ '|') := by
  induction s with
  | nil => simp
  | cons c s ih =>
    rw [List.takeWhile_cons]
    split
    · rename_i h
      simp only [ne_eq, decide_not, Bool.not_eq_eq_eq_not, Bool.not_true, decide_eq_false_iff_not] at h
      simp only [List.mem_cons, not_or]
      exact ⟨fun e => h e.symm, ih⟩
    · simp

theorem dropWhile_bar (s : Str) (c : Char) (r : Str) (h : s.dropWhile (· ≠ '|') = c :: r) : c = '|' := by
  induction s with
  | nil => simp at h
  | cons d s ih =>
    rw [List.dropWhile_cons] at h
    split at h
    · exact ih h
    · rename_i h2
      simp only [ne_eq, decide_not, Bool.not_eq_eq_eq_not, Bool.not_true, decide_eq_false_iff_not, Decidable.not_not] at h2
      cases h
      exact h2

theorem refHere_iff (s b : Str) : refHere word s = some b ↔ Here word s b := by
  constructor
  · intro h
    unfold refHere at h
    split at h
    · rename_i s
      split at h
      · rename_i c d w e r h1 h2
        split at h
        · rename_i hw
          cases h
          have h3 := dropWhile_bar _ _ _ h2
          subst h3
          refine ⟨r, ?_, ?_, c, d :: w, rfl, hw, by simp⟩
          · rw [← h2, ← h1, List.takeWhile_append_dropWhile]
          · rw [← h1]; exact takeWhile_free s
        · cases h
      · cases h
    · cases h
  · rintro ⟨after, rfl, h1, c, w, rfl, h2, h3⟩
    have h4 := takeWhile_bar _ after h1
    simp only [refHere]
    rw [h4.1, h4.2]
    cases w with
    | nil => exact absurd rfl h3
    | cons d w => simp [h2]

theorem here_unique {s b b' : Str} (h : Here word s b) (h' : Here word s b') : b = b' := by
  rw [← refHere_iff] at h h'
  rw [h] at h'
  cases h'
  rfl

theorem refAt_iff (pre s b : Str) : RefAt word (pre ++ s) pre.length b ↔ Here word s b := by
  constructor
  · rintro ⟨x, y, h1, h2, h3⟩
    obtain ⟨rfl, rfl⟩ := List.append_inj h1 h2.symm
    exact ⟨y, rfl, h3⟩
  · rintro ⟨y, rfl, h3⟩
    exact ⟨pre, y, rfl, rfl, h3⟩

theorem refAt_lt {text : Str} {p : Nat} {b : Str} (h : RefAt word text p b) : p + b.length + 2 ≤ text.length := by
  obtain ⟨x, y, rfl, rfl, _⟩ := h
  simp only [List.length_append, List.length_cons]
  omega

theorem refAt_here {text : Str} {p : Nat} {b : Str} (h : RefAt word text p b) : Here word (text.drop p) b := by
  obtain ⟨x, y, rfl, rfl, h3⟩ := h
  rw [List.drop_left]
  exact ⟨y, rfl, h3⟩

theorem refAt_unique {text : Str} {p : Nat} {b b' : Str} (h : RefAt word text p b) (h' : RefAt word text p b') : b = b' :=
  here_unique word (refAt_here word h) (refAt_here word h')

/-- What the scan finds from a place on. -/
theorem scan_spec (s : Str) : ∀ (pre : Str) (skip : Nat) (l : List (Nat × Str)), scan word pre.length skip s = l →
    (∀ x ∈ l, pre.length + skip ≤ x.1 ∧ RefAt word (pre ++ s) x.1 x.2) ∧
    l.Pairwise (fun x y => x.1 + x.2.length + 2 ≤ y.1) ∧
    ∀ p b, pre.length + skip ≤ p → RefAt word (pre ++ s) p b → (p, b) ∈ l ∨ ∃ x ∈ l, x.1 < p ∧ p < x.1 + x.2.length + 2 := by
  induction s with
  | nil =>
    intro pre skip l h
    simp only [scan] at h
    subst h
    refine ⟨by simp, by simp, ?_⟩
    intro p b hp h
    have := refAt_lt word h
    simp only [List.append_nil] at this
    omega
  | cons c s ih =>
    intro pre skip l h
    have e : pre ++ c :: s = (pre ++ [c]) ++ s := by simp
    have el : (pre ++ [c]).length = pre.length + 1 := by simp
    cases skip with
    | succ skip =>
      simp only [scan] at h
      rw [← el] at h
      obtain ⟨h1, h2, h3⟩ := ih (pre ++ [c]) skip l h
      rw [el] at h1 h3
      rw [e]
      refine ⟨fun x hx => ⟨by have := (h1 x hx).1; omega, (h1 x hx).2⟩, h2, fun p b hp => h3 p b (by omega)⟩
    | zero =>
      simp only [scan] at h
      cases hr : refHere word (c :: s) with
      | none =>
        rw [hr] at h
        rw [← el] at h
        obtain ⟨h1, h2, h3⟩ := ih (pre ++ [c]) 0 l h
        rw [el] at h1 h3
        rw [e]
        refine ⟨fun x hx => ⟨by have := (h1 x hx).1; omega, (h1 x hx).2⟩, h2, ?_⟩
        intro p b hp hb
        by_cases hpp : p = pre.length
        · subst hpp
          rw [← e, refAt_iff, ← refHere_iff, hr] at hb
          cases hb
        · exact h3 p b (by omega) hb
      | some b0 =>
        rw [hr] at h
        simp only at h
        rw [← el] at h
        subst h
        obtain ⟨h1, h2, h3⟩ := ih (pre ++ [c]) (b0.length + 1) _ rfl
        rw [refHere_iff, ← refAt_iff (pre := pre)] at hr
        rw [el] at h1 h3
        refine ⟨?_, ?_, ?_⟩
        · intro x hx
          rcases List.mem_cons.1 hx with rfl | hx
          · exact ⟨Nat.le_refl _, hr⟩
          · rw [el] at hx
            have := h1 x hx
            exact ⟨by omega, e ▸ this.2⟩
        · rw [el] at h2 ⊢
          refine List.pairwise_cons.2 ⟨?_, h2⟩
          intro y hy
          have := (h1 y hy).1
          simp only
          omega
        · intro p b hp hb
          rw [el]
          by_cases hpp : p = pre.length
          · subst hpp
            rw [refAt_unique word hb hr]
            exact Or.inl (List.mem_cons_self ..)
          · by_cases hq : p < pre.length + b0.length + 2
            · exact Or.inr ⟨_, List.mem_cons_self .., by simp only; omega, hq⟩
            · rcases h3 p b (by omega) (e ▸ hb) with h | ⟨x, hx, h⟩
              · exact Or.inl (List.mem_cons_of_mem _ h)
              · exact Or.inr ⟨x, List.mem_cons_of_mem _ hx, h⟩

theorem scan_refs (text : Str) : Refs word text (scan word 0 0 text) := by
  obtain ⟨h1, h2, h3⟩ := scan_spec word text [] 0 _ rfl
  exact ⟨fun x hx => (h1 x hx).2, h2, fun p b => h3 p b (Nat.zero_le _)⟩

theorem apart_mem {l : List (Nat × Str)} (h : l.Pairwise (fun x y => x.1 + x.2.length + 2 ≤ y.1)) {x y : Nat × Str} (hx : x ∈ l) (hy : y ∈ l)
    (hlt : x.1 < y.1) : x.1 + x.2.length + 2 ≤ y.1 := by
  induction l with
  | nil => cases hx
  | cons z l ih =>
    rw [List.pairwise_cons] at h
    rcases List.mem_cons.1 hx with rfl | hx'
    · rcases List.mem_cons.1 hy with rfl | hy'
      · omega
      · exact h.1 y hy'
    · rcases List.mem_cons.1 hy with rfl | hy'
      · have := h.1 x hx'; omega
      · exact ih h.2 hx' hy'

theorem refs_sub {text : Str} {l l' : List (Nat × Str)} (h : Refs word text l) (h' : Refs word text l') :
    ∀ (n p : Nat) b, p < n → ((p, b) ∈ l ↔ (p, b) ∈ l') := by
  intro n
  induction n with
  | zero => intro p b hp; omega
  | succ n ih =>
    intro p b hp
    constructor
    · intro hm
      rcases h'.complete p b (h.sound _ hm) with h1 | ⟨x, hx, h1, h2⟩
      · exact h1
      · have hx' := (ih x.1 x.2 (by omega)).2 hx
        have := apart_mem h.apart hx' hm h1
        simp only at this
        omega
    · intro hm
      rcases h.complete p b (h'.sound _ hm) with h1 | ⟨x, hx, h1, h2⟩
      · exact h1
      · have hx' := (ih x.1 x.2 (by omega)).1 hx
        have := apart_mem h'.apart hx' hm h1
        simp only at this
        omega

/-- A list that increases strictly is determined by its elements. -/
theorem pairwise_unique {α : Type} {r : α → α → Prop} (hr : ∀ a b, r a b → ¬r b a) : ∀ {l l' : List α}, l.Pairwise r → l'.Pairwise r →
    (∀ a, a ∈ l ↔ a ∈ l') → l = l'
  | [], [], _, _, _ => rfl
  | [], b :: l', _, _, h => absurd ((h b).2 (List.mem_cons_self ..)) (by simp)
  | a :: l, [], _, _, h => absurd ((h a).1 (List.mem_cons_self ..)) (by simp)
  | a :: l, b :: l', h1, h2, h => by
    rw [List.pairwise_cons] at h1 h2
    have irr : ∀ x, ¬r x x := fun x hx => hr x x hx hx
    have hab : a = b := by
      rcases List.mem_cons.1 ((h a).1 (List.mem_cons_self ..)) with e | ha
      · exact e
      · rcases List.mem_cons.1 ((h b).2 (List.mem_cons_self ..)) with e | hb
        · exact e.symm
        · exact absurd (h2.1 a ha) (hr _ _ (h1.1 b hb))
    subst hab
    rw [pairwise_unique hr h1.2 h2.2]
    intro x
    constructor
    · intro hx
      rcases List.mem_cons.1 ((h x).1 (List.mem_cons_of_mem _ hx)) with e | hx'
      · subst e; exact absurd (h1.1 x hx) (irr x)
      · exact hx'
    · intro hx
      rcases List.mem_cons.1 ((h x).2 (List.mem_cons_of_mem _ hx)) with e | hx'
      · subst e; exact absurd (h2.1 x hx) (irr x)
      · exact hx'

theorem refs_unique {text : Str} {l l' : List (Nat × Str)} (h : Refs word text l) (h' : Refs word text l') : l = l' :=
  pairwise_unique (fun _ _ h1 h2 => by omega) h.apart h'.apart (fun a => refs_sub word h h' (a.1 + 1) a.1 a.2 (by omega))

end Verif.Refs
