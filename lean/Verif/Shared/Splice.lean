import Verif.Shared.Order
/-! # Lemmas for `write_spec_with_replacements` -/
namespace Verif.Shared

theorem slice_append_drop {α} (s : List α) (a b : Nat) (h : a ≤ b) :
    slice s a b ++ s.drop b = s.drop a := by
  unfold slice
  conv => rhs; rw [← List.take_append_drop b s]
  rw [List.drop_append]
  by_cases hb : b ≤ s.length
  · simp [List.length_take, Nat.min_eq_left hb, Nat.sub_eq_zero_of_le h]
  · rw [List.drop_of_length_le (by omega : s.length ≤ b)]
    simp

theorem length_slice {α} (s : List α) (a b : Nat) (hb : b ≤ s.length) :
    (slice s a b).length = b - a := by
  simp [slice, Nat.min_eq_left hb]

theorem spliceFrom_some (text : List Char) : ∀ (rs : List Repl) (prev : Nat) (out : List Char),
    (∀ r ∈ rs, r.InText text.length) → prev ≤ text.length →
    spliceFrom text rs prev = some out →
    ∃ ps tail, text.drop prev = original ps tail ∧ out = edited ps tail ∧ editsOf ps prev = rs := by
  intro rs
  induction rs with
  | nil =>
    intro prev out _ _ h
    simp [spliceFrom] at h
    exact ⟨[], text.drop prev, by simp [original], by simp [edited, h], rfl⟩
  | cons r rs ih =>
    intro prev out hin hprev h
    simp only [spliceFrom] at h
    split at h
    · rename_i hle
      split at h
      · rename_i rest hrest
        have hr := hin r (by simp)
        obtain ⟨ps, tail, h1, h2, h3⟩ := ih r.stop rest (fun x hx => hin x (by simp [hx])) hr.2 hrest
        refine ⟨⟨slice text prev r.start, slice text r.start r.stop, r.str⟩ :: ps, tail, ?_, ?_, ?_⟩
        · simp only [original, List.flatMap_cons, List.append_assoc] at h1 ⊢
          rw [← h1, slice_append_drop _ _ _ hr.1, slice_append_drop _ _ _ hle]
        · simp only [edited, List.flatMap_cons, List.append_assoc] at h2 ⊢
          simp at h
          rw [← h, h2]
        · have l1 := length_slice text prev r.start (Nat.le_trans hr.1 hr.2)
          have l2 := length_slice text r.start r.stop hr.2
          have e1 : prev + (r.start - prev) = r.start := by omega
          have e2 : r.start + (r.stop - r.start) = r.stop := by have := hr.1; omega
          simp only [editsOf, l1, l2, e1, e2, h3]
      · cases h
    · cases h

theorem spliceFrom_isSome (text : List Char) : ∀ (rs : List Repl) (prev : Nat),
    (spliceFrom text rs prev).isSome = true ↔
      (∀ r ∈ rs.head?, prev ≤ r.start) ∧
      (rs.zip rs.tail).all (fun p => decide (p.1.stop ≤ p.2.start)) = true := by
  intro rs
  induction rs with
  | nil => intro prev; simp [spliceFrom]
  | cons r rs ih =>
    intro prev
    simp only [spliceFrom]
    split
    · rename_i hle
      have := ih r.stop
      split
      · rename_i rest hrest
        rw [hrest] at this
        simp only [Option.isSome_some, true_iff] at this ⊢
        refine ⟨by simpa using hle, ?_⟩
        cases rs with
        | nil => simp
        | cons r' rs' =>
          simp only [List.tail_cons, List.zip_cons_cons, List.all_cons, Bool.and_eq_true, decide_eq_true_eq]
          exact ⟨this.1 r' (by simp), by simpa using this.2⟩
      · rename_i hrest
        rw [hrest] at this
        simp only [Option.isSome_none, Bool.false_eq_true, false_iff] at this ⊢
        intro h
        apply this
        cases rs with
        | nil => simp
        | cons r' rs' =>
          simp only [List.tail_cons, List.zip_cons_cons, List.all_cons, Bool.and_eq_true, decide_eq_true_eq] at h
          exact ⟨by simpa using h.2.1, by simpa using h.2.2⟩
    · rename_i hle
      simp [hle]

/-- On a sorted list of proper ranges, consecutive non-overlap is pairwise disjointness. -/
theorem adjacent_iff_pairwise (rs : List Repl) (hin : ∀ r ∈ rs, r.start ≤ r.stop)
    (hs : rs.Pairwise (fun a b => replLe a b = true)) :
    (rs.zip rs.tail).all (fun p => decide (p.1.stop ≤ p.2.start)) = true ↔
      rs.Pairwise Repl.Disjoint := by
  induction rs with
  | nil => simp
  | cons r rs ih =>
    have hs' := (List.pairwise_cons.1 hs)
    have ih := ih (fun x hx => hin x (by simp [hx])) hs'.2
    rw [List.pairwise_cons]
    cases rs with
    | nil => simp
    | cons r' rs' =>
      simp only [List.tail_cons, List.zip_cons_cons, List.all_cons, Bool.and_eq_true, decide_eq_true_eq]
      simp only [List.tail_cons] at ih
      rw [ih]
      constructor
      · rintro ⟨h1, h2⟩
        refine ⟨?_, h2⟩
        intro x hx
        left
        rcases List.mem_cons.1 hx with rfl | hx
        · exact h1
        · have h3 := (List.pairwise_cons.1 hs'.2).1 x hx
          rw [replLe_iff] at h3
          omega
      · rintro ⟨h1, h2⟩
        refine ⟨?_, h2⟩
        have h3 := h1 r' (by simp)
        have h4 := hs'.1 r' (by simp)
        have h5 := hin r (by simp)
        have h6 := hin r' (by simp)
        rw [replLe_iff] at h4
        rcases h3 with h3 | h3 <;> omega

theorem disjoint_symm {a b : Repl} (h : a.Disjoint b) : b.Disjoint a := by
  rcases h with h | h
  · exact Or.inr h
  · exact Or.inl h

end Verif.Shared
