import Verif.Defs.Spec
/-!
# Lemmas on dicts and sorted lists
-/
namespace Verif.Defs

section
variable {α β : Type} [DecidableEq α] [BEq α] [LawfulBEq α]

theorem lookup_cons' (n k : α) (v : β) (d : List (α × β)) : ((k, v) :: d).lookup n = if n = k then some v else d.lookup n := by
  rw [List.lookup_cons]
  by_cases h : n = k
  · subst h; simp
  · simp only [if_neg h]
    have : (n == k) = false := by simpa using h
    rw [this]

theorem lookup_put (k n : α) (v : β) (d : List (α × β)) : (put k v d).lookup n = if n = k then some v else d.lookup n := by
  induction d with
  | nil => unfold put; rw [lookup_cons']
  | cons p d ih =>
    obtain ⟨k', v'⟩ := p
    unfold put
    by_cases h : k' = k
    · rw [if_pos h, lookup_cons', lookup_cons']
      by_cases hn : n = k
      · rw [if_pos hn, if_pos hn]
      · rw [if_neg hn, if_neg hn, if_neg (fun hh => hn (hh.trans h))]
    · rw [if_neg h, lookup_cons', lookup_cons', ih]
      by_cases hn : n = k'
      · rw [if_pos hn, if_pos hn, if_neg (fun hh => h (hn.symm.trans hh))]
      · rw [if_neg hn, if_neg hn]

theorem keys_put (k : α) (v : β) (d : List (α × β)) :
    (put k v d).map (·.1) = if k ∈ d.map (·.1) then d.map (·.1) else d.map (·.1) ++ [k] := by
  induction d with
  | nil => simp [put]
  | cons p d ih =>
    obtain ⟨k', v'⟩ := p
    unfold put
    by_cases h : k' = k
    · subst h; simp
    · have h' : ¬k = k' := fun e => h e.symm
      rw [if_neg h]
      simp only [List.map_cons, List.mem_cons, h', false_or]
      rw [ih]
      split <;> simp

theorem nodup_put (k : α) (v : β) (d : List (α × β)) (h : (d.map (·.1)).Nodup) : ((put k v d).map (·.1)).Nodup := by
  rw [keys_put]
  split
  · exact h
  · rename_i hk
    rw [List.nodup_append]
    refine ⟨h, by simp, ?_⟩
    intro a ha b hb he
    simp at hb
    subst hb
    subst he
    exact hk ha

theorem mem_iff_lookup (d : List (α × β)) (h : (d.map (·.1)).Nodup) (n : α) (v : β) : (n, v) ∈ d ↔ d.lookup n = some v := by
  induction d with
  | nil => simp
  | cons p d ih =>
    obtain ⟨k, w⟩ := p
    simp only [List.map_cons, List.nodup_cons] at h
    rw [lookup_cons', List.mem_cons, ih h.2]
    by_cases hn : n = k
    · subst hn
      rw [if_pos rfl]
      constructor
      · intro h'
        cases h' with
        | inl e => cases e; rfl
        | inr e =>
          rw [← ih h.2] at e
          exact absurd (List.mem_map_of_mem (f := (·.1)) e) h.1
      · intro e
        cases e
        exact Or.inl rfl
    · rw [if_neg hn]
      constructor
      · intro h'
        cases h' with
        | inl e => cases e; exact absurd rfl hn
        | inr e => exact e
      · exact Or.inr

theorem lookup_none_iff (d : List (α × β)) (n : α) : d.lookup n = none ↔ n ∉ d.map (·.1) := by
  induction d with
  | nil => simp
  | cons p d ih =>
    obtain ⟨k, w⟩ := p
    rw [lookup_cons', List.map_cons, List.mem_cons]
    by_cases hn : n = k
    · subst hn; simp
    · rw [if_neg hn, ih]
      simp [hn]

end

/-! ## The order of strings -/

theorem strLt_iff (s t : Str) : strLt s t = true ↔ Spec.Before s t := by
  induction s generalizing t with
  | nil =>
    cases t with
    | nil =>
      simp only [strLt]
      constructor
      · intro h; cases h
      · rintro ⟨k, _, h | ⟨c, d, h, _⟩⟩
        · simp at h
        · simp at h
    | cons d t =>
      simp only [strLt, true_iff]
      exact ⟨0, rfl, Or.inl ⟨rfl, by simp⟩⟩
  | cons c s ih =>
    cases t with
    | nil =>
      simp only [strLt]
      constructor
      · intro h; cases h
      · rintro ⟨k, _, h | ⟨_, d, _, h, _⟩⟩
        · simp at h
        · simp at h
    | cons d t =>
      unfold strLt
      by_cases hcd : c = d
      · subst hcd
        rw [if_pos rfl, ih]
        constructor
        · rintro ⟨k, h1, h2⟩
          refine ⟨k + 1, by simp [h1], ?_⟩
          cases h2 with
          | inl h => exact Or.inl ⟨by simp [h.1], by simp; exact h.2⟩
          | inr h => exact Or.inr (by simpa using h)
        · rintro ⟨k, h1, h2⟩
          cases k with
          | zero =>
            cases h2 with
            | inl h => simp at h
            | inr h =>
              obtain ⟨x, y, hx, hy, hl⟩ := h
              simp at hx hy
              subst hx; subst hy
              omega
          | succ k =>
            refine ⟨k, by simpa using h1, ?_⟩
            cases h2 with
            | inl h => exact Or.inl ⟨by simpa using h.1, by simpa using h.2⟩
            | inr h => exact Or.inr (by simpa using h)
      · rw [if_neg hcd]
        constructor
        · intro h
          exact ⟨0, rfl, Or.inr ⟨c, d, rfl, rfl, by simpa using h⟩⟩
        · rintro ⟨k, h1, h2⟩
          cases k with
          | zero =>
            cases h2 with
            | inl h => simp at h
            | inr h =>
              obtain ⟨x, y, hx, hy, hl⟩ := h
              simp at hx hy
              subst hx; subst hy
              simpa using hl
          | succ k =>
            simp at h1
            exact absurd h1.1 hcd

theorem strLt_trans (a b c : Str) (h1 : strLt a b = true) (h2 : strLt b c = true) : strLt a c = true := by
  induction a generalizing b c with
  | nil =>
    cases b with
    | nil => cases h1
    | cons y b =>
      cases c with
      | nil => cases h2
      | cons z c => rfl
  | cons x a ih =>
    cases b with
    | nil => cases h1
    | cons y b =>
      cases c with
      | nil => cases h2
      | cons z c =>
        unfold strLt at h1 h2 ⊢
        by_cases hxy : x = y
        · subst hxy
          rw [if_pos rfl] at h1
          by_cases hyz : x = z
          · subst hyz
            rw [if_pos rfl] at h2 ⊢
            exact ih b c h1 h2
          · rw [if_neg hyz] at h2 ⊢
            exact h2
        · rw [if_neg hxy] at h1
          by_cases hyz : y = z
          · subst hyz
            rw [if_neg hxy]
            exact h1
          · rw [if_neg hyz] at h2
            have h : x.toNat < z.toNat := by
              have := of_decide_eq_true h1
              have := of_decide_eq_true h2
              omega
            have hxz : x ≠ z := fun e => by subst e; omega
            rw [if_neg hxz]
            exact decide_eq_true h

theorem strLt_total (a b : Str) (h : a ≠ b) (h1 : strLt a b = false) : strLt b a = true := by
  induction a generalizing b with
  | nil =>
    cases b with
    | nil => exact absurd rfl h
    | cons y b => cases h1
  | cons x a ih =>
    cases b with
    | nil => rfl
    | cons y b =>
      unfold strLt at h1 ⊢
      by_cases hxy : x = y
      · subst hxy
        rw [if_pos rfl] at h1 ⊢
        exact ih b (fun e => h (by rw [e])) h1
      · rw [if_neg hxy] at h1
        rw [if_neg (fun e => hxy e.symm)]
        have h1 := of_decide_eq_false h1
        have h2 : x.toNat ≠ y.toNat := by
          intro e
          apply hxy
          exact Char.toNat_inj.1 e
        exact decide_eq_true (by omega)

section
variable {α : Type} (key : α → Str)

theorem mem_insertBy (x y : α) (l : List α) : y ∈ insertBy key x l ↔ y = x ∨ y ∈ l := by
  induction l with
  | nil => simp [insertBy]
  | cons z l ih =>
    unfold insertBy
    split
    · simp
    · simp only [List.mem_cons, ih]
      constructor
      · rintro (h | h | h)
        · exact Or.inr (Or.inl h)
        · exact Or.inl h
        · exact Or.inr (Or.inr h)
      · rintro (h | h | h)
        · exact Or.inr (Or.inl h)
        · exact Or.inl h
        · exact Or.inr (Or.inr h)

theorem mem_sortBy (y : α) (l : List α) : y ∈ sortBy key l ↔ y ∈ l := by
  induction l with
  | nil => exact Iff.rfl
  | cons x l ih => rw [sortBy, mem_insertBy, ih, List.mem_cons]

theorem sorted_insertBy (x : α) (l : List α) (h : l.Pairwise (fun a b => strLt (key a) (key b) = true)) (hx : ∀ y ∈ l, key x ≠ key y) :
    (insertBy key x l).Pairwise (fun a b => strLt (key a) (key b) = true) := by
  induction l with
  | nil => simp [insertBy]
  | cons z l ih =>
    rw [List.pairwise_cons] at h
    unfold insertBy
    split
    · rename_i hlt
      rw [List.pairwise_cons, List.pairwise_cons]
      refine ⟨?_, h⟩
      intro y hy
      cases List.mem_cons.1 hy with
      | inl e => subst e; exact hlt
      | inr e => exact strLt_trans _ _ _ hlt (h.1 y e)
    · rename_i hlt
      rw [List.pairwise_cons]
      refine ⟨?_, ih h.2 (fun y hy => hx y (List.mem_cons_of_mem _ hy))⟩
      intro y hy
      cases (mem_insertBy key x y l).1 hy with
      | inl e =>
        subst e
        exact strLt_total _ _ (hx z (List.mem_cons_self ..)) (by simpa using hlt)
      | inr e => exact h.1 y e

theorem sorted_sortBy (l : List α) (h : (l.map key).Nodup) : (sortBy key l).Pairwise (fun a b => strLt (key a) (key b) = true) := by
  induction l with
  | nil => exact List.Pairwise.nil
  | cons x l ih =>
    rw [List.map_cons, List.nodup_cons] at h
    rw [sortBy]
    apply sorted_insertBy key x _ (ih h.2)
    intro y hy e
    rw [mem_sortBy] at hy
    exact h.1 (e ▸ List.mem_map_of_mem hy)

theorem increasing_sortBy (l : List α) (h : (l.map key).Nodup) : Spec.Increasing ((sortBy key l).map key) := by
  unfold Spec.Increasing
  rw [List.pairwise_map]
  exact (sorted_sortBy key l h).imp (fun h => (strLt_iff _ _).1 h)

end

theorem mem_addAll (ns s : List Str) (n : Str) : n ∈ addAll s ns ↔ n ∈ s ∨ n ∈ ns := by
  unfold addAll
  induction ns generalizing s with
  | nil => simp
  | cons m ns ih =>
    rw [List.foldl_cons, ih]
    split
    · rename_i hm
      rw [List.mem_cons]
      constructor
      · rintro (h | h)
        · exact Or.inl h
        · exact Or.inr (Or.inr h)
      · rintro (h | h | h)
        · exact Or.inl h
        · subst h; exact Or.inl hm
        · exact Or.inr h
    · simp [or_assoc]

theorem nodup_addAll (ns s : List Str) (h : s.Nodup) : (addAll s ns).Nodup := by
  unfold addAll
  induction ns generalizing s with
  | nil => exact h
  | cons m ns ih =>
    rw [List.foldl_cons]
    apply ih
    split
    · exact h
    · rename_i hm
      rw [List.nodup_append]
      refine ⟨h, by simp, ?_⟩
      intro a ha b hb e
      simp at hb
      subst hb; subst e
      exact hm ha

end Verif.Defs
