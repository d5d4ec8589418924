import Verif.Uses.MatchLemmas
/-!
# The pairs of right-hand sides that match
-/
namespace Verif.Uses
open Verif.Uses.Spec
open Verif.Gram (matchRhs Item)

theorem mem_pairs {β : Type} (f : Nat → List Item → Nat → List Item → List β) (uss dss : List (List Item)) (x : β) :
    x ∈ pairs f uss dss ↔ ∃ (r : Nat) (us : List Item) (j : Nat) (ds : List Item), uss[r]? = some us ∧ dss[j]? = some ds ∧ x ∈ f r us j ds := by
  simp only [pairs, List.mem_flatMap, Prod.exists, List.mem_zipIdx_iff_getElem?]
  constructor
  · rintro ⟨us, r, h1, ds, j, h2, h3⟩; exact ⟨r, us, j, ds, h1, h2, h3⟩
  · rintro ⟨r, us, j, ds, h1, h2, h3⟩; exact ⟨us, r, h1, ds, j, h2, h3⟩

theorem zipIdx_increasing {α : Type} (l : List α) : l.zipIdx.Pairwise (fun a b => a.2 < b.2) := by
  have h : (l.zipIdx.map Prod.snd).Pairwise (· < ·) := by
    rw [List.zipIdx_map_snd]
    exact List.pairwise_lt_range'
  exact List.pairwise_map.1 h

/-- What is made for the pairs comes in their order. -/
theorem pairs_pairwise {β : Type} (f : Nat → List Item → Nat → List Item → List β) (uss dss : List (List Item)) (R : β → β → Prop)
    (h0 : ∀ r us j ds, (f r us j ds).Pairwise R)
    (h1 : ∀ r us j ds j' ds', j < j' → ∀ x ∈ f r us j ds, ∀ y ∈ f r us j' ds', R x y)
    (h2 : ∀ r us r' us' j ds j' ds', r < r' → ∀ x ∈ f r us j ds, ∀ y ∈ f r' us' j' ds', R x y) :
    (pairs f uss dss).Pairwise R := by
  unfold pairs
  rw [List.pairwise_flatMap]
  refine ⟨?_, ?_⟩
  · intro u _
    rw [List.pairwise_flatMap]
    refine ⟨fun d _ => h0 .., ?_⟩
    exact (zipIdx_increasing dss).imp (fun h x hx y hy => h1 _ _ _ _ _ _ h x hx y hy)
  · refine (zipIdx_increasing uss).imp ?_
    intro a b hab x hx y hy
    obtain ⟨d, _, hx⟩ := List.mem_flatMap.1 hx
    obtain ⟨d', _, hy⟩ := List.mem_flatMap.1 hy
    exact h2 _ _ _ _ _ _ _ _ hab x hx y hy

theorem mem_hits (c : Case) (r j : Nat) : (r, j) ∈ hits c.uss c.dss ↔ c.Hit r j := by
  unfold hits
  rw [mem_pairs]
  constructor
  · rintro ⟨r', us, j', ds, h1, h2, h3⟩
    split at h3
    · next hm =>
      simp only [List.mem_singleton, Prod.mk.injEq] at h3
      obtain ⟨rfl, rfl⟩ := h3
      obtain ⟨st, hs⟩ := match_iff.1 hm
      exact ⟨us, ds, st, h1, h2, hs⟩
    · simp at h3
  · rintro ⟨us, ds, st, h1, h2, h3⟩
    refine ⟨r, us, j, ds, h1, h2, ?_⟩
    rw [if_pos (match_iff.2 ⟨st, h3⟩)]
    exact List.mem_singleton.2 rfl

theorem hits_increasing (uss dss : List (List Item)) : LexIncreasing (hits uss dss) := by
  unfold LexIncreasing hits
  have hm : ∀ {r us j ds x}, x ∈ (if (matchRhs us ds).isSome = true then [(r, j)] else []) → x = ((r, j) : Nat × Nat) := by
    intro r us j ds x h
    split at h
    · simpa using h
    · simp at h
  apply pairs_pairwise
  · intro r us j ds
    split
    · exact List.pairwise_singleton ..
    · exact .nil
  · intro r us j ds j' ds' hj x hx y hy
    rw [hm hx, hm hy]
    exact Or.inr ⟨rfl, hj⟩
  · intro r us r' us' j ds j' ds' hr x hx y hy
    rw [hm hx, hm hy]
    exact Or.inl hr

theorem mem_disFor (c : Case) (r j : Nat) : j ∈ disFor (hits c.uss c.dss) r ↔ c.Hit r j := by
  rw [← mem_hits]
  simp only [disFor, List.mem_map, List.mem_filter, decide_eq_true_eq]
  constructor
  · rintro ⟨⟨a, b⟩, ⟨h1, h2⟩, h3⟩
    simp only at h2 h3; subst h2; subst h3; exact h1
  · intro h; exact ⟨(r, j), ⟨h, rfl⟩, rfl⟩

theorem mem_uisFor (c : Case) (r j : Nat) : r ∈ uisFor (hits c.uss c.dss) j ↔ c.Hit r j := by
  rw [← mem_hits]
  simp only [uisFor, List.mem_map, List.mem_filter, decide_eq_true_eq]
  constructor
  · rintro ⟨⟨a, b⟩, ⟨h1, h2⟩, h3⟩
    simp only at h2 h3; subst h2; subst h3; exact h1
  · intro h; exact ⟨(r, j), ⟨h, rfl⟩, rfl⟩

theorem disFor_increasing {ms : List (Nat × Nat)} (h : LexIncreasing ms) (r : Nat) : Increasing (disFor ms r) := by
  unfold Increasing disFor
  rw [List.pairwise_map]
  have h1 : (ms.filter (fun m => m.1 = r)).Pairwise (fun a b => a.1 < b.1 ∨ (a.1 = b.1 ∧ a.2 < b.2)) := h.sublist List.filter_sublist
  refine List.Pairwise.imp_of_mem ?_ h1
  intro a b ha hb hab
  simp only [List.mem_filter, decide_eq_true_eq] at ha hb
  omega

theorem uisFor_increasing {ms : List (Nat × Nat)} (h : LexIncreasing ms) (j : Nat) : Increasing (uisFor ms j) := by
  unfold Increasing uisFor
  rw [List.pairwise_map]
  have h1 : (ms.filter (fun m => m.2 = j)).Pairwise (fun a b => a.1 < b.1 ∨ (a.1 = b.1 ∧ a.2 < b.2)) := h.sublist List.filter_sublist
  refine List.Pairwise.imp_of_mem ?_ h1
  intro a b ha hb hab
  simp only [List.mem_filter, decide_eq_true_eq] at ha hb
  omega

/-- Lists of numbers with the same members, both increasing, are the same. -/
theorem increasing_unique : ∀ (xs ys : List Nat), Increasing xs → Increasing ys → (∀ n, n ∈ xs ↔ n ∈ ys) → xs = ys
  | [], [], _, _, _ => rfl
  | [], y :: ys, _, _, h => absurd ((h y).2 (List.mem_cons_self ..)) (by simp)
  | x :: xs, [], _, _, h => absurd ((h x).1 (List.mem_cons_self ..)) (by simp)
  | x :: xs, y :: ys, hx, hy, h => by
    have hx' := List.pairwise_cons.1 hx
    have hy' := List.pairwise_cons.1 hy
    have hxy : x = y := by
      have h1 := (h x).1 (List.mem_cons_self ..)
      have h2 := (h y).2 (List.mem_cons_self ..)
      simp only [List.mem_cons] at h1 h2
      rcases h1 with h1 | h1
      · exact h1
      · rcases h2 with h2 | h2
        · exact h2.symm
        · have := hx'.1 y h2
          have := hy'.1 x h1
          omega
    subst hxy
    rw [increasing_unique xs ys hx'.2 hy'.2 ?_]
    intro n
    have := h n
    simp only [List.mem_cons] at this
    constructor
    · intro hn
      rcases this.1 (Or.inr hn) with rfl | h'
      · exact absurd (hx'.1 n hn) (Nat.lt_irrefl _)
      · exact h'
    · intro hn
      rcases this.2 (Or.inr hn) with rfl | h'
      · exact absurd (hy'.1 n hn) (Nat.lt_irrefl _)
      · exact h'

/-- The same for pairs. -/
theorem lexIncreasing_unique : ∀ (xs ys : List (Nat × Nat)), LexIncreasing xs → LexIncreasing ys → (∀ n, n ∈ xs ↔ n ∈ ys) → xs = ys
  | [], [], _, _, _ => rfl
  | [], y :: ys, _, _, h => absurd ((h y).2 (List.mem_cons_self ..)) (by simp)
  | x :: xs, [], _, _, h => absurd ((h x).1 (List.mem_cons_self ..)) (by simp)
  | x :: xs, y :: ys, hx, hy, h => by
    have hx' := List.pairwise_cons.1 hx
    have hy' := List.pairwise_cons.1 hy
    have hxy : x = y := by
      have h1 := (h x).1 (List.mem_cons_self ..)
      have h2 := (h y).2 (List.mem_cons_self ..)
      simp only [List.mem_cons] at h1 h2
      rcases h1 with h1 | h1
      · exact h1
      · rcases h2 with h2 | h2
        · exact h2.symm
        · have := hx'.1 y h2
          have := hy'.1 x h1
          omega
    subst hxy
    rw [lexIncreasing_unique xs ys hx'.2 hy'.2 ?_]
    intro n
    have := h n
    simp only [List.mem_cons] at this
    constructor
    · intro hn
      rcases this.1 (Or.inr hn) with rfl | h'
      · have := hx'.1 n hn; omega
      · exact h'
    · intro hn
      rcases this.2 (Or.inr hn) with rfl | h'
      · have := hy'.1 n hn; omega
      · exact h'

/-! ## Sorting -/

theorem mem_insertNat (x y : Nat) : ∀ ys, y ∈ insertNat x ys ↔ y = x ∨ y ∈ ys
  | [] => by simp [insertNat]
  | z :: zs => by
    unfold insertNat
    split
    · simp
    · simp only [List.mem_cons, mem_insertNat x y zs]
      constructor
      · rintro (h | h | h) <;> simp [h]
      · rintro (h | h | h) <;> simp [h]

theorem sorted_insertNat (x : Nat) : ∀ ys, ys.Pairwise (· ≤ ·) → (insertNat x ys).Pairwise (· ≤ ·)
  | [], _ => by simp [insertNat]
  | z :: zs, h => by
    have h' := List.pairwise_cons.1 h
    unfold insertNat
    split
    · next hx =>
      refine List.pairwise_cons.2 ⟨?_, h⟩
      intro a ha
      simp only [List.mem_cons] at ha
      rcases ha with rfl | ha
      · exact hx
      · exact Nat.le_trans hx (h'.1 a ha)
    · next hx =>
      refine List.pairwise_cons.2 ⟨?_, sorted_insertNat x zs h'.2⟩
      intro a ha
      rcases (mem_insertNat x a zs).1 ha with rfl | ha
      · omega
      · exact h'.1 a ha

theorem sorted_sortNat : ∀ xs, (sortNat xs).Pairwise (· ≤ ·)
  | [] => .nil
  | x :: xs => sorted_insertNat x _ (sorted_sortNat xs)

theorem sortNat_of_sorted : ∀ xs, xs.Pairwise (· ≤ ·) → sortNat xs = xs
  | [], _ => rfl
  | x :: xs, h => by
    have h' := List.pairwise_cons.1 h
    unfold sortNat
    rw [sortNat_of_sorted xs h'.2]
    cases xs with
    | nil => rfl
    | cons y ys =>
      unfold insertNat
      rw [if_pos (h'.1 y (List.mem_cons_self ..))]

theorem sortNat_iff (xs : List Nat) : xs = sortNat xs ↔ xs.Pairwise (· ≤ ·) := by
  constructor
  · intro h; rw [h]; exact sorted_sortNat xs
  · intro h; exact (sortNat_of_sorted xs h).symm

/-- The numbers of the definition are in order iff no later use has an earlier one. -/
theorem unsorted_iff {ms : List (Nat × Nat)} (h : LexIncreasing ms) :
    ¬(ms.map (·.2)).Pairwise (· ≤ ·) ↔ ∃ r j r' j', (r, j) ∈ ms ∧ (r', j') ∈ ms ∧ r < r' ∧ j' < j := by
  induction ms with
  | nil => simp
  | cons m ms ih =>
    have h' := List.pairwise_cons.1 h
    rw [List.map_cons, List.pairwise_cons, Classical.not_and_iff_not_or_not, ih h'.2]
    constructor
    · rintro (hn | ⟨r, j, r', j', h1, h2, h3, h4⟩)
      · simp only [Classical.not_forall, List.mem_map] at hn
        obtain ⟨_, ⟨b, hb, rfl⟩, hlt⟩ := hn
        have := h'.1 b hb
        exact ⟨m.1, m.2, b.1, b.2, List.mem_cons_self .., List.mem_cons_of_mem _ hb, by omega, by omega⟩
      · exact ⟨r, j, r', j', List.mem_cons_of_mem _ h1, List.mem_cons_of_mem _ h2, h3, h4⟩
    · rintro ⟨r, j, r', j', h1, h2, h3, h4⟩
      simp only [List.mem_cons] at h1 h2
      rcases h1 with h1 | h1
      · rcases h2 with h2 | h2
        · rw [← h1] at h2; cases h2; omega
        · refine Or.inl ?_
          intro hall
          have := hall j' (List.mem_map.2 ⟨(r', j'), h2, rfl⟩)
          rw [← h1] at this
          simp only at this
          omega
      · rcases h2 with h2 | h2
        · have := h'.1 _ h1
          rw [← h2] at this
          simp only at this
          omega
        · exact Or.inr ⟨r, j, r', j', h1, h2, h3, h4⟩

theorem firsts_sorted {ms : List (Nat × Nat)} (h : LexIncreasing ms) : (ms.map (·.1)).Pairwise (· ≤ ·) := by
  rw [List.pairwise_map]
  exact h.imp (fun h => by omega)

/-- The least of the numbers. -/
theorem foldl_min (ds : List Nat) : ∀ d, (ds.foldl min d = d ∨ ds.foldl min d ∈ ds) ∧ ds.foldl min d ≤ d ∧ ∀ x ∈ ds, ds.foldl min d ≤ x := by
  induction ds with
  | nil => intro d; simp
  | cons e ds ih =>
    intro d
    obtain ⟨h1, h2, h3⟩ := ih (min d e)
    simp only [List.foldl_cons, List.mem_cons]
    refine ⟨?_, by omega, ?_⟩
    · rcases h1 with h1 | h1
      · rw [h1]
        rcases Nat.le_total d e with h | h
        · exact Or.inl (Nat.min_eq_left h)
        · exact Or.inr (Or.inl (Nat.min_eq_right h))
      · exact Or.inr (Or.inr h1)
    · rintro x (rfl | hx)
      · omega
      · exact h3 x hx

theorem foundFor_none (dis : List Nat) : foundFor dis = none ↔ ∀ j, j ∉ dis := by
  match dis with
  | [] => simp [foundFor]
  | [d] =>
    simp only [foundFor, reduceCtorEq, false_iff]
    intro h; exact h d (List.mem_cons_self ..)
  | d :: e :: ds =>
    simp only [foundFor, reduceCtorEq, false_iff]
    intro h; exact h d (List.mem_cons_self ..)

theorem foundFor_some (dis : List Nat) (j : Nat) : foundFor dis = some j ↔ j ∈ dis ∧ ∀ k ∈ dis, j ≤ k := by
  match dis with
  | [] => simp [foundFor]
  | [d] =>
    simp only [foundFor, Option.some.injEq, List.mem_singleton]
    constructor
    · rintro rfl; exact ⟨rfl, fun k h => by omega⟩
    · rintro ⟨rfl, _⟩; rfl
  | d :: e :: ds =>
    obtain ⟨h1, h2, h3⟩ := foldl_min (e :: ds) d
    have h4 : (e :: ds).foldl min d ∈ d :: e :: ds := by
      rcases h1 with h1 | h1
      · rw [h1]; exact List.mem_cons_self ..
      · exact List.mem_cons_of_mem _ h1
    have h5 : ∀ k ∈ d :: e :: ds, (e :: ds).foldl min d ≤ k := by
      intro k hk
      rcases List.mem_cons.1 hk with rfl | hk
      · exact h2
      · exact h3 k hk
    simp only [foundFor, Option.some.injEq]
    constructor
    · rintro rfl; exact ⟨h4, h5⟩
    · rintro ⟨h6, h7⟩
      exact Nat.le_antisymm (h5 _ h6) (h7 _ h4)

end Verif.Uses
