import Verif.Intrin.Lemmas
/-! # Lemmas on the order of creation -/
namespace Verif.Intrin

theorem chain_unique {w : World} {x : String} {r : Nat} (h : Chain w x r) : ∀ {s}, Chain w x s → r = s := by
  induction h with
  | base h1 h2 =>
    intro s k
    cases k with
    | base => rfl
    | step k1 k2 k3 =>
      rw [h1] at k1; injection k1 with k1; subst k1
      exact absurd h2 (fun h => h.elim k2 k3)
  | step h1 h2 h3 h4 _ ih =>
    intro s k
    cases k with
    | base k1 k2 =>
      rw [h1] at k1; injection k1 with k1; subst k1
      exact absurd k2 (fun h => h.elim h2 h3)
    | step k1 _ _ _ k5 =>
      rw [h1] at k1; injection k1 with k1; subst k1
      rw [ih k5]

theorem chain_not_broken {w : World} {x : String} {r : Nat} (h : Chain w x r) : ¬ Broken w x := by
  induction h with
  | base h1 h2 =>
    intro k
    cases k with
    | missing k => rw [h1] at k; cases k
    | unknown k1 k2 k3 _ => rw [h1] at k1; injection k1 with k1; subst k1; exact h2.elim k2 k3
    | step k1 k2 k3 _ _ => rw [h1] at k1; injection k1 with k1; subst k1; exact h2.elim k2 k3
  | step h1 h2 h3 h4 _ ih =>
    intro k
    cases k with
    | missing k => rw [h1] at k; cases k
    | unknown k1 _ _ k4 => rw [h1] at k1; injection k1 with k1; subst k1; exact k4 h4
    | step k1 _ _ _ k5 => rw [h1] at k1; injection k1 with k1; subst k1; exact ih k5

theorem rank_spec (w : World) : ∀ (n : Nat) (memo : String → Option Nat) (x : String),
    (∀ y r, memo y = some r → Chain w y r) →
    (∀ memo' r, rank w n memo x = .ok (memo', r) → Chain w x r ∧ ∀ y s, memo' y = some s → Chain w y s) ∧
    (rank w n memo x = .error .crash → Broken w x) ∧
    (∀ r, Chain w x r → r < n → ∃ memo', rank w n memo x = .ok (memo', r))
  | 0, memo, x, _ => ⟨(fun _ _ h => by cases h), (fun h => by cases h), fun r _ h => absurd h (by omega)⟩
  | n + 1, memo, x, hm => by
    rw [rank]
    cases hx : memo x with
    | some r =>
      dsimp only
      refine ⟨fun memo' r' h => ?_, (fun h => by cases h), fun r' hc _ => ?_⟩
      · injection h with h; injection h with h1 h2; subst h1 h2; exact ⟨hm x r hx, hm⟩
      · rw [chain_unique (hm x r hx) hc]; exact ⟨memo, rfl⟩
    | none =>
      dsimp only
      cases hp : (w.info x).slots "[[Prototype]]" with
      | none =>
        dsimp only
        refine ⟨(fun _ _ h => by cases h), fun _ => .missing hp, fun r hc _ => ?_⟩
        exact absurd (.missing hp) (chain_not_broken hc)
      | some p =>
        dsimp only
        by_cases h0 : p = "*null*" ∨ p = "host-defined"
        · rw [if_pos h0]
          have hb : Chain w x 0 := .base hp h0
          refine ⟨fun memo' r' h => ?_, (fun h => by cases h), fun r' hc _ => ?_⟩
          · injection h with h; injection h with h1 h2; subst h1 h2
            refine ⟨hb, fun y s hs => ?_⟩
            by_cases e : y = x
            · subst e; rw [upd_self] at hs; injection hs with hs; subst hs; exact hb
            · rw [upd_ne _ _ e] at hs; exact hm y s hs
          · rw [← chain_unique hb hc]; exact ⟨_, rfl⟩
        · rw [if_neg h0]
          have h1 : p ≠ "*null*" := fun e => h0 (Or.inl e)
          have h2 : p ≠ "host-defined" := fun e => h0 (Or.inr e)
          by_cases hin : p ∈ w.names
          · rw [if_pos hin]
            obtain ⟨i1, i2, i3⟩ := rank_spec w n memo p hm
            refine ⟨fun memo' r' h => ?_, fun h => ?_, fun r' hc hlt => ?_⟩
            · cases hr : rank w n memo p with
              | error e => rw [hr] at h; cases h
              | ok q =>
                obtain ⟨m1, r1⟩ := q
                rw [hr] at h
                dsimp only at h
                injection h with h; injection h with h3 h4; subst h3 h4
                obtain ⟨j1, j2⟩ := i1 m1 r1 hr
                have hb : Chain w x (1 + r1) := by rw [Nat.add_comm]; exact .step hp h1 h2 hin j1
                refine ⟨hb, fun y s hs => ?_⟩
                by_cases e : y = x
                · subst e; rw [upd_self] at hs; injection hs with hs; subst hs; exact hb
                · rw [upd_ne _ _ e] at hs; exact j2 y s hs
            · cases hr : rank w n memo p with
              | error e =>
                rw [hr] at h
                dsimp only at h
                injection h with h; subst h
                exact .step hp h1 h2 hin (i2 hr)
              | ok q => rw [hr] at h; cases h
            · cases hc with
              | base k1 k2 => rw [hp] at k1; injection k1 with k1; subst k1; exact absurd k2 h0
              | step k1 _ _ _ k5 =>
                rw [hp] at k1; injection k1 with k1; subst k1
                obtain ⟨m1, hr⟩ := i3 _ k5 (by omega)
                rw [hr]
                dsimp only
                rw [Nat.add_comm]
                exact ⟨_, rfl⟩
          · rw [if_neg hin]
            refine ⟨(fun _ _ h => by cases h), fun _ => .unknown hp h1 h2 hin, fun r hc _ => ?_⟩
            exact absurd (.unknown hp h1 h2 hin) (chain_not_broken hc)

/-- No chain is longer than there are intrinsics. -/
theorem chain_lt {w : World} (x : String) (r : Nat) (h : Chain w x r) (hx : x ∈ w.names) : r < w.names.length := by
  have : ∃ l : List String, l.length = r + 1 ∧ l.Nodup ∧ (∀ y ∈ l, y ∈ w.names) ∧ ∀ y ∈ l, ∃ j, j ≤ r ∧ Chain w y j := by
    induction h with
    | @base x p h1 h2 => exact ⟨[x], rfl, by simp, by simpa using hx, by simpa using Chain.base h1 h2⟩
    | @step x p r h1 h2 h3 h4 h5 ih =>
      obtain ⟨l, l1, l2, l3, l4⟩ := ih h4
      refine ⟨x :: l, by simp [l1], List.nodup_cons.mpr ⟨fun hm => ?_, l2⟩, ?_, ?_⟩
      · obtain ⟨j, j1, j2⟩ := l4 x hm
        have := chain_unique (.step h1 h2 h3 h4 h5) j2
        omega
      · intro y hy
        rcases List.mem_cons.mp hy with rfl | hy
        · exact hx
        · exact l3 y hy
      · intro y hy
        rcases List.mem_cons.mp hy with rfl | hy
        · exact ⟨r + 1, Nat.le_refl _, .step h1 h2 h3 h4 h5⟩
        · obtain ⟨j, j1, j2⟩ := l4 y hy; exact ⟨j, by omega, j2⟩
  obtain ⟨l, l1, l2, l3, _⟩ := this
  have := nodup_length_le l2 l3
  omega

/-- The groups by rank. -/
structure Groups (w : World) (done : List String) (d : List (Nat × List String)) : Prop where
  keys : (d.map (·.1)).Nodup
  ranks : ∀ g ∈ d, ∀ x ∈ g.2, Chain w x g.1
  perm : (d.flatMap (·.2)).Perm done

theorem addToRank_keys (r : Nat) (x : String) : ∀ d : List (Nat × List String), (d.map (·.1)).Nodup →
    ((addToRank d r x).map (·.1)).Nodup ∧ ∀ k, k ∈ (addToRank d r x).map (·.1) → k ∈ d.map (·.1) ∨ k = r
  | [], _ => by simp [addToRank]
  | (q, xs) :: d, h => by
    rw [List.map_cons, List.nodup_cons] at h
    rw [addToRank]
    by_cases e : q = r
    · rw [if_pos e]
      exact ⟨List.nodup_cons.mpr h, fun k hk => Or.inl hk⟩
    · rw [if_neg e]
      obtain ⟨i1, i2⟩ := addToRank_keys r x d h.2
      refine ⟨?_, fun k hk => ?_⟩
      · rw [List.map_cons, List.nodup_cons]
        exact ⟨fun hq => (i2 _ hq).elim h.1 e, i1⟩
      · rw [List.map_cons, List.mem_cons] at hk ⊢
        rcases hk with hk | hk
        · exact Or.inl (Or.inl hk)
        · exact (i2 k hk).elim (fun h => Or.inl (Or.inr h)) Or.inr

theorem addToRank_mem (r : Nat) (x : String) : ∀ (d : List (Nat × List String)) (g : Nat × List String), g ∈ addToRank d r x →
    ∀ y ∈ g.2, (∃ g' ∈ d, g'.1 = g.1 ∧ y ∈ g'.2) ∨ (g.1 = r ∧ y = x)
  | [], g, h => by
    intro y hy
    rw [addToRank, List.mem_singleton] at h; subst h
    exact Or.inr ⟨rfl, by simpa using hy⟩
  | (q, xs) :: d, g, h => by
    intro y hy
    rw [addToRank] at h
    by_cases e : q = r
    · rw [if_pos e] at h
      rcases List.mem_cons.mp h with rfl | h
      · rcases List.mem_append.mp hy with hy | hy
        · exact Or.inl ⟨(q, xs), List.mem_cons_self .., rfl, hy⟩
        · exact Or.inr ⟨e, by simpa using hy⟩
      · exact Or.inl ⟨g, List.mem_cons_of_mem _ h, rfl, hy⟩
    · rw [if_neg e] at h
      rcases List.mem_cons.mp h with rfl | h
      · exact Or.inl ⟨_, List.mem_cons_self .., rfl, hy⟩
      · rcases addToRank_mem r x d g h y hy with ⟨g', h1, h2⟩ | h1
        · exact Or.inl ⟨g', List.mem_cons_of_mem _ h1, h2⟩
        · exact Or.inr h1

theorem addToRank_perm (r : Nat) (x : String) : ∀ d : List (Nat × List String),
    ((addToRank d r x).flatMap (·.2)).Perm (d.flatMap (·.2) ++ [x])
  | [] => by simp [addToRank]
  | (q, xs) :: d => by
    rw [addToRank]
    by_cases e : q = r
    · rw [if_pos e, List.flatMap_cons, List.flatMap_cons, List.append_assoc, List.append_assoc]
      exact (List.perm_append_comm).append_left xs
    · rw [if_neg e, List.flatMap_cons, List.flatMap_cons, List.append_assoc]
      exact (addToRank_perm r x d).append_left xs

theorem rankLoop_spec (w : World) (n : Nat) : ∀ (xs done : List String) (memo : String → Option Nat) (d : List (Nat × List String)),
    (∀ y r, memo y = some r → Chain w y r) → Groups w done d →
    (∀ d', rankLoop w n xs memo d = .ok d' → Groups w (done ++ xs) d' ∧ ∀ x ∈ xs, ∃ r, Chain w x r) ∧
    (rankLoop w n xs memo d = .error .crash → ∃ x ∈ xs, Broken w x) ∧
    ((∀ x ∈ xs, ∃ r, Chain w x r ∧ r < n) → ∃ d', rankLoop w n xs memo d = .ok d')
  | [], done, memo, d, _, hg => by
    refine ⟨fun d' h => ?_, (fun h => by cases h), fun _ => ⟨d, rfl⟩⟩
    injection h with h; subst h
    rw [List.append_nil]
    exact ⟨hg, fun x hx => by cases hx⟩
  | x :: xs, done, memo, d, hm, hg => by
    rw [rankLoop]
    obtain ⟨i1, i2, i3⟩ := rank_spec w n memo x hm
    cases hr : rank w n memo x with
    | error e =>
      dsimp only
      refine ⟨(fun _ h => by cases h), fun h => ?_, fun h => ?_⟩
      · injection h with h; subst h; exact ⟨x, List.mem_cons_self .., i2 hr⟩
      · obtain ⟨r, r1, r2⟩ := h x (List.mem_cons_self ..)
        obtain ⟨m', hm'⟩ := i3 r r1 r2
        rw [hr] at hm'; cases hm'
    | ok q =>
      obtain ⟨m1, r1⟩ := q
      dsimp only
      obtain ⟨j1, j2⟩ := i1 m1 r1 hr
      have hg' : Groups w (done ++ [x]) (addToRank d r1 x) := by
        refine ⟨(addToRank_keys r1 x d hg.keys).1, fun g hgm y hy => ?_, ?_⟩
        · rcases addToRank_mem r1 x d g hgm y hy with ⟨g', k1, k2, k3⟩ | ⟨k1, k2⟩
          · rw [← k2]; exact hg.ranks g' k1 y k3
          · rw [k1, k2]; exact j1
        · exact (addToRank_perm r1 x d).trans (hg.perm.append_right _)
      obtain ⟨k1, k2, k3⟩ := rankLoop_spec w n xs (done ++ [x]) m1 _ j2 hg'
      refine ⟨fun d' h => ?_, fun h => ?_, fun h => ?_⟩
      · obtain ⟨l1, l2⟩ := k1 d' h
        rw [List.append_assoc] at l1
        refine ⟨l1, fun y hy => ?_⟩
        rcases List.mem_cons.mp hy with rfl | hy
        · exact ⟨r1, j1⟩
        · exact l2 y hy
      · obtain ⟨y, h1, h2⟩ := k2 h
        exact ⟨y, List.mem_cons_of_mem _ h1, h2⟩
      · exact k3 (fun y hy => h y (List.mem_cons_of_mem _ hy))

theorem groups_sorted {w : World} {names : List String} {d : List (Nat × List String)} (hg : Groups w names d) (le : String → String → Bool)
    (htrans : ∀ a b c, le a b = true → le b c = true → le a c = true) (htotal : ∀ a b, (le a b || le b a) = true) :
    ((d.mergeSort (fun a b => decide (a.1 ≤ b.1))).flatMap (fun g => g.2.mergeSort le)).Perm names ∧
    ((d.mergeSort (fun a b => decide (a.1 ≤ b.1))).flatMap (fun g => g.2.mergeSort le)).Pairwise
      (fun x y => ∃ r s, Chain w x r ∧ Chain w y s ∧ (r < s ∨ (r = s ∧ le x y = true))) := by
  have hp := List.mergeSort_perm d (fun a b => decide (a.1 ≤ b.1))
  have hs := List.pairwise_mergeSort (le := fun (a b : Nat × List String) => decide (a.1 ≤ b.1))
    (by intro a b c; simp; omega) (by intro a b; simp; omega) d
  have hnd : ((d.mergeSort (fun a b => decide (a.1 ≤ b.1))).map (·.1)).Nodup := (hp.map _).nodup_iff.mpr hg.keys
  constructor
  · refine List.Perm.trans ?_ hg.perm
    refine List.Perm.trans ?_ (hp.flatMap_right (·.2))
    generalize d.mergeSort _ = l
    induction l with
    | nil => exact .refl _
    | cons g l ih =>
      rw [List.flatMap_cons, List.flatMap_cons]
      exact (List.mergeSort_perm _ _).append ih
  · rw [List.pairwise_flatMap]
    constructor
    · intro g hgm
      have hsort := List.pairwise_mergeSort (le := le) htrans htotal g.2
      have hr := hg.ranks g (hp.mem_iff.mp hgm)
      refine (List.pairwise_iff_forall_sublist.mpr fun {a b} hab => ?_)
      have h1 := List.pairwise_iff_forall_sublist.mp hsort hab
      have hma : a ∈ g.2 := List.mem_mergeSort.mp (hab.subset (by simp))
      have hmb : b ∈ g.2 := List.mem_mergeSort.mp (hab.subset (by simp))
      exact ⟨g.1, g.1, hr a hma, hr b hmb, Or.inr ⟨rfl, h1⟩⟩
    · have hnd' : (d.mergeSort (fun a b => decide (a.1 ≤ b.1))).Pairwise (fun a b => a.1 ≠ b.1) := by
        rw [List.Nodup, List.pairwise_map] at hnd; exact hnd
      refine (hs.and hnd').imp_of_mem ?_
      intro a b ha hb ⟨h1, h2⟩ x hx y hy
      have h1 : a.1 ≤ b.1 := of_decide_eq_true h1
      refine ⟨a.1, b.1, hg.ranks a (hp.mem_iff.mp ha) x (List.mem_mergeSort.mp hx),
        hg.ranks b (hp.mem_iff.mp hb) y (List.mem_mergeSort.mp hy), Or.inl ?_⟩
      omega

end Verif.Intrin
