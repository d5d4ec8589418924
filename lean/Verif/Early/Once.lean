import Verif.Early.Lemmas
/-!
# No node is met twice
-/
namespace Verif.Early

section
variable {P : Type}

mutual
/-- All nodes met, whether or not they cover something. -/
inductive Met (K : Covering P) : Tree P → List Nat → Prop
  | leaf : Met K .leaf []
  | covers {i s p ts u ms} : K i = some (some u) → Met K u ms → Met K (.node i s p ts) (i :: ms)
  | shouldCover {i s p ts} : K i = some none → Met K (.node i s p ts) [i]
  | plain {i s p ts ms} : K i = none → MetAll K ts ms → Met K (.node i s p ts) (i :: ms)
inductive MetAll (K : Covering P) : List (Tree P) → List Nat → Prop
  | nil : MetAll K [] []
  | cons {t ts ms ns} : Met K t ms → MetAll K ts ns → MetAll K (t :: ts) (ms ++ ns)
end

mutual
theorem met_of_nodes {K : Covering P} : ∀ {t ns}, Nodes K t ns → ∃ ms, Met K t ms ∧ (ns.flatMap Tree.id?).Sublist ms
  | _, _, .leaf => ⟨_, .leaf, by simp⟩
  | _, _, .covers h1 h2 => by
    obtain ⟨ms, a, b⟩ := met_of_nodes h2
    exact ⟨_, .covers h1 a, b.cons _⟩
  | _, _, .shouldCover h1 => ⟨_, .shouldCover h1, by simp⟩
  | _, _, .plain (i := i) h1 h2 => by
    obtain ⟨ms, a, b⟩ := metAll_of_nodes h2
    exact ⟨_, .plain h1 a, by simpa [Tree.id?] using b⟩
theorem metAll_of_nodes {K : Covering P} : ∀ {ts ns}, NodesAll K ts ns → ∃ ms, MetAll K ts ms ∧ (ns.flatMap Tree.id?).Sublist ms
  | _, _, .nil => ⟨_, .nil, by simp⟩
  | _, _, .cons h1 h2 => by
    obtain ⟨ms, a, b⟩ := met_of_nodes h1
    obtain ⟨ms', a', b'⟩ := metAll_of_nodes h2
    exact ⟨_, .cons a a', by rw [List.flatMap_append]; exact b.append b'⟩
end

/-- The identities in the tree that a node covers. -/
def below (K : Covering P) (i : Nat) : List Nat :=
  match K i with
  | some a => idsOf a
  | none => []

mutual
theorem met_count {K : Covering P} (i : Nat) : ∀ {t ms}, Met K t ms → ms.count i ≤ (ids t).count i + (ms.flatMap (below K)).count i
  | _, _, .leaf => by simp
  | _, _, .covers (i := j) (ts := ts) (u := u) h1 h2 => by
    have := met_count i h2
    have hb : below K j = ids u := by simp [below, h1, idsOf]
    simp only [ids, List.count_cons, List.flatMap_cons, List.count_append, hb] at this ⊢
    omega
  | _, _, .shouldCover (i := j) (ts := ts) h1 => by
    simp only [ids, List.count_cons, List.count_nil]
    omega
  | _, _, .plain (i := j) (ts := ts) h1 h2 => by
    have := metAll_count i h2
    simp only [ids, List.count_cons, List.flatMap_cons, List.count_append] at this ⊢
    omega
theorem metAll_count {K : Covering P} (i : Nat) : ∀ {ts ms}, MetAll K ts ms → ms.count i ≤ (idsAll ts).count i + (ms.flatMap (below K)).count i
  | _, _, .nil => by simp
  | _, _, .cons h1 h2 => by
    have a := met_count i h1
    have b := metAll_count i h2
    simp only [idsAll, List.flatMap_append, List.count_append] at a b ⊢
    omega
end

theorem count_flatMap_single (f : Nat → List Nat) (i c : Nat) : ∀ ms : List Nat, (∀ x ∈ ms, x ≠ c → (f x).count i = 0) →
    (ms.flatMap f).count i = ms.count c * (f c).count i
  | [], _ => by simp
  | x :: ms, h => by
    have ih := count_flatMap_single f i c ms (fun y hy => h y (List.mem_cons_of_mem _ hy))
    simp only [List.flatMap_cons, List.count_append, ih, List.count_cons]
    by_cases hx : x = c
    · subst hx
      simp [Nat.succ_mul, Nat.add_comm]
    · simp [hx, h x List.mem_cons_self hx]

theorem mem_of_lookup : ∀ (c : List (Nat × Option (Tree P))) (i a), lookup c i = some a → (i, a) ∈ c
  | [], _, _, h => by cases h
  | (j, b) :: c, i, a, h => by
    simp only [lookup] at h
    by_cases hj : j = i
    · simp [hj] at h
      subst hj h
      exact List.mem_cons_self
    · simp only [hj, if_false] at h
      exact List.mem_cons_of_mem _ (mem_of_lookup c i a h)

theorem flatMap_once {α : Type} (f : α → List Nat) : ∀ (l : List α) (i : Nat), (l.flatMap f).Nodup → ∀ x ∈ l, ∀ y ∈ l, i ∈ f x → i ∈ f y → x = y
  | [], _, _, x, hx, _, _, _, _ => by cases hx
  | a :: l, i, h, x, hx, y, hy, h1, h2 => by
    rw [List.flatMap_cons, List.nodup_append] at h
    obtain ⟨_, h4, h5⟩ := h
    rcases List.mem_cons.1 hx with e | hx'
    · subst e
      rcases List.mem_cons.1 hy with e | hy
      · exact e.symm
      · exact absurd rfl (h5 i h1 i (List.mem_flatMap.2 ⟨y, hy, h2⟩))
    · rcases List.mem_cons.1 hy with e | hy
      · subst e
        exact absurd rfl (h5 i h2 i (List.mem_flatMap.2 ⟨x, hx', h1⟩))
      · exact flatMap_once f l i h4 x hx' y hy h1 h2

theorem met_once {t : Tree P} {c : List (Nat × Option (Tree P))} (hd : Distinct t c) {ms} (h : Met (lookup c) t ms) : ms.Nodup := by
  have key : ∀ n i, i < n → ms.count i ≤ 1 := by
    intro n
    induction n with
    | zero => intro i hi; omega
    | succ n ih =>
      intro i hi
      have hc := met_count i h
      have h0 := (List.nodup_append.1 hd.nodup)
      obtain ⟨h1, h2, h3⟩ := h0
      have c1 : (ids t).count i ≤ 1 := (List.nodup_iff_count.1 h1) i
      by_cases hz : (ms.flatMap (below (lookup c))).count i = 0
      · omega
      · have hm : i ∈ ms.flatMap (below (lookup c)) := List.count_pos_iff.1 (by omega)
        obtain ⟨c0, hc0, hi0⟩ := List.mem_flatMap.1 hm
        have own : ∀ x, i ∈ below (lookup c) x → ∃ a, lookup c x = some a ∧ i ∈ idsOf a ∧ (x, a) ∈ c := by
          intro x hx
          unfold below at hx
          cases hl : lookup c x with
          | none => rw [hl] at hx; cases hx
          | some a => rw [hl] at hx; exact ⟨a, rfl, hx, mem_of_lookup c x a hl⟩
        obtain ⟨a0, l0, i0, m0⟩ := own c0 hi0
        have hlt : c0 < i := hd.newer _ m0 i i0
        have e := count_flatMap_single (below (lookup c)) i c0 ms (fun x _ hne => by
          by_cases hx : i ∈ below (lookup c) x
          · obtain ⟨a, l, j, m⟩ := own x hx
            have := flatMap_once (fun p : Nat × Option (Tree P) => idsOf p.2) c i h2 _ m _ m0 j i0
            injection this with this _
            exact absurd this hne
          · exact List.count_eq_zero.2 hx)
        have k1 : ms.count c0 ≤ 1 := ih c0 (by omega)
        have k2 : (below (lookup c) c0).count i ≤ 1 := by
          have : below (lookup c) c0 = idsOf a0 := by simp [below, l0]
          rw [this]
          have hn : (idsOf a0).Nodup := by
            have := List.Sublist.nodup (l₁ := idsOf a0) ?_ h2
            · exact this
            · obtain ⟨l1, l2, e⟩ := List.append_of_mem m0
              rw [e]
              simp only [List.flatMap_append, List.flatMap_cons]
              exact (List.sublist_append_left _ _).trans (List.sublist_append_right _ _)
          exact (List.nodup_iff_count.1 hn) i
        have k3 : (ids t).count i = 0 := List.count_eq_zero.2 (fun hi => h3 i hi i (List.mem_flatMap.2 ⟨_, m0, i0⟩) rfl)
        have k4 : ms.count c0 * (below (lookup c) c0).count i ≤ 1 * 1 := Nat.mul_le_mul k1 k2
        omega
  rw [List.nodup_iff_count]
  intro i
  exact key (i + 1) i (by omega)

end
end Verif.Early
