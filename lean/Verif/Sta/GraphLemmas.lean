import Verif.Sta.Spec
import Verif.Graph.Props
import Verif.Records.Tree
/-! # The levels that `Graph` computes are a good order for the analysis -/
namespace Verif.Sta
open Verif.Graph
variable {T E : Type}

/-- The clusters of the levels, as the analysis iterates over them (pseudocode_semantics.py:137, 1285-1317): `cluster.members` for each
cluster of each level. -/
def levelsOf (cs : List (Cluster Nat)) (ls : List (List Nat)) : List (List (List Nat)) :=
  ls.map (fun l => l.filterMap (fun i => (cs[i]?).map Cluster.members))

theorem flatten_split (ls : List (List (List Nat))) : ∀ (pre : List (List Nat)) (c : List Nat) (post : List (List Nat)),
    ls.flatten = pre ++ c :: post → ∃ (i : Nat) (l : List (List Nat)), ls[i]? = some l ∧ c ∈ l ∧ ∀ d ∈ post, ∃ (j : Nat) (m : List (List Nat)), i ≤ j ∧ ls[j]? = some m ∧ d ∈ m := by
  induction ls with
  | nil => intro pre c post h; simp at h
  | cons l ls ih =>
    intro pre c post h
    have shift : ∀ pre', ls.flatten = pre' ++ c :: post → ∃ (i : Nat) (l' : List (List Nat)), (l :: ls)[i]? = some l' ∧ c ∈ l' ∧
        ∀ d ∈ post, ∃ (j : Nat) (m : List (List Nat)), i ≤ j ∧ (l :: ls)[j]? = some m ∧ d ∈ m := by
      intro pre' h'
      obtain ⟨i, l', h1, h2, h3⟩ := ih pre' c post h'
      refine ⟨i + 1, l', by simpa using h1, h2, ?_⟩
      intro d hd
      obtain ⟨j, m, h4, h5, h6⟩ := h3 d hd
      exact ⟨j + 1, m, by omega, by simpa using h5, h6⟩
    rw [List.flatten_cons, List.append_eq_append_iff] at h
    rcases h with ⟨x, h1, h2⟩ | ⟨x, h1, h2⟩
    · exact shift x h2
    · cases x with
      | nil => exact shift [] h2.symm
      | cons c' x =>
        simp only [List.cons_append, List.cons.injEq] at h2
        obtain ⟨rfl, rfl⟩ := h2
        refine ⟨0, l, rfl, by rw [h1]; simp, ?_⟩
        intro d hd
        rcases List.mem_append.1 hd with hd | hd
        · exact ⟨0, l, Nat.le_refl _, rfl, by rw [h1]; simp [hd]⟩
        · obtain ⟨m, hm, hdm⟩ := List.mem_flatten.1 hd
          obtain ⟨j, hj⟩ := List.mem_iff_getElem?.1 hm
          exact ⟨j + 1, m, Nat.zero_le _, by simpa using hj, hdm⟩

theorem atLevel_of (cs : List (Cluster Nat)) (ls : List (List Nat)) (L : Nat) (l : List (List Nat)) (c : List Nat) (v : Nat)
    (h : (levelsOf cs ls)[L]? = some l) (hc : c ∈ l) (hv : v ∈ c) : AtLevel cs ls v L := by
  unfold levelsOf at h
  rw [List.getElem?_map] at h
  obtain ⟨l0, h1, rfl⟩ := Option.map_eq_some_iff.1 h
  obtain ⟨i, h2, h3⟩ := List.mem_filterMap.1 hc
  obtain ⟨c0, h4, rfl⟩ := Option.map_eq_some_iff.1 h3
  exact ⟨l0, h1, i, c0, h2, h4, hv⟩

/-- When the analysis of a body reads only its own operation and those that its graph of calls says it calls, the levels computed from
that graph are a good order, every operation is in them, and none is twice. -/
theorem levels_ordered (cfg : Cfg T E) (ops : List (Op Nat)) (verts : List Nat) (succ : Nat → List Nat)
    (ho : IterationOrder (build ops) verts succ) (le : Nat → Nat → Bool)
    (total : ∀ a b, (le a b || le b a) = true)
    (trans : ∀ a b c, le a b = true → le b c = true → le a c = true)
    (reads : ∀ a, ∀ v v' : Nat → Option (Summary T), ∀ i e, v a = v' a → (∀ b, IsArc ops a b → v b = v' b) →
      cfg.body v a i e = cfg.body v' a i e) :
    ∃ cs ls, computeDependencyLevels le verts succ = some (cs, ls) ∧
      (levelsOf cs ls).flatten.flatten.Nodup ∧ Ordered cfg (levelsOf cs ls) ∧
      ∀ v, IsVertex ops v → v ∈ (levelsOf cs ls).flatten.flatten := by
  obtain ⟨cs, ls, h1, h2, h3, h4⟩ := c06_clusters_exact ops verts succ ho le total trans
  obtain ⟨cs', ls', g1, g2, g3, g4, g5, g6, g7⟩ := c07_levels ops verts succ ho le total trans
  rw [h1] at g1
  injection g1 with g1
  injection g1 with e1 e2
  subst e1; subst e2
  have huniq : ∀ (x : Nat) (k l : Nat) c d, cs[k]? = some c → x ∈ c.members → cs[l]? = some d → x ∈ d.members → k = l := by
    intro x k l c d a1 a2 a3 a4
    have hnd := h3
    rw [List.flatMap_def, List.Nodup, List.pairwise_flatten] at hnd
    have hp := hnd.2
    rw [List.pairwise_map, List.pairwise_iff_getElem] at hp
    obtain ⟨hk, rfl⟩ := List.getElem?_eq_some_iff.1 a1
    obtain ⟨hl, rfl⟩ := List.getElem?_eq_some_iff.1 a3
    rcases Nat.lt_trichotomy k l with hlt | heq | hgt
    · exact absurd rfl (hp k l hk hl hlt x a2 x a4)
    · exact heq
    · exact absurd rfl (hp l k hl hk hgt x a4 x a2)
  have hflat : (levelsOf cs ls).flatten.flatten = ls.flatten.flatMap (fun i => ((cs[i]?).map Cluster.members).getD []) := by
    unfold levelsOf
    clear h1 g2 g3 g4 g5 g6 g7 h2 h3 h4 huniq
    induction ls with
    | nil => rfl
    | cons l ls ih =>
      simp only [List.map_cons, List.flatten_cons, List.flatten_append, List.flatMap_append, ih]
      congr 1
      clear ih
      induction l with
      | nil => rfl
      | cons i l ih =>
        rw [List.filterMap_cons, List.flatMap_cons, ← ih]
        cases (cs[i]?).map Cluster.members with
        | none => rfl
        | some m => rfl
  have hmem : ∀ (i : Nat) x, x ∈ ((cs[i]?).map Cluster.members).getD [] → ∃ c, cs[i]? = some c ∧ x ∈ c.members := by
    intro i x hx
    cases hc : cs[i]? with
    | none => rw [hc] at hx; cases hx
    | some c => rw [hc] at hx; exact ⟨c, rfl, hx⟩
  have hidx : ∀ (L : Nat) l, ls[L]? = some l → ∀ i ∈ l, (∃ c, cs[i]? = some c) → ∀ (L' : Nat) l', ls[L']? = some l' → i ∈ l' → L = L' := by
    intro L l hl i hi ⟨c, hc⟩ L' l' hl' hi'
    obtain ⟨hne, _, hv, _⟩ := h4 c (List.mem_of_getElem? hc)
    obtain ⟨v, hvm⟩ := List.exists_mem_of_ne_nil _ hne
    obtain ⟨L0, _, hu⟩ := g3 v (hv v hvm).1
    rw [hu L ⟨l, hl, i, c, hi, hc, hvm⟩, hu L' ⟨l', hl', i, c, hi', hc, hvm⟩]
  have hnodup : (levelsOf cs ls).flatten.flatten.Nodup := by
    rw [hflat]
    -- only indices that denote clusters matter
    have hfil : ls.flatten.flatMap (fun i => ((cs[i]?).map Cluster.members).getD []) =
        (ls.flatten.filter (fun i => (cs[i]?).isSome)).flatMap (fun i => ((cs[i]?).map Cluster.members).getD []) := by
      generalize ls.flatten = is
      induction is with
      | nil => rfl
      | cons i is ih =>
        rw [List.flatMap_cons, ih, List.filter_cons]
        cases hc : cs[i]? with
        | none => simp
        | some c => simp [hc]
    rw [hfil]
    refine Records.nodup_flatMap ?_ ?_ ?_
    · unfold List.Nodup
      rw [List.pairwise_filter, List.pairwise_flatten]
      constructor
      · intro l hl
        have := (g6 l hl).2
        unfold List.Nodup at this
        exact this.imp (fun h _ _ => h)
      · rw [List.pairwise_iff_getElem]
        intro L L' hL hL' hlt i hi j hj hi' _ e
        subst e
        have := hidx L _ (List.getElem?_eq_some_iff.2 ⟨hL, rfl⟩) i hi (Option.isSome_iff_exists.1 hi') L' _
          (List.getElem?_eq_some_iff.2 ⟨hL', rfl⟩) hj
        omega
    · intro i _
      cases hc : cs[i]? with
      | none => simp
      | some c =>
        have hnd := h3
        rw [List.flatMap_def, List.Nodup, List.pairwise_flatten] at hnd
        exact hnd.1 c.members (List.mem_map_of_mem (List.mem_of_getElem? hc))
    · intro i _ j _ hij x hx hx'
      obtain ⟨c, hc, hxc⟩ := hmem i x hx
      obtain ⟨d, hd, hxd⟩ := hmem j x hx'
      exact hij (huniq x i j c d hc hxc hd hxd)
  refine ⟨cs, ls, h1, hnodup, ?_, ?_⟩
  · intro pre c post he a ha v v' i e hv
    have hsplit := hnodup
    rw [he, List.flatten_append, List.flatten_cons] at hsplit
    have hpost : ∀ x ∈ c, x ∉ post.flatten := by
      intro x hx hx'
      rw [List.nodup_append] at hsplit
      have := hsplit.2.1
      rw [List.nodup_append] at this
      exact this.2.2 x hx x hx' rfl
    obtain ⟨L, l, hL, hcl, hlater⟩ := flatten_split _ pre c post he
    refine reads a v v' i e (hv a (hpost a ha)) ?_
    intro b hab
    refine hv b ?_
    intro hb
    obtain ⟨d, hd, hbd⟩ := List.mem_flatten.1 hb
    obtain ⟨L', m, hle, hm, hdm⟩ := hlater d hd
    have ha1 := atLevel_of cs ls L l c a hL hcl ha
    have hb1 := atLevel_of cs ls L' m d b hm hdm hbd
    by_cases hr : Reaches ops b a
    · -- then both are in the same cluster
      obtain ⟨_, _, k, c0, _, hk, hak⟩ := ha1
      have hcm := (h4 c0 (List.mem_of_getElem? hk)).2.2.1 a hak
      have hbc : b ∈ c0.members := (hcm.2 b).2 ⟨Star.single hab, hr⟩
      have : c0.members = c := by
        unfold levelsOf at hL
        rw [List.getElem?_map] at hL
        obtain ⟨l0, _, rfl⟩ := Option.map_eq_some_iff.1 hL
        obtain ⟨k', _, h7⟩ := List.mem_filterMap.1 hcl
        obtain ⟨c1, h8, rfl⟩ := Option.map_eq_some_iff.1 h7
        have := huniq a k k' c0 c1 hk hak h8 ha
        subst this
        rw [hk] at h8
        injection h8 with h8
        rw [h8]
      exact hpost b (this ▸ hbc) hb
    · have := g4 a b L L' hab hr ha1 hb1
      omega
  · intro v hv
    obtain ⟨L, ⟨l, hl, i, c, hi, hc, hvc⟩, _⟩ := g3 v hv
    rw [hflat, List.mem_flatMap]
    exact ⟨i, List.mem_flatten.2 ⟨l, List.mem_of_getElem? hl, hi⟩, by rw [hc]; exact hvc⟩

end Verif.Sta
