import Verif.Graph.LevelLemmas
/-!
# Properties C06, C07: clusters and dependency levels
-/
set_option linter.unusedSectionVars false
namespace Verif.Graph
variable {V : Type} [DecidableEq V]

theorem setAdd_mem {α} [DecidableEq α] (s : List α) (a x : α) : x ∈ setAdd s a ↔ x ∈ s ∨ x = a := by
  unfold setAdd
  split
  · constructor
    · exact .inl
    · rintro (h | rfl) <;> assumption
  · simp

/-- The graph built by a history has exactly the vertices and arcs mentioned in it. -/
theorem build_mem (ops : List (Op V)) :
    (∀ v, v ∈ (build ops).vertices ↔ IsVertex ops v) ∧ ∀ a b, (a, b) ∈ (build ops).arcs ↔ IsArc ops a b := by
  have key : ∀ (ops : List (Op V)) (g : G V),
      (∀ v, v ∈ (ops.foldl G.step g).vertices ↔ v ∈ g.vertices ∨ IsVertex ops v) ∧
      ∀ a b, (a, b) ∈ (ops.foldl G.step g).arcs ↔ (a, b) ∈ g.arcs ∨ IsArc ops a b := by
    intro ops
    induction ops with
    | nil => intro g; simp [IsVertex, IsArc]
    | cons o ops ih =>
      intro g
      obtain ⟨h1, h2⟩ := ih (g.step o)
      constructor
      · intro v
        rw [List.foldl_cons, h1 v]
        cases o with
        | addVertex u =>
          simp only [G.step, setAdd_mem, IsVertex, List.mem_cons, Op.addVertex.injEq, reduceCtorEq,
            false_or]
          constructor
          · rintro ((h | h) | h)
            · exact .inl h
            · exact .inr (.inl (.inl h))
            · rcases h with h | h
              · exact .inr (.inl (.inr h))
              · exact .inr (.inr h)
          · rintro (h | (h | h) | h)
            · exact .inl (.inl h)
            · exact .inl (.inr h)
            · exact .inr (.inl h)
            · exact .inr (.inr h)
        | addArc a b =>
          simp only [G.step, setAdd_mem, IsVertex, List.mem_cons, Op.addArc.injEq, reduceCtorEq,
            false_or]
          constructor
          · rintro (((h | h) | h) | h | h | h)
            · exact .inl h
            · exact .inr (.inr (.inl ⟨b, .inl ⟨h, rfl⟩⟩))
            · exact .inr (.inr (.inr ⟨a, .inl ⟨rfl, h⟩⟩))
            · exact .inr (.inl h)
            · obtain ⟨w, h⟩ := h; exact .inr (.inr (.inl ⟨w, .inr h⟩))
            · obtain ⟨w, h⟩ := h; exact .inr (.inr (.inr ⟨w, .inr h⟩))
          · rintro (h | h | ⟨w, h | h⟩ | ⟨w, h | h⟩)
            · exact .inl (.inl (.inl h))
            · exact .inr (.inl h)
            · exact .inl (.inl (.inr h.1))
            · exact .inr (.inr (.inl ⟨w, h⟩))
            · exact .inl (.inr h.2)
            · exact .inr (.inr (.inr ⟨w, h⟩))
      · intro a b
        rw [List.foldl_cons, h2 a b]
        cases o with
        | addVertex u => simp [G.step, IsArc]
        | addArc c d => simp [G.step, IsArc, setAdd_mem, or_assoc]
  have := key ops ⟨[], []⟩
  simpa [build] using this

/-- Everything known about the result. -/
structure Result (ops : List (Op V)) (le : V → V → Bool) (verts : List V) (cs : List (Cluster V))
    (ls : List (List Nat)) (levelOf : List Nat) : Prop where
  perm : (cs.flatMap Cluster.members).Perm verts
  members : ∀ (i : Nat) c, cs[i]? = some c → c.members ≠ [] ∧ c.members.Pairwise (fun a b => le a b = true) ∧
    ∀ x ∈ c.members, ∀ y, y ∈ c.members ↔ Reaches ops x y ∧ Reaches ops y x
  cyclic : ∀ (i : Nat) c, cs[i]? = some c → (c.cyclic = true ↔ ∃ x ∈ c.members, ∃ y ∈ c.members, IsArc ops x y)
  prereqs : ∀ (i : Nat) c, cs[i]? = some c → c.prereqs.Nodup ∧ ∀ j, j ∈ c.prereqs ↔
    j ≠ i ∧ ∃ d, cs[j]? = some d ∧ ∃ x ∈ c.members, ∃ y ∈ d.members, IsArc ops x y
  order : ∀ (i j : Nat) c d x y, cs[i]? = some c → cs[j]? = some d → x ∈ c.members → y ∈ d.members →
    IsArc ops x y → j ≤ i
  lvLen : levelOf.length = cs.length
  lvMem : ∀ (i L : Nat), (∃ l, ls[L]? = some l ∧ i ∈ l) ↔ levelOf[i]? = some L
  lvNe : ∀ l ∈ ls, l ≠ [] ∧ l.Nodup
  lvSorted : ∀ l ∈ ls, l.Pairwise (fun i j => ∀ c d a b, cs[i]? = some c → cs[j]? = some d →
    c.members.head? = some a → d.members.head? = some b → le a b = true)
  lvLev : ∀ (i : Nat) c L, cs[i]? = some c → levelOf[i]? = some L →
    (∀ j ∈ c.prereqs, ∃ L', levelOf[j]? = some L' ∧ L' < L) ∧
    (L ≠ 0 → ∃ j ∈ c.prereqs, levelOf[j]? = some (L - 1))

theorem compute_ok (ops : List (Op V)) (verts : List V) (succ : V → List V)
    (ho : IterationOrder (build ops) verts succ) (le : V → V → Bool)
    (total : ∀ a b, (le a b || le b a) = true)
    (trans : ∀ a b c, le a b = true → le b c = true → le a c = true) :
    ∃ cs ls levelOf, computeDependencyLevels le verts succ = some (cs, ls) ∧
      Result ops le verts cs ls levelOf := by
  obtain ⟨hbv, hba⟩ := build_mem ops
  have hvert : ∀ v, v ∈ verts ↔ IsVertex ops v := fun v => (ho.verts_mem v).trans (hbv v)
  have harc : ∀ a b, b ∈ succ a ↔ IsArc ops a b := fun a b => (ho.succ_mem a b).trans (hba a b)
  have hsucc : ∀ a b, b ∈ succ a → b ∈ verts := by
    intro a b h; rw [hvert]; exact .inr (.inr ⟨a, (harc a b).1 h⟩)
  obtain ⟨st, e, i, hall⟩ := findSccs_ok (verts := verts) hsucc
  have hR : ∀ {a b}, Star (Arc succ) a b → Reaches ops a b :=
    fun h => h.mono (fun a b h => (harc a b).1 h)
  have hR' : ∀ {a b}, Reaches ops a b → Star (Arc succ) a b :=
    fun h => h.mono (fun a b h => (harc a b).2 h)
  have hS : st.S = [] := by rw [i.hS]; rfl
  have hin : ∀ x, x ∈ st.clusters.flatten ↔ x ∈ verts := by
    intro x
    constructor
    · intro h; exact i.sub x ((i.vis x).2 (.inr h))
    · intro h
      rcases (i.vis x).1 (hall x h) with h | h
      · rw [hS] at h; cases h
      · exact h
  have hidx : ∀ x, x ∈ verts → ∃ (k : Nat) (c : List V), st.clusters[k]? = some c ∧ x ∈ c := by
    intro x hx
    obtain ⟨c, hc, hxc⟩ := List.mem_flatten.1 ((hin x).2 hx)
    obtain ⟨k, hk⟩ := List.mem_iff_getElem?.1 hc
    exact ⟨k, c, hk, hxc⟩
  have huniq : ∀ (x : V) (k l : Nat) c d, st.clusters[k]? = some c → x ∈ c → st.clusters[l]? = some d →
      x ∈ d → k = l ∧ c = d := by
    intro x k l c d h1 h2 h3 h4
    have e1 := (i.hcl x k).2 ⟨c, h1, h2⟩
    have e2 := (i.hcl x l).2 ⟨d, h3, h4⟩
    rw [e1] at e2; injection e2 with e2
    subst e2
    rw [h1] at h3; injection h3 with h3
    exact ⟨rfl, h3⟩
  have hdown : ∀ {x y}, Star (Arc succ) x y → ∀ (k : Nat) c, st.clusters[k]? = some c → x ∈ c →
      ∃ (j : Nat) (d : List V), j ≤ k ∧ st.clusters[j]? = some d ∧ y ∈ d := by
    intro x y h
    induction h with
    | refl => intro k c h1 h2; exact ⟨k, c, Nat.le_refl _, h1, h2⟩
    | tail _ h2 ih =>
      intro k c h3 h4
      obtain ⟨j, d, h5, h6, h7⟩ := ih k c h3 h4
      obtain ⟨j', d', h8, h9, h10⟩ := i.cclosed j d h6 _ h7 _ h2
      exact ⟨j', d', Nat.le_trans h8 h5, h9, h10⟩
  have hexact : ∀ (k : Nat) c, st.clusters[k]? = some c → ∀ x ∈ c, ∀ y,
      y ∈ c ↔ Reaches ops x y ∧ Reaches ops y x := by
    intro k c hc x hx y
    constructor
    · intro hy
      have hm := List.mem_of_getElem? hc
      exact ⟨hR (i.cstrong c hm x hx y hy), hR (i.cstrong c hm y hy x hx)⟩
    · rintro ⟨h1, h2⟩
      obtain ⟨j, d, h3, h4, h5⟩ := hdown (hR' h1) k c hc hx
      obtain ⟨j', d', h6, h7, h8⟩ := hdown (hR' h2) j d h4 h5
      obtain ⟨rfl, rfl⟩ := huniq x k j' c d' hc hx h7 h8
      have : j = k := by omega
      subst this
      rw [hc] at h4; injection h4 with h4
      rw [h4]; exact h5
  -- filling in the clusters
  have hfill : ∀ a ∈ st.clusters.zipIdx, ∃ b, (fun (m, i) =>
      let m := List.mergeSort m le
      match scanDeps st.cl succ i m with
      | none => none
      | some (cyc, pre) => if m.length > 1 ∧ cyc = false then none else some (Cluster.mk m cyc pre)) a = some b ∧
      b.members = a.1.mergeSort le ∧ b.prereqs.Nodup ∧
      (b.cyclic = true ↔ ∃ x ∈ b.members, ∃ w ∈ succ x, st.cl w = some a.2) ∧
      (∀ j, j ∈ b.prereqs ↔ j ≠ a.2 ∧ ∃ x ∈ b.members, ∃ w ∈ succ x, st.cl w = some j) := by
    rintro ⟨m, k⟩ hmk
    have hk := List.mem_zipIdx_iff_getElem?.1 hmk
    simp only at hk
    obtain ⟨cyc, pre, h1, h2, h3, h4⟩ := scanDeps_ok st.cl succ k (m.mergeSort le) (by
      intro x hx w hw
      obtain ⟨l, c, h1, h2⟩ := hidx w (hsucc x w hw)
      rw [(i.hcl w l).2 ⟨c, h1, h2⟩]; simp)
    refine ⟨⟨m.mergeSort le, cyc, pre⟩, ?_, rfl, h2, h3, h4⟩
    dsimp only
    rw [h1]
    dsimp only
    rw [if_neg]
    rintro ⟨hlen, hcyc⟩
    -- a cluster with two members has an internal arc
    rw [List.length_mergeSort] at hlen
    have hnd : m.Nodup := by
      have := i.cnodup
      rw [List.Nodup, List.pairwise_flatten] at this
      exact this.1 m (List.mem_of_getElem? hk)
    obtain ⟨x, y, hx, hy, hxy⟩ : ∃ x y, x ∈ m ∧ y ∈ m ∧ x ≠ y := by
      match m, hlen, hnd with
      | a :: b :: _, _, hnd =>
        refine ⟨a, b, by simp, by simp, ?_⟩
        rintro rfl
        simp at hnd
    have hst := i.cstrong m (List.mem_of_getElem? hk) x hx y hy
    rcases hst.cases_head with h | ⟨z, hz, hzy⟩
    · exact hxy h
    · obtain ⟨j, d, h5, h6, h7⟩ := i.cclosed k m hk x hx z hz
      obtain ⟨j', d', h8, h9, h10⟩ := hdown hzy j d h6 h7
      obtain ⟨rfl, _⟩ := huniq y k j' m d' hk hy h9 h10
      have : j = k := by omega
      subst this
      have : cyc = true := h3.2 ⟨x, List.mem_mergeSort.2 hx, z, hz, (i.hcl z j).2 ⟨d, h6, h7⟩⟩
      rw [this] at hcyc; cases hcyc
  obtain ⟨cs, hcs, hcslen, hcsget⟩ := mapM_some (l := st.clusters.zipIdx) (fun a ha => by
    obtain ⟨b, hb, _⟩ := hfill a ha; exact ⟨b, hb⟩)
  have hlen : cs.length = st.clusters.length := by rw [hcslen]; simp
  have hget : ∀ (k : Nat) m, st.clusters[k]? = some m → ∃ c, cs[k]? = some c ∧
      c.members = m.mergeSort le ∧ c.prereqs.Nodup ∧
      (c.cyclic = true ↔ ∃ x ∈ c.members, ∃ w ∈ succ x, st.cl w = some k) ∧
      (∀ j, j ∈ c.prereqs ↔ j ≠ k ∧ ∃ x ∈ c.members, ∃ w ∈ succ x, st.cl w = some j) := by
    intro k m hk
    have hz : st.clusters.zipIdx[k]? = some (m, k) := by
      rw [List.getElem?_zipIdx, hk]; simp
    obtain ⟨b, hb1, hb2⟩ := hcsget k (m, k) hz
    obtain ⟨b', hb3, hb4⟩ := hfill (m, k) (List.mem_of_getElem? hz)
    have hbb := hb2.symm.trans hb3
    injection hbb with hbb
    subst hbb
    exact ⟨b, hb1, hb4⟩
  have hget' : ∀ (k : Nat) c, cs[k]? = some c → ∃ m, st.clusters[k]? = some m ∧
      c.members = m.mergeSort le ∧ c.prereqs.Nodup ∧
      (c.cyclic = true ↔ ∃ x ∈ c.members, ∃ w ∈ succ x, st.cl w = some k) ∧
      (∀ j, j ∈ c.prereqs ↔ j ≠ k ∧ ∃ x ∈ c.members, ∃ w ∈ succ x, st.cl w = some j) := by
    intro k c hk
    have hlt := (List.getElem?_eq_some_iff.1 hk).1
    rw [hlen] at hlt
    obtain ⟨c', h1, h2⟩ := hget k _ (List.getElem?_eq_getElem hlt)
    rw [hk] at h1; injection h1 with h1
    subst h1
    exact ⟨_, List.getElem?_eq_getElem hlt, h2⟩
  have hclmem : ∀ w (j : Nat), st.cl w = some j ↔ ∃ d, cs[j]? = some d ∧ w ∈ d.members := by
    intro w j
    rw [i.hcl w j]
    constructor
    · rintro ⟨c, h1, h2⟩
      obtain ⟨d, h3, h4, _⟩ := hget j c h1
      exact ⟨d, h3, by rw [h4]; exact List.mem_mergeSort.2 h2⟩
    · rintro ⟨d, h1, h2⟩
      obtain ⟨m, h3, h4, _⟩ := hget' j d h1
      exact ⟨m, h3, by rw [h4] at h2; exact List.mem_mergeSort.1 h2⟩
  have horder : ∀ (k j : Nat) c d x y, cs[k]? = some c → cs[j]? = some d → x ∈ c.members → y ∈ d.members →
      IsArc ops x y → j ≤ k := by
    intro k j c d x y h1 h2 h3 h4 h5
    obtain ⟨m, h6, h7, _⟩ := hget' k c h1
    rw [h7] at h3
    obtain ⟨j', d', h8, h9, h10⟩ := i.cclosed k m h6 x (List.mem_mergeSort.1 h3) y ((harc x y).2 h5)
    have e1 := (hclmem y j).2 ⟨d, h2, h4⟩
    have e2 := (i.hcl y j').2 ⟨d', h9, h10⟩
    rw [e1] at e2; injection e2 with e2
    omega
  have hpre : ∀ (k : Nat) ps, (cs.map Cluster.prereqs)[k]? = some ps → ∀ j ∈ ps, j < k := by
    intro k ps hk j hj
    rw [List.getElem?_map] at hk
    cases hc : cs[k]? with
    | none => rw [hc] at hk; cases hk
    | some c =>
      rw [hc] at hk; simp at hk
      subst hk
      obtain ⟨m, _, _, _, _, h5⟩ := hget' k c hc
      obtain ⟨h6, x, hx, w, hw, hcl⟩ := (h5 j).1 hj
      obtain ⟨d, hd, hwd⟩ := (hclmem w j).1 hcl
      have := horder k j c d x w hc hd hx hwd ((harc x w).1 hw)
      omega
  obtain ⟨lst, hl1, hl2⟩ := levels_ok (cs.map Cluster.prereqs) [] ⟨[], []⟩
    ⟨rfl, by simp, by simp, by simp, by simp⟩ (by simpa using hpre)
  simp only [List.nil_append] at hl2
  rw [List.foldlM_map] at hl1
  let cmp : Nat → Nat → Bool := firstLe le cs
  have hcmpt : ∀ a b, (cmp a b || cmp b a) = true := by
    intro a b
    simp only [cmp, firstLe]
    cases (cs[a]?).bind (·.members.head?) <;> cases (cs[b]?).bind (·.members.head?) <;> simp
    simpa using total _ _
  have hcmptr : ∀ a b c, cmp a b = true → cmp b c = true → cmp a c = true := by
    intro a b c
    simp only [cmp, firstLe]
    cases (cs[a]?).bind (·.members.head?) <;> cases (cs[b]?).bind (·.members.head?) <;>
      cases (cs[c]?).bind (·.members.head?) <;> simp
    exact trans _ _ _
  refine ⟨cs, lst.levels.map (fun l => l.mergeSort cmp), lst.levelOf, ?_, ?_⟩
  · unfold computeDependencyLevels
    rw [e]
    dsimp only
    have hfc : fillClusters le succ st.cl st.clusters = some cs := hcs
    rw [hfc]
    dsimp only
    unfold establishLevels
    rw [hl1]
  · refine ⟨?_, ?_, ?_, ?_, horder, ?_, ?_, ?_, ?_, ?_⟩
    · have hmap : cs.map Cluster.members = st.clusters.map (fun m => m.mergeSort le) := by
        apply List.ext_getElem?
        intro k
        rw [List.getElem?_map, List.getElem?_map]
        cases hk : st.clusters[k]? with
        | none =>
          have : cs[k]? = none := by
            rw [List.getElem?_eq_none_iff] at hk ⊢; omega
          rw [this]; rfl
        | some m =>
          obtain ⟨c, h1, h2, _⟩ := hget k m hk
          rw [h1]; simp [h2]
      have hp1 : (cs.flatMap Cluster.members).Perm st.clusters.flatten := by
        rw [List.flatMap_def, hmap]
        clear hmap hget hget' hcsget hcs hcslen hlen hfill hexact hdown huniq hidx hin i hclmem
        induction st.clusters with
        | nil => exact List.Perm.nil
        | cons c cl ih =>
          simp only [List.map_cons, List.flatten_cons]
          exact (List.mergeSort_perm c le).append ih
      refine hp1.trans ?_
      exact (List.perm_ext_iff_of_nodup i.cnodup ho.verts_nodup).2 hin
    · intro k c hk
      obtain ⟨m, h1, h2, _⟩ := hget' k c hk
      rw [h2]
      refine ⟨?_, List.pairwise_mergeSort trans total m, ?_⟩
      · have := i.cne m (List.mem_of_getElem? h1)
        intro h
        have hp := List.mergeSort_perm m le
        rw [h] at hp
        exact this hp.symm.eq_nil
      · intro x hx y
        rw [List.mem_mergeSort]
        exact hexact k m h1 x (List.mem_mergeSort.1 hx) y
    · intro k c hk
      obtain ⟨m, _, _, _, h3, _⟩ := hget' k c hk
      rw [h3]
      constructor
      · rintro ⟨x, hx, w, hw, h⟩
        obtain ⟨d, h4, h5⟩ := (hclmem w k).1 h
        rw [hk] at h4; injection h4 with h4; subst h4
        exact ⟨x, hx, w, h5, (harc x w).1 hw⟩
      · rintro ⟨x, hx, w, hw, h⟩
        exact ⟨x, hx, w, (harc x w).2 h, (hclmem w k).2 ⟨c, hk, hw⟩⟩
    · intro k c hk
      obtain ⟨m, _, _, h0, _, h3⟩ := hget' k c hk
      refine ⟨h0, fun j => ?_⟩
      rw [h3 j]
      constructor
      · rintro ⟨h4, x, hx, w, hw, h⟩
        obtain ⟨d, h5, h6⟩ := (hclmem w j).1 h
        exact ⟨h4, d, h5, x, hx, w, h6, (harc x w).1 hw⟩
      · rintro ⟨h4, d, h5, x, hx, w, h6, h7⟩
        exact ⟨h4, x, hx, w, (harc x w).2 h7, (hclmem w j).2 ⟨d, h5, h6⟩⟩
    · rw [hl2.len]; simp
    · intro k L
      rw [← hl2.mem k L, List.getElem?_map]
      cases lst.levels[L]? with
      | none => simp
      | some l => simp
    · intro l hl
      obtain ⟨l0, h1, rfl⟩ := List.mem_map.1 hl
      refine ⟨?_, (List.mergeSort_perm l0 cmp).nodup_iff.2 (hl2.nodup l0 h1)⟩
      intro h
      have hp := List.mergeSort_perm l0 cmp
      rw [h] at hp
      exact hl2.nonempty l0 h1 hp.symm.eq_nil
    · intro l hl
      obtain ⟨l0, h1, rfl⟩ := List.mem_map.1 hl
      refine (List.pairwise_mergeSort hcmptr hcmpt l0).imp ?_
      intro a b hab c d x y hc hd hx hy
      simp only [cmp, firstLe, hc, hd, Option.bind_some, hx, hy] at hab
      exact hab
    · intro k c L hc hL
      exact hl2.lev k c.prereqs L (by rw [List.getElem?_map, hc]; rfl) hL

/-! ## C06 -/

/-- C06: for every graph built by any history of calls and every iteration order of its sets,
the computation succeeds (no assertion fails), its clusters contain every vertex exactly
once, none is empty, and two vertices share a cluster exactly when each is reachable from the
other; a cluster is marked cyclic exactly when it has an internal arc. -/
theorem c06_clusters_exact (ops : List (Op V)) (verts : List V) (succ : V → List V)
    (ho : IterationOrder (build ops) verts succ) (le : V → V → Bool)
    (total : ∀ a b, (le a b || le b a) = true)
    (trans : ∀ a b c, le a b = true → le b c = true → le a c = true) :
    ∃ cs ls, computeDependencyLevels le verts succ = some (cs, ls) ∧
      (∀ v, IsVertex ops v → ∃ c ∈ cs, v ∈ c.members) ∧
      (cs.flatMap Cluster.members).Nodup ∧
      ∀ c ∈ cs, c.members ≠ [] ∧ c.members.Pairwise (fun a b => le a b = true) ∧
        (∀ x ∈ c.members, IsVertex ops x ∧ ∀ y, y ∈ c.members ↔ Reaches ops x y ∧ Reaches ops y x) ∧
        (c.cyclic = true ↔ ∃ x ∈ c.members, ∃ y ∈ c.members, IsArc ops x y) := by
  obtain ⟨cs, ls, lv, h1, h⟩ := compute_ok ops verts succ ho le total trans
  obtain ⟨hbv, _⟩ := build_mem ops
  refine ⟨cs, ls, h1, ?_, h.perm.nodup_iff.2 ho.verts_nodup, ?_⟩
  · intro v hv
    have : v ∈ verts := (ho.verts_mem v).2 ((hbv v).2 hv)
    rw [← h.perm.mem_iff] at this
    exact List.mem_flatMap.1 this
  · intro c hc
    obtain ⟨k, hk⟩ := List.mem_iff_getElem?.1 hc
    obtain ⟨h2, h3, h4⟩ := h.members k c hk
    refine ⟨h2, h3, fun x hx => ⟨?_, h4 x hx⟩, h.cyclic k c hk⟩
    rw [← hbv, ← ho.verts_mem, ← h.perm.mem_iff]
    exact List.mem_flatMap.2 ⟨c, hc, hx⟩

/-! ## C07 -/

/-- Vertex `v` is analysed at level `L`. -/
def AtLevel (cs : List (Cluster V)) (ls : List (List Nat)) (v : V) (L : Nat) : Prop :=
  ∃ l, ls[L]? = some l ∧ ∃ (i : Nat) (c : Cluster V), i ∈ l ∧ cs[i]? = some c ∧ v ∈ c.members

/-- C07: clusters come out dependencies first, every vertex is at exactly one level, an arc out of a
cluster leads to a strictly lower level, level 0 holds exactly the vertices whose cluster
depends on nothing else, and a higher level is never higher than needed; no level is empty
and no cluster is listed twice. -/
theorem c07_levels (ops : List (Op V)) (verts : List V) (succ : V → List V)
    (ho : IterationOrder (build ops) verts succ) (le : V → V → Bool)
    (total : ∀ a b, (le a b || le b a) = true)
    (trans : ∀ a b c, le a b = true → le b c = true → le a c = true) :
    ∃ cs ls, computeDependencyLevels le verts succ = some (cs, ls) ∧
      -- dependencies first
      (∀ (i j : Nat) c d x y, cs[i]? = some c → cs[j]? = some d → x ∈ c.members → y ∈ d.members →
        IsArc ops x y → j ≤ i) ∧
      -- exactly one level each
      (∀ v, IsVertex ops v → ∃ L, AtLevel cs ls v L ∧ ∀ L', AtLevel cs ls v L' → L' = L) ∧
      -- levels respect dependencies
      (∀ v w L L', IsArc ops v w → ¬ Reaches ops w v → AtLevel cs ls v L → AtLevel cs ls w L' → L' < L) ∧
      -- and are as low as possible
      (∀ v L, AtLevel cs ls v (L + 1) → ∃ x w, Reaches ops v x ∧ Reaches ops x v ∧ IsArc ops x w ∧
        ¬ Reaches ops w x ∧ AtLevel cs ls w L) ∧
      -- no empty level, no repetition
      (∀ l ∈ ls, l ≠ [] ∧ l.Nodup) ∧
      -- within a level, clusters are ordered by their first member
      (∀ l ∈ ls, l.Pairwise (fun i j => ∀ c d a b, cs[i]? = some c → cs[j]? = some d →
        c.members.head? = some a → d.members.head? = some b → le a b = true)) := by
  obtain ⟨cs, ls, lv, h1, h⟩ := compute_ok ops verts succ ho le total trans
  obtain ⟨hbv, _⟩ := build_mem ops
  have hat : ∀ v L, AtLevel cs ls v L ↔ ∃ (i : Nat) (c : Cluster V), cs[i]? = some c ∧ v ∈ c.members ∧ lv[i]? = some L := by
    intro v L
    constructor
    · rintro ⟨l, h2, i, c, h3, h4, h5⟩
      exact ⟨i, c, h4, h5, (h.lvMem i L).1 ⟨l, h2, h3⟩⟩
    · rintro ⟨i, c, h4, h5, h6⟩
      obtain ⟨l, h2, h3⟩ := (h.lvMem i L).2 h6
      exact ⟨l, h2, i, c, h3, h4, h5⟩
  have huniq : ∀ (x : V) (k l : Nat) c d, cs[k]? = some c → x ∈ c.members → cs[l]? = some d →
      x ∈ d.members → k = l := by
    intro x k l c d h1 h2 h3 h4
    have hnd := h.perm.nodup_iff.2 ho.verts_nodup
    rw [List.flatMap_def, List.Nodup, List.pairwise_flatten] at hnd
    have hp := hnd.2
    rw [List.pairwise_map, List.pairwise_iff_getElem] at hp
    obtain ⟨hk, rfl⟩ := List.getElem?_eq_some_iff.1 h1
    obtain ⟨hl, rfl⟩ := List.getElem?_eq_some_iff.1 h3
    rcases Nat.lt_trichotomy k l with hlt | heq | hgt
    · exact absurd rfl (hp k l hk hl hlt x h2 x h4)
    · exact heq
    · exact absurd rfl (hp l k hl hk hgt x h4 x h2)
  refine ⟨cs, ls, h1, h.order, ?_, ?_, ?_, h.lvNe, h.lvSorted⟩
  · intro v hv
    have : v ∈ verts := (ho.verts_mem v).2 ((hbv v).2 hv)
    rw [← h.perm.mem_iff] at this
    obtain ⟨c, hc, hvc⟩ := List.mem_flatMap.1 this
    obtain ⟨k, hk⟩ := List.mem_iff_getElem?.1 hc
    have hlt : k < lv.length := by rw [h.lvLen]; exact (List.getElem?_eq_some_iff.1 hk).1
    refine ⟨lv[k], (hat v _).2 ⟨k, c, hk, hvc, List.getElem?_eq_getElem hlt⟩, ?_⟩
    intro L' hL'
    obtain ⟨k', c', h2, h3, h4⟩ := (hat v L').1 hL'
    have := huniq v k k' c c' hk hvc h2 h3
    subst this
    rw [List.getElem?_eq_getElem hlt] at h4; injection h4 with h4; exact h4.symm
  · intro v w L L' harc hnr hv hw
    obtain ⟨k, c, h2, h3, h4⟩ := (hat v L).1 hv
    obtain ⟨j, d, h5, h6, h7⟩ := (hat w L').1 hw
    have hne : j ≠ k := by
      rintro rfl
      rw [h2] at h5; injection h5 with h5; subst h5
      exact hnr (((h.members _ c h2).2.2 v h3 w).1 h6).2
    have hp := ((h.prereqs k c h2).2 j).2 ⟨hne, d, h5, v, h3, w, h6, harc⟩
    obtain ⟨L'', h8, h9⟩ := (h.lvLev k c L h2 h4).1 j hp
    rw [h7] at h8; injection h8 with h8; omega
  · intro v L hv
    obtain ⟨k, c, h2, h3, h4⟩ := (hat v _).1 hv
    obtain ⟨j, hj, h5⟩ := (h.lvLev k c (L + 1) h2 h4).2 (by omega)
    obtain ⟨hne, d, hd, x, hx, w, hw, harc⟩ := ((h.prereqs k c h2).2 j).1 hj
    have hvx := ((h.members k c h2).2.2 v h3 x).1 hx
    refine ⟨x, w, hvx.1, hvx.2, harc, ?_, (hat w L).2 ⟨j, d, hd, hw, by simpa using h5⟩⟩
    intro hr
    have : w ∈ c.members := ((h.members k c h2).2.2 x hx w).2 ⟨Star.single harc, hr⟩
    exact hne (huniq w j k d c hd hw h2 this)

/-- Level 0 is the bottom: a vertex is at level 0 exactly when no vertex of its cluster has an
arc out of the cluster (a consequence of the clauses above). -/
example (ops : List (Op V)) (cs : List (Cluster V)) (ls : List (List Nat))
    (h3 : ∀ v w L L', IsArc ops v w → ¬ Reaches ops w v → AtLevel cs ls v L → AtLevel cs ls w L' → L' < L)
    (v w : V) (L' : Nat) (h : AtLevel cs ls v 0) (ha : IsArc ops v w) (hw : AtLevel cs ls w L') :
    Reaches ops w v := by
  by_cases hr : Reaches ops w v
  · exact hr
  · have := h3 v w 0 L' ha hr h hw; omega

/-- Non-vacuity: a graph with a two-vertex cycle that depends on a third vertex. -/
example : IterationOrder (build [Op.addArc 1 2, .addArc 2 1, .addArc 2 3, .addVertex 3])
    [3, 1, 2] (fun v => if v = 1 then [2] else if v = 2 then [3, 1] else []) where
  verts_nodup := by decide
  verts_mem := by intro v; simp [build, G.step, setAdd]; omega
  succ_nodup := by intro v; split; decide; split; decide; decide
  succ_mem := by
    intro v w
    simp [build, G.step, setAdd]
    split
    · simp; omega
    · split
      · simp; omega
      · simp; omega

example : (findSccs [3, 1, 2]
    (fun v => if v = 1 then [2] else if v = 2 then [3, 1] else [])).map St.clusters = some [[3], [2, 1]] := by
  decide

end Verif.Graph
