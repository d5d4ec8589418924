import Verif.Types.UnionLemmas
/-! # The fuel of the union suffices -/
namespace Verif.Types

variable {cfg : Cfg}

theorem depth_le_depthL : ∀ {ts : List Ty} {t : Ty}, t ∈ ts → depth t ≤ depthL ts := by
  intro ts
  induction ts with
  | nil => intro t h; cases h
  | cons a ts ih =>
    intro t h
    rw [depthL]
    rcases List.mem_cons.1 h with rfl | h
    · omega
    · have := ih h; omega

theorem depthL_lt {D : Nat} (hD : 0 < D) : ∀ {ts : List Ty}, (∀ t ∈ ts, depth t < D) → depthL ts < D := by
  intro ts
  induction ts with
  | nil => intro _; simpa [depthL]
  | cons a ts ih =>
    intro h
    rw [depthL]
    have := h a (by simp)
    have := ih (fun t ht => h t (by simp [ht]))
    omega

theorem depth_le_depthF : ∀ {fs : Fields} {p}, p ∈ fs → depth p.2 ≤ depthF fs := by
  intro fs
  induction fs with
  | nil => intro t h; cases h
  | cons a fs ih =>
    intro p h
    obtain ⟨n, t⟩ := a
    rw [depthF]
    rcases List.mem_cons.1 h with rfl | h
    · simp only; omega
    · have := ih h; omega

theorem depth_member {t m : Ty} (h : m ∈ members t) : depth m ≤ depth t := by
  cases t with
  | union ms => rw [depth]; exact depth_le_depthL h
  | _ => simp [members] at h; subst h; exact Nat.le_refl _

theorem mapM_congr {α β} {f g : α → Option β} : ∀ {l : List α}, (∀ a ∈ l, f a = g a) → l.mapM f = l.mapM g := by
  intro l
  induction l with
  | nil => intro _; rfl
  | cons a l ih =>
    intro h
    rw [List.mapM_cons, List.mapM_cons, h a (by simp), ih (fun x hx => h x (by simp [hx]))]

/-- Two functions agree on lists of types nested less deeply than `D`. -/
def Agree (D : Nat) (r r' : List Ty → Option Ty) : Prop := ∀ us, depthL us < D → r us = r' us

theorem unionList_congr {D : Nat} {r r'} (h : Agree D r r') {ms : List Ty} (hms : ∀ m ∈ ms, depth m ≤ D) :
    unionList r ms = unionList r' ms := by
  unfold unionList
  split
  · rfl
  · rename_i hlen
    dsimp only
    split
    · rfl
    · cases hm : (ms.erase (.hier ListN)).mapM elemOf? with
      | none => rfl
      | some us =>
        dsimp only
        have hus : ∀ u ∈ us, depth u < D := by
          intro u hu
          obtain ⟨m, hm', e⟩ := (mem_mapM hm u).1 hu
          cases m <;> simp [elemOf?] at e
          subst e
          have := hms _ (List.mem_of_mem_erase hm')
          rw [depth] at this
          omega
        have hD : 0 < D := by
          have hlen' : 0 < (ms.erase (.hier ListN)).length := by
            have := List.length_erase_of_mem (a := Ty.hier ListN) (l := ms)
            by_cases hmem : Ty.hier ListN ∈ ms
            · rw [this hmem]; omega
            · rw [List.erase_of_not_mem hmem]; omega
          obtain ⟨m, hm'⟩ := List.exists_mem_of_length_pos hlen'
          obtain ⟨u, hu, _⟩ := mapM_each hm hm'
          have := hus u hu
          omega
        rw [h us (depthL_lt hD hus)]

theorem crGroup_congr {D : Nat} {r r'} (h : Agree D r r') {k : String} {g : List Fields} (hD : 0 < D)
    (hg : ∀ fs ∈ g, ∀ p ∈ fs, depth p.2 < D) : crGroup r k g = crGroup r' k g := by
  unfold crGroup
  split
  · rfl
  · cases hv : valueLoop g with
    | none => rfl
    | some x =>
      cases x with
      | inl fs => rfl
      | inr vs =>
        dsimp only
        have : depthL vs < D := depthL_lt hD (by
          intro w hw
          obtain ⟨f, r, hm⟩ := (valueLoop_inr hv).2 w hw
          exact hg _ hm ("[[Value]]", w) (by simp))
        rw [h vs this]

theorem unionCR_congr {D : Nat} {r r'} (h : Agree D r r') {g : List Fields} (hD : 0 < D)
    (hg : ∀ fs ∈ g, depthF fs < D) : unionCR r g = unionCR r' g := by
  unfold unionCR
  cases hx : crLoop g with
  | none => rfl
  | some o =>
    cases o with
    | none => rfl
    | some xs =>
      dsimp only
      refine mapM_congr (fun k hk => crGroup_congr h hD ?_)
      intro fs hfs p hp
      obtain ⟨y, hy, rfl⟩ := List.mem_map.1 hfs
      obtain ⟨hy1, _⟩ := List.mem_filter.1 hy
      have ht : ∃ t rest, (("[[Type]]", t) :: rest) ∈ g ∧ y.2 = ("[[Type]]", .hier y.1) :: rest :=
        (crLoop_some (cfg := cfg0) (I := I0) hx).2 y hy1
      obtain ⟨t, rest, hm, e⟩ := ht
      rw [e] at hp
      rcases List.mem_cons.1 hp with rfl | hp
      · simpa [depth] using hD
      · have h1 := hg _ hm
        have := depth_le_depthF (fs := ("[[Type]]", t) :: rest) (p := p) (by simp [hp])
        omega
where
  cfg0 : Cfg := ⟨.node "" [], fun _ => none, fun _ => []⟩
  I0 : Interp := ⟨Unit, fun _ _ => True, fun _ => True, fun _ => none, fun _ => none, fun _ _ => none, fun _ _ _ => True⟩

theorem unionRecord_congr {D : Nat} {r r'} (h : Agree D r r') {rs : List (String × Fields)}
    (hg : ∀ q ∈ rs, depthF q.2 < D) : unionRecord r rs = unionRecord r' rs := by
  unfold unionRecord
  split
  · rfl
  · rename_i hlen
    have hD : 0 < D := by
      obtain ⟨q, hq⟩ := List.exists_mem_of_length_pos (l := rs) (by omega)
      have := hg q hq
      omega
    congr 1
    refine mapM_congr (fun s hs => ?_)
    unfold recordGroup
    split
    · rfl
    · split
      · rfl
      · split
        · refine unionCR_congr h hD ?_
          intro fs hfs
          obtain ⟨y, hy, rfl⟩ := List.mem_map.1 hfs
          exact hg y (List.mem_filter.1 hy).1
        · rfl

theorem unionGeneral_congr {ord : List Ty → List Ty} (ho : SetOrder ord) {D : Nat} {r r'} (h : Agree D r r') {ts : List Ty}
    (hts : ∀ t ∈ ts, depth t ≤ D) : unionGeneral cfg ord r ts = unionGeneral cfg ord r' ts := by
  have hm : ∀ m ∈ (ord (ts.flatMap members)).filter (· ≠ .tbd), depth m ≤ D := by
    intro m hm
    obtain ⟨_, t, ht, hmt⟩ := (general_members ho).1 hm
    exact Nat.le_trans (depth_member hmt) (hts t ht)
  unfold unionGeneral
  dsimp only
  rw [unionList_congr h (fun m hm' => hm m (List.mem_filter.1 hm').1), unionRecord_congr h (by
    intro q hq
    obtain ⟨m, hm', e⟩ := List.mem_filterMap.1 hq
    have := hm m hm'
    rw [mem_recordOf e, depth] at this
    omega)]

theorem unionStep_congr {ord : List Ty → List Ty} (ho : SetOrder ord) {r r'} {ts : List Ty} (h : Agree (depthL ts) r r') :
    unionStep cfg ord r ts = unionStep cfg ord r' ts := by
  unfold unionStep
  split
  · rfl
  · split
    · rfl
    · split
      · rfl
      · split
        · rfl
        · apply unionGeneral_congr ho h
          intro t ht
          have := (List.mem_filter.1 (List.mem_filter.1 ht).1).1
          exact depth_le_depthL (((ho _).2 t).1 this)

theorem unionF_fuel {ord : List Ty → List Ty} (ho : SetOrder ord) : ∀ (n m : Nat) (ts : List Ty), depthL ts < n → depthL ts < m →
    unionF cfg ord n ts = unionF cfg ord m ts := by
  intro n
  induction n with
  | zero => intro m ts h; omega
  | succ n ih =>
    intro m ts h1 h2
    cases m with
    | zero => omega
    | succ m =>
      rw [unionF, unionF]
      exact unionStep_congr ho (fun us hus => ih m us (by omega) (by omega))

/-- The union satisfies the recursion equation of the program. -/
theorem unionOf_eq {ord : List Ty → List Ty} (ho : SetOrder ord) (ts : List Ty) :
    unionOf cfg ord ts = unionStep cfg ord (unionOf cfg ord) ts := by
  rw [unionOf, unionF]
  exact unionStep_congr ho (fun us hus => unionF_fuel ho _ _ us hus (by omega))

/-! ### Unions of named types -/

theorem filter_all {α} {p : α → Bool} {l : List α} (h : ∀ x ∈ l, p x = true) : l.filter p = l :=
  List.filter_eq_self.2 h

theorem unionHier_nonempty (hc : CfgOk cfg) {ns : List String} {n} (hn : n ∈ ns) : unionHier cfg.tree ns ≠ [] := by
  unfold unionHier
  split
  · exact List.ne_nil_of_mem hn
  · obtain ⟨h1, h2⟩ := hrec_ok cfg.tree hc.nodup ns
    by_cases hmem : n ∈ names cfg.tree
    · obtain ⟨m, hm, hmf⟩ := exists_maxFull ns cfg.tree hc.nodup n hmem (full_self hn)
      exact List.ne_nil_of_mem ((h2 m hm.mem_left).2 hmf)
    · exact List.ne_nil_of_mem ((h1 n hmem).2 hn)

theorem mkUnion_some {ord : List Ty → List Ty} {ms : List Ty} (h : ms ≠ []) : ∃ T, mkUnion ord ms = some T := by
  unfold mkUnion
  split
  · exact absurd rfl h
  · exact ⟨_, rfl⟩
  · exact ⟨_, rfl⟩

theorem mem_members_mkUnion {ord : List Ty → List Ty} (ho : SetOrder ord) {ms : List Ty} {T : Ty} (hflat : ∀ m ∈ ms, isUnion m = false)
    (h : mkUnion ord ms = some T) (x : Ty) : x ∈ members T ↔ x ∈ ms := by
  unfold mkUnion at h
  split at h
  · cases h
  · rename_i t
    injection h with h; subst h
    have := hflat t (by simp)
    cases t <;> simp [isUnion] at this <;> simp [members]
  · injection h with h; subst h
    exact (ho _).2 x

theorem unionGeneral_hier (hc : CfgOk cfg) {ord : List Ty → List Ty} (ho : SetOrder ord) {rec} {ts : List Ty} (hne : ts ≠ [])
    (h : ∀ t ∈ ts, ∃ n, t = .hier n) : ∃ T ns, unionGeneral cfg ord rec ts = some T ∧ (∀ n, n ∈ ns ↔ .hier n ∈ ts ∧ n ≠ ListN) ∧ ns.Nodup ∧
      ∀ m, m ∈ members T ↔ (m = .hier ListN ∧ .hier ListN ∈ ts) ∨ ∃ n ∈ unionHier cfg.tree ns, m = .hier n := by
  have hmem : ∀ m, m ∈ (ord (ts.flatMap members)).filter (· ≠ .tbd) ↔ m ∈ ts := by
    intro m
    rw [general_members ho]
    constructor
    · rintro ⟨_, t, ht, hm⟩
      obtain ⟨n, rfl⟩ := h t ht
      simp only [members, List.mem_singleton] at hm
      exact hm ▸ ht
    · intro hm
      obtain ⟨n, rfl⟩ := h m hm
      exact ⟨by simp, _, hm, by simp [members]⟩
  have hnd : ((ord (ts.flatMap members)).filter (· ≠ .tbd)).Nodup := (ho _).1.filter _
  have hlen := listy_le_one (P := fun t => ∃ n, t = .hier n) (xs := ts.flatMap members) ho (fun m hm => h m ((hmem m).1 hm))
    (fun t ⟨n, e⟩ => by cases e)
  unfold unionGeneral
  dsimp only
  rw [if_neg (by
    rw [List.any_eq_true]
    rintro ⟨m, hm, hu⟩
    obtain ⟨t, ht, hmt⟩ := List.mem_flatMap.1 hm
    obtain ⟨n, rfl⟩ := h t ht
    simp only [members, List.mem_singleton] at hmt
    subst hmt
    cases hu)]
  revert hmem hnd hlen
  generalize (ord (ts.flatMap members)).filter (· ≠ .tbd) = ms
  intro hmem hnd hlen
  obtain ⟨t0, ht0⟩ := List.exists_mem_of_ne_nil _ hne
  rw [if_neg (List.ne_nil_of_mem ((hmem t0).2 ht0))]
  have e1 : unionList rec (ms.filter isListy) = some (ms.filter isListy) := by
    unfold unionList; rw [if_pos hlen]
  have e2 : ms.filterMap recordOf? = [] := by
    rw [List.filterMap_eq_nil_iff]
    intro m hm
    obtain ⟨n, rfl⟩ := h m ((hmem m).1 hm)
    rfl
  have e3 : ms.filter isProc = [] := by
    rw [List.filter_eq_nil_iff]
    intro m hm
    obtain ⟨n, rfl⟩ := h m ((hmem m).1 hm)
    simp [isProc]
  have hns : ∀ n, n ∈ ms.filterMap hierOf? ↔ .hier n ∈ ts ∧ n ≠ ListN := by
    intro n
    rw [List.mem_filterMap]
    constructor
    · rintro ⟨m, hm, e⟩
      obtain ⟨rfl, h2⟩ := mem_hierOf e
      exact ⟨(hmem _).1 hm, h2⟩
    · rintro ⟨h1, h2⟩
      exact ⟨.hier n, (hmem _).2 h1, by simp [hierOf?, h2]⟩
  have hnsnd : (ms.filterMap hierOf?).Nodup := by
    clear hns e1 e2 e3 hlen hmem
    induction ms with
    | nil => simp
    | cons m ms ih =>
      rw [List.nodup_cons] at hnd
      rw [List.filterMap_cons]
      split
      · exact ih hnd.2
      · rename_i n e
        obtain ⟨rfl, _⟩ := mem_hierOf e
        rw [List.nodup_cons]
        refine ⟨fun hm => ?_, ih hnd.2⟩
        obtain ⟨m', hm', e'⟩ := List.mem_filterMap.1 hm
        obtain ⟨rfl, _⟩ := mem_hierOf e'
        exact hnd.1 hm'
  rw [e1, e2, e3]
  have e4 : unionRecord rec [] = some [] := rfl
  have e5 : unionProc [] = some [] := rfl
  rw [e4, e5]
  dsimp only
  have hLne : ms.filter isListy ++ [] ++ [] ++ (unionHier cfg.tree (ms.filterMap hierOf?)).map .hier ≠ [] := by
    obtain ⟨n, rfl⟩ := h t0 ht0
    by_cases hn : n = ListN
    · subst hn
      apply List.ne_nil_of_mem (a := .hier ListN)
      simp only [List.mem_append]
      exact .inl (.inl (.inl (List.mem_filter.2 ⟨(hmem _).2 ht0, by simp [isListy]⟩)))
    · obtain ⟨k, hk⟩ := List.exists_mem_of_ne_nil _ (unionHier_nonempty hc ((hns n).2 ⟨ht0, hn⟩))
      apply List.ne_nil_of_mem (a := .hier k)
      simp only [List.mem_append]
      exact .inr (List.mem_map.2 ⟨k, hk, rfl⟩)
  obtain ⟨T, hT⟩ := mkUnion_some (ord := ord) hLne
  have hlisty : ∀ m, m ∈ ms.filter isListy ↔ m = .hier ListN ∧ .hier ListN ∈ ts := by
    intro m
    rw [List.mem_filter, hmem]
    constructor
    · rintro ⟨h1, h2⟩
      obtain ⟨n, rfl⟩ := h m h1
      simp [isListy] at h2
      subst h2
      exact ⟨rfl, h1⟩
    · rintro ⟨rfl, h1⟩
      exact ⟨h1, by simp [isListy]⟩
  refine ⟨T, _, hT, hns, hnsnd, fun m => ?_⟩
  rw [mem_members_mkUnion ho ?_ hT]
  · simp only [List.mem_append, List.not_mem_nil, or_false, hlisty, List.mem_map]
    constructor
    · rintro (h | ⟨n, h1, h2⟩)
      · exact .inl h
      · exact .inr ⟨n, h1, h2.symm⟩
    · rintro (h | ⟨n, h1, h2⟩)
      · exact .inl h
      · exact .inr ⟨n, h1, h2.symm⟩
  · intro m hm
    simp only [List.mem_append, List.not_mem_nil, or_false, hlisty, List.mem_map] at hm
    rcases hm with ⟨rfl, _⟩ | ⟨n, _, rfl⟩ <;> rfl

theorem unionStep_hier (hc : CfgOk cfg) {ord : List Ty → List Ty} (ho : SetOrder ord) {rec} {ts : List Ty}
    (h : ∀ t ∈ ts, ∃ n, t = .hier n) : 
    (ts = [] ∧ unionStep cfg ord rec ts = some T0) ∨ (∃ n, (∀ t, t ∈ ts ↔ t = .hier n) ∧ unionStep cfg ord rec ts = some (.hier n)) ∨
    (∃ ts', ts' ≠ [] ∧ (∀ t, t ∈ ts' ↔ t ∈ ts) ∧ (∃ t ∈ ts, ∃ u ∈ ts, t ≠ u) ∧ unionStep cfg ord rec ts = unionGeneral cfg ord rec ts') := by
  unfold unionStep
  split
  · exact .inl ⟨rfl, rfl⟩
  · rename_i hne
    right
    split
    · rename_i t e
      have hm := (ho ts).2
      rw [e] at hm
      simp only [List.mem_singleton] at hm
      obtain ⟨n, rfl⟩ := h t ((hm t).1 rfl)
      exact .inl ⟨n, fun t => (hm t).symm, rfl⟩
    · rename_i hnot
      have hmem := (ho ts).2
      have f1 : (ord ts).filter (· ≠ T0) = ord ts := filter_all (fun x hx => by
        obtain ⟨n, rfl⟩ := h x ((hmem x).1 hx); simp [T0])
      have f2 : (ord ts).filter (· ≠ .tbd) = ord ts := filter_all (fun x hx => by
        obtain ⟨n, rfl⟩ := h x ((hmem x).1 hx); simp)
      rw [f1]
      split
      · rename_i t e; exact absurd e (hnot t)
      · rw [f2]
        split
        · rename_i t e; exact absurd e (hnot t)
        · right
          refine ⟨ord ts, ?_, hmem, ?_, rfl⟩
          · obtain ⟨t, ht⟩ := List.exists_mem_of_ne_nil _ hne
            exact List.ne_nil_of_mem ((hmem t).2 ht)
          · have hnd := (ho ts).1
            revert hnot hmem hnd
            generalize ord ts = us
            intro hnot hmem hnd
            match us, hnot, hnd with
            | [], _, _ =>
              obtain ⟨t, ht⟩ := List.exists_mem_of_ne_nil _ hne
              exact absurd ((hmem t).2 ht) (by simp)
            | [t], hnot, _ => exact absurd rfl (hnot t)
            | t :: u :: _, _, hnd =>
              refine ⟨t, (hmem t).1 (by simp), u, (hmem u).1 (by simp), ?_⟩
              rintro rfl
              simp at hnd

theorem unionOf_hier (hc : CfgOk cfg) {ord : List Ty → List Ty} (ho : SetOrder ord) {ts : List Ty}
    (h : ∀ t ∈ ts, ∃ n, t = .hier n) : ∃ T, unionOf cfg ord ts = some T := by
  rw [unionOf_eq ho]
  rcases unionStep_hier hc ho (rec := unionOf cfg ord) h with ⟨_, e⟩ | ⟨n, _, e⟩ | ⟨ts', h1, h2, _, e⟩
  · exact ⟨_, e⟩
  · exact ⟨_, e⟩
  · rw [e]
    obtain ⟨T, ns, hT, _⟩ := unionGeneral_hier hc ho (rec := unionOf cfg ord) h1 (fun t ht => h t ((h2 t).1 ht))
    exact ⟨T, hT⟩

end Verif.Types
