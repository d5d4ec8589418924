import Verif.Types.HierLemmas
/-! # The meaning of a union -/
namespace Verif.Types

variable {cfg : Cfg} {I : Interp}

theorem mem_mapM {α β} {f : α → Option β} {l : List α} {bs : List β} (h : l.mapM f = some bs) (b : β) :
    b ∈ bs ↔ ∃ a ∈ l, f a = some b := by
  rw [mapM_some_iff] at h
  have : some b ∈ bs.map some ↔ b ∈ bs := by simp
  rw [← this, ← h]
  simp

theorem mapM_each {α β} {f : α → Option β} {l : List α} {bs : List β} (h : l.mapM f = some bs) {a : α} (ha : a ∈ l) :
    ∃ b ∈ bs, f a = some b := by
  rw [mapM_some_iff] at h
  have : f a ∈ bs.map some := by rw [← h]; exact List.mem_map.2 ⟨a, ha, rfl⟩
  obtain ⟨b, hb, e⟩ := List.mem_map.1 this
  exact ⟨b, hb, e.symm⟩

/-- Some type of the list has the value. -/
def DenL (cfg : Cfg) (I : Interp) (ts : List Ty) (v : I.V) : Prop := ∃ t ∈ ts, den cfg I t v

theorem denL_append {a b : List Ty} {v : I.V} : DenL cfg I (a ++ b) v ↔ DenL cfg I a v ∨ DenL cfg I b v := by
  unfold DenL
  constructor
  · rintro ⟨t, ht, h⟩
    rcases List.mem_append.1 ht with ht | ht
    · exact .inl ⟨t, ht, h⟩
    · exact .inr ⟨t, ht, h⟩
  · rintro (⟨t, ht, h⟩ | ⟨t, ht, h⟩)
    · exact ⟨t, List.mem_append.2 (.inl ht), h⟩
    · exact ⟨t, List.mem_append.2 (.inr ht), h⟩

theorem den_T0 {v : I.V} : ¬ den cfg I T0 v := by simp [T0, den, denAny]

/-! ### Named types -/

theorem exists_leaf (hx : Exhaustive cfg I) (hc : CfgOk cfg) {n : String} (hn : n ∈ names cfg.tree) {v : I.V} (hv : I.named n v) :
    ∃ l, Anc cfg.tree n l ∧ IsLeaf cfg.tree l ∧ I.named l v := by
  have key : ∀ t : Tree, (names t).Nodup → (∀ p v, p ∈ names t → I.named p v → (∃ c, ChildOf t p c) → ∃ c, ChildOf t p c ∧ I.named c v) →
      ∀ n ∈ names t, ∀ v, I.named n v → ∃ l, Anc t n l ∧ IsLeaf t l ∧ I.named l v := by
    intro t
    induction t using Tree.ind with
    | h m cs ih =>
      intro hnd hx n hn v hv
      have hcase : ∀ c ∈ cs, ∀ k ∈ names c, I.named k v → ∃ l, Anc c k l ∧ IsLeaf c l ∧ I.named l v := by
        intro c hcc k hk hkv
        refine ih c hcc (nodup_child (nodup_node hnd).2 c hcc) ?_ k hk v hkv
        intro p w hp hw ⟨d, hd⟩
        obtain ⟨e, he, hev⟩ := hx p w (mem_names.2 (.inr ⟨c, hcc, hp⟩)) hw ⟨d, .deeper hcc hd⟩
        exact ⟨e, (childOf_child hnd hcc hp).1 he, hev⟩
      rcases mem_names.1 hn with rfl | ⟨c, hcc, hnc⟩
      · by_cases hch : ∃ c, ChildOf (.node n cs) n c
        · obtain ⟨d, hd, hdv⟩ := hx n v hn hv hch
          have hd' := hd
          rcases childOf_node.1 hd with ⟨_, c, hcc, rfl⟩ | ⟨c, hcc, hd⟩
          · obtain ⟨l, h1, h2, h3⟩ := hcase c hcc _ (name_mem c) hdv
            exact ⟨l, .here (mem_names.2 (.inr ⟨c, hcc, h1.mem_right⟩)), (isLeaf_child hnd hcc h1.mem_right).2 h2, h3⟩
          · exact absurd (mem_namesL.2 ⟨c, hcc, hd.mem_left⟩) (nodup_node hnd).1
        · exact ⟨n, .here hn, fun c hc => hch ⟨c, hc⟩, hv⟩
      · obtain ⟨l, h1, h2, h3⟩ := hcase c hcc n hnc hv
        exact ⟨l, .deeper hcc h1, (isLeaf_child hnd hcc h1.mem_right).2 h2, h3⟩
  exact key cfg.tree hc.nodup (fun p v _ => hx p v) n hn v hv

theorem full_self {t : Tree} {S : List String} {n} (h : n ∈ S) : Full t S n := fun _ hl _ => ⟨n, h, hl⟩

theorem exists_maxFull (S : List String) : ∀ (t : Tree), (names t).Nodup → ∀ n ∈ names t, Full t S n →
    ∃ m, Anc t m n ∧ MaxFull t S m := by
  intro t
  induction t using Tree.ind with
  | h r cs ih =>
    intro hnd n hn hf
    by_cases hroot : Full (.node r cs) S r
    · exact ⟨r, .here hn, (maxFull_name (t := .node r cs) hnd).2 hroot⟩
    · have hrS : r ∉ S := fun h => hroot (full_self h)
      rcases mem_names.1 hn with rfl | ⟨c, hcc, hnc⟩
      · exact absurd hf hroot
      · obtain ⟨m, h1, h2⟩ := ih c hcc (nodup_child (nodup_node hnd).2 c hcc) n hnc ((full_child hnd hcc hrS hnc).1 hf)
        refine ⟨m, .deeper hcc h1, (full_child hnd hcc hrS h1.mem_left).2 h2.1, ?_⟩
        intro a ha hfa
        rcases (anc_child hnd hcc h1.mem_left).1 ha with rfl | ha
        · exact absurd hfa hroot
        · exact h2.2 a ha ((full_child hnd hcc hrS ha.mem_left).1 hfa)

theorem unionHier_upper (hc : CfgOk cfg) (hr : Respects cfg I) {ns : List String} {v : I.V} {n} (hn : n ∈ ns) (hv : I.named n v) :
    ∃ m ∈ unionHier cfg.tree ns, I.named m v := by
  unfold unionHier
  split
  · exact ⟨n, hn, hv⟩
  · obtain ⟨h1, h2⟩ := hrec_ok cfg.tree hc.nodup ns
    by_cases hmem : n ∈ names cfg.tree
    · obtain ⟨m, hm, hmf⟩ := exists_maxFull ns cfg.tree hc.nodup n hmem (full_self hn)
      exact ⟨m, (h2 m hm.mem_left).2 hmf, hr.anc hm v hv⟩
    · exact ⟨n, (h1 n hmem).2 hn, hv⟩

theorem unionHier_lower (hc : CfgOk cfg) (hr : Respects cfg I) (hx : Exhaustive cfg I) {ns : List String} {v : I.V} {m}
    (hm : m ∈ unionHier cfg.tree ns) (hv : I.named m v) : ∃ n ∈ ns, I.named n v := by
  unfold unionHier at hm
  split at hm
  · exact ⟨m, hm, hv⟩
  · obtain ⟨h1, h2⟩ := hrec_ok cfg.tree hc.nodup ns
    by_cases hmem : m ∈ names cfg.tree
    · obtain ⟨l, hl1, hl2, hl3⟩ := exists_leaf hx hc hmem hv
      obtain ⟨a, ha, hal⟩ := ((h2 m hmem).1 hm).1 l hl1 hl2
      exact ⟨a, ha, hr.anc hal v hl3⟩
    · exact ⟨m, (h1 m hmem).1 hm, hv⟩

/-! ### Lists -/

/-- What the recursive calls are assumed to give. -/
def Upper (cfg : Cfg) (I : Interp) (P : Ty → Prop) (rec : List Ty → Option Ty) : Prop :=
  ∀ ts T, (∀ t ∈ ts, P t) → rec ts = some T → ∀ v, DenL cfg I ts v → den cfg I T v
def Lower (cfg : Cfg) (I : Interp) (P : Ty → Prop) (rec : List Ty → Option Ty) : Prop :=
  ∀ ts T, (∀ t ∈ ts, P t) → rec ts = some T → ∀ v, den cfg I T v → DenL cfg I ts v

/-- A property of types that goes inside them. -/
structure Inner (P : Ty → Prop) : Prop where
  list : ∀ t, P (.list t) → P t
  record : ∀ s fs, P (.record s fs) → ∀ p ∈ fs, P p.2
  member : ∀ t, P t → ∀ m ∈ members t, P m

theorem deep_inner (p : Ty → Prop) : Inner (Deep p) where
  list := fun _ h => h.2
  record := fun _ _ h => deepF_iff.1 h.2
  member := fun _ h _ hm => h.mem hm

theorem Inner.and {P Q : Ty → Prop} (hp : Inner P) (hq : Inner Q) : Inner (fun t => P t ∧ Q t) where
  list := fun t h => ⟨hp.list t h.1, hq.list t h.2⟩
  record := fun s fs h p hm => ⟨hp.record s fs h.1 p hm, hq.record s fs h.2 p hm⟩
  member := fun t h m hm => ⟨hp.member t h.1 m hm, hq.member t h.2 m hm⟩

theorem unionList_upper {P : Ty → Prop} (hP : Inner P) {rec} (hrec : Upper cfg I P rec) {ms l : List Ty}
    (hms : ∀ m ∈ ms, P m) (hbare : .hier ListN ∉ ms ∨ ms.length ≤ 1) (h : unionList rec ms = some l) {v : I.V} (hv : DenL cfg I ms v) :
    DenL cfg I l v := by
  unfold unionList at h
  split at h
  · injection h with h; subst h; exact hv
  · rename_i hlen
    dsimp only at h
    rw [List.erase_of_not_mem (hbare.resolve_right hlen)] at h
    split at h
    · injection h with h; subst h; exact hv
    · split at h
      · cases h
      · rename_i ts hts
        split at h
        · cases h
        · rename_i T hT
          injection h with h
          subst h
          obtain ⟨m, hm, hv⟩ := hv
          obtain ⟨u, hu, e⟩ := mapM_each hts hm
          have : m = .list u := by
            cases m <;> simp [elemOf?] at e
            rw [e]
          subst this
          simp only [den] at hv
          obtain ⟨es, hes, hall⟩ := hv
          refine ⟨_, List.mem_singleton.2 rfl, ?_⟩
          simp only [den]
          refine ⟨es, hes, fun x hx => ?_⟩
          refine hrec ts T ?_ hT x ⟨u, hu, hall x hx⟩
          intro t ht
          obtain ⟨m', hm', e'⟩ := (mem_mapM hts t).1 ht
          have : m' = .list t := by
            cases m' <;> simp [elemOf?] at e'
            rw [e']
          subst this
          exact hP.list _ (hms _ hm')

theorem unionList_single {rec} {ms l : List Ty} (hms : ms.length ≤ 1) (h : unionList rec ms = some l) : l = ms := by
  unfold unionList at h
  rw [if_pos hms] at h
  injection h with h; exact h.symm

/-! ### Records -/

theorem mem_keysInOrder : ∀ {ks : List String} {k : String}, k ∈ keysInOrder ks ↔ k ∈ ks := by
  intro ks
  induction ks with
  | nil => intro k; simp [keysInOrder]
  | cons a ks ih =>
    intro k
    simp only [keysInOrder, List.mem_cons, List.mem_filter, ih]
    by_cases h : k = a <;> simp [h]

theorem den_record {s : String} {fs : Fields} {v : I.V} : den cfg I (.record s fs) v ↔
    HasSchema cfg I s v ∧ ∀ p ∈ fs, ∃ x, I.field v p.1 = some x ∧ den cfg I p.2 x := by
  simp only [den, denF_iff]

/-- Records of one schema, by their fields. -/
def DenR (cfg : Cfg) (I : Interp) (s : String) (g : List Fields) (v : I.V) : Prop := ∃ fs ∈ g, den cfg I (.record s fs) v

theorem crSplit_den {fs : Fields} {xs : List (String × Fields)} (h : crSplit fs = some xs) {v : I.V} :
    den cfg I (.record CRN fs) v ↔ ∃ x ∈ xs, den cfg I (.record CRN x.2) v := by
  unfold crSplit at h
  split at h
  · split at h
    · injection h with h; subst h
      simp
    · cases h
  · rename_i tn us rest
    split at h
    · rename_i ht
      subst ht
      simp only [den_record, List.mem_cons, forall_eq_or_imp]
      constructor
      · rintro ⟨h1, ⟨x, hx, hd⟩, h2⟩
        rw [den, denAny_iff] at hd
        obtain ⟨u, hu, hd⟩ := hd
        obtain ⟨b, hb, e⟩ := mapM_each h hu
        refine ⟨b, hb, h1, ?_⟩
        cases u <;> simp at e
        subst e
        simp only [List.mem_cons, forall_eq_or_imp]
        exact ⟨⟨x, hx, hd⟩, h2⟩
      · rintro ⟨b, hb, h1, h2⟩
        obtain ⟨u, hu, e⟩ := (mem_mapM h b).1 hb
        refine ⟨h1, ?_⟩
        cases u <;> simp at e
        subst e
        simp only [List.mem_cons, forall_eq_or_imp] at h2
        obtain ⟨⟨x, hx, hd⟩, h2⟩ := h2
        refine ⟨⟨x, hx, ?_⟩, h2⟩
        rw [den, denAny_iff]
        exact ⟨_, hu, hd⟩
    · cases h
  · cases h

/-- The shape of what `crSplit` gives. -/
theorem crSplit_shape {fs : Fields} {xs : List (String × Fields)} (h : crSplit fs = some xs) :
    ∃ t rest, fs = ("[[Type]]", t) :: rest ∧ ∀ x ∈ xs, x.2 = ("[[Type]]", .hier x.1) :: rest := by
  unfold crSplit at h
  split at h
  · split at h
    · rename_i ht
      injection h with h; subst h; subst ht
      exact ⟨_, _, rfl, by simp⟩
    · cases h
  · rename_i tn us rest
    split at h
    · rename_i ht
      subst ht
      refine ⟨_, _, rfl, ?_⟩
      intro x hx
      obtain ⟨u, hu, e⟩ := (mem_mapM h x).1 hx
      cases u <;> simp at e
      subst e
      rfl
    · cases h
  · cases h

theorem crLoop_none : ∀ {g : List Fields}, crLoop g = some none → [] ∈ g := by
  intro g
  induction g with
  | nil => intro h; simp [crLoop] at h
  | cons fs more ih =>
    intro h
    cases fs with
    | nil => simp
    | cons f fs =>
      simp only [crLoop] at h
      split at h
      · cases h
      · split at h
        · cases h
        · rename_i e; exact List.mem_cons_of_mem _ (ih e)
        · cases h

theorem crLoop_some : ∀ {g : List Fields} {xs}, crLoop g = some (some xs) →
    (∀ v, DenR cfg I CRN g v ↔ ∃ x ∈ xs, den cfg I (.record CRN x.2) v) ∧
    ∀ x ∈ xs, ∃ t rest, (("[[Type]]", t) :: rest) ∈ g ∧ x.2 = ("[[Type]]", .hier x.1) :: rest := by
  intro g
  induction g with
  | nil =>
    intro xs h
    simp only [crLoop] at h
    injection h with h; injection h with h; subst h
    exact ⟨fun v => by simp [DenR], by simp⟩
  | cons fs more ih =>
    intro xs h
    cases fs with
    | nil => simp [crLoop] at h
    | cons f fs =>
      simp only [crLoop] at h
      split at h
      · cases h
      · rename_i ys hys
        split at h
        · cases h
        · cases h
        · rename_i zs hzs
          injection h with h; injection h with h; subst h
          obtain ⟨h1, h2⟩ := ih hzs
          constructor
          · intro v
            have := h1 v
            unfold DenR at this ⊢
            simp only [List.mem_cons, List.mem_append, or_and_right, exists_or, this]
            rw [← crSplit_den hys]
            simp
          · intro x hx
            rcases List.mem_append.1 hx with hx | hx
            · obtain ⟨t, rest, e, hall⟩ := crSplit_shape hys
              exact ⟨t, rest, by rw [e]; simp, hall x hx⟩
            · obtain ⟨t, rest, e, hall⟩ := h2 x hx
              exact ⟨t, rest, by simp [e], hall⟩

theorem valueLoop_inl : ∀ {g : List Fields} {fs}, valueLoop g = some (.inl fs) → (∃ f, fs = [f]) ∧ fs ∈ g := by
  intro g
  induction g with
  | nil => intro fs h; simp [valueLoop] at h
  | cons gs more ih =>
    intro fs h
    match gs with
    | [] => simp [valueLoop] at h
    | [f] =>
      simp [valueLoop] at h
      subst h
      exact ⟨⟨f, rfl⟩, by simp⟩
    | f :: (vn, vt) :: r =>
      simp only [valueLoop] at h
      split at h
      · split at h
        · cases h
        · rename_i x hx
          injection h with h; injection h with h; subst h
          obtain ⟨h1, h2⟩ := ih hx
          exact ⟨h1, by simp [h2]⟩
        · cases h
      · cases h

theorem valueLoop_inr : ∀ {g : List Fields} {vs}, valueLoop g = some (.inr vs) →
    (∀ fs ∈ g, ∃ f vt r, fs = f :: ("[[Value]]", vt) :: r ∧ vt ∈ vs) ∧
    ∀ vt ∈ vs, ∃ f r, (f :: ("[[Value]]", vt) :: r) ∈ g := by
  intro g
  induction g with
  | nil => intro fs h; simp [valueLoop] at h; subst h; simp
  | cons gs more ih =>
    intro vs h
    match gs with
    | [] => simp [valueLoop] at h
    | [f] => simp [valueLoop] at h
    | f :: (vn, vt) :: r =>
      simp only [valueLoop] at h
      split at h
      · rename_i hvn
        subst hvn
        split at h
        · cases h
        · cases h
        · rename_i ws hws
          injection h with h; injection h with h; subst h
          obtain ⟨h1, h2⟩ := ih hws
          constructor
          · intro fs hfs
            rcases List.mem_cons.1 hfs with rfl | hfs
            · exact ⟨f, vt, r, rfl, by simp⟩
            · obtain ⟨a, b, c, e, hb⟩ := h1 fs hfs
              exact ⟨a, b, c, e, by simp [hb]⟩
          · intro t ht
            rcases List.mem_cons.1 ht with rfl | ht
            · exact ⟨f, r, by simp⟩
            · obtain ⟨a, b, hb⟩ := h2 t ht
              exact ⟨a, b, by simp [hb]⟩
      · cases h

theorem crGroup_upper {P : Ty → Prop} {rec} (hrec : Upper cfg I P rec) {h : String} {g : List Fields} {T : Ty}
    (hg : ∀ fs ∈ g, ∃ rest, fs = ("[[Type]]", .hier h) :: rest ∧ ∀ p ∈ rest, P p.2)
    (hT : crGroup rec h g = some T) {v : I.V} (hv : DenR cfg I CRN g v) : den cfg I T v := by
  unfold crGroup at hT
  obtain ⟨fs, hfs, hv⟩ := hv
  split at hT
  · injection hT with hT; subst hT
    simp only [List.mem_singleton] at hfs
    subst hfs; exact hv
  · split at hT
    · cases hT
    · rename_i fs' hfs'
      injection hT with hT; subst hT
      obtain ⟨⟨f, rfl⟩, hm⟩ := valueLoop_inl hfs'
      obtain ⟨r1, e1, _⟩ := hg _ hm
      obtain ⟨r2, e2, _⟩ := hg _ hfs
      injection e1 with e1 e1'
      subst e1
      rw [den_record] at hv ⊢
      refine ⟨hv.1, fun p hp => hv.2 p ?_⟩
      simp only [List.mem_singleton] at hp
      rw [hp, e2]; simp
    · rename_i vs hvs
      split at hT
      · cases hT
      · rename_i t ht
        injection hT with hT; subst hT
        obtain ⟨h1, h2⟩ := valueLoop_inr hvs
        obtain ⟨f, vt, r, rfl, hvt⟩ := h1 _ hfs
        obtain ⟨r2, e2, _⟩ := hg _ hfs
        injection e2 with e2 e2'
        subst e2
        rw [den_record] at hv ⊢
        refine ⟨hv.1, ?_⟩
        simp only [List.mem_cons, List.not_mem_nil, or_false, forall_eq_or_imp, forall_eq]
        refine ⟨hv.2 ("[[Type]]", .hier h) (by simp), ?_⟩
        obtain ⟨x, hx, hd⟩ := hv.2 ("[[Value]]", vt) (by simp)
        refine ⟨x, hx, hrec vs t ?_ ht x ⟨vt, hvt, hd⟩⟩
        intro w hw
        obtain ⟨f', r', hm⟩ := h2 w hw
        obtain ⟨r3, e3, hP⟩ := hg _ hm
        injection e3 with e3 e3'
        exact hP ("[[Value]]", w) (by rw [← e3']; simp)

theorem crGroup_lower {P : Ty → Prop} {rec} (hrec : Lower cfg I P rec) {h : String} {g : List Fields} {T : Ty}
    (hg : ∀ fs ∈ g, ∃ rest, fs = ("[[Type]]", .hier h) :: rest ∧ rest.length ≤ 1 ∧ ∀ p ∈ rest, P p.2)
    (hT : crGroup rec h g = some T) {v : I.V} (hv : den cfg I T v) : DenR cfg I CRN g v := by
  unfold crGroup at hT
  split at hT
  · injection hT with hT; subst hT
    exact ⟨_, by simp, hv⟩
  · split at hT
    · cases hT
    · rename_i fs' hfs'
      injection hT with hT; subst hT
      exact ⟨_, (valueLoop_inl hfs').2, hv⟩
    · rename_i vs hvs
      split at hT
      · cases hT
      · rename_i t ht
        injection hT with hT; subst hT
        obtain ⟨h1, h2⟩ := valueLoop_inr hvs
        rw [den_record] at hv
        simp only [List.mem_cons, List.not_mem_nil, or_false, forall_eq_or_imp, forall_eq] at hv
        obtain ⟨g1, g2, x, hx, hd⟩ := hv
        obtain ⟨w, hw, hwd⟩ := hrec vs t (by
          intro w hw
          obtain ⟨f', r', hm⟩ := h2 w hw
          obtain ⟨r3, e3, _, hP⟩ := hg _ hm
          injection e3 with e3 e3'
          exact hP ("[[Value]]", w) (by rw [← e3']; simp)) ht x hd
        obtain ⟨f', r', hm⟩ := h2 w hw
        obtain ⟨r3, e3, hl, hP⟩ := hg _ hm
        injection e3 with e3 e3'
        subst e3; subst e3'
        have : r' = [] := by
          cases r' with
          | nil => rfl
          | cons _ _ => simp at hl
        subst this
        refine ⟨_, hm, ?_⟩
        rw [den_record]
        simp only [List.mem_cons, List.not_mem_nil, or_false, forall_eq_or_imp, forall_eq]
        exact ⟨g1, g2, x, hx, hwd⟩

theorem unionCR_upper {P : Ty → Prop} (hP : Inner P) {rec} (hrec : Upper cfg I P rec) {g : List Fields} {l : List Ty}
    (hg : ∀ fs ∈ g, P (.record CRN fs)) (h : unionCR rec g = some l) {v : I.V} (hv : DenR cfg I CRN g v) : DenL cfg I l v := by
  unfold unionCR at h
  split at h
  · cases h
  · injection h with h; subst h
    refine ⟨_, List.mem_singleton.2 rfl, ?_⟩
    obtain ⟨fs, _, hv⟩ := hv
    rw [den_record] at hv
    rw [TCR, den_record]
    exact ⟨hv.1, by simp⟩
  · rename_i xs hxs
    obtain ⟨h1, h2⟩ := crLoop_some (cfg := cfg) (I := I) hxs
    obtain ⟨x, hx, hd⟩ := (h1 v).1 hv
    have hk : x.1 ∈ keysInOrder (xs.map (·.1)) := mem_keysInOrder.2 (List.mem_map.2 ⟨x, hx, rfl⟩)
    obtain ⟨T, hT, e⟩ := mapM_each h hk
    refine ⟨T, hT, crGroup_upper hrec ?_ e ⟨x.2, List.mem_map.2 ⟨x, List.mem_filter.2 ⟨hx, by simp⟩, rfl⟩, hd⟩⟩
    intro fs hfs
    obtain ⟨y, hy, rfl⟩ := List.mem_map.1 hfs
    obtain ⟨hy1, hy2⟩ := List.mem_filter.1 hy
    simp only [decide_eq_true_eq] at hy2
    obtain ⟨t, rest, hm, e2⟩ := h2 y hy1
    rw [← hy2]
    exact ⟨rest, e2, fun p hp => hP.record _ _ (hg _ hm) p (by simp [hp])⟩

theorem unionCR_lower {P : Ty → Prop} (hP : Inner P) (hshort : ∀ fs, P (.record CRN fs) → fs.length ≤ 2) {rec} (hrec : Lower cfg I P rec)
    {g : List Fields} {l : List Ty}
    (hg : ∀ fs ∈ g, P (.record CRN fs)) (h : unionCR rec g = some l) {v : I.V} (hv : DenL cfg I l v) : DenR cfg I CRN g v := by
  unfold unionCR at h
  split at h
  · cases h
  · rename_i hn
    injection h with h; subst h
    obtain ⟨t, ht, hv⟩ := hv
    simp only [List.mem_singleton] at ht
    subst ht
    exact ⟨_, crLoop_none hn, hv⟩
  · rename_i xs hxs
    obtain ⟨h1, h2⟩ := crLoop_some (cfg := cfg) (I := I) hxs
    rw [h1]
    obtain ⟨T, hT, hv⟩ := hv
    obtain ⟨k, hk, e⟩ := (mem_mapM h T).1 hT
    obtain ⟨fs, hfs, hd⟩ := crGroup_lower hrec (by
      intro fs hfs
      obtain ⟨y, hy, rfl⟩ := List.mem_map.1 hfs
      obtain ⟨hy1, hy2⟩ := List.mem_filter.1 hy
      simp only [decide_eq_true_eq] at hy2
      obtain ⟨t, rest, hm, e2⟩ := h2 y hy1
      rw [← hy2]
      have := hshort _ (hg _ hm)
      simp only [List.length_cons] at this
      exact ⟨rest, e2, by omega, fun p hp => hP.record _ _ (hg _ hm) p (by simp [hp])⟩) e hv
    obtain ⟨y, hy, rfl⟩ := List.mem_map.1 hfs
    exact ⟨y, (List.mem_filter.1 hy).1, hd⟩

theorem recordGroup_upper {P : Ty → Prop} (hP : Inner P) {rec} (hrec : Upper cfg I P rec) {s : String} {g : List Fields} {l : List Ty}
    (hg : ∀ fs ∈ g, P (.record s fs)) (h : recordGroup rec s g = some l) {v : I.V} (hv : DenR cfg I s g v) : DenL cfg I l v := by
  unfold recordGroup at h
  split at h
  · injection h with h; subst h
    obtain ⟨fs, hfs, hv⟩ := hv
    simp only [List.mem_singleton] at hfs
    subst hfs
    exact ⟨_, List.mem_singleton.2 rfl, hv⟩
  · split at h
    · injection h with h; subst h
      obtain ⟨fs, hfs, hv⟩ := hv
      exact ⟨_, List.mem_map.2 ⟨fs, hfs, rfl⟩, hv⟩
    · split at h
      · rename_i hs
        subst hs
        exact unionCR_upper hP hrec hg h hv
      · cases h

theorem recordGroup_lower {P : Ty → Prop} (hP : Inner P) (hshort : ∀ fs, P (.record CRN fs) → fs.length ≤ 2)
    {rec} (hrec : Lower cfg I P rec) {s : String} {g : List Fields} {l : List Ty}
    (hg : ∀ fs ∈ g, P (.record s fs)) (h : recordGroup rec s g = some l) {v : I.V} (hv : DenL cfg I l v) : DenR cfg I s g v := by
  unfold recordGroup at h
  split at h
  · injection h with h; subst h
    obtain ⟨t, ht, hv⟩ := hv
    simp only [List.mem_singleton] at ht
    subst ht
    exact ⟨_, List.mem_singleton.2 rfl, hv⟩
  · split at h
    · injection h with h; subst h
      obtain ⟨t, ht, hv⟩ := hv
      obtain ⟨fs, hfs, rfl⟩ := List.mem_map.1 ht
      exact ⟨_, hfs, hv⟩
    · split at h
      · rename_i hs
        subst hs
        exact unionCR_lower hP hshort hrec hg h hv
      · cases h

theorem unionRecord_upper {P : Ty → Prop} (hP : Inner P) {rec} (hrec : Upper cfg I P rec) {rs : List (String × Fields)} {l : List Ty}
    (hg : ∀ r ∈ rs, P (.record r.1 r.2)) (h : unionRecord rec rs = some l) {v : I.V} {r} (hr : r ∈ rs)
    (hv : den cfg I (.record r.1 r.2) v) : DenL cfg I l v := by
  unfold unionRecord at h
  split at h
  · injection h with h; subst h
    exact ⟨_, List.mem_map.2 ⟨r, hr, rfl⟩, hv⟩
  · rw [Option.map_eq_some_iff] at h
    obtain ⟨ls, hls, rfl⟩ := h
    have hk : r.1 ∈ keysInOrder (rs.map (·.1)) := mem_keysInOrder.2 (List.mem_map.2 ⟨r, hr, rfl⟩)
    obtain ⟨L, hL, e⟩ := mapM_each hls hk
    obtain ⟨t, ht, hd⟩ := recordGroup_upper hP hrec (by
      intro fs hfs
      obtain ⟨y, hy, rfl⟩ := List.mem_map.1 hfs
      obtain ⟨hy1, hy2⟩ := List.mem_filter.1 hy
      simp only [decide_eq_true_eq] at hy2
      rw [← hy2]
      exact hg y hy1) e (v := v) ⟨r.2, List.mem_map.2 ⟨r, List.mem_filter.2 ⟨hr, by simp⟩, rfl⟩, hv⟩
    exact ⟨t, List.mem_flatten.2 ⟨L, hL, ht⟩, hd⟩

theorem unionRecord_lower {P : Ty → Prop} (hP : Inner P) (hshort : ∀ fs, P (.record CRN fs) → fs.length ≤ 2)
    {rec} (hrec : Lower cfg I P rec) {rs : List (String × Fields)} {l : List Ty}
    (hg : ∀ r ∈ rs, P (.record r.1 r.2)) (h : unionRecord rec rs = some l) {v : I.V}
    (hv : DenL cfg I l v) : ∃ r ∈ rs, den cfg I (.record r.1 r.2) v := by
  unfold unionRecord at h
  split at h
  · injection h with h; subst h
    obtain ⟨t, ht, hv⟩ := hv
    obtain ⟨r, hr, rfl⟩ := List.mem_map.1 ht
    exact ⟨r, hr, hv⟩
  · rw [Option.map_eq_some_iff] at h
    obtain ⟨ls, hls, rfl⟩ := h
    obtain ⟨t, ht, hv⟩ := hv
    obtain ⟨L, hL, htL⟩ := List.mem_flatten.1 ht
    obtain ⟨k, hk, e⟩ := (mem_mapM hls L).1 hL
    obtain ⟨fs, hfs, hd⟩ := recordGroup_lower hP hshort hrec (by
      intro fs hfs
      obtain ⟨y, hy, rfl⟩ := List.mem_map.1 hfs
      obtain ⟨hy1, hy2⟩ := List.mem_filter.1 hy
      simp only [decide_eq_true_eq] at hy2
      rw [← hy2]
      exact hg y hy1) e (v := v) ⟨t, htL, hv⟩
    obtain ⟨y, hy, rfl⟩ := List.mem_map.1 hfs
    obtain ⟨hy1, hy2⟩ := List.mem_filter.1 hy
    simp only [decide_eq_true_eq] at hy2
    subst hy2
    exact ⟨y, hy1, hd⟩

/-! ### All together -/

theorem mkUnion_den {ord : List Ty → List Ty} (ho : SetOrder ord) {ms : List Ty} {T : Ty} (h : mkUnion ord ms = some T) {v : I.V} :
    den cfg I T v ↔ DenL cfg I ms v := by
  unfold mkUnion at h
  split at h
  · cases h
  · injection h with h; subst h; simp [DenL]
  · injection h with h; subst h
    rw [den, denAny_iff]
    unfold DenL
    constructor <;> rintro ⟨t, ht, hv⟩
    · exact ⟨t, ((ho _).2 t).1 ht, hv⟩
    · exact ⟨t, ((ho _).2 t).2 ht, hv⟩

theorem mem_recordOf {t : Ty} {r} (h : recordOf? t = some r) : t = .record r.1 r.2 := by
  cases t <;> simp [recordOf?] at h
  subst h; rfl

theorem mem_hierOf {t : Ty} {n} (h : hierOf? t = some n) : t = .hier n ∧ n ≠ ListN := by
  cases t <;> simp [hierOf?] at h
  obtain ⟨h1, rfl⟩ := h
  exact ⟨rfl, h1⟩

/-- The members to be united. -/
theorem general_members {ord : List Ty → List Ty} (ho : SetOrder ord) {ts : List Ty} {m : Ty} :
    m ∈ (ord (ts.flatMap members)).filter (· ≠ .tbd) ↔ m ≠ .tbd ∧ ∃ t ∈ ts, m ∈ members t := by
  rw [List.mem_filter, (ho _).2]
  simp only [List.mem_flatMap, decide_eq_true_eq, ne_eq, decide_not, Bool.not_eq_true', decide_eq_false_iff_not]
  exact And.comm

theorem listy_le_one {ord : List Ty → List Ty} (ho : SetOrder ord) {P : Ty → Prop} {xs : List Ty}
    (hPm : ∀ m ∈ (ord xs).filter (· ≠ .tbd), P m) (hnl : ∀ t, ¬ P (.list t)) :
    (((ord xs).filter (· ≠ .tbd)).filter isListy).length ≤ 1 := by
  have hlist : ∀ m ∈ ((ord xs).filter (· ≠ .tbd)).filter isListy, m = .hier ListN := by
    intro m hm
    obtain ⟨hm1, hm2⟩ := List.mem_filter.1 hm
    cases m with
    | list u => exact absurd (hPm _ hm1) (hnl u)
    | hier n => simp [isListy] at hm2; rw [hm2]
    | _ => simp [isListy] at hm2
  have hnd : (((ord xs).filter (· ≠ .tbd)).filter isListy).Nodup := ((ho _).1.filter _).filter _
  have := nodup_length_le (b := [Ty.hier ListN]) hnd (fun x hx => by simp [hlist x hx])
  simpa using this

theorem unionGeneral_upper (hc : CfgOk cfg) (hr : Respects cfg I) {ord : List Ty → List Ty} (ho : SetOrder ord) {P : Ty → Prop} (hP : Inner P)
    (htbd : ∀ t, P t → t ≠ .tbd) (hbare : (∀ t, P t → t ≠ .hier ListN) ∨ ∀ t, ¬ P (.list t))
    {rec} (hrec : Upper cfg I P rec) {ts : List Ty} {T : Ty} (hts : ∀ t ∈ ts, P t)
    (h : unionGeneral cfg ord rec ts = some T) {v : I.V} (hv : DenL cfg I ts v) : den cfg I T v := by
  unfold unionGeneral at h
  dsimp only at h
  split at h
  · cases h
  rename_i hany
  split at h
  · cases h
  split at h
  · rename_i l r p hl hr' hp
    rw [mkUnion_den ho h]
    obtain ⟨t, ht, hv⟩ := hv
    obtain ⟨m, hm, hv⟩ := den_members.1 hv
    have hPm : ∀ m ∈ (ord (ts.flatMap members)).filter (· ≠ .tbd), P m := by
      intro m hm
      obtain ⟨_, t, ht, hmt⟩ := (general_members ho).1 hm
      exact hP.member t (hts t ht) m hmt
    have hPm0 : P m := hP.member t (hts t ht) m hm
    have hmem : m ∈ (ord (ts.flatMap members)).filter (· ≠ .tbd) := (general_members ho).2 ⟨htbd m hPm0, t, ht, hm⟩
    rw [denL_append, denL_append, denL_append]
    cases m with
    | tbd => exact absurd rfl (htbd _ hPm0)
    | union us =>
      exfalso
      apply hany
      rw [List.any_eq_true]
      exact ⟨_, List.mem_flatMap.2 ⟨t, ht, hm⟩, rfl⟩
    | list u =>
      refine .inl (.inl (.inl (unionList_upper hP hrec ?_ ?_ hl ⟨_, List.mem_filter.2 ⟨hmem, rfl⟩, hv⟩)))
      · intro m hm; exact hPm m (List.mem_filter.1 hm).1
      · rcases hbare with hbare | hnl
        · exact .inl (fun hm => hbare _ (hPm _ (List.mem_filter.1 hm).1) rfl)
        · exact .inr (listy_le_one ho hPm hnl)
    | record s fs =>
      refine .inl (.inl (.inr (unionRecord_upper (r := (s, fs)) hP hrec ?_ hr' ?_ hv)))
      · intro r hr
        obtain ⟨m, hm, e⟩ := List.mem_filterMap.1 hr
        rw [← mem_recordOf e]; exact hPm m hm
      · exact List.mem_filterMap.2 ⟨_, hmem, rfl⟩
    | proc ps r0 =>
      refine .inl (.inr ?_)
      unfold unionProc at hp
      split at hp
      · injection hp with hp; subst hp
        exact ⟨_, List.mem_filter.2 ⟨hmem, rfl⟩, hv⟩
      · cases hp
    | hier n =>
      by_cases hne : n = ListN
      · subst hne
        refine .inl (.inl (.inl (unionList_upper hP hrec ?_ ?_ hl ⟨_, List.mem_filter.2 ⟨hmem, by simp [isListy]⟩, hv⟩)))
        · intro m hm; exact hPm m (List.mem_filter.1 hm).1
        · rcases hbare with hbare | hnl
          · exact absurd rfl (hbare _ hPm0)
          · exact .inr (listy_le_one ho hPm hnl)
      refine .inr ?_
      obtain ⟨k, hk, hkv⟩ := unionHier_upper (n := n) hc hr (List.mem_filterMap (f := hierOf?) |>.2 ⟨Ty.hier n, hmem, by simp [hierOf?, hne]⟩) hv
      exact ⟨_, List.mem_map.2 ⟨k, hk, rfl⟩, hkv⟩
  · cases h

theorem unionGeneral_lower (hc : CfgOk cfg) (hr : Respects cfg I) (hx : Exhaustive cfg I) {ord : List Ty → List Ty} (ho : SetOrder ord)
    {P : Ty → Prop} (hP : Inner P)
    (hnl : ∀ t, ¬ P (.list t)) (hshort : ∀ fs, P (.record CRN fs) → fs.length ≤ 2)
    {rec} (hrec : Lower cfg I P rec) {ts : List Ty} {T : Ty} (hts : ∀ t ∈ ts, P t)
    (h : unionGeneral cfg ord rec ts = some T) {v : I.V} (hv : den cfg I T v) : DenL cfg I ts v := by
  unfold unionGeneral at h
  dsimp only at h
  split at h
  · cases h
  rename_i hany
  split at h
  · cases h
  split at h
  · rename_i l r p hl hr' hp
    rw [mkUnion_den ho h] at hv
    have hPm : ∀ m ∈ (ord (ts.flatMap members)).filter (· ≠ .tbd), P m := by
      intro m hm
      obtain ⟨_, t, ht, hmt⟩ := (general_members ho).1 hm
      exact hP.member t (hts t ht) m hmt
    have back : ∀ m ∈ (ord (ts.flatMap members)).filter (· ≠ .tbd), den cfg I m v → DenL cfg I ts v := by
      intro m hm hv
      obtain ⟨_, t, ht, hmt⟩ := (general_members ho).1 hm
      exact ⟨t, ht, den_members.2 ⟨m, hmt, hv⟩⟩
    rw [denL_append, denL_append, denL_append] at hv
    rcases hv with ((hv | hv) | hv) | hv
    · have hlen := listy_le_one ho hPm hnl
      rw [unionList_single hlen hl] at hv
      obtain ⟨m, hm, hv⟩ := hv
      exact back m (List.mem_filter.1 hm).1 hv
    · obtain ⟨q, hq, hv⟩ := unionRecord_lower hP hshort hrec (by
        intro r hr
        obtain ⟨m, hm, e⟩ := List.mem_filterMap.1 hr
        rw [← mem_recordOf e]; exact hPm m hm) hr' hv
      obtain ⟨m, hm, e⟩ := List.mem_filterMap.1 hq
      rw [← mem_recordOf e] at hv
      exact back m hm hv
    · unfold unionProc at hp
      split at hp
      · injection hp with hp; subst hp
        obtain ⟨m, hm, hv⟩ := hv
        exact back m (List.mem_filter.1 hm).1 hv
      · cases hp
    · obtain ⟨t, ht, hv⟩ := hv
      obtain ⟨k, hk, rfl⟩ := List.mem_map.1 ht
      obtain ⟨n, hn, hnv⟩ := unionHier_lower hc hr hx hk hv
      obtain ⟨m, hm, e⟩ := List.mem_filterMap.1 hn
      obtain ⟨rfl, _⟩ := mem_hierOf e
      exact back _ hm hnv
  · cases h

/-- The shortcuts. -/
theorem unionStep_cases {ord : List Ty → List Ty} (ho : SetOrder ord) {rec} {ts : List Ty} {T : Ty} (h : unionStep cfg ord rec ts = some T) :
    (ts = [] ∧ T = T0) ∨ (T ∈ ts ∧ ∀ t ∈ ts, t = T ∨ t = T0 ∨ t = .tbd) ∨
    ∃ ts', (∀ t, t ∈ ts' ↔ t ∈ ts ∧ t ≠ T0 ∧ t ≠ .tbd) ∧ unionGeneral cfg ord rec ts' = some T := by
  unfold unionStep at h
  split at h
  · injection h with h; exact .inl ⟨rfl, h.symm⟩
  · right
    split at h
    · rename_i t e
      injection h with h; subst h
      have hm := (ho ts).2
      rw [e] at hm
      simp only [List.mem_singleton] at hm
      exact .inl ⟨(hm _).1 rfl, fun t ht => .inl ((hm t).2 ht)⟩
    · split at h
      · rename_i t e
        injection h with h; subst h
        have hm : ∀ x, x ∈ (ord ts).filter (· ≠ T0) ↔ x ∈ ts ∧ x ≠ T0 := by
          intro x; rw [List.mem_filter, (ho ts).2]; simp
        rw [e] at hm
        simp only [List.mem_singleton] at hm
        refine .inl ⟨((hm _).1 rfl).1, fun t ht => ?_⟩
        by_cases h0 : t = T0
        · exact .inr (.inl h0)
        · exact .inl ((hm t).2 ⟨ht, h0⟩)
      · have hm : ∀ x, x ∈ ((ord ts).filter (· ≠ T0)).filter (· ≠ .tbd) ↔ x ∈ ts ∧ x ≠ T0 ∧ x ≠ .tbd := by
          intro x; rw [List.mem_filter, List.mem_filter, (ho ts).2]; simp [and_assoc]
        split at h
        · rename_i t e
          injection h with h; subst h
          rw [e] at hm
          simp only [List.mem_singleton] at hm
          refine .inl ⟨((hm _).1 rfl).1, fun t ht => ?_⟩
          by_cases h0 : t = T0
          · exact .inr (.inl h0)
          · by_cases h1 : t = .tbd
            · exact .inr (.inr h1)
            · exact .inl ((hm t).2 ⟨ht, h0, h1⟩)
        · exact .inr ⟨_, hm, h⟩

theorem unionF_upper (hc : CfgOk cfg) (hr : Respects cfg I) {ord : List Ty → List Ty} (ho : SetOrder ord) {P : Ty → Prop} (hP : Inner P)
    (htbd : ∀ t, P t → t ≠ .tbd) (hbare : (∀ t, P t → t ≠ .hier ListN) ∨ ∀ t, ¬ P (.list t)) : ∀ n, Upper cfg I P (unionF cfg ord n) := by
  intro n
  induction n with
  | zero => intro ts T _ h; simp [unionF] at h
  | succ n ih =>
    intro ts T hts h v hv
    rw [unionF] at h
    rcases unionStep_cases ho h with ⟨rfl, rfl⟩ | ⟨hT, hall⟩ | ⟨ts', hm, h⟩
    · obtain ⟨t, ht, _⟩ := hv; cases ht
    · obtain ⟨t, ht, hv⟩ := hv
      rcases hall t ht with rfl | rfl | rfl
      · exact hv
      · exact absurd hv den_T0
      · exact absurd rfl (htbd _ (hts _ ht))
    · refine unionGeneral_upper hc hr ho hP htbd hbare ih (fun t ht => hts t ((hm t).1 ht).1) h ?_
      obtain ⟨t, ht, hv⟩ := hv
      refine ⟨t, (hm t).2 ⟨ht, ?_, htbd t (hts t ht)⟩, hv⟩
      rintro rfl
      exact den_T0 hv

theorem unionF_lower (hc : CfgOk cfg) (hr : Respects cfg I) (hx : Exhaustive cfg I) {ord : List Ty → List Ty} (ho : SetOrder ord)
    {P : Ty → Prop} (hP : Inner P)
    (hnl : ∀ t, ¬ P (.list t)) (hshort : ∀ fs, P (.record CRN fs) → fs.length ≤ 2) : ∀ n, Lower cfg I P (unionF cfg ord n) := by
  intro n
  induction n with
  | zero => intro ts T _ h; simp [unionF] at h
  | succ n ih =>
    intro ts T hts h v hv
    rw [unionF] at h
    rcases unionStep_cases ho h with ⟨rfl, rfl⟩ | ⟨hT, hall⟩ | ⟨ts', hm, h⟩
    · exact absurd hv den_T0
    · exact ⟨T, hT, hv⟩
    · obtain ⟨t, ht, hv⟩ := unionGeneral_lower hc hr hx ho hP hnl hshort ih (fun t ht => hts t ((hm t).1 ht).1) h hv
      exact ⟨t, ((hm t).1 ht).1, hv⟩

end Verif.Types
