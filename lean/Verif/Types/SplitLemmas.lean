import Verif.Types.FuelLemmas
/-! # Splitting a type by another -/
namespace Verif.Types

variable {cfg : Cfg} {I : Interp}

/-! ### The subtype test on named types -/

/-- `ts` are named types of the hierarchy. -/
def Named (cfg : Cfg) (ts : List Ty) : Prop := ∀ t ∈ ts, ∃ n ∈ names cfg.tree, t = .hier n

theorem hier_member (hc : CfgOk cfg) {a b : String} (ha : a ∈ names cfg.tree) (hb : b ∈ names cfg.tree) :
    (rel cfg (.hier a)).1 (.hier b) = some true ∨ (rel cfg (.hier a)).1 (.hier b) = some false ∧ ¬ Anc cfg.tree b a := by
  simp only [rel, memberWith]
  split
  · exact .inl rfl
  · rename_i hne
    obtain ⟨r, hr⟩ := hierSub_some ha hb
    cases r with
    | true => exact .inl hr
    | false =>
      refine .inr ⟨hr, fun h => ?_⟩
      rw [(hierSub_iff hc.nodup).2 (.inr h)] at hr
      cases hr

theorem hier_member_true (hc : CfgOk cfg) {a b : String} (ha : a ∈ names cfg.tree)
    (h : (rel cfg (.hier a)).1 (.hier b) = some true) : Anc cfg.tree b a := by
  obtain ⟨k, e, h⟩ := hier_right h
  injection e with e; subst e
  rcases (hierSub_iff hc.nodup).1 h with rfl | h
  · exact Anc.refl ha
  · exact h

theorem anyOpt_hier (hc : CfgOk cfg) {a : String} (ha : a ∈ names cfg.tree) : ∀ {bs : List Ty}, Named cfg bs →
    (anyOpt (rel cfg (.hier a)).1 bs = some true ∧ ∃ b, .hier b ∈ bs ∧ Anc cfg.tree b a) ∨
    (anyOpt (rel cfg (.hier a)).1 bs = some false ∧ ∀ b, .hier b ∈ bs → ¬ Anc cfg.tree b a) := by
  intro bs
  induction bs with
  | nil => intro _; exact .inr ⟨rfl, by simp⟩
  | cons t bs ih =>
    intro h
    obtain ⟨b, hb, rfl⟩ := h t (by simp)
    rcases hier_member hc ha hb with hm | ⟨hm, hn⟩
    · refine .inl ⟨by simp [anyOpt, hm], b, by simp, hier_member_true hc ha hm⟩
    · rcases ih (fun t ht => h t (by simp [ht])) with ⟨h1, c, h2, h3⟩ | ⟨h1, h2⟩
      · exact .inl ⟨by simp [anyOpt, hm, h1], c, by simp [h2], h3⟩
      · refine .inr ⟨by simp [anyOpt, hm, h1], ?_⟩
        intro c hcm
        rcases List.mem_cons.1 hcm with e | hcm
        · injection e with e; subst e; exact hn
        · exact h2 c hcm

theorem sub_hier (hc : CfgOk cfg) {a : String} (ha : a ∈ names cfg.tree) {B : Ty} (hB : Named cfg (members B)) :
    (sub cfg (.hier a) B = some true ∧ ∃ b, .hier b ∈ members B ∧ Anc cfg.tree b a) ∨
    (sub cfg (.hier a) B = some false ∧ ∀ b, .hier b ∈ members B → ¬ Anc cfg.tree b a) := by
  have h1 : sub cfg (.hier a) B = subWith (.hier a) B (anyOpt (rel cfg (.hier a)).1) := rfl
  rw [h1]
  unfold subWith
  split
  · rename_i e
    subst e
    refine .inl ⟨rfl, Top, by simp [members], ?_⟩
    rw [← hc.root]
    exact .here ha
  · rw [if_neg (by
      rintro (h | h)
      · simp [members] at h
      · obtain ⟨n, _, e⟩ := hB _ h; cases e)]
    split
    · rename_i hs
      have := hs (a := .hier a) (by simp [members])
      exact .inl ⟨rfl, a, this, Anc.refl ha⟩
    · exact anyOpt_hier hc ha hB

theorem filterOpt_some {α} {f : α → Option Bool} : ∀ {xs : List α}, (∀ x ∈ xs, ∃ r, f x = some r) →
    ∃ ys, filterOpt f xs = some ys ∧ ∀ y, y ∈ ys ↔ y ∈ xs ∧ f y = some true := by
  intro xs
  induction xs with
  | nil => intro _; exact ⟨[], rfl, by simp⟩
  | cons x xs ih =>
    intro h
    obtain ⟨ys, h1, h2⟩ := ih (fun y hy => h y (by simp [hy]))
    obtain ⟨r, hr⟩ := h x (by simp)
    cases r with
    | true =>
      refine ⟨x :: ys, by simp [filterOpt, hr, h1], fun y => ?_⟩
      simp only [List.mem_cons, h2]
      constructor
      · rintro (rfl | ⟨h, h'⟩)
        · exact ⟨.inl rfl, hr⟩
        · exact ⟨.inr h, h'⟩
      · rintro ⟨rfl | h, h'⟩
        · exact .inl rfl
        · exact .inr ⟨h, h'⟩
    | false =>
      refine ⟨ys, by simp [filterOpt, hr, h1], fun y => ?_⟩
      simp only [List.mem_cons, h2]
      constructor
      · rintro ⟨h, h'⟩; exact ⟨.inr h, h'⟩
      · rintro ⟨rfl | h, h'⟩
        · rw [hr] at h'; cases h'
        · exact ⟨h, h'⟩

/-! ### The hierarchy as a partition -/

theorem incomparable_disjoint (hc : CfgOk cfg) (hr : Respects cfg I) (hd : SiblingsDisjoint cfg I) {a b : String} {v : I.V}
    (ha : a ∈ names cfg.tree) (hb : b ∈ names cfg.tree) (h1 : ¬ Anc cfg.tree a b) (h2 : ¬ Anc cfg.tree b a)
    (hav : I.named a v) (hbv : I.named b v) : False := by
  have key : ∀ t : Tree, (names t).Nodup → (∀ a b, Anc t a b → ∀ v, I.named b v → I.named a v) →
      (∀ p c d v, ChildOf t p c → ChildOf t p d → I.named c v → I.named d v → c = d) →
      ∀ a b, a ∈ names t → b ∈ names t → ¬ Anc t a b → ¬ Anc t b a → I.named a v → I.named b v → False := by
    intro t
    induction t using Tree.ind with
    | h n cs ih =>
      intro hnd hanc hdis a b ha hb h1 h2 hav hbv
      rcases mem_names.1 ha with rfl | ⟨c, hcc, hac⟩
      · exact h1 (.here hb)
      rcases mem_names.1 hb with rfl | ⟨d, hdc, hbd⟩
      · exact h2 (.here ha)
      have hcv := hanc c.name a (.deeper hcc (.here hac)) v hav
      have hdv := hanc d.name b (.deeper hdc (.here hbd)) v hbv
      have e := hdis n c.name d.name v (.here hcc) (.here hdc) hcv hdv
      have : c = d := same_child (nodup_node hnd).2 c hcc d hdc c.name (name_mem c) (e ▸ name_mem d)
      subst this
      refine ih c hcc (nodup_child (nodup_node hnd).2 c hcc) (fun a b h => hanc a b (.deeper hcc h))
        (fun p x y v hx hy => hdis p x y v (.deeper hcc hx) (.deeper hcc hy)) a b hac hbd
        (fun h => h1 (.deeper hcc h)) (fun h => h2 (.deeper hcc h)) hav hbv
  exact key cfg.tree hc.nodup (fun a b h v => hr.anc h v) hd a b ha hb h1 h2 hav hbv

theorem path_length {t : Tree} : ∀ {n p}, path? t n = some p → p.length ≤ (names t).length := by
  induction t using Tree.ind with
  | h m cs ih =>
    intro n p h
    rw [path?] at h
    split at h
    · injection h with h; subst h; simp [names]
    · rw [Option.map_eq_some_iff] at h
      obtain ⟨q, hq, rfl⟩ := h
      obtain ⟨c, hcc, hq⟩ := pathL_some hq
      have h1 := ih c hcc hq
      have : ∀ (cs : List Tree), c ∈ cs → (names c).length ≤ (namesL cs).length := by
        intro cs
        induction cs with
        | nil => intro h; cases h
        | cons d cs ih =>
          intro h
          rw [namesL, List.length_append]
          rcases List.mem_cons.1 h with rfl | h
          · omega
          · have := ih h; omega
      have := this cs hcc
      simp only [names, List.length_cons]
      omega

theorem childOf_ne {t : Tree} : (names t).Nodup → ∀ {p c}, ChildOf t p c → c ≠ p := by
  induction t using Tree.ind with
  | h n cs ih =>
    intro hnd p c h
    rcases childOf_node.1 h with ⟨rfl, d, hd, rfl⟩ | ⟨d, hd, h⟩
    · intro e
      exact (nodup_node hnd).1 (mem_namesL.2 ⟨d, hd, e ▸ name_mem d⟩)
    · exact ih d hd (nodup_child (nodup_node hnd).2 d hd) h

theorem exists_child {t : Tree} : (names t).Nodup → ∀ {a b}, Anc t a b → a ≠ b → ∃ c, ChildOf t a c := by
  induction t using Tree.ind with
  | h n cs ih =>
    intro hnd a b h hne
    rcases anc_node.1 h with ⟨rfl, hb⟩ | ⟨c, hcc, h⟩
    · rcases mem_names.1 hb with rfl | ⟨c, hcc, _⟩
      · exact absurd rfl hne
      · exact ⟨c.name, .here hcc⟩
    · obtain ⟨d, hd⟩ := ih c hcc (nodup_child (nodup_node hnd).2 c hcc) h hne
      exact ⟨d, .deeper hcc hd⟩

/-! ### The split -/

/-- What a split of `as` into `r` should be, for the values of `B`. -/
structure SplitOk (cfg : Cfg) (B : Ty) (as : List Ty) (r : List Ty × List Ty) : Prop where
  namedIn : Named cfg r.1
  namedOut : Named cfg r.2
  inside : ∀ I : Interp, Respects cfg I → Exhaustive cfg I → SiblingsDisjoint cfg I → ∀ v : I.V,
    DenL cfg I r.1 v ↔ DenL cfg I as v ∧ den cfg I B v
  outside : ∀ I : Interp, Respects cfg I → Exhaustive cfg I → SiblingsDisjoint cfg I → ∀ v : I.V,
    DenL cfg I r.2 v ↔ DenL cfg I as v ∧ ¬ den cfg I B v

/-- All members of `B` below a member of `as` are in `bs`. -/
def Kept (cfg : Cfg) (B : Ty) (a : String) (bs : List Ty) : Prop :=
  ∀ b, .hier b ∈ members B → Anc cfg.tree a b → .hier b ∈ bs

theorem splitOne_ok (hc : CfgOk cfg) (hleaf : IsLeaf cfg.tree ListN) {ord : List Ty → List Ty} {B : Ty} (hB : Named cfg (members B))
    {rec : List Ty → List Ty → Option (List Ty × List Ty)} {a : String} (ha : a ∈ names cfg.tree) {bs : List Ty}
    (hsub : ∀ b ∈ bs, b ∈ members B) (hk : Kept cfg B a bs)
    (hrec : ∀ cs : List String, (∀ c, c ∈ cs ↔ ChildOf cfg.tree a c) → ∀ bs' : List Ty, (∀ b ∈ bs', b ∈ members B) → (∀ c ∈ cs, Kept cfg B c bs') →
      ∃ r, rec (cs.map .hier) bs' = some r ∧ SplitOk cfg B (cs.map .hier) r) :
    ∃ r, splitOne cfg ord B rec bs (.hier a) = some r ∧ SplitOk cfg B [.hier a] r := by
  have hbs : Named cfg bs := fun b hb => hB b (hsub b hb)
  have hnot : ¬ (Ty.hier a = .hier NormalN ∧ B = TCR) := by
    rintro ⟨_, rfl⟩
    obtain ⟨n, _, e⟩ := hB TCR (by simp [members, TCR])
    simp [TCR] at e
  have hbden : ∀ {I : Interp} {v : I.V}, den cfg I B v ↔ ∃ b ∈ names cfg.tree, .hier b ∈ members B ∧ I.named b v := by
    intro I v
    rw [den_members]
    constructor
    · rintro ⟨m, hm, hv⟩
      obtain ⟨b, hb, rfl⟩ := hB m hm
      exact ⟨b, hb, hm, hv⟩
    · rintro ⟨b, hb, hm, hv⟩
      exact ⟨_, hm, hv⟩
  have hone : ∀ {I : Interp} {v : I.V}, DenL cfg I [.hier a] v ↔ I.named a v := by
    intro I v; simp [DenL, den]
  have hnil : ∀ {I : Interp} {v : I.V}, ¬ DenL cfg I [] v := by
    intro I v; simp [DenL]
  have hna : Named cfg [.hier a] := by
    intro t ht
    simp only [List.mem_singleton] at ht
    exact ⟨a, ha, ht⟩
  have hn0 : Named cfg [] := by intro t ht; cases ht
  unfold splitOne
  dsimp only
  rw [if_neg (by simp : ¬ (Ty.hier a = Ty.tbd)), if_neg hnot]
  rcases sub_hier hc ha hB with ⟨hs, b, hb, hba⟩ | ⟨hs, hs'⟩
  · rw [hs]
    refine ⟨_, rfl, hna, hn0, ?_, ?_⟩
    · intro I hr _ _ v
      rw [hone, hbden]
      refine ⟨fun h => ⟨h, b, hba.mem_left, hb, hr.anc hba v h⟩, And.left⟩
    · intro I hr _ _ v
      rw [hone]
      refine ⟨fun h => absurd h hnil, fun ⟨h1, h2⟩ => absurd (hbden.2 ⟨b, hba.mem_left, hb, hr.anc hba v h1⟩) h2⟩
  · rw [hs]
    dsimp only
    have hfs : ∀ b ∈ bs, ∃ r, sub cfg b (.hier a) = some r := by
      intro b hb
      obtain ⟨n, hn, rfl⟩ := hbs b hb
      rcases sub_hier hc hn (B := .hier a) (by simpa [members] using hna) with ⟨h, _⟩ | ⟨h, _⟩ <;> exact ⟨_, h⟩
    obtain ⟨within, hw, hwm⟩ := filterOpt_some hfs
    have hwithin : ∀ b, .hier b ∈ within ↔ .hier b ∈ bs ∧ Anc cfg.tree a b := by
      intro b
      rw [hwm]
      constructor
      · rintro ⟨h1, h2⟩
        obtain ⟨n, hn, e⟩ := hbs _ h1
        injection e with e; subst e
        refine ⟨h1, ?_⟩
        rcases sub_hier hc hn (B := .hier a) (by simpa [members] using hna) with ⟨_, c, h3, h4⟩ | ⟨h, _⟩
        · simp only [members, List.mem_singleton] at h3
          injection h3 with h3; subst h3; exact h4
        · rw [h] at h2; cases h2
      · rintro ⟨h1, h2⟩
        refine ⟨h1, ?_⟩
        rcases sub_hier hc h2.mem_right (B := .hier a) (by simpa [members] using hna) with ⟨h, _⟩ | ⟨_, h⟩
        · exact h
        · exact absurd h2 (h a (by simp [members]))
    rw [hw]
    cases within with
    | nil =>
      dsimp only
      have hout : ∀ {I : Interp}, Respects cfg I → SiblingsDisjoint cfg I → ∀ v : I.V, I.named a v → ¬ den cfg I B v := by
        intro I hr hd v hv hBv
        obtain ⟨b, hb, hbm, hbv⟩ := hbden.1 hBv
        refine incomparable_disjoint hc hr hd ha hb ?_ (hs' b hbm) hv hbv
        intro hab
        have := (hwithin b).2 ⟨hk b hbm hab, hab⟩
        cases this
      refine ⟨_, rfl, hn0, hna, ?_, ?_⟩
      · intro I hr _ hd v
        rw [hone]
        exact ⟨fun h => absurd h hnil, fun ⟨h1, h2⟩ => absurd h2 (hout hr hd v h1)⟩
      · intro I hr _ hd v
        rw [hone]
        exact ⟨fun h => ⟨h, hout hr hd v h⟩, And.left⟩
    | cons w ws =>
      dsimp only
      have hwn : Named cfg (w :: ws) := fun t ht => hbs t ((hwm t).1 ht).1
      -- a child exists
      have hch : ∃ c, ChildOf cfg.tree a c := by
        obtain ⟨b, hb, rfl⟩ := hwn w (by simp)
        have h1 := (hwithin b).1 (by simp)
        by_cases e : a = b
        · subst e
          exact absurd h1.2 (hs' a (hsub _ h1.1))
        · exact exists_child hc.nodup h1.2 e
      have hlist : a ≠ ListN := by
        rintro rfl
        obtain ⟨c, hc'⟩ := hch
        exact hleaf c hc'
      obtain ⟨cs, hcs⟩ := Option.isSome_iff_exists.1 (children_isSome cfg.tree a ha)
      have hcm := children_iff hc.nodup hcs
      obtain ⟨r, hr1, hr2⟩ := hrec cs hcm (w :: ws) (fun b hb => hsub b ((hwm b).1 hb).1) (by
        intro c hcc b hb hcb
        have hab : Anc cfg.tree a b := ((hcm c).1 hcc).anc.trans hc.nodup hcb
        exact (hwithin b).2 ⟨hk b hb hab, hab⟩)
      refine ⟨r, ?_, ?_⟩
      · simp only [breakDown]
        rw [if_neg hlist, hcs]
        exact hr1
      · have hden : ∀ {I : Interp}, Respects cfg I → Exhaustive cfg I → ∀ v : I.V, DenL cfg I (cs.map .hier) v ↔ DenL cfg I [.hier a] v := by
          intro I hr hx v
          rw [hone]
          unfold DenL
          constructor
          · rintro ⟨t, ht, hv⟩
            obtain ⟨c, hcc, rfl⟩ := List.mem_map.1 ht
            exact hr.child a c ((hcm c).1 hcc) v hv
          · intro hv
            obtain ⟨c, hcc, hcv⟩ := hx a v hv hch
            exact ⟨_, List.mem_map.2 ⟨c, (hcm c).2 hcc, rfl⟩, hcv⟩
        refine ⟨hr2.namedIn, hr2.namedOut, ?_, ?_⟩
        · intro I hr hx hd v
          rw [hr2.inside I hr hx hd v, hden hr hx v]
        · intro I hr hx hd v
          rw [hr2.outside I hr hx hd v, hden hr hx v]

theorem mapM_split {B : Ty} {f : Ty → Option (List Ty × List Ty)} : ∀ {as : List Ty},
    (∀ a ∈ as, ∃ r, f a = some r ∧ SplitOk cfg B [a] r) →
    ∃ rs, as.mapM f = some rs ∧ SplitOk cfg B as (rs.flatMap (·.1), rs.flatMap (·.2)) := by
  intro as
  induction as with
  | nil =>
    intro _
    refine ⟨[], rfl, ?_, ?_, ?_, ?_⟩
    · intro t ht; cases ht
    · intro t ht; cases ht
    · intro I _ _ _ v; simp [DenL]
    · intro I _ _ _ v; simp [DenL]
  | cons a as ih =>
    intro h
    obtain ⟨rs, h1, h2⟩ := ih (fun x hx => h x (by simp [hx]))
    obtain ⟨r, h3, h4⟩ := h a (by simp)
    have hcons : ∀ {I : Interp} {v : I.V}, DenL cfg I (a :: as) v ↔ DenL cfg I [a] v ∨ DenL cfg I as v := by
      intro I v
      rw [← denL_append]; rfl
    refine ⟨r :: rs, by simp [h1, h3], ?_, ?_, ?_, ?_⟩
    · intro t ht
      rcases List.mem_append.1 (by simpa using ht : t ∈ r.1 ++ rs.flatMap (·.1)) with ht | ht
      · exact h4.namedIn t ht
      · exact h2.namedIn t ht
    · intro t ht
      rcases List.mem_append.1 (by simpa using ht : t ∈ r.2 ++ rs.flatMap (·.2)) with ht | ht
      · exact h4.namedOut t ht
      · exact h2.namedOut t ht
    · intro I hr hx hd v
      have e1 := h4.inside I hr hx hd v
      have e2 := h2.inside I hr hx hd v
      dsimp only at e2 ⊢
      rw [List.flatMap_cons, denL_append, e1, e2, hcons, or_and_right]
    · intro I hr hx hd v
      have e1 := h4.outside I hr hx hd v
      have e2 := h2.outside I hr hx hd v
      dsimp only at e2 ⊢
      rw [List.flatMap_cons, denL_append, e1, e2, hcons, or_and_right]

theorem splitRec_ok (hc : CfgOk cfg) (hleaf : IsLeaf cfg.tree ListN) {ord : List Ty → List Ty} {B : Ty} (hB : Named cfg (members B)) :
    ∀ (n : Nat) (as : List String) (bs : List Ty), (∀ a ∈ as, ∃ p, path? cfg.tree a = some p ∧ (names cfg.tree).length + 2 ≤ n + p.length) →
    (∀ b ∈ bs, b ∈ members B) → (∀ a ∈ as, Kept cfg B a bs) → 0 < n →
    ∃ r, splitRec cfg ord B n (as.map .hier) bs = some r ∧ SplitOk cfg B (as.map .hier) r := by
  intro n
  induction n with
  | zero => intro _ _ _ _ _ h; omega
  | succ n ih =>
    intro as bs has hsub hk _
    rw [splitRec]
    obtain ⟨rs, h1, h2⟩ := mapM_split (cfg := cfg) (B := B) (f := splitOne cfg ord B (splitRec cfg ord B n) bs) (as := as.map .hier) (by
      intro t ht
      obtain ⟨a, ha, rfl⟩ := List.mem_map.1 ht
      obtain ⟨p, hp, hlen⟩ := has a ha
      refine splitOne_ok hc hleaf hB (path_mem hp) hsub (hk a ha) ?_
      intro cs hcs bs' hsub' hk'
      by_cases hne : cs = []
      · subst hne
        have hpl := path_length hp
        refine ih [] bs' (by simp) hsub' (by simp) (by omega)
      · obtain ⟨c0, hc0⟩ := List.exists_mem_of_ne_nil _ hne
        have hpath : ∀ c ∈ cs, ∃ q, path? cfg.tree c = some q ∧ (names cfg.tree).length + 2 ≤ n + q.length := by
          intro c hcc
          have hch := (hcs c).1 hcc
          obtain ⟨q, hq⟩ := Option.isSome_iff_exists.1 (path_isSome cfg.tree c hch.mem_right)
          obtain ⟨q1, r1, e1, e2, e3⟩ := path_prefix hc.nodup hq hch.anc
          rw [hp] at e1
          injection e1 with e1
          have := e3 (childOf_ne hc.nodup hch)
          have : 0 < r1.length := List.length_pos_iff.2 this
          refine ⟨q, hq, ?_⟩
          rw [e2, ← e1, List.length_append]
          omega
        refine ih cs bs' hpath hsub' hk' ?_
        obtain ⟨q, hq, hl⟩ := hpath c0 hc0
        have := path_length hq
        omega)
    rw [h1]
    exact ⟨_, rfl, h2⟩

theorem path_pos {t : Tree} {n p} (h : path? t n = some p) : 0 < p.length := by
  cases t with
  | node m cs =>
    rw [path?] at h
    split at h
    · injection h with h; subst h; simp
    · rw [Option.map_eq_some_iff] at h
      obtain ⟨q, hq, rfl⟩ := h
      simp

theorem named_map {ts : List Ty} (h : Named cfg ts) : ∃ ns : List String, ts = ns.map .hier ∧ ∀ n ∈ ns, n ∈ names cfg.tree := by
  induction ts with
  | nil => exact ⟨[], rfl, by simp⟩
  | cons t ts ih =>
    obtain ⟨ns, e, hn⟩ := ih (fun x hx => h x (by simp [hx]))
    obtain ⟨n, hn', rfl⟩ := h t (by simp)
    exact ⟨n :: ns, by simp [e], by simpa using ⟨hn', hn⟩⟩

/-- Types of the hierarchy: named, or unions of named ones. -/
theorem splitBy_ok (hc : CfgOk cfg) (hleaf : IsLeaf cfg.tree ListN) {ord : List Ty → List Ty} (ho : SetOrder ord) {A B : Ty}
    (hA : Named cfg (members A)) (hB : Named cfg (members B)) :
    ∃ i o, splitBy cfg ord A B = some (i, o) ∧
      ∀ I : Interp, Respects cfg I → Exhaustive cfg I → SiblingsDisjoint cfg I → ∀ v : I.V,
        (den cfg I i v ↔ den cfg I A v ∧ den cfg I B v) ∧ (den cfg I o v ↔ den cfg I A v ∧ ¬ den cfg I B v) := by
  unfold splitBy
  split
  · rename_i he
    refine ⟨A, T0, rfl, fun I hr hx hd v => ?_⟩
    have : den cfg I A v ↔ den cfg I B v := by
      rw [den_members, den_members (A := B)]
      exact ⟨fun ⟨m, hm, h⟩ => ⟨m, he.1 hm, h⟩, fun ⟨m, hm, h⟩ => ⟨m, he.2 hm, h⟩⟩
    constructor
    · rw [← this]; simp
    · rw [← this]; simp [den_T0]
  · obtain ⟨as, e, has⟩ := named_map hA
    obtain ⟨r, hr, hok⟩ := splitRec_ok (ord := ord) hc hleaf hB ((names cfg.tree).length + 1) as (members B) (by
        intro a ha
        obtain ⟨p, hp⟩ := Option.isSome_iff_exists.1 (path_isSome cfg.tree a (has a ha))
        have := path_pos hp
        exact ⟨p, hp, by omega⟩) (fun b hb => hb) (fun a _ b hb _ => hb) (by omega)
    rw [e, hr]
    obtain ⟨i, o⟩ := r
    dsimp only
    have h1 : ∀ t ∈ i, ∃ n, t = .hier n := fun t ht => by obtain ⟨n, _, e⟩ := hok.namedIn t ht; exact ⟨n, e⟩
    have h2 : ∀ t ∈ o, ∃ n, t = .hier n := fun t ht => by obtain ⟨n, _, e⟩ := hok.namedOut t ht; exact ⟨n, e⟩
    obtain ⟨i', hi'⟩ := unionOf_hier hc ho h1
    obtain ⟨o', ho'⟩ := unionOf_hier hc ho h2
    rw [hi', ho']
    refine ⟨i', o', rfl, fun I hr hx hd v => ?_⟩
    have hP : Inner (fun t => ∃ n, t = Ty.hier n) := {
      list := fun t ⟨n, h⟩ => by cases h
      record := fun s fs ⟨n, h⟩ => by cases h
      member := fun t ⟨n, h⟩ m hm => by subst h; simp [members] at hm; exact ⟨n, hm⟩ }
    have hu : ∀ ts T, (∀ t ∈ ts, ∃ n, t = Ty.hier n) → unionOf cfg ord ts = some T → (den cfg I T v ↔ DenL cfg I ts v) := by
      intro ts T hts hT
      constructor
      · exact unionF_lower hc hr hx ho hP (fun t ⟨n, h⟩ => by cases h) (fun fs ⟨n, h⟩ => by cases h) _ ts T hts hT v
      · exact unionF_upper hc hr ho hP (fun t ⟨n, h⟩ => by subst h; simp) (.inr (fun t ⟨n, h⟩ => by cases h)) _ ts T hts hT v
    have hAd : den cfg I A v ↔ DenL cfg I (as.map .hier) v := by
      rw [den_members, e]; rfl
    rw [hu i i' h1 hi', hu o o' h2 ho', hAd]
    exact ⟨hok.inside I hr hx hd v, hok.outside I hr hx hd v⟩

end Verif.Types
