import Verif.Sta.QuietLemmas
/-! # The passes over a cluster, and all clusters -/
namespace Verif.Sta
variable {T E : Type}

/-! ## Only messages about changes are installed before a cluster has settled -/

/-- The messages that are not about changes. -/
def findings (log : List (Entry T E)) : List (Entry T E) := log.filter (fun e => !e.isChange)

theorem findings_append (a b : List (Entry T E)) : findings (a ++ b) = findings a ++ findings b := by simp [findings]

theorem findings_self (l : List (Entry T E)) (h : ∀ e ∈ l, e.isChange = false) : findings l = l := by
  unfold findings
  rw [List.filter_eq_self]
  intro e he
  simp [h e he]

theorem nameLoop_findings [DecidableEq T] (cfg : Cfg T E) (L a i : Nat) (tbd : List Name) (init fin : List (Name × T)) :
    ∀ (pns : List Name) (s : St T E) (c : Bool), findings (nameLoop cfg L a i tbd init fin pns s c).st.log = findings s.log := by
  intro pns
  induction pns with
  | nil => intro s c; rfl
  | cons pn pns ih =>
    intro s c
    unfold nameLoop
    split
    · repeat' split
      all_goals rw [ih]
      · unfold changeType
        simp only [findings_append]
        simp [findings, Entry.isChange]
      · rfl
    · rfl

theorem tcHeader_findings [DecidableEq T] (cfg : Cfg T E) (L a i : Nat) (h : Head T) (s : St T E) :
    findings (tcHeader cfg L a i h s).st.log = findings s.log := by
  unfold tcHeader
  split
  · rfl
  · split
    · split
      · rfl
      · unfold afterBody
        repeat' split
        all_goals first | rfl | (rw [nameLoop_findings]; rfl)
    · rfl

theorem headLoop_findings [DecidableEq T] (cfg : Cfg T E) (L a : Nat) : ∀ (n i : Nat) (s : St T E) (c : Bool),
    findings (headLoop cfg L a n i s c).st.log = findings s.log := by
  intro n
  induction n with
  | zero => intro i s c; rfl
  | succ n ih =>
    intro i s c
    unfold headLoop
    cases headAt s.algs a i with
    | none => rfl
    | some h =>
      simp only
      have := tcHeader_findings cfg L a i h s
      cases ht : tcHeader cfg L a i h s with
      | stop w s1 => rw [ht] at this; exact this
      | ok s1 c1 =>
        rw [ht] at this
        simp only
        rw [ih]
        exact this

theorem tcAlg_findings [DecidableEq T] (cfg : Cfg T E) (L a : Nat) (s : St T E) : findings (tcAlg cfg L a s).st.log = findings s.log := by
  unfold tcAlg
  cases s.algs[a]? with
  | none => rfl
  | some x =>
    simp only
    split
    · rfl
    · have := headLoop_findings cfg L a x.heads.length 0 s false
      cases hl : headLoop cfg L a x.heads.length 0 s false with
      | stop w s1 => rw [hl] at this; exact this
      | ok s1 c1 =>
        rw [hl] at this
        cases c1 with
        | false => exact this
        | true =>
          simp only
          cases (s1.algs[a]?).bind (summarize cfg) <;> exact this

theorem memberLoop_findings [DecidableEq T] (cfg : Cfg T E) (L : Nat) : ∀ (as : List Nat) (s : St T E) (c : Bool),
    findings (memberLoop cfg L as s c).st.log = findings s.log := by
  intro as
  induction as with
  | nil => intro s c; rfl
  | cons a as ih =>
    intro s c
    unfold memberLoop
    have := tcAlg_findings cfg L a s
    cases ht : tcAlg cfg L a s with
    | stop w s1 => rw [ht] at this; exact this
    | ok s1 c1 =>
      rw [ht] at this
      simp only
      rw [ih]
      exact this

/-! ## A cluster -/

theorem ext_settle [DecidableEq T] (cfg : Cfg T E) (L : Nat) (as : List Nat) : ∀ (k : Nat) (s : St T E), AllGood s.algs →
    ∃ ds, Ext (fun b _ _ => k * as.count b) (· ∈ as) (· = L) ds s (settle cfg L as k s).st ∧
      (∀ s', settle cfg L as k s = .ok s' () → ∀ b i n, (changesOf b i n ds).length ≤ (k - 1) * as.count b) ∧
      (∀ s', settle cfg L as k s = .stop .gaveUp s' → k ≤ nChanges ds) := by
  intro k
  induction k with
  | zero =>
    intro s _
    exact ⟨[], .refl _ _ _ _, fun s' hs => (by cases hs), fun s' _ => Nat.zero_le _⟩
  | succ k ih =>
    intro s hg
    have x0 : Ext (fun _ _ _ => 0) (· ∈ as) (· = L) [] s { s with pass := [] } :=
      .quiet _ _ _ s { s with pass := [] } rfl [] (by simp) (by simp) (fun _ e he => by cases he)
    obtain ⟨ds, x, hx⟩ := ext_memberLoop cfg L as { s with pass := [] } false hg
    unfold settle
    cases hr : memberLoop cfg L as { s with pass := [] } false with
    | stop w s1 =>
      rw [hr] at x
      refine ⟨[] ++ ds, (x0.trans x).mono ?_ (fun _ h => h), fun s' hs => (by cases hs), ?_⟩
      · intro b _ _
        simp only [Nat.zero_add]
        exact Nat.le_mul_of_pos_left _ (Nat.succ_pos _)
      · intro s' hs
        simp only at hs
        injection hs with h1 h2
        subst h1; subst h2
        exact absurd hr (memberLoop_stop cfg L as _ _ _)
    | ok s1 c1 =>
      rw [hr] at x
      cases c1 with
      | true =>
        simp only
        obtain ⟨ds', y, hy1, hy2⟩ := ih s1 (x.good hg)
        refine ⟨[] ++ ds ++ ds', ((x0.trans x).trans y).mono ?_ (fun _ h => h), ?_, ?_⟩
        · intro b _ _
          simp only [Nat.zero_add]
          rw [Nat.succ_mul]
          omega
        · intro s' hs b i n
          have h1 := hy1 s' hs b i n
          have h2 := x.bound b i n
          rw [List.nil_append, changesOf_append, List.length_append]
          cases k with
          | zero => unfold settle at hs; cases hs
          | succ k =>
            simp only [Nat.add_sub_cancel] at h1 ⊢
            rw [Nat.succ_mul]
            omega
        · intro s' hs
          have h := hy2 s' hs
          have h2 := nChanges_pos (by
            rcases hx s1 hr with h | h
            · cases h
            · exact h)
          rw [List.nil_append, nChanges_append]
          omega
      | false =>
        simp only
        have hp : ∀ e ∈ s1.pass, e.isChange = false := x.pass (fun e he => by cases he)
        have y : Ext (fun _ _ _ => 0) (· ∈ as) (· = L) s1.pass s1 { s1 with log := s1.log ++ s1.pass } :=
          .quiet _ _ _ s1 { s1 with log := s1.log ++ s1.pass } rfl _ rfl hp id
        obtain ⟨_, _, q3, _, _⟩ := quiet_memberLoop cfg L as { s with pass := [] } s1 false hg hr
        have hds : ds = [] := by
          have := x.log
          simp only [Res.st, q3] at this
          simpa using this
        refine ⟨[] ++ ds ++ s1.pass, ((x0.trans x).trans y).mono ?_ (fun _ h => h), ?_, fun s' hs => by cases hs⟩
        · intro b _ _
          simp only [Nat.zero_add, Nat.add_zero]
          exact Nat.le_mul_of_pos_left _ (Nat.succ_pos _)
        · intro s' _ b i n
          rw [hds, List.nil_append, List.nil_append, changesOf_none _ _ _ _ hp]
          exact Nat.zero_le _

theorem settle_ok [DecidableEq T] (cfg : Cfg T E) (L : Nat) (as : List Nat) : ∀ (k : Nat) (s s' : St T E), AllGood s.algs → Fresh cfg s.algs →
    settle cfg L as k s = .ok s' () →
    Fresh cfg s'.algs ∧ findings s'.log = findings s.log ++ as.flatMap (algFinds cfg s'.algs L) ∧ ∀ a ∈ as, AlgSettled cfg s'.algs a := by
  intro k
  induction k with
  | zero => intro s s' _ _ hr; unfold settle at hr; cases hr
  | succ k ih =>
    intro s s' hg hf hr
    rw [settle.eq_def] at hr
    simp only at hr
    obtain ⟨ds, x, hx⟩ := ext_memberLoop cfg L as { s with pass := [] } false hg
    have hfi := memberLoop_findings cfg L as { s with pass := [] } false
    cases hm : memberLoop cfg L as { s with pass := [] } false with
    | stop w s1 => rw [hm] at hr; cases hr
    | ok s1 c1 =>
      rw [hm] at hr x hfi
      have hf1 := fresh_memberLoop cfg L as { s with pass := [] } s1 false c1 hg hf hm
      cases c1 with
      | true =>
        simp only at hr
        obtain ⟨e1, e2, e3⟩ := ih s1 s' (x.good hg) hf1 hr
        simp only [Res.st] at hfi
        exact ⟨e1, by rw [e2, hfi], e3⟩
      | false =>
        simp only at hr
        injection hr with hr
        subst hr
        obtain ⟨_, q2, q3, q4, q5⟩ := quiet_memberLoop cfg L as { s with pass := [] } s1 false hg hm
        simp only at q2 q3 q4 q5
        have hp : ∀ e ∈ s1.pass, e.isChange = false := x.pass (fun e he => by cases he)
        simp only
        rw [q2]
        refine ⟨hf, ?_, q5⟩
        rw [findings_append, q3, findings_self _ hp, q4, List.nil_append]

/-! ## All clusters -/

/-- The clusters with the numbers of their levels. -/
def flat : Nat → List (List (List Nat)) → List (Nat × List Nat)
  | _, [] => []
  | L, l :: ls => l.map (fun c => (L, c)) ++ flat (L + 1) ls

/-- The clusters one after the other. -/
def runFlat [DecidableEq T] (cfg : Cfg T E) : List (Nat × List Nat) → St T E → Res T E Unit
  | [], s => .ok s ()
  | c :: cs, s =>
    match settle cfg c.1 c.2 maxPasses s with
    | .stop w s' => .stop w s'
    | .ok s' _ => runFlat cfg cs s'

theorem runFlat_append [DecidableEq T] (cfg : Cfg T E) (cs ds : List (Nat × List Nat)) : ∀ (s : St T E),
    runFlat cfg (cs ++ ds) s = match runFlat cfg cs s with
      | .stop w s' => .stop w s'
      | .ok s' _ => runFlat cfg ds s' := by
  induction cs with
  | nil => intro s; rfl
  | cons c cs ih =>
    intro s
    rw [List.cons_append, runFlat, runFlat]
    cases settle cfg c.1 c.2 maxPasses s with
    | stop w s' => rfl
    | ok s' u => simp only; rw [ih]

theorem clusterLoop_flat [DecidableEq T] (cfg : Cfg T E) (L : Nat) (cs : List (List Nat)) : ∀ (s : St T E),
    clusterLoop cfg L cs s = runFlat cfg (cs.map (fun c => (L, c))) s := by
  induction cs with
  | nil => intro s; rfl
  | cons c cs ih =>
    intro s
    rw [clusterLoop, List.map_cons, runFlat]
    cases settle cfg L c maxPasses s with
    | stop w s' => rfl
    | ok s' u => simp only; rw [ih]

theorem levelLoop_flat [DecidableEq T] (cfg : Cfg T E) (ls : List (List (List Nat))) : ∀ (L : Nat) (s : St T E),
    levelLoop cfg L ls s = runFlat cfg (flat L ls) s := by
  induction ls with
  | nil => intro L s; rfl
  | cons l ls ih =>
    intro L s
    rw [levelLoop, flat, runFlat_append, clusterLoop_flat]
    cases runFlat cfg (l.map (fun c => (L, c))) s with
    | stop w s' => rfl
    | ok s' u => simp only; rw [ih]

/-- The members of the clusters. -/
def members (cs : List (Nat × List Nat)) : List Nat := cs.flatMap Prod.snd

theorem flat_members (ls : List (List (List Nat))) : ∀ (L : Nat), (flat L ls).map Prod.snd = ls.flatten := by
  induction ls with
  | nil => intro L; rfl
  | cons l ls ih => intro L; rw [flat, List.map_append, ih, List.flatten_cons]; simp [Function.comp_def]

theorem ext_run [DecidableEq T] (cfg : Cfg T E) : ∀ (cs : List (Nat × List Nat)) (s : St T E), AllGood s.algs →
    ∃ ds, Ext (fun b _ _ => maxPasses * (members cs).count b) (· ∈ members cs) (fun _ => True) ds s (runFlat cfg cs s).st ∧
      (∀ s', runFlat cfg cs s = .ok s' () → ∀ b i n, (changesOf b i n ds).length ≤ (maxPasses - 1) * (members cs).count b) ∧
      (∀ s', runFlat cfg cs s = .stop .gaveUp s' → ∃ c ∈ cs, maxPasses ≤
        (ds.filter (fun e => e.isChange && decide (e.level = c.1) && decide (e.alg ∈ c.2))).length) := by
  intro cs
  induction cs with
  | nil =>
    intro s _
    refine ⟨[], .refl _ _ _ _, ?_, fun s' hs => by cases hs⟩
    intro s' _ b i n
    exact Nat.zero_le _
  | cons c cs ih =>
    intro s hg
    have hcount : ∀ b, (members (c :: cs)).count b = c.2.count b + (members cs).count b := by
      intro b; simp [members, List.count_append]
    obtain ⟨ds, x, hx1, hx2⟩ := ext_settle cfg c.1 c.2 maxPasses s hg
    have xx := x.mono (N' := fun b _ _ => maxPasses * c.2.count b) (touched' := (· ∈ members (c :: cs))) (L' := fun _ => True)
      (fun _ _ _ => Nat.le_refl _) (fun b hb => by simp [members]; exact .inl hb) (fun _ _ => trivial)
    rw [runFlat]
    cases hr : settle cfg c.1 c.2 maxPasses s with
    | stop w s1 =>
      rw [hr] at xx x
      refine ⟨ds, xx.mono ?_ (fun _ h => h), fun s' hs => (by cases hs), ?_⟩
      · intro b _ _
        rw [hcount]
        exact Nat.mul_le_mul_left _ (Nat.le_add_right _ _)
      · intro s' hs
        simp only at hs
        injection hs with h1 h2
        subst h1; subst h2
        refine ⟨c, by simp, Nat.le_trans (hx2 _ hr) ?_⟩
        unfold nChanges
        apply Nat.le_of_eq
        congr 1
        apply List.filter_congr
        intro e he
        cases hc : e.isChange with
        | false => rfl
        | true =>
          obtain ⟨h1, h2⟩ := x.where_ e he hc
          simp [h1, h2]
    | ok s1 u =>
      rw [hr] at xx
      simp only
      obtain ⟨ds', y, hy1, hy2⟩ := ih s1 (xx.good hg)
      have y := y.mono (N' := fun b _ _ => maxPasses * (members cs).count b) (touched' := (· ∈ members (c :: cs))) (L' := fun _ => True)
        (fun _ _ _ => Nat.le_refl _) (fun b hb => by
          have : b ∈ members (c :: cs) ↔ b ∈ c.2 ∨ b ∈ members cs := by simp [members]
          exact this.2 (.inr hb)) (fun _ _ => trivial)
      refine ⟨ds ++ ds', (xx.trans y).mono ?_ (fun _ h => h), ?_, ?_⟩
      · intro b _ _
        rw [hcount, Nat.mul_add]
        exact Nat.le_refl _
      · intro s' hs b i n
        rw [changesOf_append, List.length_append, hcount, Nat.mul_add]
        exact Nat.add_le_add (hx1 s1 hr b i n) (hy1 s' hs b i n)
      · intro s' hs
        obtain ⟨c', hc', h⟩ := hy2 s' hs
        refine ⟨c', by simp [hc'], Nat.le_trans h ?_⟩
        rw [List.filter_append, List.length_append]
        exact Nat.le_add_left _ _

theorem findFn_congr [DecidableEq T] (cfg : Cfg T E) (v v' : Nat → Option (Summary T)) (a i : Nat) (h : Head T)
    (hb : cfg.body v a i (env h) = cfg.body v' a i (env h)) : findFn cfg v a i h = findFn cfg v' a i h := by
  unfold findFn
  rw [hb]

theorem finds_congr [DecidableEq T] (cfg : Cfg T E) (v v' : Nat → Option (Summary T)) (a i : Nat) (h : Head T) (ms : List (Msg T E))
    (hb : cfg.body v a i (env h) = cfg.body v' a i (env h)) (hf : Finds cfg v a i h ms) : Finds cfg v' a i h ms := by
  cases hf with
  | noDefn h1 => exact .noDefn h1
  | rules h1 h2 h3 => exact .rules h1 h2 (hb ▸ h3)
  | alg h1 h2 h3 h4 h5 => exact .alg h1 h2 (hb ▸ h3) h4 h5

theorem headAt_congr {algs algs' : List (Alg T)} {a : Nat} (h : algs'[a]? = algs[a]?) (i : Nat) : headAt algs' a i = headAt algs a i := by
  unfold headAt; rw [h]

theorem algFinds_congr [DecidableEq T] (cfg : Cfg T E) (algs algs' : List (Alg T)) (L a : Nat) (ha : algs'[a]? = algs[a]?)
    (hb : ∀ i e, cfg.body (view algs) a i e = cfg.body (view algs') a i e) : algFinds cfg algs' L a = algFinds cfg algs L a := by
  unfold algFinds
  rw [ha]
  cases algs[a]? with
  | none => rfl
  | some x =>
    simp only
    split
    · rfl
    · congr 1
      funext i
      unfold repAt
      rw [headAt_congr ha]
      cases headAt algs a i with
      | none => rfl
      | some h => simp only; rw [findFn_congr cfg (view algs') (view algs) a i h (hb i _).symm]

theorem settled_congr [DecidableEq T] (cfg : Cfg T E) (algs algs' : List (Alg T)) (a : Nat) (ha : algs'[a]? = algs[a]?)
    (hb : ∀ i e, cfg.body (view algs) a i e = cfg.body (view algs') a i e) (h : AlgSettled cfg algs a) : AlgSettled cfg algs' a := by
  intro x h1 h2 i hd h3
  rw [ha] at h1
  rw [headAt_congr ha] at h3
  rw [findFn_congr cfg (view algs') (view algs) a i hd (hb i _).symm]
  exact finds_congr cfg _ _ a i hd _ (hb i _) (h x h1 h2 i hd h3)

theorem run_ok [DecidableEq T] (cfg : Cfg T E) : ∀ (cs : List (Nat × List Nat)) (s s' : St T E), AllGood s.algs → Fresh cfg s.algs →
    (members cs).Nodup →
    (∀ pre c post, cs = pre ++ c :: post → ∀ a ∈ c.2, ∀ v v' : Nat → Option (Summary T), ∀ i e,
      (∀ b, b ∉ members post → v b = v' b) → cfg.body v a i e = cfg.body v' a i e) →
    runFlat cfg cs s = .ok s' () →
    Fresh cfg s'.algs ∧ findings s'.log = findings s.log ++ cs.flatMap (fun c => c.2.flatMap (algFinds cfg s'.algs c.1)) ∧
    ∀ a ∈ members cs, AlgSettled cfg s'.algs a := by
  intro cs
  induction cs with
  | nil =>
    intro s s' _ hf _ _ hr
    rw [runFlat] at hr
    injection hr with hr
    subst hr
    exact ⟨hf, by simp, by simp [members]⟩
  | cons c cs ih =>
    intro s s' hg hf hnd hread hr
    rw [runFlat] at hr
    obtain ⟨ds, x, _⟩ := ext_settle cfg c.1 c.2 maxPasses s hg
    cases hs : settle cfg c.1 c.2 maxPasses s with
    | stop w s1 => rw [hs] at hr; cases hr
    | ok s1 u =>
      rw [hs] at hr x
      simp only at hr
      have hm : members (c :: cs) = c.2 ++ members cs := by simp [members]
      rw [hm, List.nodup_append] at hnd
      obtain ⟨e1, e2, e3⟩ := settle_ok cfg c.1 c.2 maxPasses s s1 hg hf hs
      obtain ⟨f1, f2, f3⟩ := ih s1 s' (x.good hg) e1 hnd.2.1 (fun pre c' post h => hread (c :: pre) c' post (by rw [h]; rfl)) hr
      obtain ⟨ds', y, _⟩ := ext_run cfg cs s1 (x.good hg)
      rw [hr] at y
      have hsame : ∀ (b : Nat), b ∉ members cs → s'.algs[b]? = s1.algs[b]? := y.frame
      have hbody : ∀ a ∈ c.2, ∀ i e, cfg.body (view s1.algs) a i e = cfg.body (view s'.algs) a i e := by
        intro a ha i e
        refine hread [] c cs rfl a ha _ _ i e ?_
        intro b hb
        unfold view
        rw [hsame b hb]
      have hown : ∀ (a : Nat), a ∈ c.2 → s'.algs[a]? = s1.algs[a]? := fun a ha => hsame a (fun h => hnd.2.2 a ha a h rfl)
      refine ⟨f1, ?_, ?_⟩
      · rw [f2, e2, List.flatMap_cons, List.append_assoc]
        congr 2
        rw [List.flatMap_def, List.flatMap_def]
        congr 1
        apply List.map_congr_left
        intro a ha
        exact (algFinds_congr cfg s1.algs s'.algs c.1 a (hown a ha) (hbody a ha)).symm
      · intro a ha
        rw [hm, List.mem_append] at ha
        rcases ha with ha | ha
        · exact settled_congr cfg s1.algs s'.algs a (hown a ha) (hbody a ha) (e3 a ha)
        · exact f3 a ha

end Verif.Sta
