import Verif.Sta.ExtLemmas
/-! # A pass that changes nothing reports what is found against the types as they are -/
namespace Verif.Sta
variable {T E : Type}

/-- The warning about the return type. -/
def sug [DecidableEq T] (cfg : Cfg T E) (tbd : List Name) (init fin : List (Name × T)) : List (Msg T E) :=
  match init.lookup retName, fin.lookup retName with
  | some it, some ft => if retName ∈ tbd ∨ ft = it ∨ cfg.sub ft it = true then [] else [.suggest (cfg.sub it ft) retName ft]
  | _, _ => []

/-- `Finds` as a function. -/
def findFn [DecidableEq T] (cfg : Cfg T E) (v : Nat → Option (Summary T)) (a i : Nat) (h : Head T) : List (Msg T E) :=
  if h.defns then
    match cfg.body v a i (env h) with
    | none => []
    | some (errs, fin) =>
      if h.early then errs.map .body
      else match fin with
        | none => []
        | some fin => errs.map .body ++ (fin.filter (fun p => p.2 = cfg.tbd)).map (fun p => .still p.1) ++ sug cfg h.tbd (env h) fin
  else []

theorem quiet_nameLoop [DecidableEq T] (cfg : Cfg T E) (L a i : Nat) (tbd : List Name) (init fin : List (Name × T)) :
    ∀ (pns : List Name) (s s' : St T E) (c : Bool), pns.Nodup → nameLoop cfg L a i tbd init fin pns s c = .ok s' false →
    c = false ∧ s'.algs = s.algs ∧ s'.log = s.log ∧ (∀ n ∈ pns, n ∈ tbd → fin.lookup n = init.lookup n) ∧
    (∀ n ∈ pns, ∃ t, fin.lookup n = some t) ∧
    s'.pass = s.pass ++ (if retName ∈ pns then sug cfg tbd init fin else []).map (fun m => ⟨L, a, i, m⟩) := by
  intro pns
  induction pns with
  | nil =>
    intro s s' c _ h
    unfold nameLoop at h
    injection h with h1 h2
    subst h1
    exact ⟨h2, rfl, rfl, by simp, by simp, by simp⟩
  | cons pn pns ih =>
    intro s s' c hnd h
    rw [List.nodup_cons] at hnd
    rw [nameLoop.eq_def] at h
    simp only at h
    cases hi : init.lookup pn with
    | none => rw [hi] at h; cases h
    | some it =>
      cases hf : fin.lookup pn with
      | none => rw [hi, hf] at h; cases h
      | some ft =>
        rw [hi, hf] at h
        simp only at h
        -- a name about which nothing is done
        have skip : (pn ∈ tbd → it = ft) → (pn = retName → sug cfg tbd init fin = []) → nameLoop cfg L a i tbd init fin pns s c = .ok s' false →
            c = false ∧ s'.algs = s.algs ∧ s'.log = s.log ∧ (∀ n ∈ pn :: pns, n ∈ tbd → fin.lookup n = init.lookup n) ∧
            (∀ n ∈ pn :: pns, ∃ t, fin.lookup n = some t) ∧
            s'.pass = s.pass ++ (if retName ∈ pn :: pns then sug cfg tbd init fin else []).map (fun m => ⟨L, a, i, m⟩) := by
          intro h1 h2 h3
          obtain ⟨e1, e2, e3, e4, e5, e6⟩ := ih s s' c hnd.2 h3
          refine ⟨e1, e2, e3, ?_, ?_, ?_⟩
          · intro n hn ht
            rcases List.mem_cons.1 hn with rfl | hn
            · rw [hi, hf, h1 ht]
            · exact e4 n hn ht
          · intro n hn
            rcases List.mem_cons.1 hn with rfl | hn
            · exact ⟨ft, hf⟩
            · exact e5 n hn
          · rw [e6]
            by_cases hr : pn = retName
            · have : retName ∉ pns := hr ▸ hnd.1
              rw [if_neg this, if_pos (by simp [hr]), h2 hr]
            · have : ¬ retName = pn := fun e => hr e.symm
              simp [this]
        by_cases hif : it = ft
        · rw [if_pos hif] at h
          refine skip (fun _ => hif) ?_ h
          rintro rfl
          unfold sug
          rw [hi, hf]
          simp [hif]
        · rw [if_neg hif] at h
          by_cases ht : pn ∈ tbd
          · rw [if_pos ht] at h
            obtain ⟨e1, _⟩ := ih _ s' true hnd.2 h
            cases e1
          · rw [if_neg ht] at h
            by_cases hr : pn ≠ retName
            · rw [if_pos hr] at h
              exact skip (fun x => absurd x ht) (fun x => absurd x hr) h
            · rw [if_neg hr] at h
              have hr : pn = retName := Classical.not_not.1 hr
              subst hr
              by_cases hs : cfg.sub ft it = true
              · rw [if_pos hs] at h
                refine skip (fun x => absurd x ht) ?_ h
                intro _
                unfold sug
                rw [hi, hf]
                simp [hs]
              · rw [if_neg hs] at h
                obtain ⟨e1, e2, e3, e4, e5, e6⟩ := ih _ s' c hnd.2 h
                refine ⟨e1, e2, e3, ?_, ?_, ?_⟩
                · intro n hn ht'
                  rcases List.mem_cons.1 hn with rfl | hn
                  · exact absurd ht' ht
                  · exact e4 n hn ht'
                · intro n hn
                  rcases List.mem_cons.1 hn with rfl | hn
                  · exact ⟨ft, hf⟩
                  · exact e5 n hn
                · rw [e6, if_neg hnd.1, if_pos (by simp)]
                  have hif' : ¬ ft = it := fun e => hif e.symm
                  unfold sug addPass
                  rw [hi, hf]
                  simp [hs, ht, hif']

theorem addPass_map (L a i : Nat) (ms ms' : List (Msg T E)) (s : St T E) :
    (addPass L a i ms s).pass ++ ms'.map (fun m => ⟨L, a, i, m⟩) = s.pass ++ (ms ++ ms').map (fun m => ⟨L, a, i, m⟩) := by
  simp [addPass]

theorem quiet_tcHeader [DecidableEq T] (cfg : Cfg T E) (L a i : Nat) (h : Head T) (s s' : St T E) (hg : Good h)
    (hr : tcHeader cfg L a i h s = .ok s' false) :
    s'.algs = s.algs ∧ s'.log = s.log ∧ s'.pass = s.pass ++ (findFn cfg (view s.algs) a i h).map (fun m => ⟨L, a, i, m⟩) ∧
    Finds cfg (view s.algs) a i h (findFn cfg (view s.algs) a i h) := by
  unfold tcHeader at hr
  cases hc : retCheck cfg h with
  | some w => rw [hc] at hr; cases hr
  | none =>
    rw [hc] at hr
    simp only at hr
    cases hd : h.defns with
    | false =>
      simp only [hd] at hr
      injection hr with hr _
      subst hr
      have : findFn cfg (view s.algs) a i h = [] := by unfold findFn; simp [hd]
      rw [this]
      exact ⟨rfl, rfl, by simp, .noDefn hd⟩
    | true =>
      simp only [hd, if_true] at hr
      cases hb : cfg.body (view s.algs) a i (env h) with
      | none => rw [hb] at hr; cases hr
      | some p =>
        obtain ⟨errs, fin⟩ := p
        rw [hb] at hr
        simp only at hr
        unfold afterBody at hr
        cases he : h.early with
        | true =>
          simp only [he, if_true] at hr
          cases fin with
          | some f => cases hr
          | none =>
            injection hr with hr _
            subst hr
            have : findFn cfg (view s.algs) a i h = errs.map .body := by unfold findFn; simp [hd, hb, he]
            rw [this]
            exact ⟨rfl, rfl, rfl, .rules hd he hb⟩
        | false =>
          simp only [he, Bool.false_eq_true, if_false] at hr
          cases fin with
          | none => cases hr
          | some fin =>
            simp only at hr
            have hfn : findFn cfg (view s.algs) a i h = errs.map .body ++ (fin.filter (fun p => p.2 = cfg.tbd)).map (fun p => .still p.1) ++
                sug cfg h.tbd (env h) fin := by unfold findFn; simp [hd, hb, he]
            have hret : (env h).lookup retName = some h.ret := by
              rw [env_lookup h hg.toWf retName (.inl rfl)]; simp [declared]
            -- what remains to be shown
            have done : ∀ (s1 : St T E), s'.algs = s1.algs → s'.log = s1.log → s1.algs = s.algs → s1.log = s.log →
                s1 = addPass L a i ((fin.filter (fun p => p.2 = cfg.tbd)).map (fun p => .still p.1)) (addPass L a i (errs.map .body) s) →
                s'.pass = s1.pass ++ (sug cfg h.tbd (env h) fin).map (fun m => ⟨L, a, i, m⟩) →
                (∀ n ∈ h.tbd, fin.lookup n = (env h).lookup n) → (∃ t, fin.lookup retName = some t) →
                s'.algs = s.algs ∧ s'.log = s.log ∧ s'.pass = s.pass ++ (findFn cfg (view s.algs) a i h).map (fun m => ⟨L, a, i, m⟩) ∧
                Finds cfg (view s.algs) a i h (findFn cfg (view s.algs) a i h) := by
              intro s1 e1 e2 e3 e4 e5 e6 e7 ⟨t, e8⟩
              refine ⟨e1.trans e3, e2.trans e4, ?_, ?_⟩
              · rw [e6, e5, addPass_map, addPass_map, hfn, List.append_assoc]
              · rw [hfn]
                unfold sug
                rw [hret, e8]
                simp only
                exact .alg hd he hb (fun n hn => by rw [e7 n hn, env_lookup h hg.toWf n (hg.tbdNames n hn)]) e8
            by_cases hall : ((fin.filter (fun p => p.2 = cfg.tbd)).all (fun p => hasFake h p.1)) = true
            · rw [if_pos hall] at hr
              by_cases hsame : sameDict (env h) fin = true
              · rw [if_pos hsame] at hr
                injection hr with hr _
                have hl := fun n => sameDict_lookup _ _ hsame n
                refine done s' rfl rfl (by rw [← hr]; rfl) (by rw [← hr]; rfl) hr.symm ?_ (fun n _ => (hl n).symm) ⟨h.ret, by rw [← hl, hret]⟩
                unfold sug
                rw [← hl, hret]
                simp
              · rw [if_neg hsame] at hr
                obtain ⟨hk, hkm⟩ := env_keys h
                obtain ⟨hnd, hmem⟩ := sortNames_spec _ hk
                obtain ⟨_, e2, e3, e4, e5, e6⟩ := quiet_nameLoop cfg L a i h.tbd (env h) fin _ _ s' false hnd hr
                have hin : ∀ n, n = retName ∨ n ∈ h.params.map Prod.fst → n ∈ sortNames ((env h).map Prod.fst) := by
                  intro n hn
                  rw [hmem, hkm]
                  rcases hn with hn | hn
                  · exact .inl hn
                  · exact .inr (.inl hn)
                rw [if_pos (hin _ (.inl rfl))] at e6
                exact done _ e2 e3 rfl rfl rfl e6 (fun n hn => e4 n (hin n (hg.tbdNames n hn)) hn) (e5 _ (hin _ (.inl rfl)))
            · rw [if_neg hall] at hr
              cases hr

/-- What is found about the header at a position. -/
def repAt [DecidableEq T] (cfg : Cfg T E) (algs : List (Alg T)) (a i : Nat) : List (Msg T E) :=
  match headAt algs a i with
  | none => []
  | some h => findFn cfg (view algs) a i h

theorem repAt_some [DecidableEq T] (cfg : Cfg T E) (algs : List (Alg T)) (a i : Nat) (h : Head T) (hh : headAt algs a i = some h) :
    repAt cfg algs a i = findFn cfg (view algs) a i h := by
  unfold repAt; rw [hh]

/-- What a pass over an operation reports when nothing changes. -/
def algFinds [DecidableEq T] (cfg : Cfg T E) (algs : List (Alg T)) (L a : Nat) : List (Entry T E) :=
  match algs[a]? with
  | none => []
  | some x => if x.builtIn then [] else
      (List.range x.heads.length).flatMap (fun i => (repAt cfg algs a i).map (fun m => ⟨L, a, i, m⟩))

/-- Every header of the operation has settled. -/
def AlgSettled [DecidableEq T] (cfg : Cfg T E) (algs : List (Alg T)) (a : Nat) : Prop :=
  ∀ x, algs[a]? = some x → x.builtIn = false → ∀ i h, headAt algs a i = some h → Finds cfg (view algs) a i h (findFn cfg (view algs) a i h)

theorem quiet_headLoop [DecidableEq T] (cfg : Cfg T E) (L a : Nat) : ∀ (n i : Nat) (s s' : St T E) (c : Bool), AllGood s.algs →
    headLoop cfg L a n i s c = .ok s' false →
    c = false ∧ s'.algs = s.algs ∧ s'.log = s.log ∧
    s'.pass = s.pass ++ (List.range' i n).flatMap (fun i => (repAt cfg s.algs a i).map (fun m => ⟨L, a, i, m⟩)) ∧
    ∀ j h, i ≤ j → j < i + n → headAt s.algs a j = some h → Finds cfg (view s.algs) a j h (findFn cfg (view s.algs) a j h) := by
  intro n
  induction n with
  | zero =>
    intro i s s' c _ hr
    unfold headLoop at hr
    injection hr with h1 h2
    subst h1
    exact ⟨h2, rfl, rfl, by simp, fun j h h1 h2 => by omega⟩
  | succ n ih =>
    intro i s s' c hg hr
    rw [headLoop.eq_def] at hr
    simp only at hr
    cases hh : headAt s.algs a i with
    | none => rw [hh] at hr; cases hr
    | some h =>
      rw [hh] at hr
      simp only at hr
      cases ht : tcHeader cfg L a i h s with
      | stop w s1 => rw [ht] at hr; cases hr
      | ok s1 c1 =>
        rw [ht] at hr
        simp only at hr
        obtain ⟨ds, x, _⟩ := ext_tcHeader cfg L a i h s hh (hg a i h hh)
        rw [ht] at x
        obtain ⟨e1, e2, e3, e4, e5⟩ := ih (i + 1) s1 s' (c || c1) (x.good hg) hr
        rw [Bool.or_eq_false_iff] at e1
        obtain ⟨rfl, rfl⟩ := e1
        obtain ⟨f1, f2, f3, f4⟩ := quiet_tcHeader cfg L a i h s s1 (hg a i h hh) ht
        rw [f1] at e4 e5
        refine ⟨rfl, e2.trans f1, e3.trans f2, ?_, ?_⟩
        · rw [e4, f3, List.range'_succ, List.flatMap_cons, repAt_some cfg _ _ _ _ hh, List.append_assoc]
        · intro j h' h1 h2 h3
          by_cases hj : j = i
          · subst hj
            rw [hh] at h3
            injection h3 with h3
            subst h3
            exact f4
          · exact e5 j h' (by omega) (by omega) h3

theorem quiet_tcAlg [DecidableEq T] (cfg : Cfg T E) (L a : Nat) (s s' : St T E) (hg : AllGood s.algs) (hr : tcAlg cfg L a s = .ok s' false) :
    s'.algs = s.algs ∧ s'.log = s.log ∧ s'.pass = s.pass ++ algFinds cfg s.algs L a ∧ AlgSettled cfg s.algs a := by
  unfold tcAlg at hr
  cases hx : s.algs[a]? with
  | none => rw [hx] at hr; cases hr
  | some x =>
    rw [hx] at hr
    simp only at hr
    cases hb : x.builtIn with
    | true =>
      simp only [hb, if_true] at hr
      injection hr with hr _
      subst hr
      refine ⟨rfl, rfl, by simp [algFinds, hx, hb], ?_⟩
      intro y h1 h2
      rw [hx] at h1
      injection h1 with h1
      subst h1
      rw [hb] at h2
      cases h2
    | false =>
      simp only [hb, Bool.false_eq_true, if_false] at hr
      cases hl : headLoop cfg L a x.heads.length 0 s false with
      | stop w s1 => rw [hl] at hr; cases hr
      | ok s1 c1 =>
        rw [hl] at hr
        cases c1 with
        | true =>
          simp only at hr
          cases hz : (s1.algs[a]?).bind (summarize cfg) with
          | none => rw [hz] at hr; cases hr
          | some x' => rw [hz] at hr; cases hr
        | false =>
          simp only at hr
          injection hr with hr _
          subst hr
          obtain ⟨_, e2, e3, e4, e5⟩ := quiet_headLoop cfg L a _ 0 s s1 false hg hl
          refine ⟨e2, e3, ?_, ?_⟩
          · rw [e4]
            simp [algFinds, hx, hb, List.range_eq_range']
          · intro y h1 _ i h hh
            refine e5 i h (Nat.zero_le _) ?_ hh
            simp only [headAt, hx, Option.bind_some] at hh
            obtain ⟨hlt, _⟩ := List.getElem?_eq_some_iff.1 hh
            omega

theorem quiet_memberLoop [DecidableEq T] (cfg : Cfg T E) (L : Nat) : ∀ (as : List Nat) (s s' : St T E) (c : Bool), AllGood s.algs →
    memberLoop cfg L as s c = .ok s' false →
    c = false ∧ s'.algs = s.algs ∧ s'.log = s.log ∧ s'.pass = s.pass ++ as.flatMap (algFinds cfg s.algs L) ∧
    ∀ a ∈ as, AlgSettled cfg s.algs a := by
  intro as
  induction as with
  | nil =>
    intro s s' c _ hr
    unfold memberLoop at hr
    injection hr with h1 h2
    subst h1
    exact ⟨h2, rfl, rfl, by simp, by simp⟩
  | cons a as ih =>
    intro s s' c hg hr
    rw [memberLoop.eq_def] at hr
    simp only at hr
    cases ht : tcAlg cfg L a s with
    | stop w s1 => rw [ht] at hr; cases hr
    | ok s1 c1 =>
      rw [ht] at hr
      simp only at hr
      obtain ⟨ds, x, _⟩ := ext_tcAlg cfg L a s hg
      rw [ht] at x
      obtain ⟨e1, e2, e3, e4, e5⟩ := ih s1 s' (c || c1) (x.good hg) hr
      rw [Bool.or_eq_false_iff] at e1
      obtain ⟨rfl, rfl⟩ := e1
      obtain ⟨f1, f2, f3, f4⟩ := quiet_tcAlg cfg L a s s1 hg ht
      rw [f1] at e4 e5
      refine ⟨rfl, e2.trans f1, e3.trans f2, ?_, ?_⟩
      · rw [e4, f3, List.flatMap_cons, List.append_assoc]
      · intro b hb
        rcases List.mem_cons.1 hb with rfl | hb
        · exact f4
        · exact e5 b hb

/-! ## The analysis of a cluster never gives up within a pass -/

theorem nameLoop_stop [DecidableEq T] (cfg : Cfg T E) (L a i : Nat) (tbd : List Name) (init fin : List (Name × T)) :
    ∀ (pns : List Name) (s s' : St T E) (c : Bool), nameLoop cfg L a i tbd init fin pns s c ≠ .stop .gaveUp s' := by
  intro pns
  induction pns with
  | nil => intro s s' c h; unfold nameLoop at h; cases h
  | cons pn pns ih =>
    intro s s' c
    unfold nameLoop
    split
    · repeat' split
      all_goals exact ih _ _ _
    · intro h; cases h

theorem tcHeader_stop [DecidableEq T] (cfg : Cfg T E) (L a i : Nat) (h : Head T) (s s' : St T E) :
    tcHeader cfg L a i h s ≠ .stop .gaveUp s' := by
  unfold tcHeader
  cases hc : retCheck cfg h with
  | some w =>
    simp only
    intro he
    injection he with he _
    subst he
    unfold retCheck at hc
    split at hc
    · cases hc
    · cases hk : cfg.kind h.ret <;> rw [hk] at hc <;> cases hc
  | none =>
    simp only
    split
    · split
      · intro h; cases h
      · unfold afterBody
        repeat' split
        all_goals first | exact nameLoop_stop _ _ _ _ _ _ _ _ _ _ _ | (intro h; cases h)
    · intro h; cases h

theorem headLoop_stop [DecidableEq T] (cfg : Cfg T E) (L a : Nat) : ∀ (n i : Nat) (s s' : St T E) (c : Bool),
    headLoop cfg L a n i s c ≠ .stop .gaveUp s' := by
  intro n
  induction n with
  | zero => intro i s s' c h; unfold headLoop at h; cases h
  | succ n ih =>
    intro i s s' c
    unfold headLoop
    cases headAt s.algs a i with
    | none => intro h; cases h
    | some h =>
      simp only
      cases ht : tcHeader cfg L a i h s with
      | stop w s1 =>
        simp only
        intro he
        injection he with h1 h2
        subst h1; subst h2
        exact tcHeader_stop cfg L a i h s s1 ht
      | ok s1 c1 => exact ih _ _ _ _

theorem tcAlg_stop [DecidableEq T] (cfg : Cfg T E) (L a : Nat) (s s' : St T E) : tcAlg cfg L a s ≠ .stop .gaveUp s' := by
  unfold tcAlg
  cases s.algs[a]? with
  | none => intro h; cases h
  | some x =>
    simp only
    split
    · intro h; cases h
    · cases hl : headLoop cfg L a x.heads.length 0 s false with
      | stop w s1 =>
        simp only
        intro he
        injection he with h1 h2
        subst h1; subst h2
        exact headLoop_stop cfg L a _ _ s s1 _ hl
      | ok s1 c1 =>
        cases c1 with
        | false => intro h; cases h
        | true =>
          simp only
          cases (s1.algs[a]?).bind (summarize cfg) <;> (intro h; cases h)

theorem memberLoop_stop [DecidableEq T] (cfg : Cfg T E) (L : Nat) : ∀ (as : List Nat) (s s' : St T E) (c : Bool),
    memberLoop cfg L as s c ≠ .stop .gaveUp s' := by
  intro as
  induction as with
  | nil => intro s s' c h; unfold memberLoop at h; cases h
  | cons a as ih =>
    intro s s' c
    unfold memberLoop
    cases ht : tcAlg cfg L a s with
    | stop w s1 =>
      simp only
      intro he
      injection he with h1 h2
      subst h1; subst h2
      exact tcAlg_stop cfg L a s s1 ht
    | ok s1 c1 => exact ih _ _ _

/-! ## What callers read -/

/-- Every summary is up to date. -/
def Fresh [DecidableEq T] (cfg : Cfg T E) (algs : List (Alg T)) : Prop := ∀ (a : Nat) x, algs[a]? = some x → summarize cfg x = some x

theorem fresh_tcAlg [DecidableEq T] (cfg : Cfg T E) (L a : Nat) (s s' : St T E) (c : Bool) (hg : AllGood s.algs) (hf : Fresh cfg s.algs)
    (hr : tcAlg cfg L a s = .ok s' c) : Fresh cfg s'.algs := by
  cases c with
  | false =>
    obtain ⟨h, _⟩ := quiet_tcAlg cfg L a s s' hg hr
    rw [h]
    exact hf
  | true =>
    have hr0 := hr
    unfold tcAlg at hr
    cases hx : s.algs[a]? with
    | none => rw [hx] at hr; cases hr
    | some x =>
      rw [hx] at hr
      simp only at hr
      cases hb : x.builtIn with
      | true => simp only [hb, if_true] at hr; cases hr
      | false =>
        simp only [hb, Bool.false_eq_true, if_false] at hr
        cases hl : headLoop cfg L a x.heads.length 0 s false with
        | stop w s1 => rw [hl] at hr; cases hr
        | ok s1 c1 =>
          rw [hl] at hr
          cases c1 with
          | false => cases hr
          | true =>
            simp only at hr
            cases hz : (s1.algs[a]?).bind (summarize cfg) with
            | none => rw [hz] at hr; cases hr
            | some x' =>
              rw [hz] at hr
              simp only at hr
              injection hr with hr _
              obtain ⟨ds, y, _⟩ := ext_tcAlg cfg L a s hg
              rw [hr0] at y
              obtain ⟨x1, h1, h2⟩ := Option.bind_eq_some_iff.1 hz
              obtain ⟨_, _, h3⟩ := summarize_heads cfg x1 x' h2
              intro b z hbz
              by_cases hba : b = a
              · subst hba
                rw [← hr] at hbz
                simp only at hbz
                obtain ⟨hlt, _⟩ := List.getElem?_eq_some_iff.1 h1
                rw [List.getElem?_set_self hlt] at hbz
                injection hbz with hbz
                subst hbz
                exact h3
              · have := y.frame b hba
                simp only [Res.st] at this
                rw [this] at hbz
                exact hf b z hbz

theorem fresh_memberLoop [DecidableEq T] (cfg : Cfg T E) (L : Nat) : ∀ (as : List Nat) (s s' : St T E) (c c' : Bool), AllGood s.algs →
    Fresh cfg s.algs → memberLoop cfg L as s c = .ok s' c' → Fresh cfg s'.algs := by
  intro as
  induction as with
  | nil =>
    intro s s' c c' _ hf hr
    unfold memberLoop at hr
    injection hr with h1 _
    subst h1
    exact hf
  | cons a as ih =>
    intro s s' c c' hg hf hr
    rw [memberLoop.eq_def] at hr
    simp only at hr
    cases ht : tcAlg cfg L a s with
    | stop w s1 => rw [ht] at hr; cases hr
    | ok s1 c1 =>
      rw [ht] at hr
      simp only at hr
      obtain ⟨ds, x, _⟩ := ext_tcAlg cfg L a s hg
      rw [ht] at x
      exact ih s1 s' _ c' (x.good hg) (fresh_tcAlg cfg L a s s1 c1 hg hf ht) hr

end Verif.Sta
