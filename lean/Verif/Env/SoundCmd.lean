import Verif.Env.Sound
/-!
# The analysis is right about all executions: commands
-/
namespace Verif.Env
open Verif.Types

variable {K : Type}

theorem bind_quiet {α β} {m : M K α} {f : α → M K β} {s : Acc K} {b : β} {s' : Acc K} (hf : ∀ a, Mono (f a)) (hq : Quiet s')
    (h : (m >>= f) s = some (b, s')) : ∃ a s1, m s = some (a, s1) ∧ f a s1 = some (b, s') ∧ Quiet s1 ∧ Grows s1 s' := by
  obtain ⟨a, s1, e1, e2⟩ := bind_some h
  have hg := (hf a).out _ _ _ e2
  exact ⟨a, s1, e1, e2, hq.of_grows hg, hg⟩

theorem pure_some {α} {a b : α} {s s' : Acc K} (h : (M.pure a : M K α) s = some (b, s')) : a = b ∧ s = s' := by
  simp only [M.pure, Option.some.injEq, Prod.mk.injEq] at h
  exact h

theorem lift_some {α} {o : Option α} {b : α} {s s' : Acc K} (h : (M.lift o : M K α) s = some (b, s')) : o = some b ∧ s = s' := by
  simp only [M.lift, Option.map_eq_some_iff, Prod.mk.injEq] at h
  obtain ⟨a, ha, rfl, rfl⟩ := h
  exact ⟨ha, rfl⟩

section
variable {X T C : Type} [DecidableEq K] {L : Lang K X T C} {I : Interp} {S : Sem X T C I}

/-- A return is among the recorded ones. -/
def RetIn (L : Lang K X T C) (I : Interp) (k : K) (s : Acc K) (τ : Store I) (v : I.V) : Prop :=
  ∃ r ∈ s.rets, Holds L.cfg I r τ ∧ ∃ t, get r.vars .ret = some t ∧ Flat L.cfg t ∧ den L.cfg I t v ∧
    (sub L.cfg t (L.expected k) = some true ∨ .returnType ∈ s.errs)

theorem RetIn.grows {k : K} {s s' : Acc K} {τ : Store I} {v : I.V} (h : RetIn L I k s τ v) (hg : Grows s s') : RetIn L I k s' τ v := by
  obtain ⟨r, h1, h2, t, h3, h4, h5, h6⟩ := h
  exact ⟨r, hg.2.2.subset h1, h2, t, h3, h4, h5, h6.imp id (fun h => hg.1.subset h)⟩

def RetsFlat (cfg : Cfg) (k : K) (s : Acc K) : Prop := ∀ r ∈ s.rets, FlatIn cfg k r

theorem RetsFlat.calm {cfg : Cfg} {k : K} {s s' : Acc K} (h : RetsFlat cfg k s) (e : s'.rets = s.rets) : RetsFlat cfg k s' := by
  unfold RetsFlat; rw [e]; exact h

/-- What the analysis of a command should give. -/
structure TcPost (L : Lang K X T C) (S : Sem X T C I) (k : K) (c : Cmd X T C) (env : Option (Env K)) (s : Acc K) (out : Option (Env K))
    (s' : Acc K) : Prop where
  flat : FlatO L.cfg k out
  rets : RetsFlat L.cfg k s → RetsFlat L.cfg k s'
  next : ∀ σ τ, Covers L.cfg I env σ → Exec S c σ (.next τ) → Covers L.cfg I out τ
  ret : ∀ σ τ v, Covers L.cfg I env σ → Exec S c σ (.returned τ v) → RetIn L I k s' τ v

structure TailPost (L : Lang K X T C) (S : Sem X T C I) (k : K) (c : Tail X T C) (env : Option (Env K)) (s : Acc K) (out : List (Option (Env K)))
    (s' : Acc K) : Prop where
  flat : ∀ e ∈ out, FlatO L.cfg k e
  rets : RetsFlat L.cfg k s → RetsFlat L.cfg k s'
  next : ∀ σ τ, Covers L.cfg I env σ → Exec S c.cmd σ (.next τ) → ∃ e ∈ out, Covers L.cfg I e τ
  ret : ∀ σ τ v, Covers L.cfg I env σ → Exec S c.cmd σ (.returned τ v) → RetIn L I k s' τ v

theorem or_of (hw : World L.cfg L.ord I) {envs : List (Option (Env K))} {k : K} (hf : ∀ e ∈ envs, FlatO L.cfg k e) {r : Option (Env K)}
    (h : envsOr L.cfg L.ord envs = some r) : FlatO L.cfg k r ∧ ∀ e ∈ envs, ∀ σ, Covers L.cfg I e σ → Covers L.cfg I r σ := by
  obtain ⟨r', hr', h1, h2⟩ := or_ok hw hf
  rw [hr'] at h; injection h with h; subst h
  exact ⟨h1, h2⟩

theorem or2_of (hw : World L.cfg L.ord I) {a b : Option (Env K)} {k : K} (ha : FlatO L.cfg k a) (hb : FlatO L.cfg k b) {r : Option (Env K)}
    (h : envOr L.cfg L.ord a b = some r) : FlatO L.cfg k r ∧ ∀ σ, Covers L.cfg I a σ ∨ Covers L.cfg I b σ → Covers L.cfg I r σ := by
  obtain ⟨h1, h2⟩ := or_of hw (k := k) (envs := [a, b]) (by
    intro e he
    simp only [List.mem_cons, List.not_mem_nil, or_false] at he
    rcases he with rfl | rfl <;> assumption) h
  exact ⟨h1, fun σ h => h.elim (h2 a (by simp) σ) (h2 b (by simp) σ)⟩

/-! ### Returns -/

theorem addReturnOf_ok (hw : World L.cfg L.ord I) {k : K} (hk : L.wraps k = false) {env : Env K} (hf : FlatIn L.cfg k env) {t : Ty} (ht : Flat L.cfg t)
    {s s' : Acc K} {u : Unit} (h : addReturnOf L env t s = some (u, s')) :
    (RetsFlat L.cfg k s → RetsFlat L.cfg k s') ∧ ∀ σ v, Holds L.cfg I env σ → den L.cfg I t v → RetIn L I k s' σ v := by
  unfold addReturnOf at h
  obtain ⟨t', s1, e1, h⟩ := bind_some h
  obtain ⟨e1', rfl⟩ := lift_some e1
  simp only [wrapped, hf.2, hk, Bool.false_eq_true, if_false, Option.some.injEq] at e1'
  subst e1'
  obtain ⟨ok, s2, e2, h⟩ := bind_some h
  obtain ⟨e2', rfl⟩ := lift_some e2
  obtain ⟨_, s3, e3, h⟩ := bind_some h
  obtain ⟨nr, s4, e4, h⟩ := bind_some h
  obtain ⟨_, rfl⟩ := lift_some e4
  obtain ⟨_, s5, e5, h⟩ := bind_some h
  have hg3 := (calm_reportIf _ _).out _ _ _ e3
  have hg5 := (calm_reportIf _ _).out _ _ _ e5
  have hg6 := (mono_addReturn _).out _ _ _ h
  simp only [addReturn, Option.some.injEq, Prod.mk.injEq] at h
  have hrets : s'.rets = s.rets ++ [env.set .ret t] := by
    rw [← h.2, hg5.2, hg3.2]
  have hset : FlatIn L.cfg k (env.set .ret t) := flatIn_set hf ht
  refine ⟨fun hr => ?_, fun σ v hσ hv => ?_⟩
  · intro r hr'
    rw [hrets] at hr'
    rcases List.mem_append.1 hr' with hr' | hr'
    · exact hr r hr'
    · rw [List.mem_singleton.1 hr']; exact hset
  · refine ⟨env.set .ret t, by rw [hrets]; simp, ?_, t, ?_, ht, hv, ?_⟩
    · intro x
      have := hσ x
      simpa only [Env.set, get_put_ne _ t (show Key.ret ≠ Key.var x by simp)] using this
    · simp [Env.set, get_put_self]
    · cases ok with
      | true => left; rw [← hf.2]; exact e2'
      | false =>
        right
        have : Err.returnType ∈ s3.errs := by
          simp only [reportIf, Bool.not_false, if_true, report, Option.some.injEq, Prod.mk.injEq] at e3
          rw [← e3.2]; simp
        exact hg6.1.subset (hg5.1.1.subset this)

/-! ### Loops -/

theorem wp_checkBefore (hw : World L.cfg L.ord I) (ha : AtomsOk L S) (l : Loop X T C) {k : K} {env : Env K} (hf : FlatIn L.cfg k env) {s : Acc K} :
    Wp (checkBefore L l env) s (fun r _ => FlatO L.cfg k r.1 ∧ FlatO L.cfg k r.2 ∧
      ∀ σ, Holds L.cfg I env σ → (∀ τ, Stays S l σ τ → Covers L.cfg I r.1 τ) ∧ (Leaves S l σ → Covers L.cfg I r.2 σ)) := by
  cases l with
  | forever =>
    refine wp_pure ⟨flatO_some hf, flatO_none, fun σ hσ => ⟨fun τ h => ?_, fun h => ?_⟩⟩
    · simp only [Stays] at h; subst h; exact covers_some.2 hσ
    · simp only [Leaves] at h
  | times =>
    refine wp_pure ⟨flatO_some hf, flatO_some hf, fun σ hσ => ⟨fun τ h => ?_, fun h => covers_some.2 hσ⟩⟩
    simp only [Stays] at h; subst h; exact covers_some.2 hσ
  | «while» c =>
    refine wp_mono (wp_tcCond hw ha c (some env) false k s (flatO_some hf)) (fun r _ h => ⟨h.1, h.2.1, fun σ hσ => ?_⟩)
    have := h.2.2 σ (covers_some.2 hσ)
    refine ⟨fun τ h => ?_, fun h => this.2 h⟩
    simp only [Stays] at h; obtain ⟨h, rfl⟩ := h
    exact this.1 h
  | «until» c =>
    rw [checkBefore]
    refine wp_bind (fun r => ?_) (wp_mono (wp_tcCond hw ha c (some env) false k s (flatO_some hf)) (fun r _ h => ?_))
    · split; exact (calm_pure _).mono
    · split
      refine wp_pure ⟨h.2.1, h.1, fun σ hσ => ?_⟩
      have := h.2.2 σ (covers_some.2 hσ)
      refine ⟨fun τ h => ?_, fun h => this.1 h⟩
      simp only [Stays] at h; obtain ⟨h, rfl⟩ := h
      exact this.2 h
  | each x e =>
    rw [checkBefore]
    refine wp_bind (fun r => ?_) (wp_mono (wp_tcExpr ha (.other e) hf) (fun r _ h => ?_))
    · split; exact mono_bind (calm_plusNewEntry L _ _ _).mono (fun _ => (calm_pure _).mono)
    · split
      rename_i t env1
      refine wp_bind (fun r => (calm_pure _).mono) (wp_mono (wp_plusNewEntry hw h.2.1 h.1) (fun env2 _ h2 => ?_))
      refine wp_pure ⟨flatO_some h2.1, flatO_some hf, fun σ hσ => ⟨fun τ hs => ?_, fun _ => covers_some.2 hσ⟩⟩
      simp only [Stays] at hs
      obtain ⟨v, hv, rfl⟩ := hs
      obtain ⟨g1, g2⟩ := h.2.2 σ v hσ hv
      exact covers_some.2 (h2.2 σ v g2 g1)

/-- From one pass of the body back to the head. -/
theorem head_again (hw : World L.cfg L.ord I) {k : K} {pre top bottom newTop : Env K} (hp : FlatIn L.cfg k pre) (hb : FlatIn L.cfg k bottom)
    (hj : envOr L.cfg L.ord (some (bottom.reduce (keys pre.vars))) (some pre) = some (some newTop))
    (hs : sameVars newTop.vars top.vars = true) {σ τ' ρ : Store I} (hσ : Holds L.cfg I top σ) (hτ : Holds L.cfg I bottom τ')
    (he : BodyEnd σ τ' ρ) : Holds L.cfg I top ρ := by
  have hr : FlatIn L.cfg k (bottom.reduce (keys pre.vars)) := ⟨flat_reduce hb.1, hb.2⟩
  obtain ⟨r, hr', h1, h2⟩ := envsOr_flat hw.cfgOk hw.ordOk hw.notSet (envs := [some (bottom.reduce (keys pre.vars)), some pre]) (k := k) (by
    intro e he
    simp only [List.mem_cons, Option.some.injEq, List.not_mem_nil, or_false] at he
    rcases he with rfl | rfl
    · exact hr
    · exact hp)
  rw [envOr, hr'] at hj
  injection hj with hj; subst hj
  have hx := (h2 newTop rfl).2.2
  rw [sameVars_iff] at hs
  -- variables without a static type before the loop have none at its head
  have hno : ∀ x, get pre.vars (.var x) = none → get top.vars (.var x) = none := by
    intro x h
    refine (hs _).2 ((hx _).1.2 (fun e' he' => ?_))
    simp only [List.mem_cons, Option.some.injEq, List.not_mem_nil, or_false] at he'
    rcases he' with rfl | rfl
    · simp only [Env.reduce, get_filter, not_mem_keys.2 h, if_false]
    · exact h
  intro x
  by_cases hu : Unset I (σ x)
  · rw [(he x).1 hu]; exact hσ x
  · rw [(he x).2 hu]
    constructor
    · intro t ht
      cases hn : get newTop.vars (.var x) with
      | none => rw [(hs _).2 hn] at ht; cases ht
      | some A =>
        obtain ⟨B, hB, hAB⟩ := (hs _).1 A hn
        rw [ht] at hB; injection hB with hB; subst hB
        rw [← tyEq_den hAB]
        refine ((hx _).2 A hn I hw.respects hw.exhaustive _).2 ⟨bottom.reduce (keys pre.vars), by simp, ?_⟩
        have hk : Key.var x ∈ keys pre.vars := Classical.byContradiction (fun hk => by
          rw [hno x (not_mem_keys.1 hk)] at ht; cases ht)
        have := typeOr_den (x := x) hτ
        simpa only [typeOr, Env.reduce, get_filter, hk, if_true] using this
    · intro hn
      exact absurd ((hσ x).2 hn) hu

/-- All executions of a loop, given an environment that is right at its head. -/
theorem loop_exec {k : K} {l : Loop X T C} {body : Cmd X T C} {top : Env K} {stay exit : Option (Env K)} {s1 s' : Acc K} {bottom : Env K}
    (hc : ∀ σ, Holds L.cfg I top σ → (∀ τ, Stays S l σ τ → Covers L.cfg I stay τ) ∧ (Leaves S l σ → Covers L.cfg I exit σ))
    (hb : TcPost L S k body stay s1 (some bottom) s')
    (hh : ∀ σ τ' ρ, Holds L.cfg I top σ → Holds L.cfg I bottom τ' → BodyEnd σ τ' ρ → Holds L.cfg I top ρ)
    {σ : Store I} {o : Outcome I} (h : Exec S (.loop l body) σ o) : Holds L.cfg I top σ →
    (∀ τ, o = .next τ → Covers L.cfg I exit τ) ∧ (∀ τ v, o = .returned τ v → RetIn L I k s' τ v) := by
  generalize hcm : Cmd.loop l body = c at h
  induction h with
  | loopEnd hl =>
    injection hcm with h1 h2; subst h1 h2
    intro hσ
    refine ⟨fun τ h => ?_, fun τ v h => by cases h⟩
    injection h with h; subst h
    exact (hc _ hσ).2 hl
  | loopNext hs hx he _ _ ih =>
    injection hcm with h1 h2; subst h1 h2
    intro hσ
    have := covers_some.1 (hb.next _ _ ((hc _ hσ).1 _ hs) hx)
    exact ih rfl (hh _ _ _ hσ this he)
  | loopRet hs hx _ =>
    injection hcm with h1 h2; subst h1 h2
    intro hσ
    refine ⟨fun τ h => by (cases h), fun τ v h => ?_⟩
    injection h with h h'; subst h h'
    exact hb.ret _ _ _ ((hc _ hσ).1 _ hs) hx
  | _ => cases hcm

theorem loop_ok (hw : World L.cfg L.ord I) (ha : AtomsOk L S) {k : K} {l : Loop X T C} {body : Cmd X T C}
    (ih : ∀ (env : Option (Env K)) (s : Acc K) (out : Option (Env K)) (s' : Acc K), FlatO L.cfg k env → Quiet s' →
      tc L body env s = some (out, s') → TcPost L S k body env s out s')
    {env : Env K} (hf : FlatIn L.cfg k env) {s s' : Acc K} {out : Option (Env K)} (hq : Quiet s')
    (h : tcLoop L (checkBefore L l) (fun e => tc L body e) env s = some (out, s')) : TcPost L S k (.loop l body) (some env) s out s' := by
  have step : ∀ top s0 s1 s2 stay exit bottom newTop, FlatIn L.cfg k top → checkBefore L l top s0 = some ((stay, exit), s1) →
      tc L body stay s1 = some (some bottom, s2) →
      envOr L.cfg L.ord (some (Env.reduce bottom (keys env.vars))) (some env) = some (some newTop) → Quiet s2 →
      (FlatO L.cfg k exit ∧ FlatIn L.cfg k bottom ∧ FlatIn L.cfg k newTop ∧ (∀ σ, Holds L.cfg I env σ → Holds L.cfg I newTop σ) ∧
        TcPost L S k body stay s1 (some bottom) s2 ∧ (RetsFlat L.cfg k s0 → RetsFlat L.cfg k s2) ∧
        ∀ σ, Holds L.cfg I top σ → (∀ τ, Stays S l σ τ → Covers L.cfg I stay τ) ∧ (Leaves S l σ → Covers L.cfg I exit σ)) := by
    intro top s0 s1 s2 stay exit bottom newTop h1 h2 h3 h4 hq2
    have hq1 := hq2.of_grows ((mono_tc L body stay).out _ _ _ h3)
    have hcal := (calm_checkBefore L l top).out _ _ _ h2
    obtain ⟨g1, g2, g3⟩ := (wp_checkBefore hw ha l h1 (s := s0)).out _ _ h2 hq1
    have gb := ih stay s1 (some bottom) s2 g1 hq2 h3
    have hb := gb.flat bottom rfl
    have hr : FlatIn L.cfg k (Env.reduce bottom (keys env.vars)) := ⟨flat_reduce hb.1, hb.2⟩
    obtain ⟨k1, k2⟩ := or2_of hw (flatO_some hr) (flatO_some hf) h4
    exact ⟨g2, hb, k1 _ rfl, fun σ hσ => covers_some.1 (k2 σ (.inr (covers_some.2 hσ))), gb,
      fun hr => gb.rets (hr.calm hcal.2), g3⟩
  obtain ⟨top, s0, s1, stay, bottom, newTop, ⟨hj1, hj2, hj3⟩, hl, _⟩ := tcLoop_last L (fun e => (calm_checkBefore L l e).mono) (fun e => mono_tc L body e)
    (fun top s0 => FlatIn L.cfg k top ∧ (∀ σ, Holds L.cfg I env σ → Holds L.cfg I top σ) ∧ (RetsFlat L.cfg k s → RetsFlat L.cfg k s0)) Quiet
    (fun a b hab hqb x hx => hqb x (hab.subset hx))
    (fun e n a h => ⟨h.1, h.2.1, h.2.2⟩)
    (fun top s0 s1 s2 stay exit bottom newTop hj h1 h2 h3 hq2 => by
      obtain ⟨_, _, g3, g4, _, g5, _⟩ := step top s0 s1 s2 stay exit bottom newTop hj.1 h1 h2 h3 hq2
      exact ⟨g3, g4, fun hr => g5 (hj.2.2 hr)⟩)
    hq ⟨hf, fun _ h => h, fun h => h⟩ h
  obtain ⟨g1, g2, g3, g4, g5, g6, g7⟩ := step top s0 s1 s' stay out bottom newTop hj1 hl.check hl.body hl.join hq
  have hexec := fun {σ : Store I} {o : Outcome I} (h : Exec S (.loop l body) σ o) => loop_exec g7 g5
    (fun σ τ' ρ h1 h2 h3 => head_again hw hf g2 hl.join hl.same h1 h2 h3) h
  exact ⟨g1, fun hr => g6 (hj3 hr), fun σ τ hσ hx => (hexec hx (hj2 σ (covers_some.1 hσ))).1 τ rfl,
    fun σ τ v hσ hx => (hexec hx (hj2 σ (covers_some.1 hσ))).2 τ v rfl⟩

/-! ### Commands -/

/-- Commands that only go on. -/
theorem post_of_next {k : K} {c : Cmd X T C} {env out : Option (Env K)} {s s' : Acc K} (h1 : FlatO L.cfg k out) (h2 : s'.rets = s.rets)
    (h3 : ∀ σ o, Covers L.cfg I env σ → Exec S c σ o → ∃ τ, o = .next τ ∧ Covers L.cfg I out τ) : TcPost L S k c env s out s' := by
  refine ⟨h1, fun h => h.calm h2, fun σ τ hσ hx => ?_, fun σ τ v hσ hx => ?_⟩
  · obtain ⟨_, h, hc⟩ := h3 σ _ hσ hx
    injection h with h; subst h; exact hc
  · obtain ⟨_, h, hc⟩ := h3 σ _ hσ hx
    cases h

theorem cond_out (hw : World L.cfg L.ord I) (ha : AtomsOk L S) {c : Cond T C} {env : Option (Env K)} {b : Bool} {k : K} {s s' : Acc K}
    {r : Option (Env K) × Option (Env K)} (hf : FlatO L.cfg k env) (hq : Quiet s') (h : tcCond L c env b s = some (r, s')) :
    CondPost I L k env (True' S c) r.1 r.2 ∧ s'.rets = s.rets :=
  ⟨(wp_tcCond hw ha c env b k s hf).out _ _ h hq, ((calm_tcCond L c env b).out _ _ _ h).2⟩

mutual
theorem tc_ok (hw : World L.cfg L.ord I) (ha : AtomsOk L S) {k : K} (hk : L.wraps k = false) : ∀ (c : Cmd X T C) (env : Option (Env K)) (s : Acc K)
    (out : Option (Env K)) (s' : Acc K), FlatO L.cfg k env → Quiet s' → tc L c env s = some (out, s') → TcPost L S k c env s out s'
  | .note, env, s, out, s', hf, hq, h => by
    rw [tc] at h
    obtain ⟨rfl, rfl⟩ := pure_some h
    refine post_of_next hf rfl (fun σ o hσ hx => ?_)
    cases hx
    exact ⟨_, rfl, hσ⟩
  | .seq a b, env, s, out, s', hf, hq, h => by
    rw [tc] at h
    obtain ⟨env1, s1, e1, e2, hq1, hg⟩ := bind_quiet (fun e => mono_tc L b e) hq h
    have g1 := tc_ok hw ha hk a env s env1 s1 hf hq1 e1
    have g2 := tc_ok hw ha hk b env1 s1 out s' g1.flat hq e2
    refine ⟨g2.flat, fun hr => g2.rets (g1.rets hr), fun σ τ hσ hx => ?_, fun σ τ v hσ hx => ?_⟩
    · cases hx with
      | seq h1 h2 => exact g2.next _ _ (g1.next _ _ hσ h1) h2
    · cases hx with
      | seq h1 h2 => exact g2.ret _ _ _ (g1.next _ _ hσ h1) h2
      | seqRet h1 => exact (g1.ret _ _ _ hσ h1).grows hg
  | .perform e, some env, s, out, s', hf, hq, h => by
    rw [tc] at h
    have hf' := hf env rfl
    obtain ⟨⟨t, env1⟩, s1, e1, e2, hq1, hg⟩ := bind_quiet (fun r => by split; exact (calm_pure _).mono) hq h
    obtain ⟨rfl, rfl⟩ := pure_some e2
    obtain ⟨g1, g2, g3⟩ := (wp_tcExpr ha e hf' (s := s)).out _ _ e1 hq1
    refine post_of_next (flatO_some g2) ((calm_tcExpr L e env).out _ _ _ e1).2 (fun σ o hσ hx => ?_)
    cases hx with
    | perform hv => exact ⟨_, rfl, covers_some.2 (g3 _ _ (covers_some.1 hσ) hv).2⟩
  | .let x e, some env, s, out, s', hf, hq, h => by
    rw [tc] at h
    have hf' := hf env rfl
    obtain ⟨⟨t, env1⟩, s1, e1, e2, hq1, hg⟩ := bind_quiet (fun r => by
      split; exact mono_bind (calm_plusNewEntry L _ _ _).mono (fun _ => (calm_pure _).mono)) hq h
    dsimp only at e2
    obtain ⟨env2, s2, e3, e4, hq2, _⟩ := bind_quiet (fun _ => (calm_pure _).mono) hq e2
    obtain ⟨rfl, rfl⟩ := pure_some e4
    obtain ⟨g1, g2, g3⟩ := (wp_tcExpr ha e hf' (s := s)).out _ _ e1 hq1
    obtain ⟨k1, k2⟩ := (wp_plusNewEntry hw g2 g1 (s := s1)).out _ _ e3 hq2
    refine post_of_next (flatO_some k1) (((calm_plusNewEntry L _ _ _).out _ _ _ e3).2.trans ((calm_tcExpr L e env).out _ _ _ e1).2) (fun σ o hσ hx => ?_)
    cases hx with
    | «let» hv =>
      obtain ⟨q1, q2⟩ := g3 _ _ (covers_some.1 hσ) hv
      exact ⟨_, rfl, covers_some.2 (k2 _ _ q2 q1)⟩
  | .set x e, some env, s, out, s', hf, hq, h => by
    rw [tc] at h
    have hf' := hf env rfl
    obtain ⟨env1, s1, e1, e2, hq1, hg⟩ := bind_quiet (fun _ => (calm_pure _).mono) hq h
    obtain ⟨rfl, rfl⟩ := pure_some e2
    obtain ⟨g1, g2⟩ := (wp_setAToB ha hf' (s := s)).out _ _ e1 hq1
    refine post_of_next (flatO_some g1) ((calm_setAToB L _ _ _).out _ _ _ e1).2 (fun σ o hσ hx => ?_)
    cases hx with
    | set hv => exact ⟨_, rfl, covers_some.2 (g2 _ _ (covers_some.1 hσ) hv)⟩
  | .ret e, some env, s, out, s', hf, hq, h => by
    rw [tc] at h
    have hf' := hf env rfl
    obtain ⟨⟨t, env1⟩, s1, e1, e2, hq1, hg⟩ := bind_quiet (fun r => by
      split; exact mono_bind (mono_addReturnOf L _ _) (fun _ => (calm_pure _).mono)) hq h
    dsimp only at e2
    obtain ⟨_, s2, e3, e4, hq2, _⟩ := bind_quiet (fun _ => (calm_pure _).mono) hq e2
    obtain ⟨rfl, rfl⟩ := pure_some e4
    obtain ⟨g1, g2, g3⟩ := (wp_tcExpr ha e hf' (s := s)).out _ _ e1 hq1
    obtain ⟨k1, k2⟩ := addReturnOf_ok hw hk g2 g1 e3
    refine ⟨flatO_none, fun hr => k1 (hr.calm ((calm_tcExpr L e env).out _ _ _ e1).2), fun σ τ hσ hx => ?_, fun σ τ v hσ hx => ?_⟩
    · cases hx
    · cases hx with
      | ret hv =>
        obtain ⟨q1, q2⟩ := g3 _ _ (covers_some.1 hσ) hv
        exact k2 _ _ q2 q1
  | .assert c, some env, s, out, s', hf, hq, h => by
    rw [tc] at h
    obtain ⟨⟨t, f⟩, s1, e1, e2, hq1, hg⟩ := bind_quiet (fun r => by split; exact (calm_pure _).mono) hq h
    obtain ⟨rfl, rfl⟩ := pure_some e2
    obtain ⟨g, hr⟩ := cond_out hw ha hf hq1 e1
    refine post_of_next g.1 hr (fun σ o hσ hx => ?_)
    cases hx with
    | assert hv => exact ⟨_, rfl, (g.2.2 _ hσ).1 hv⟩
  | .assertIf a b, some env, s, out, s', hf, hq, h => by
    rw [tc] at h
    obtain ⟨⟨t1, f1⟩, s1, e1, h2, hq1, hg⟩ := bind_quiet (fun r => by monoT) hq h
    dsimp only at h2
    obtain ⟨⟨t2, f2⟩, s2, e2, h3, hq2, hg⟩ := bind_quiet (fun r => by monoT) hq h2
    obtain ⟨e3, rfl⟩ := lift_some h3
    obtain ⟨g1, hr1⟩ := cond_out hw ha hf hq1 e1
    obtain ⟨g2, hr2⟩ := cond_out hw ha g1.1 hq2 e2
    obtain ⟨g3, g4⟩ := or2_of hw g1.2.1 g2.1 e3
    refine post_of_next g3 (hr2.trans hr1) (fun σ o hσ hx => ?_)
    cases hx with
    | assertIf hv =>
      refine ⟨_, rfl, g4 _ ?_⟩
      by_cases hA : True' S a σ
      · exact .inr ((g2.2.2 _ ((g1.2.2 _ hσ).1 hA)).1 (hv hA))
      · exact .inl ((g1.2.2 _ hσ).2 hA)
  | .assertIff a b, some env, s, out, s', hf, hq, h => by
    rw [tc] at h
    obtain ⟨⟨t1, f1⟩, s1, e1, h2, hq1, hg⟩ := bind_quiet (fun r => by monoT) hq h
    dsimp only at h2
    obtain ⟨⟨t2, f2⟩, s2, e2, h3, hq2, hg⟩ := bind_quiet (fun r => by monoT) hq h2
    dsimp only at h3
    obtain ⟨t, s3, e3, h4, _, _⟩ := bind_quiet (fun r => by monoT) hq h3
    obtain ⟨e3', rfl⟩ := lift_some e3
    obtain ⟨f, s4, e4, h5, _, _⟩ := bind_quiet (fun r => by monoT) hq h4
    obtain ⟨e4', rfl⟩ := lift_some e4
    obtain ⟨e5, rfl⟩ := lift_some h5
    obtain ⟨g1, hr1⟩ := cond_out hw ha hf hq1 e1
    obtain ⟨g2, hr2⟩ := cond_out hw ha hf hq2 e2
    obtain ⟨g3, g4⟩ := and_ok hw g1.1 g2.1 e3'
    obtain ⟨g5, g6⟩ := and_ok hw g1.2.1 g2.2.1 e4'
    obtain ⟨g7, g8⟩ := or2_of hw g3 g5 e5
    refine post_of_next g7 (hr2.trans hr1) (fun σ o hσ hx => ?_)
    cases hx with
    | assertIff hv =>
      refine ⟨_, rfl, g8 _ ?_⟩
      by_cases hA : True' S a σ
      · exact .inl (g4 _ ((g1.2.2 _ hσ).1 hA) ((g2.2.2 _ hσ).1 (hv.1 hA)))
      · exact .inr (g6 _ ((g1.2.2 _ hσ).2 hA) ((g2.2.2 _ hσ).2 (fun h => hA (hv.2 h))))
  | .assertElse t x f, some env, s, out, s', hf, hq, h => by
    rw [tc] at h
    obtain ⟨⟨xt, xf⟩, s1, e1, h2, hq1, hg⟩ := bind_quiet (fun r => by monoT) hq h
    dsimp only at h2
    obtain ⟨⟨tt, tf⟩, s2, e2, h3, hq2, hg⟩ := bind_quiet (fun r => by monoT) hq h2
    dsimp only at h3
    obtain ⟨⟨ft, ff⟩, s3, e3, h4, hq3, hg⟩ := bind_quiet (fun r => by monoT) hq h3
    obtain ⟨e4, rfl⟩ := lift_some h4
    obtain ⟨g1, hr1⟩ := cond_out hw ha hf hq1 e1
    obtain ⟨g2, hr2⟩ := cond_out hw ha g1.1 hq2 e2
    obtain ⟨g3, hr3⟩ := cond_out hw ha g1.2.1 hq3 e3
    obtain ⟨g4, g5⟩ := or2_of hw g2.1 g3.1 e4
    refine post_of_next g4 (hr3.trans (hr2.trans hr1)) (fun σ o hσ hx => ?_)
    cases hx with
    | assertElse hv1 hv2 =>
      refine ⟨_, rfl, g5 _ ?_⟩
      by_cases hA : True' S x σ
      · exact .inl ((g2.2.2 _ ((g1.2.2 _ hσ).1 hA)).1 (hv1 hA))
      · exact .inr ((g3.2.2 _ ((g1.2.2 _ hσ).2 hA)).1 (hv2 hA))
  | .assertSince a b, some env, s, out, s', hf, hq, h => by
    rw [tc] at h
    obtain ⟨⟨t1, f1⟩, s1, e1, h2, hq1, hg⟩ := bind_quiet (fun r => by monoT) hq h
    dsimp only at h2
    obtain ⟨⟨t2, f2⟩, s2, e2, h3, hq2, hg⟩ := bind_quiet (fun r => by monoT) hq h2
    obtain ⟨e3, rfl⟩ := lift_some h3
    obtain ⟨g1, hr1⟩ := cond_out hw ha hf hq1 e1
    obtain ⟨g2, hr2⟩ := cond_out hw ha hf hq2 e2
    obtain ⟨g3, g4⟩ := and_ok hw g1.1 g2.1 e3
    refine post_of_next g3 (hr2.trans hr1) (fun σ o hσ hx => ?_)
    cases hx with
    | assertSince hv1 hv2 => exact ⟨_, rfl, g4 _ ((g1.2.2 _ hσ).1 hv1) ((g2.2.2 _ hσ).1 hv2)⟩
  | .ifClosed c a b, some env, s, out, s', hf, hq, h => by
    rw [tc] at h
    have hm3 : ∀ (t r : Option (Env K)), Mono (M.lift (envOr L.cfg L.ord t r) : M K (Option (Env K))) := fun _ _ => (calm_lift _).mono
    have hm2 : ∀ f (r : Option (Env K)), Mono (tc L b f >>= fun f' => M.lift (envOr L.cfg L.ord r f')) := fun _ _ => mono_bind (mono_tc L b _) (fun _ => hm3 _ _)
    obtain ⟨⟨t, f⟩, s1, e1, h2, hq1, hg1⟩ := bind_quiet (fun r => by
      split; exact mono_bind (mono_tc L a _) (fun _ => hm2 _ _)) hq h
    dsimp only at h2
    obtain ⟨t', s2, e2, h3, hq2, hg2⟩ := bind_quiet (fun _ => hm2 _ _) hq h2
    obtain ⟨f', s3, e3, h4, hq3, hg3⟩ := bind_quiet (fun _ => hm3 _ _) hq h3
    obtain ⟨e4, rfl⟩ := lift_some h4
    obtain ⟨g1, hr1⟩ := cond_out hw ha hf hq1 e1
    have g2 := tc_ok hw ha hk a t s1 t' s2 g1.1 hq2 e2
    have g3 := tc_ok hw ha hk b f s2 f' s3 g1.2.1 hq3 e3
    obtain ⟨g4, g5⟩ := or2_of hw g2.flat g3.flat e4
    refine ⟨g4, fun hr => g3.rets (g2.rets (hr.calm hr1)), fun σ τ hσ hx => ?_, fun σ τ v hσ hx => ?_⟩
    · cases hx with
      | ifClosedT hc hx => exact g5 _ (.inl (g2.next _ _ ((g1.2.2 _ hσ).1 hc) hx))
      | ifClosedF hc hx => exact g5 _ (.inr (g3.next _ _ ((g1.2.2 _ hσ).2 hc) hx))
    · cases hx with
      | ifClosedT hc hx => exact (g2.ret _ _ _ ((g1.2.2 _ hσ).1 hc) hx).grows hg2
      | ifClosedF hc hx => exact g3.ret _ _ _ ((g1.2.2 _ hσ).2 hc) hx
  | .ifOther c a tail, some env, s, out, s', hf, hq, h => by
    rw [tc] at h
    have hm2 : ∀ f (r : Option (Env K)), Mono (tcTail L tail f >>= fun bs => M.lift (envsOr L.cfg L.ord (r :: bs))) :=
      fun _ _ => mono_bind (mono_tcTail L tail _) (fun _ => (calm_lift _).mono)
    obtain ⟨⟨t, f⟩, s1, e1, h2, hq1, hg1⟩ := bind_quiet (fun r => by
      split; exact mono_bind (mono_tc L a _) (fun _ => hm2 _ _)) hq h
    dsimp only at h2
    obtain ⟨t', s2, e2, h3, hq2, hg2⟩ := bind_quiet (fun _ => hm2 _ _) hq h2
    obtain ⟨bs, s3, e3, h4, hq3, hg3⟩ := bind_quiet (fun _ => (calm_lift _).mono) hq h3
    obtain ⟨e4, rfl⟩ := lift_some h4
    obtain ⟨g1, hr1⟩ := cond_out hw ha hf hq1 e1
    have g2 := tc_ok hw ha hk a t s1 t' s2 g1.1 hq2 e2
    have g3 := tcTail_ok hw ha hk tail f s2 bs s3 g1.2.1 hq3 e3
    obtain ⟨g4, g5⟩ := or_of hw (k := k) (envs := t' :: bs) (by
      intro e he
      rcases List.mem_cons.1 he with rfl | he
      · exact g2.flat
      · exact g3.flat e he) e4
    refine ⟨g4, fun hr => g3.rets (g2.rets (hr.calm hr1)), fun σ τ hσ hx => ?_, fun σ τ v hσ hx => ?_⟩
    · cases hx with
      | ifT hc hx => exact g5 _ (by simp) _ (g2.next _ _ ((g1.2.2 _ hσ).1 hc) hx)
      | ifF hc hx =>
        obtain ⟨e, he, hc⟩ := g3.next _ _ ((g1.2.2 _ hσ).2 hc) hx
        exact g5 _ (by simp [he]) _ hc
    · cases hx with
      | ifT hc hx => exact (g2.ret _ _ _ ((g1.2.2 _ hσ).1 hc) hx).grows hg2
      | ifF hc hx => exact g3.ret _ _ _ ((g1.2.2 _ hσ).2 hc) hx
  | .loop l body, some env, s, out, s', hf, hq, h => by
    rw [tc] at h
    exact loop_ok hw ha (fun env s out s' => tc_ok hw ha hk body env s out s') (hf env rfl) hq h
  | .perform _, none, _, _, _, _, _, h => by simp only [tc] at h; cases h
  | .let _ _, none, _, _, _, _, _, h => by simp only [tc] at h; cases h
  | .set _ _, none, _, _, _, _, _, h => by simp only [tc] at h; cases h
  | .ret _, none, _, _, _, _, _, h => by simp only [tc] at h; cases h
  | .assert _, none, _, _, _, _, _, h => by simp only [tc] at h; cases h
  | .assertIf _ _, none, _, _, _, _, _, h => by simp only [tc] at h; cases h
  | .assertIff _ _, none, _, _, _, _, _, h => by simp only [tc] at h; cases h
  | .assertElse _ _ _, none, _, _, _, _, _, h => by simp only [tc] at h; cases h
  | .assertSince _ _, none, _, _, _, _, _, h => by simp only [tc] at h; cases h
  | .ifClosed _ _ _, none, _, _, _, _, _, h => by simp only [tc] at h; cases h
  | .ifOther _ _ _, none, _, _, _, _, _, h => by simp only [tc] at h; cases h
  | .loop _ _, none, _, _, _, _, _, h => by simp only [tc] at h; cases h
theorem tcTail_ok (hw : World L.cfg L.ord I) (ha : AtomsOk L S) {k : K} (hk : L.wraps k = false) : ∀ (c : Tail X T C) (env : Option (Env K)) (s : Acc K)
    (out : List (Option (Env K))) (s' : Acc K), FlatO L.cfg k env → Quiet s' → tcTail L c env s = some (out, s') → TailPost L S k c env s out s'
  | .nil, env, s, out, s', hf, hq, h => by
    rw [tcTail] at h
    obtain ⟨rfl, rfl⟩ := pure_some h
    refine ⟨by simpa using hf, fun h => h, fun σ τ hσ hx => ?_, fun σ τ v hσ hx => ?_⟩
    · simp only [Tail.cmd] at hx; cases hx; exact ⟨env, by simp, hσ⟩
    · simp only [Tail.cmd] at hx; cases hx
  | .else a, env, s, out, s', hf, hq, h => by
    rw [tcTail] at h
    obtain ⟨r, s1, e1, h2, hq1, hg1⟩ := bind_quiet (fun _ => (calm_pure _).mono) hq h
    obtain ⟨rfl, rfl⟩ := pure_some h2
    have g := tc_ok hw ha hk a env s r s1 hf hq1 e1
    refine ⟨by simpa using g.flat, g.rets, fun σ τ hσ hx => ⟨r, by simp, g.next _ _ hσ hx⟩, fun σ τ v hσ hx => g.ret _ _ _ hσ hx⟩
  | .elseif c a tail, env, s, out, s', hf, hq, h => by
    rw [tcTail] at h
    have hm1 : ∀ (t : Option (Env K)), Mono (match t with
      | none => report .neverTrue >>= fun _ => M.pure []
      | some t => tc L a (some t) >>= fun r => M.pure [r] : M K (List (Option (Env K)))) := by
      intro t
      split
      · monoT
      · exact mono_bind (mono_tc L a _) (fun _ => (calm_pure _).mono)
    have hm2 : ∀ (f' : Option (Env K)) (here : List (Option (Env K))), Mono (match f' with
      | none => report .neverFalse >>= fun _ => M.pure here
      | some f' => tcTail L tail (some f') >>= fun rest => M.pure (here ++ rest) : M K (List (Option (Env K)))) := by
      intro t here
      split
      · monoT
      · exact mono_bind (mono_tcTail L tail _) (fun _ => (calm_pure _).mono)
    obtain ⟨⟨t, f⟩, s1, e1, h2, hq1, hg1⟩ := bind_quiet (fun r => by
      split; exact mono_bind (hm1 _) (fun _ => hm2 _ _)) hq h
    dsimp only at h2
    obtain ⟨here, s2, e2, h3, hq2, hg2⟩ := bind_quiet (fun _ => hm2 _ _) hq h2
    obtain ⟨g1, hr1⟩ := cond_out hw ha hf hq1 e1
    have gA : (∀ e ∈ here, FlatO L.cfg k e) ∧ (RetsFlat L.cfg k s1 → RetsFlat L.cfg k s2) ∧
        (∀ σ τ, Covers L.cfg I t σ → Exec S a σ (.next τ) → ∃ e ∈ here, Covers L.cfg I e τ) ∧
        (∀ σ τ v, Covers L.cfg I t σ → Exec S a σ (.returned τ v) → RetIn L I k s2 τ v) := by
      cases t with
      | none =>
        obtain ⟨_, s3, e3, e4⟩ := bind_some e2
        obtain ⟨rfl, rfl⟩ := pure_some e4
        refine ⟨by simp, fun h => h.calm ((calm_report _).out _ _ _ e3).2, fun σ _ hσ => absurd hσ not_covers_none, fun σ _ _ hσ => absurd hσ not_covers_none⟩
      | some t =>
        obtain ⟨r, s3, e3, e4, hq3, _⟩ := bind_quiet (fun _ => (calm_pure _).mono) hq2 e2
        obtain ⟨rfl, rfl⟩ := pure_some e4
        have g := tc_ok hw ha hk a (some t) s1 r s3 g1.1 hq3 e3
        exact ⟨by simpa using g.flat, g.rets, fun σ τ hσ hx => ⟨r, by simp, g.next _ _ hσ hx⟩, fun σ τ v hσ hx => g.ret _ _ _ hσ hx⟩
    have gB : ∃ rest, out = here ++ rest ∧ (∀ e ∈ rest, FlatO L.cfg k e) ∧ (RetsFlat L.cfg k s2 → RetsFlat L.cfg k s') ∧
        (∀ σ τ, Covers L.cfg I f σ → Exec S tail.cmd σ (.next τ) → ∃ e ∈ rest, Covers L.cfg I e τ) ∧
        (∀ σ τ v, Covers L.cfg I f σ → Exec S tail.cmd σ (.returned τ v) → RetIn L I k s' τ v) := by
      cases f with
      | none =>
        obtain ⟨_, s3, e3, e4⟩ := bind_some h3
        obtain ⟨rfl, rfl⟩ := pure_some e4
        refine ⟨[], by simp, by simp, fun h => h.calm ((calm_report _).out _ _ _ e3).2, fun σ _ hσ => absurd hσ not_covers_none, fun σ _ _ hσ => absurd hσ not_covers_none⟩
      | some f =>
        obtain ⟨rest, s3, e3, e4, hq3, _⟩ := bind_quiet (fun _ => (calm_pure _).mono) hq h3
        obtain ⟨rfl, rfl⟩ := pure_some e4
        have g := tcTail_ok hw ha hk tail (some f) s2 rest s3 g1.2.1 hq3 e3
        exact ⟨rest, rfl, g.flat, g.rets, g.next, g.ret⟩
    obtain ⟨rest, rfl, b1, b2, b3, b4⟩ := gB
    obtain ⟨a1, a2, a3, a4⟩ := gA
    refine ⟨?_, fun hr => b2 (a2 (hr.calm hr1)), fun σ τ hσ hx => ?_, fun σ τ v hσ hx => ?_⟩
    · intro e he
      rcases List.mem_append.1 he with he | he
      · exact a1 e he
      · exact b1 e he
    · simp only [Tail.cmd] at hx
      cases hx with
      | ifT hc hx =>
        obtain ⟨e, he, h⟩ := a3 _ _ ((g1.2.2 _ hσ).1 hc) hx
        exact ⟨e, by simp [he], h⟩
      | ifF hc hx =>
        obtain ⟨e, he, h⟩ := b3 _ _ ((g1.2.2 _ hσ).2 hc) hx
        exact ⟨e, by simp [he], h⟩
    · simp only [Tail.cmd] at hx
      cases hx with
      | ifT hc hx => exact (a4 _ _ _ ((g1.2.2 _ hσ).1 hc) hx).grows ((hm2 _ _).out _ _ _ h3)
      | ifF hc hx => exact b4 _ _ _ ((g1.2.2 _ hσ).2 hc) hx
end

end
end Verif.Env
