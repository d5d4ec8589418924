import Verif.Env.SoundCmd
/-!
# Whole algorithms, and the messages of type tests
-/
namespace Verif.Env
open Verif.Types

variable {K : Type}

section
variable {X T C : Type} [DecidableEq K] {L : Lang K X T C} {I : Interp} {S : Sem X T C I}

theorem mono_tcBody (b : Cmd X T C) (env : Env K) : Mono (tcBody L b env) := by
  unfold tcBody
  refine mono_bind (mono_tc L b _) (fun r => ?_)
  split
  · exact (calm_pure _).mono
  · exact mono_bind (calm_report _).mono (fun _ => mono_addReturnOf L _ _)

theorem mono_tcBodies : ∀ (bs : List (Cmd X T C)) (env : Env K), Mono (tcBodies L bs env)
  | [], env => by rw [tcBodies]; exact (calm_pure _).mono
  | b :: bs, env => by rw [tcBodies]; exact mono_bind (mono_tcBody b env) (fun _ => mono_tcBodies bs env)

/-- What the analysis of a body should give. -/
structure BodyPost (L : Lang K X T C) (S : Sem X T C I) (k : K) (b : Cmd X T C) (env : Env K) (s s' : Acc K) : Prop where
  rets : RetsFlat L.cfg k s → RetsFlat L.cfg k s'
  falls : ∀ σ τ, Holds L.cfg I env σ → Exec S b σ (.next τ) → Err.fallsOff ∈ s'.errs
  ret : ∀ σ τ v, Holds L.cfg I env σ → Exec S b σ (.returned τ v) → RetIn L I k s' τ v

theorem body_ok (hw : World L.cfg L.ord I) (ha : AtomsOk L S) {k : K} (hk : L.wraps k = false) {b : Cmd X T C} {env : Env K} (hf : FlatIn L.cfg k env)
    {s s' : Acc K} {u : Unit} (hq : Quiet s') (h : tcBody L b env s = some (u, s')) : BodyPost L S k b env s s' := by
  unfold tcBody at h
  obtain ⟨out, s1, e1, e2, hq1, hg⟩ := bind_quiet (fun r => by
    split
    · exact (calm_pure _).mono
    · exact mono_bind (calm_report _).mono (fun _ => mono_addReturnOf L _ _)) hq h
  have g := tc_ok hw ha hk b (some env) s out s1 (flatO_some hf) hq1 e1
  cases out with
  | none =>
    obtain ⟨_, rfl⟩ := pure_some e2
    exact ⟨g.rets, fun σ τ hσ hx => absurd (g.next σ τ (covers_some.2 hσ) hx) not_covers_none, fun σ τ v hσ hx => g.ret σ τ v (covers_some.2 hσ) hx⟩
  | some env1 =>
    obtain ⟨_, s2, e3, e4⟩ := bind_some e2
    obtain ⟨k1, _⟩ := addReturnOf_ok hw hk (g.flat env1 rfl) (flat_hier hw.notReturned) e4
    have hg4 := (mono_addReturnOf L _ _).out _ _ _ e4
    refine ⟨fun hr => k1 ((g.rets hr).calm ((calm_report _).out _ _ _ e3).2), fun σ τ _ _ => ?_,
      fun σ τ v hσ hx => (g.ret σ τ v (covers_some.2 hσ) hx).grows hg⟩
    refine hg4.1.subset ?_
    simp only [report, Option.some.injEq, Prod.mk.injEq] at e3
    rw [← e3.2]; simp

theorem bodies_ok (hw : World L.cfg L.ord I) (ha : AtomsOk L S) {k : K} (hk : L.wraps k = false) {env : Env K} (hf : FlatIn L.cfg k env) :
    ∀ (bs : List (Cmd X T C)) (s s' : Acc K) (u : Unit), Quiet s' → tcBodies L bs env s = some (u, s') →
      (RetsFlat L.cfg k s → RetsFlat L.cfg k s') ∧ ∀ b ∈ bs,
        (∀ σ τ, Holds L.cfg I env σ → Exec S b σ (.next τ) → Err.fallsOff ∈ s'.errs) ∧
        (∀ σ τ v, Holds L.cfg I env σ → Exec S b σ (.returned τ v) → RetIn L I k s' τ v)
  | [], s, s', u, hq, h => by
    rw [tcBodies] at h
    obtain ⟨_, rfl⟩ := pure_some h
    exact ⟨fun h => h, fun b hb => by cases hb⟩
  | b :: bs, s, s', u, hq, h => by
    rw [tcBodies] at h
    obtain ⟨_, s1, e1, e2, hq1, hg⟩ := bind_quiet (fun _ => mono_tcBodies bs env) hq h
    have g := body_ok hw ha hk hf hq1 e1
    obtain ⟨k1, k2⟩ := bodies_ok hw ha hk hf bs s1 s' _ hq e2
    refine ⟨fun hr => k1 (g.rets hr), fun b' hb' => ?_⟩
    rcases List.mem_cons.1 hb' with rfl | hb'
    · exact ⟨fun σ τ h1 h2 => hg.1.subset (g.falls σ τ h1 h2), fun σ τ v h1 h2 => (g.ret σ τ v h1 h2).grows hg⟩
    · exact k2 b' hb'

theorem proc_ok (hw : World L.cfg L.ord I) (ha : AtomsOk L S) {init : Env K} (hk : L.wraps init.ctx = false) (hf : FlatEnv L.cfg init)
    (hret : .ret ∈ keys init.vars) {bodies : List (Cmd X T C)} {r : Option (Env K)} {s s' : Acc K} (hs : s.rets = []) (hq : Quiet s')
    (h : tcProc L bodies init s = some (r, s')) {b : Cmd X T C} (hb : b ∈ bodies) {σ : Store I} (hσ : Holds L.cfg I init σ) :
    (∀ τ, Exec S b σ (.next τ) → Err.fallsOff ∈ s'.errs) ∧
    ∀ τ v, Exec S b σ (.returned τ v) → ∃ e t, r = some e ∧ get e.vars .ret = some t ∧ den L.cfg I t v ∧
      (∀ x u, get e.vars (.var x) = some u → den L.cfg I u (τ x)) ∧
      (Err.returnType ∉ s'.errs → Flat L.cfg (L.expected init.ctx) → den L.cfg I (L.expected init.ctx) v) := by
  unfold tcProc at h
  split at h
  · cases h
  · obtain ⟨_, s1, e1, e2⟩ := bind_some h
    split at e2
    · cases e2
    · rename_i r' hr'
      simp only [Option.some.injEq, Prod.mk.injEq] at e2
      obtain ⟨rfl, rfl⟩ := e2
      obtain ⟨g1, g2⟩ := bodies_ok hw ha hk (k := init.ctx) ⟨hf, rfl⟩ bodies s s1 _ hq e1
      have hrf := g1 (fun r hr => by rw [hs] at hr; cases hr)
      obtain ⟨g3, g4⟩ := g2 b hb
      refine ⟨fun τ hx => g3 σ τ hσ hx, fun τ v hx => ?_⟩
      obtain ⟨r, q1, q2, t, q3, q4, q5, q6⟩ := g4 σ τ v hσ hx
      obtain ⟨fin, hfin, o1, o2⟩ := envsOr_flat hw.cfgOk hw.ordOk hw.notSet (k := init.ctx)
        (envs := s1.rets.map (fun e => some (e.reduce (keys init.vars)))) (by
          intro e he
          obtain ⟨e', he', h⟩ := List.mem_map.1 he
          injection h with h; subst h
          exact ⟨flat_reduce (hrf e' he').1, (hrf e' he').2⟩)
      rw [hfin] at hr'; injection hr' with hr'; subst hr'
      have hmem : some (r.reduce (keys init.vars)) ∈ s1.rets.map (fun e => some (e.reduce (keys init.vars))) := List.mem_map.2 ⟨r, q1, rfl⟩
      cases hfin' : fin with
      | none => exact absurd hmem (o1.1 hfin' _)
      | some e =>
        obtain ⟨_, _, o3⟩ := o2 e hfin'
        cases ht : get e.vars .ret with
        | none =>
          have := (o3 .ret).1.1 ht _ hmem
          simp only [Env.reduce, get_filter, hret, if_true, q3] at this
          cases this
        | some t' =>
          refine ⟨e, t', rfl, ht, ?_, ?_, ?_⟩
          · refine ((o3 .ret).2 t' ht I hw.respects hw.exhaustive v).2 ⟨_, hmem, ?_⟩
            simpa only [typeOr, Env.reduce, get_filter, hret, if_true, q3, Option.getD_some] using q5
          · intro x u hu
            refine ((o3 (.var x)).2 u hu I hw.respects hw.exhaustive _).2 ⟨_, hmem, ?_⟩
            have hx : Key.var x ∈ keys init.vars := Classical.byContradiction (fun hx => by
              have : get e.vars (.var x) = none := (o3 (.var x)).1.2 (fun e' he' => by
                obtain ⟨e'', _, h⟩ := List.mem_map.1 he'
                injection h with h; subst h
                simp only [Env.reduce, get_filter, hx, if_false])
              rw [this] at hu; cases hu)
            have := typeOr_den (x := x) q2
            simpa only [typeOr, Env.reduce, get_filter, hx, if_true] using this
          · intro hno hexp
            exact sub_flat hw.cfgOk hw.respects q4 hexp (q6.resolve_right hno) v q5

/-! ### Messages of type tests -/

theorem flat_inhabited {cfg : Cfg} (hi : Inhabited' cfg I) {A : Ty} (hA : Flat cfg A) : tyEq A T0 = true ↔ ∀ v, ¬ den cfg I A v := by
  constructor
  · intro h v; exact tyEq_T0 h
  · intro h
    rw [tyEq_iff]
    intro m
    constructor
    · intro hm
      obtain ⟨n, hn, rfl⟩ := hA m hm
      obtain ⟨v, hv⟩ := hi n hn
      exact absurd (den_members.2 ⟨_, hm, hv⟩) (h v)
    · intro hm; simp [T0, members] at hm

theorem test_says (hw : World L.cfg L.ord I) (hi : Inhabited' L.cfg I) {env : Env K} {x : String} {t sub sup : Ty} (hx : get env.vars (.var x) = some t)
    (ht : Flat L.cfg t) (hne : ∃ v, den L.cfg I t v) (hsub : Flat L.cfg sub) (hsup : Flat L.cfg sup) (isA asserting : Bool) (s : Acc K) :
    ((asserting = true ∧ isA = false ∧ ∀ v, den L.cfg I t v → den L.cfg I sub v) →
      withTypeTest L env x isA (sub, sup) asserting s = none) ∧
    (¬ (asserting = true ∧ isA = false ∧ ∀ v, den L.cfg I t v → den L.cfg I sub v) → ∃ r es, withTypeTest L env x isA (sub, sup) asserting s = some (r, { s with errs := s.errs ++ es, log := s.log ++ es }) ∧
      ∀ m, m ∈ es ↔ Says L.cfg I x t sub sup isA asserting m) := by
  have hne0 : tyEq t T0 = false := by
    cases h : tyEq t T0 with
    | false => rfl
    | true => obtain ⟨v, hv⟩ := hne; exact absurd hv (tyEq_T0 h)
  obtain ⟨i1, o1, g1, f1, f2, g3⟩ := split_flat hw.cfgOk hw.leaf hw.ordOk ht hsup
  obtain ⟨i2, o2, g4, f3, f4, g6⟩ := split_flat hw.cfgOk hw.leaf hw.ordOk ht hsub
  have d1 := fun v => g3 I hw.respects hw.exhaustive hw.disjoint v
  have d2 := fun v => g6 I hw.respects hw.exhaustive hw.disjoint v
  have a1 : tyEq i1 T0 = true ↔ ∀ v, den L.cfg I t v → ¬ den L.cfg I sup v := by
    rw [flat_inhabited hi f1]
    exact ⟨fun h v h1 h2 => h v ((d1 v).1.2 ⟨h1, h2⟩), fun h v hv => h v ((d1 v).1.1 hv).1 ((d1 v).1.1 hv).2⟩
  have a2 : tyEq o1 T0 = true ↔ ¬ ∃ v, den L.cfg I t v ∧ ¬ den L.cfg I sup v := by
    rw [flat_inhabited hi f2]
    exact ⟨fun h ⟨v, hv⟩ => h v ((d1 v).2.2 hv), fun h v hv => h ⟨v, (d1 v).2.1 hv⟩⟩
  have a3 : tyEq i2 T0 = true ↔ ¬ ∃ v, den L.cfg I t v ∧ den L.cfg I sub v := by
    rw [flat_inhabited hi f3]
    exact ⟨fun h ⟨v, hv⟩ => h v ((d2 v).1.2 hv), fun h v hv => h ⟨v, (d2 v).1.1 hv⟩⟩
  have a4 : tyEq o2 T0 = true ↔ ∀ v, den L.cfg I t v → den L.cfg I sub v := by
    rw [flat_inhabited hi f4]
    exact ⟨fun h v h1 => Classical.byContradiction (fun h2 => h v ((d2 v).2.2 ⟨h1, h2⟩)), fun h v hv => ((d2 v).2.1 hv).2 (h v ((d2 v).2.1 hv).1)⟩
  have hrun : withTypeTest L env x isA (sub, sup) asserting s =
      (testMessages x isA asserting (tyEq i1 T0) (tyEq o1 T0) (tyEq i2 T0) (tyEq o2 T0) >>= fun _ =>
        (if isA = true then M.pure (some (env.set (.var x) i1), some (env.set (.var x) o2)) else
          M.pure (some (env.set (.var x) o2), some (env.set (.var x) i1)) : M K (Option (Env K) × Option (Env K)))) s := by
    simp only [withTypeTest, tcExpr, hx, bind, M.bind, M.pure, hne0, flat_not_tbd hsub, flat_not_tbd hsup, flat_not_tbd ht, Bool.false_eq_true, if_false,
      Bool.or_self, Bool.and_false, M.lift, g1, g4, Option.map_some]
  rw [hrun]
  have hA1 : (tyEq i1 T0 = false) ↔ ¬ ∀ v, den L.cfg I t v → ¬ den L.cfg I sup v := by rw [← a1]; simp
  have hA2 : (tyEq o1 T0 = false) ↔ ∃ v, den L.cfg I t v ∧ ¬ den L.cfg I sup v := by rw [← Classical.not_not (a := ∃ v, _), ← a2]; simp
  have hA3 : (tyEq i2 T0 = false) ↔ ∃ v, den L.cfg I t v ∧ den L.cfg I sub v := by rw [← Classical.not_not (a := ∃ v, _), ← a3]; simp
  have hA4 : (tyEq o2 T0 = false) ↔ ¬ ∀ v, den L.cfg I t v → den L.cfg I sub v := by rw [← a4]; simp
  cases asserting with
  | true =>
    cases isA with
    | true =>
      refine ⟨by simp, fun _ => ?_⟩
      unfold Says
      simp only [if_true]
      rw [← a1, ← hA2]
      generalize tyEq i1 T0 = b1
      generalize tyEq o1 T0 = b2
      refine ⟨(some (env.set (.var x) i1), some (env.set (.var x) o2)), (if b1 then [.cannot x] else []) ++ (if b2 then [] else [.unconfirmed x]), ?_, ?_⟩ <;>
      cases b1 <;> cases b2 <;>
        simp [testMessages, reportIf, report, bind, M.bind, M.pure, List.append_assoc]
    | false =>
      rw [← a4]
      unfold Says
      simp only [if_true, Bool.false_eq_true, if_false]
      rw [← hA3]
      generalize tyEq i2 T0 = b1
      generalize tyEq o2 T0 = b2
      refine ⟨fun h => ?_, fun h => ⟨(some (env.set (.var x) o2), some (env.set (.var x) i1)), if b1 then [] else [.mightBe x], ?_, ?_⟩⟩ <;>
      cases b1 <;> cases b2 <;>
        simp_all [testMessages, reportIf, report, bind, M.bind, M.pure, M.fail]
  | false =>
    refine ⟨by simp, fun _ => ?_⟩
    unfold Says
    simp only [Bool.false_eq_true, if_false]
    rw [← a1, ← a4]
    generalize tyEq i1 T0 = b1
    generalize tyEq o2 T0 = b2
    refine ⟨(if isA then some (env.set (.var x) i1) else some (env.set (.var x) o2), if isA then some (env.set (.var x) o2) else some (env.set (.var x) i1)),
      (if b2 then [.mustBe x] else []) ++ (if b1 then [.cantBe x] else []), ?_, ?_⟩ <;>
    cases b1 <;> cases b2 <;> cases isA <;>
      simp [testMessages, reportIf, report, bind, M.bind, M.pure]

end
end Verif.Env
