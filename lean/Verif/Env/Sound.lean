import Verif.Env.Calm
/-!
# The analysis is right about all executions
-/
namespace Verif.Env
open Verif.Types

variable {K : Type}

/-- No message about an undefined variable has been printed. -/
def Quiet (s : Acc K) : Prop := ∀ x, Err.undefined x ∉ s.log

theorem Quiet.of_grows {s s' : Acc K} (h : Grows s s') (hq : Quiet s') : Quiet s :=
  fun x hx => hq x (h.2.1.subset hx)

/-- After `m`, if it succeeds quietly, `Q`. -/
structure Wp {α} (m : M K α) (s : Acc K) (Q : α → Acc K → Prop) : Prop where
  out : ∀ a s', m s = some (a, s') → Quiet s' → Q a s'

theorem wp_bind {α β} {m : M K α} {f : α → M K β} {s : Acc K} {Q : β → Acc K → Prop} (hf : ∀ a, Mono (f a))
    (h : Wp m s (fun a s1 => Wp (f a) s1 Q)) : Wp (m >>= f) s Q := by
  constructor
  intro b s' e hq
  obtain ⟨a, s1, e1, e2⟩ := bind_some e
  exact (h.out a s1 e1 (hq.of_grows ((hf a).out _ _ _ e2))).out b s' e2 hq

theorem wp_pure {α} {a : α} {s : Acc K} {Q : α → Acc K → Prop} (h : Q a s) : Wp (M.pure a) s Q := by
  constructor
  intro b s' e _
  simp only [M.pure, Option.some.injEq, Prod.mk.injEq] at e
  obtain ⟨rfl, rfl⟩ := e
  exact h

theorem wp_fail {α} {s : Acc K} {Q : α → Acc K → Prop} : Wp M.fail s Q := ⟨fun _ _ e => by cases e⟩

theorem wp_lift {α} {o : Option α} {s : Acc K} {Q : α → Acc K → Prop} (h : ∀ a, o = some a → Q a s) : Wp (M.lift o) s Q := by
  constructor
  intro b s' e _
  simp only [M.lift, Option.map_eq_some_iff, Prod.mk.injEq] at e
  obtain ⟨a, ha, rfl, rfl⟩ := e
  exact h a ha

theorem wp_mono {α} {m : M K α} {s : Acc K} {Q Q' : α → Acc K → Prop} (h : Wp m s Q) (hQ : ∀ a s', Q a s' → Q' a s') : Wp m s Q' :=
  ⟨fun a s' e hq => hQ a s' (h.out a s' e hq)⟩

/-- A calm computation leaves the return environments alone. -/
theorem wp_calm {α} {m : M K α} (hm : Calm m) {s : Acc K} {Q : α → Acc K → Prop} (h : Wp m s Q) :
    Wp m s (fun a s' => Q a s' ∧ s'.rets = s.rets ∧ Grows s s') :=
  ⟨fun a s' e hq => ⟨h.out a s' e hq, (hm.out s a s' e).2, (hm.out s a s' e).1⟩⟩

theorem wp_trivial {α} {m : M K α} {s : Acc K} : Wp m s (fun _ _ => True) := ⟨fun _ _ _ _ => trivial⟩

/-- Environments with named types, in a given context. -/
def FlatIn (cfg : Cfg) (k : K) (e : Env K) : Prop := FlatEnv cfg e ∧ e.ctx = k
def FlatO (cfg : Cfg) (k : K) (e : Option (Env K)) : Prop := ∀ e', e = some e' → FlatIn cfg k e'

theorem flatO_none {cfg : Cfg} {k : K} : FlatO cfg k none := fun _ h => by cases h
theorem flatO_some {cfg : Cfg} {k : K} {e : Env K} (h : FlatIn cfg k e) : FlatO cfg k (some e) := fun _ h' => by
  injection h' with h'; exact h' ▸ h
theorem flatIn_set {cfg : Cfg} {k : K} {e : Env K} {x : Key} {t : Ty} (h : FlatIn cfg k e) (ht : Flat cfg t) : FlatIn cfg k (e.set x t) :=
  ⟨flat_set h.1 ht, h.2⟩

theorem covers_some {cfg : Cfg} {I : Interp} {e : Env K} {σ : Store I} : Covers cfg I (some e) σ ↔ Holds cfg I e σ := by
  unfold Covers
  constructor
  · rintro ⟨e', h, hh⟩; injection h with h; exact h ▸ hh
  · intro h; exact ⟨e, rfl, h⟩

theorem not_covers_none {cfg : Cfg} {I : Interp} {σ : Store I} : ¬ Covers cfg I (none : Option (Env K)) σ := by
  rintro ⟨e', h, _⟩; cases h

section
variable {X T C : Type} [DecidableEq K] {L : Lang K X T C} {I : Interp} {S : Sem X T C I}

/-- Joins, for environments in one context. -/
theorem or_ok (hw : World L.cfg L.ord I) {envs : List (Option (Env K))} {k : K} (hf : ∀ e ∈ envs, FlatO L.cfg k e) :
    ∃ r, envsOr L.cfg L.ord envs = some r ∧ FlatO L.cfg k r ∧ ∀ e ∈ envs, ∀ σ, Covers L.cfg I e σ → Covers L.cfg I r σ := by
  obtain ⟨r, hr, h1, h2⟩ := envsOr_flat hw.cfgOk hw.ordOk hw.notSet (envs := envs) (k := k) (fun e he => hf _ he e rfl)
  refine ⟨r, hr, fun e' he' => ⟨(h2 e' he').1, (h2 e' he').2.1⟩, ?_⟩
  rintro e he σ ⟨e', rfl, hσ⟩
  cases r with
  | none => exact absurd he (h1.1 rfl e')
  | some r =>
    rw [covers_some]
    intro x
    obtain ⟨g1, g2⟩ := (h2 r rfl).2.2 (.var x)
    constructor
    · intro t ht
      exact (g2 t ht I hw.respects hw.exhaustive _).2 ⟨e', he, typeOr_den hσ⟩
    · intro hn
      exact (hσ x).2 (g1.1 hn e' he)

theorem wp_or (hw : World L.cfg L.ord I) {envs : List (Option (Env K))} {k : K} (hf : ∀ e ∈ envs, FlatO L.cfg k e) {s : Acc K} :
    Wp (M.lift (envsOr L.cfg L.ord envs)) s (fun r s' => s' = s ∧ FlatO L.cfg k r ∧ ∀ e ∈ envs, ∀ σ, Covers L.cfg I e σ → Covers L.cfg I r σ) := by
  refine wp_lift (fun r hr => ?_)
  obtain ⟨r', hr', h1, h2⟩ := or_ok hw hf
  rw [hr'] at hr; injection hr with hr; subst hr
  exact ⟨rfl, h1, h2⟩

theorem and_ok (hw : World L.cfg L.ord I) {a b r : Option (Env K)} {k : K} (ha : FlatO L.cfg k a) (hb : FlatO L.cfg k b)
    (h : envAnd L.cfg L.ord a b = some r) :
    FlatO L.cfg k r ∧ ∀ σ, Covers L.cfg I a σ → Covers L.cfg I b σ → Covers L.cfg I r σ := by
  cases a with
  | none => cases h
  | some a => cases b with
    | none => cases h
    | some b =>
      have ha := ha a rfl
      have hb := hb b rfl
      obtain ⟨e, he, ⟨e0, he0, hctx⟩, hx⟩ := envsAnd_flat hw.cfgOk hw.leaf hw.ordOk (es := [a, b]) (by simp) (fun e he x t ht => by
        simp only [List.mem_cons, List.not_mem_nil, or_false] at he
        rcases he with rfl | rfl
        · exact .inl (ha.1 x t ht)
        · exact .inl (hb.1 x t ht))
      rw [envAnd, he] at h
      simp only [Option.map_some, Option.some.injEq] at h
      subst h
      have hno : ∀ e' ∈ [a, b], ∀ x, get e'.vars x ≠ some .tbd := by
        intro e' he' x ht
        simp only [List.mem_cons, List.not_mem_nil, or_false] at he'
        rcases he' with rfl | rfl
        · exact not_flat_tbd (ha.1 x _ ht)
        · exact not_flat_tbd (hb.1 x _ ht)
      constructor
      · refine flatO_some ⟨?_, ?_⟩
        · intro x t ht
          rcases (hx x).2 t ht with ⟨rfl, h2⟩ | ⟨h1, _⟩
          · exact absurd (h2 a (by simp)) (hno a (by simp) x)
          · exact h1
        · rw [hctx]
          simp only [List.mem_cons, List.not_mem_nil, or_false] at he0
          rcases he0 with rfl | rfl
          · exact ha.2
          · exact hb.2
      · intro σ h1 h2
        rw [covers_some] at *
        intro x
        constructor
        · intro t ht
          rcases (hx _).2 t ht with ⟨rfl, g2⟩ | ⟨_, _, g2⟩
          · exact absurd (g2 a (by simp)) (hno a (by simp) _)
          · refine (g2 I hw.respects hw.exhaustive hw.disjoint _).2 (fun e' he' u hu _ => ?_)
            simp only [List.mem_cons, List.not_mem_nil, or_false] at he'
            rcases he' with rfl | rfl
            · exact (h1 x).1 u hu
            · exact (h2 x).1 u hu
        · intro hn
          obtain ⟨e', he', hn'⟩ := (hx _).1.1 hn
          simp only [List.mem_cons, List.not_mem_nil, or_false] at he'
          rcases he' with rfl | rfl
          · exact (h1 x).2 hn'
          · exact (h2 x).2 hn'

/-! ### Expressions -/

theorem wp_tcExpr (ha : AtomsOk L S) {k : K} (e : Expr X) {env : Env K} (hf : FlatIn L.cfg k env) {s : Acc K} :
    Wp (tcExpr L e env) s (fun r _ => Flat L.cfg r.1 ∧ FlatIn L.cfg k r.2 ∧
      ∀ σ v, Holds L.cfg I env σ → Eval S e σ v → den L.cfg I r.1 v ∧ Holds L.cfg I r.2 σ) := by
  cases e with
  | var x =>
    rw [tcExpr]
    split
    · rename_i t ht
      refine wp_pure ⟨hf.1 _ _ ht, hf, fun σ v hσ hv => ?_⟩
      simp only [Eval] at hv
      subst hv
      exact ⟨(hσ x).1 t ht, hσ⟩
    · constructor
      intro a s' e hq
      obtain ⟨_, s1, e1, e2⟩ := bind_some e
      have hg := ((calm_pure (K := K) (Ty.tbd, env)).out _ _ _ e2).1
      simp only [report, Option.some.injEq, Prod.mk.injEq] at e1
      refine absurd ?_ (hq.of_grows hg x)
      rw [← e1.2]; simp
  | other e =>
    rw [tcExpr]
    split
    · exact wp_fail
    · rename_i r es he
      obtain ⟨t, env'⟩ := r
      refine wp_bind (fun _ => (calm_pure _).mono) ?_
      constructor
      intro _ s1 e1 hq
      simp only [reportAll, Option.some.injEq, Prod.mk.injEq] at e1
      refine wp_pure ?_
      have hno : ∀ x, Err.undefined x ∉ es := by
        intro x hx
        refine hq x ?_
        rw [← e1.2]
        exact List.mem_append.2 (.inr hx)
      obtain ⟨g1, g2, g3, g4⟩ := ha.expr e env t env' es he hno hf.1
      exact ⟨g1, ⟨g2, by rw [g3]; exact hf.2⟩, fun σ v hσ hv => g4 σ v hσ hv⟩

/-- Without an environment entry, a variable reads as undefined. -/
theorem tcExpr_var {env : Env K} {x : String} {s s' : Acc K} {r : Ty × Env K} (h : tcExpr L (.var x) env s = some (r, s')) (hq : Quiet s') :
    get env.vars (.var x) = some r.1 ∧ r.2 = env ∧ s' = s := by
  rw [tcExpr] at h
  cases ht : get env.vars (.var x) with
  | some t =>
    simp only [ht, M.pure, Option.some.injEq, Prod.mk.injEq] at h
    obtain ⟨rfl, rfl⟩ := h
    exact ⟨rfl, rfl, rfl⟩
  | none =>
    simp only [ht] at h
    obtain ⟨_, s1, e1, e2⟩ := bind_some h
    have hg := ((calm_pure (K := K) (Ty.tbd, env)).out _ _ _ e2).1
    simp only [report, Option.some.injEq, Prod.mk.injEq] at e1
    refine absurd ?_ (hq.of_grows hg x)
    rw [← e1.2]; simp

theorem wp_isSub (hw : World L.cfg L.ord I) {A B : Ty} (hA : Flat L.cfg A) (hB : Flat L.cfg B) {s : Acc K} :
    Wp (isSub L A B) s (fun b s' => s' = s ∧ (b = true → ∀ v : I.V, den L.cfg I A v → den L.cfg I B v)) := by
  refine wp_lift (fun b hb => ⟨rfl, fun e v hv => ?_⟩)
  subst e
  exact sub_flat hw.cfgOk hw.respects hA hB hb v hv

/-! ### Let and Set -/

theorem wp_narrowed (hw : World L.cfg L.ord I) {k : K} {env : Env K} (hf : FlatIn L.cfg k env) {x : String} {old t : Ty}
    (hx : get env.vars (.var x) = some old) (ht : Flat L.cfg t) (hsub : ∀ v : I.V, den L.cfg I t v → den L.cfg I old v) {s : Acc K} :
    Wp (narrowed L env x t) s (fun env' _ => FlatIn L.cfg k env' ∧
      ∀ σ v, Holds L.cfg I env σ → den L.cfg I t v → Holds L.cfg I env' (update σ x v)) := by
  constructor
  intro env' s' e0 hq
  unfold narrowed at e0
  obtain ⟨r, s1, e1, e⟩ := bind_some e0
  clear e0
  have hq1 : Quiet s1 := by
    refine hq.of_grows (Calm.mono ?_ |>.out _ _ _ e)
    dsimp only
    refine calm_bind (calm_isSub L _ _) (fun b => ?_)
    split
    · exact calm_pure _
    · split
      · exact calm_pure _
      · refine calm_bind (calm_isSub L _ _) (fun b => ?_)
        calm
  obtain ⟨h1, h2, _⟩ := tcExpr_var e1 hq1
  rw [hx] at h1; injection h1 with h1
  obtain ⟨rt, renv⟩ := r
  dsimp only at *
  subst h1 h2
  obtain ⟨b, s2, e2, e'⟩ := bind_some e
  clear e
  have e := e'
  clear e'
  have hset : FlatIn L.cfg k (renv.set (.var x) t) ∧ ∀ σ v, Holds L.cfg I renv σ → den L.cfg I t v → Holds L.cfg I (renv.set (.var x) t) (update σ x v) :=
    ⟨flatIn_set hf ht, fun σ v hσ hv => holds_set hσ hv⟩
  split at e
  · simp only [M.pure, Option.some.injEq, Prod.mk.injEq] at e
    rw [← e.1]
    exact ⟨hf, fun σ v hσ hv => holds_update hσ hx (hsub v hv)⟩
  · split at e
    · simp only [M.pure, Option.some.injEq, Prod.mk.injEq] at e
      rw [← e.1]; exact hset
    · obtain ⟨b', s3, e3, e⟩ := bind_some e
      split at e
      · simp only [M.pure, Option.some.injEq, Prod.mk.injEq] at e
        rw [← e.1]; exact hset
      · cases e

theorem flat_hier_of {cfg : Cfg} {A : Ty} {n : String} (h : tyEq A (.hier n) = true) {I : Interp} {v : I.V} : den cfg I A v ↔ I.named n v := by
  rw [tyEq_den h]; exact Iff.rfl

/-- A second `Let` that is let go leaves a type that fits. -/
theorem lenient_ok (hw : World L.cfg L.ord I) {x : String} {old t : Ty} (h : lenient L x old t = true) (v : I.V)
    (hv : den L.cfg I t v) : den L.cfg I old v := by
  simp only [lenient, Bool.and_eq_true, Bool.or_eq_true] at h
  obtain ⟨⟨_, h1⟩, h2⟩ := h
  have hu := hw.undefinedNormal v ((flat_hier_of h2).1 hv)
  rcases h1 with h1 | h1
  · exact (flat_hier_of h1).2 hu.1
  · split at h1
    · rename_i u hu'
      obtain ⟨T, hT, _, hd⟩ := union_flat hw.cfgOk hw.ordOk (ts := [.hier "Tangible_", notSet]) (by
        intro t ht
        simp only [List.mem_cons, List.not_mem_nil, or_false] at ht
        rcases ht with rfl | rfl
        · exact flat_hier hw.tangible
        · exact flat_hier hw.notSet)
      rw [hT] at hu'; injection hu' with hu'; subst hu'
      rw [tyEq_den h1]
      exact (hd I hw.respects hw.exhaustive v).2 ⟨.hier "Tangible_", by simp, hu.2⟩
    · cases h1

theorem wp_plusNewEntry (hw : World L.cfg L.ord I) {k : K} {env : Env K} (hf : FlatIn L.cfg k env) {x : String} {t : Ty} (ht : Flat L.cfg t) {s : Acc K} :
    Wp (plusNewEntry L env x t) s (fun env' _ => FlatIn L.cfg k env' ∧
      ∀ σ v, Holds L.cfg I env σ → den L.cfg I t v → Holds L.cfg I env' (update σ x v)) := by
  have hset : FlatIn L.cfg k (env.set (.var x) t) ∧ ∀ σ v, Holds L.cfg I env σ → den L.cfg I t v → Holds L.cfg I (env.set (.var x) t) (update σ x v) :=
    ⟨flatIn_set hf ht, fun σ v hσ hv => holds_set hσ hv⟩
  unfold plusNewEntry
  split
  · rename_i old hx
    have hold := hf.1 _ _ hx
    refine wp_bind (fun _ => ?_) ?_
    · refine Calm.mono ?_
      repeat' (first
      | exact calm_pure _ | exact calm_narrowed L _ _ _ | exact calm_isSub L _ _ | exact calm_report _
      | exact calm_reportIf _ _ | apply calm_bind | intro _ | split)
    · refine wp_mono wp_trivial (fun _ s1 _ => ?_)
      split
      · rename_i he
        exact wp_pure ⟨hf, fun σ v hσ hv => holds_update hσ hx ((tyEq_den he v).1 hv)⟩
      · split
        · rename_i he
          rw [flat_not_tbd ht] at he; cases he
        · split
          · rename_i hl
            refine wp_bind (fun _ => (calm_pure _).mono) (wp_mono wp_trivial (fun _ _ _ => ?_))
            exact wp_pure ⟨hf, fun σ v hσ hv => holds_update hσ hx (lenient_ok hw hl v hv)⟩
          · refine wp_bind (fun _ => ?_) (wp_mono (wp_isSub hw ht hold) (fun b s2 hb => ?_))
            · split
              · exact mono_bind (calm_report _).mono (fun _ => (calm_narrowed L _ _ _).mono)
              · exact mono_bind (calm_report _).mono (fun _ => (calm_pure _).mono)
            · split
              · rename_i hb'
                refine wp_bind (fun _ => (calm_narrowed L _ _ _).mono) (wp_mono wp_trivial (fun _ _ _ => ?_))
                exact wp_narrowed hw hf hx ht (hb.2 hb')
              · refine wp_bind (fun _ => (calm_pure _).mono) (wp_mono wp_trivial (fun _ _ _ => ?_))
                exact wp_pure hset
  · refine wp_bind (fun _ => (calm_pure _).mono) (wp_mono wp_trivial (fun _ _ _ => ?_))
    exact wp_pure hset

theorem wp_setAToB (ha : AtomsOk L S) {k : K} {env : Env K} (hf : FlatIn L.cfg k env) {x : String} {e : Expr X} {s : Acc K} :
    Wp (setAToB L env x e) s (fun env' _ => FlatIn L.cfg k env' ∧
      ∀ σ v, Holds L.cfg I env σ → Eval S e σ v → Holds L.cfg I env' (update σ x v)) := by
  constructor
  intro env' s' h hq
  unfold setAToB at h
  obtain ⟨⟨et, env1⟩, s1, e1, h'⟩ := bind_some h
  clear h
  dsimp only at h'
  obtain ⟨⟨st, env2⟩, s2, e2, h⟩ := bind_some h'
  clear h'
  dsimp only at h
  have hg2 : Grows s2 s' := by
    have : Calm (if (tyEq st .tbd && tyEq et .tbd) = true then M.pure env2
      else if tyEq st .tbd = true then M.pure (env.set (.var x) et)
      else if tyEq et .tbd = true then match e with
        | .var y => M.pure (env.set (.var y) st)
        | .other _ => M.pure env
      else if tyEq et st = true then M.pure env2
      else if (tyEq et (.hier "List") && isListType st) = true then M.pure env2
      else do
        setWarning L x et st
        M.pure (env2.set (.var x) et)) := by
      repeat' (first
      | exact calm_pure _ | exact calm_setWarning L _ _ _
      | apply calm_bind | intro _ | split)
    exact (this.out _ _ _ h).1
  have hq2 := hq.of_grows hg2
  have hq1 := hq2.of_grows (((calm_tcExpr L (.var x) env1).out _ _ _ e2).1)
  obtain ⟨g1, g2, g3⟩ := (wp_tcExpr ha e hf (s := s)).out _ _ e1 hq1
  dsimp only at g1 g2 g3
  obtain ⟨k1, k2, _⟩ := tcExpr_var e2 hq2
  dsimp only at k1 k2
  subst k2
  have hst := g2.1 _ _ k1
  rw [flat_not_tbd hst, flat_not_tbd g1] at h
  simp only [Bool.false_and, Bool.false_eq_true, if_false] at h
  split at h
  · rename_i he
    simp only [M.pure, Option.some.injEq, Prod.mk.injEq] at h
    rw [← h.1]
    refine ⟨g2, fun σ v hσ hv => ?_⟩
    obtain ⟨q1, q2⟩ := g3 σ v hσ hv
    exact holds_update q2 k1 ((tyEq_den he v).1 q1)
  · split at h
    · rename_i he
      simp only [Bool.and_eq_true] at he
      exfalso
      cases st with
      | list t => obtain ⟨n, _, e⟩ := hst (.list t) (by simp [members]); cases e
      | _ => simp [isListType] at he
    · obtain ⟨_, s3, e3, h⟩ := bind_some h
      simp only [M.pure, Option.some.injEq, Prod.mk.injEq] at h
      rw [← h.1]
      refine ⟨flatIn_set g2 g1, fun σ v hσ hv => ?_⟩
      obtain ⟨q1, q2⟩ := g3 σ v hσ hv
      exact holds_set q2 q1

/-! ### Conditions -/

theorem tcExpr_found {env : Env K} {x : String} {t : Ty} (h : get env.vars (.var x) = some t) : tcExpr L (.var x) env = M.pure (t, env) := by
  simp only [tcExpr, h]

theorem test_core (hw : World L.cfg L.ord I) {k : K} {env : Env K} (hf : FlatIn L.cfg k env) {x : String} {isA asserting : Bool} {t : Ty}
    (hx : get env.vars (.var x) = some t)
    {sub sup : Ty} (hsub : Flat L.cfg sub) (hsup : Flat L.cfg sup) {P : I.V → Prop} (h1 : ∀ v, den L.cfg I sub v → P v)
    (h2 : ∀ v, P v → den L.cfg I sup v) {s s' : Acc K} {r : Option (Env K) × Option (Env K)}
    (h' : withTypeTest L env x isA (sub, sup) asserting s = some (r, s')) : FlatO L.cfg k r.1 ∧ FlatO L.cfg k r.2 ∧
      ∀ σ, Holds L.cfg I env σ → ((if isA then P (σ x) else ¬ P (σ x)) → Covers L.cfg I r.1 σ) ∧
        (¬ (if isA then P (σ x) else ¬ P (σ x)) → Covers L.cfg I r.2 σ) := by
  unfold withTypeTest at h'
  rw [tcExpr_found hx] at h'
  obtain ⟨⟨xt, env1⟩, s1, e1, h⟩ := bind_some h'
  clear h'
  dsimp only at h
  have e1' := e1
  simp only [M.pure, Option.some.injEq, Prod.mk.injEq] at e1'
  obtain ⟨⟨k1', k2⟩, _⟩ := e1'
  subst k2
  have k1 := hx
  rw [k1'] at k1
  have hxt := hf.1 _ _ k1
  rw [flat_not_tbd hxt, flat_not_tbd hsub, flat_not_tbd hsup] at h
  simp only [Bool.or_false, Bool.and_false, Bool.false_eq_true, if_false] at h
  split at h
  · rename_i h0
    simp only [M.pure, Option.some.injEq, Prod.mk.injEq] at h
    rw [← h.1]
    refine ⟨flatO_none, flatO_none, fun σ hσ => ?_⟩
    exact absurd ((hσ x).1 _ k1) (tyEq_T0 h0)
  · obtain ⟨⟨inSup, outSup⟩, s2, e2, h⟩ := bind_some h
    obtain ⟨⟨inSub, outSub⟩, s3, e3, h⟩ := bind_some h
    dsimp only at h
    obtain ⟨_, s4, e4, hlast⟩ := bind_some h
    simp only [M.lift, Option.map_eq_some_iff, Prod.mk.injEq] at e2 e3
    obtain ⟨_, e2, rfl, rfl⟩ := e2
    obtain ⟨_, e3, rfl, rfl⟩ := e3
    obtain ⟨i1, o1, g1, g2, _, g3⟩ := split_flat hw.cfgOk hw.leaf hw.ordOk hxt hsup
    obtain ⟨i2, o2, g4, _, g5, g6⟩ := split_flat hw.cfgOk hw.leaf hw.ordOk hxt hsub
    rw [g1] at e2; injection e2 with e2; injection e2 with e2 e2'; subst e2 e2'
    rw [g4] at e3; injection e3 with e3; injection e3 with e3 e3'; subst e3 e3'
    have hin : ∀ σ, Holds L.cfg I env σ → P (σ x) → Holds L.cfg I (env.set (.var x) i1) σ := fun σ hσ hp =>
      holds_retype hσ ((g3 I hw.respects hw.exhaustive hw.disjoint _).1.2 ⟨(hσ x).1 _ k1, h2 _ hp⟩)
    have hout : ∀ σ, Holds L.cfg I env σ → ¬ P (σ x) → Holds L.cfg I (env.set (.var x) o2) σ := fun σ hσ hp =>
      holds_retype hσ ((g6 I hw.respects hw.exhaustive hw.disjoint _).2.2 ⟨(hσ x).1 _ k1, fun h => hp (h1 _ h)⟩)
    have hfin := flatO_some (flatIn_set (x := .var x) hf g2)
    have hfout := flatO_some (flatIn_set (x := .var x) hf g5)
    split at hlast
    · rename_i hA
      simp only [M.pure, Option.some.injEq, Prod.mk.injEq] at hlast
      rw [← hlast.1]
      refine ⟨hfin, hfout, fun σ hσ => ⟨fun hp => ?_, fun hp => ?_⟩⟩
      · rw [if_pos hA] at hp
        exact covers_some.2 (hin σ hσ hp)
      · rw [if_pos hA] at hp
        exact covers_some.2 (hout σ hσ hp)
    · rename_i hA
      simp only [M.pure, Option.some.injEq, Prod.mk.injEq] at hlast
      rw [← hlast.1]
      refine ⟨hfout, hfin, fun σ hσ => ⟨fun hp => ?_, fun hp => ?_⟩⟩
      · rw [if_neg hA] at hp
        exact covers_some.2 (hout σ hσ hp)
      · rw [if_neg hA] at hp
        exact covers_some.2 (hin σ hσ (Classical.byContradiction hp))

theorem wp_withTypeTest (hw : World L.cfg L.ord I) {k : K} {env : Env K} (hf : FlatIn L.cfg k env) {x : String} {isA asserting : Bool}
    {sub sup : Ty} (hsub : Flat L.cfg sub) (hsup : Flat L.cfg sup) {P : I.V → Prop} (h1 : ∀ v, den L.cfg I sub v → P v)
    (h2 : ∀ v, P v → den L.cfg I sup v) {s : Acc K} :
    Wp (withTypeTest L env x isA (sub, sup) asserting) s (fun r _ => FlatO L.cfg k r.1 ∧ FlatO L.cfg k r.2 ∧
      ∀ σ, Holds L.cfg I env σ → ((if isA then P (σ x) else ¬ P (σ x)) → Covers L.cfg I r.1 σ) ∧
        (¬ (if isA then P (σ x) else ¬ P (σ x)) → Covers L.cfg I r.2 σ)) := by
  constructor
  intro r s' h' hq
  have h0 := h'
  unfold withTypeTest at h0
  obtain ⟨⟨xt, env1⟩, s1, e1, h⟩ := bind_some h0
  dsimp only at h
  have hq1 : Quiet s1 := by
    refine hq.of_grows (Calm.mono ?_ |>.out _ _ _ h)
    repeat' (first
    | exact calm_pure _ | exact calm_fail | exact calm_lift _ | exact calm_testMessages _ _ _ _ _ _ _
    | apply calm_bind | intro _ | split)
  exact test_core hw hf (tcExpr_var e1 hq1).1 hsub hsup h1 h2 h'

/-- What the analysis of a condition should give. -/
def CondPost (I : Interp) (L : Lang K X T C) (k : K) (env : Option (Env K)) (φ : Store I → Prop) (t f : Option (Env K)) : Prop :=
  FlatO L.cfg k t ∧ FlatO L.cfg k f ∧ ∀ σ, Covers L.cfg I env σ → (φ σ → Covers L.cfg I t σ) ∧ (¬ φ σ → Covers L.cfg I f σ)

mutual
theorem wp_tcCond (hw : World L.cfg L.ord I) (ha : AtomsOk L S) : ∀ (c : Cond T C) (env : Option (Env K)) (b : Bool) (k : K) (s : Acc K), FlatO L.cfg k env →
    Wp (tcCond L c env b) s (fun r _ => CondPost I L k env (True' S c) r.1 r.2)
  | .test x isA t, env, b, k, s, hf => by
    rw [tcCond.eq_def]; dsimp only
    split
    · exact wp_fail
    · rename_i env
      obtain ⟨b1, b2, b3⟩ := ha.bracket t
      refine wp_mono (wp_withTypeTest hw (hf env rfl) (P := S.desc t) b1 b2 (fun v => (b3 v).1) (fun v => (b3 v).2)) (fun r _ h => ?_)
      refine ⟨h.1, h.2.1, fun σ hσ => ?_⟩
      rw [covers_some] at hσ
      simpa only [True'] using h.2.2 σ hσ
  | .plain c, env, b, k, s, hf => by
    rw [tcCond.eq_def]; dsimp only
    split
    · exact wp_fail
    · rename_i env
      split
      · exact wp_fail
      · rename_i r es he
        obtain ⟨t, f⟩ := r
        refine wp_bind (fun _ => (calm_pure _).mono) ?_
        constructor
        intro _ s1 e1 hq
        simp only [reportAll, Option.some.injEq, Prod.mk.injEq] at e1
        refine wp_pure ?_
        have hno : ∀ x, Err.undefined x ∉ es := by
          intro x hx
          refine hq x ?_
          rw [← e1.2]
          exact List.mem_append.2 (.inr hx)
        have hfe := hf env rfl
        obtain ⟨g1, g2⟩ := ha.cond c env b t f es he hno hfe.1
        refine ⟨fun e h => ⟨(g1 e (.inl h)).1, by rw [(g1 e (.inl h)).2]; exact hfe.2⟩,
          fun e h => ⟨(g1 e (.inr h)).1, by rw [(g1 e (.inr h)).2]; exact hfe.2⟩, fun σ hσ => ?_⟩
        rw [covers_some] at hσ
        simpa only [True'] using g2 σ hσ
  | .never, env, b, k, s, hf => by
    rw [tcCond]
    split
    · refine wp_pure ⟨flatO_none, hf, fun σ hσ => ⟨fun h => ?_, fun _ => hσ⟩⟩
      simp [True'] at h
    · exact wp_fail
  | .or cs, env, b, k, s, hf => by
    rw [tcCond]
    refine wp_bind (fun r => ?_) (wp_mono (wp_tcOr hw ha cs env b k s hf) (fun r s1 h => ?_))
    · split
      exact mono_bind (calm_lift _).mono (fun _ => (calm_pure _).mono)
    · split
      rename_i ts f
      refine wp_bind (fun _ => (calm_pure _).mono) (wp_mono (wp_or hw h.1) (fun t s2 ht => ?_))
      refine wp_pure ⟨ht.2.1, h.2.1, fun σ hσ => ?_⟩
      simp only [True']
      refine ⟨fun hs => ?_, (h.2.2 σ hσ).2⟩
      obtain ⟨t', ht', hc⟩ := (h.2.2 σ hσ).1 hs
      exact ht.2.2 t' ht' σ hc
  | .and cs, env, b, k, s, hf => by
    rw [tcCond]
    refine wp_bind (fun r => ?_) (wp_mono (wp_tcAnd hw ha cs env b k s hf) (fun r s1 h => ?_))
    · split
      exact mono_bind (calm_lift _).mono (fun _ => (calm_pure _).mono)
    · split
      rename_i t fs
      refine wp_bind (fun _ => (calm_pure _).mono) (wp_mono (wp_or hw h.2.1) (fun f s2 hfs => ?_))
      refine wp_pure ⟨h.1, hfs.2.1, fun σ hσ => ?_⟩
      simp only [True']
      refine ⟨(h.2.2 σ hσ).1, fun hs => ?_⟩
      obtain ⟨f', hf', hc⟩ := (h.2.2 σ hσ).2 hs
      exact hfs.2.2 f' hf' σ hc
  | .notBoth x y, env, b, k, s, hf => by
    rw [tcCond]
    have hm : ∀ (r : Option (Env K) × Option (Env K)) (f1 : Option (Env K)), Mono (match r with
        | (t2, f2) => (M.lift (envsOr L.cfg L.ord [f1, f2]) >>= fun f => M.pure (f, t2) : M K (Option (Env K) × Option (Env K)))) := by
      intro r f1
      split
      exact mono_bind (calm_lift _).mono (fun _ => (calm_pure _).mono)
    refine wp_bind (fun r => ?_) (wp_mono (wp_tcCond hw ha x env b k s hf) (fun r s1 h1 => ?_))
    · split
      exact mono_bind (calm_tcCond L _ _ _).mono (fun r => hm r _)
    · split
      rename_i t1 f1
      refine wp_bind (fun r => hm r _) (wp_mono (wp_tcCond hw ha y t1 b k s1 h1.1) (fun r s2 h2 => ?_))
      split
      rename_i t2 f2
      refine wp_bind (fun _ => (calm_pure _).mono) (wp_mono (wp_or hw (k := k) (envs := [f1, f2]) ?_) (fun f s3 hfs => ?_))
      · intro e he
        simp only [List.mem_cons, List.not_mem_nil, or_false] at he
        rcases he with rfl | rfl
        · exact h1.2.1
        · exact h2.2.1
      · refine wp_pure ⟨hfs.2.1, h2.1, fun σ hσ => ?_⟩
        simp only [True']
        refine ⟨fun hn => ?_, fun hn => ?_⟩
        · by_cases hx : True' S x σ
          · have hc := (h1.2.2 σ hσ).1 hx
            exact hfs.2.2 f2 (by simp) σ ((h2.2.2 σ hc).2 (fun hy => hn ⟨hx, hy⟩))
          · exact hfs.2.2 f1 (by simp) σ ((h1.2.2 σ hσ).2 hx)
        · have hn := Classical.byContradiction hn
          exact (h2.2.2 σ ((h1.2.2 σ hσ).1 hn.1)).1 hn.2
  | .unless x y, env, b, k, s, hf => by
    rw [tcCond]
    refine wp_bind (fun _ => mono_bind (calm_tcCond L _ _ _).mono (fun _ => (calm_pure _).mono)) (wp_mono wp_trivial (fun _ _ _ => ?_))
    refine wp_bind (fun _ => (calm_pure _).mono) (wp_mono wp_trivial (fun _ _ _ => ?_))
    exact wp_pure ⟨hf, hf, fun σ hσ => ⟨fun _ => hσ, fun _ => hσ⟩⟩
theorem wp_tcOr (hw : World L.cfg L.ord I) (ha : AtomsOk L S) : ∀ (cs : List (Cond T C)) (env : Option (Env K)) (b : Bool) (k : K) (s : Acc K), FlatO L.cfg k env →
    Wp (tcOr L cs env b) s (fun r _ => (∀ t ∈ r.1, FlatO L.cfg k t) ∧ FlatO L.cfg k r.2 ∧ ∀ σ, Covers L.cfg I env σ →
      (Some' S cs σ → ∃ t ∈ r.1, Covers L.cfg I t σ) ∧ (¬ Some' S cs σ → Covers L.cfg I r.2 σ))
  | [], env, b, k, s, hf => by
    rw [tcOr]
    refine wp_pure ⟨(fun t ht => by cases ht), hf, fun σ hσ => ⟨fun h => ?_, fun _ => hσ⟩⟩
    simp [Some'] at h
  | c :: cs, env, b, k, s, hf => by
    rw [tcOr]
    refine wp_bind (fun r => ?_) (wp_mono (wp_tcCond hw ha c env _ k s hf) (fun r s1 h1 => ?_))
    · split
      refine mono_bind (calm_tcOr L _ _ _).mono (fun r => ?_)
      split
      exact (calm_pure _).mono
    · split
      rename_i t f
      refine wp_bind (fun r => ?_) (wp_mono (wp_tcOr hw ha cs f b k s1 h1.2.1) (fun r s2 h2 => ?_))
      · split
        exact (calm_pure _).mono
      · split
        rename_i ts f'
        refine wp_pure ⟨?_, h2.2.1, fun σ hσ => ?_⟩
        · intro e he
          rcases List.mem_cons.1 he with rfl | he
          · exact h1.1
          · exact h2.1 e he
        · simp only [Some']
          by_cases hx : True' S c σ
          · exact ⟨fun _ => ⟨t, by simp, (h1.2.2 σ hσ).1 hx⟩, fun hn => absurd (.inl hx) hn⟩
          · have hc := (h1.2.2 σ hσ).2 hx
            refine ⟨fun h => ?_, fun hn => (h2.2.2 σ hc).2 (fun h => hn (.inr h))⟩
            obtain ⟨t', ht', hc'⟩ := (h2.2.2 σ hc).1 (h.resolve_left hx)
            exact ⟨t', by simp [ht'], hc'⟩
theorem wp_tcAnd (hw : World L.cfg L.ord I) (ha : AtomsOk L S) : ∀ (cs : List (Cond T C)) (env : Option (Env K)) (b : Bool) (k : K) (s : Acc K), FlatO L.cfg k env →
    Wp (tcAnd L cs env b) s (fun r _ => FlatO L.cfg k r.1 ∧ (∀ t ∈ r.2, FlatO L.cfg k t) ∧ ∀ σ, Covers L.cfg I env σ →
      (All' S cs σ → Covers L.cfg I r.1 σ) ∧ (¬ All' S cs σ → ∃ f ∈ r.2, Covers L.cfg I f σ))
  | [], env, b, k, s, hf => by
    rw [tcAnd]
    refine wp_pure ⟨hf, (fun t ht => by cases ht), fun σ hσ => ⟨fun _ => hσ, fun h => ?_⟩⟩
    simp [All'] at h
  | c :: cs, env, b, k, s, hf => by
    rw [tcAnd]
    refine wp_bind (fun r => ?_) (wp_mono (wp_tcCond hw ha c env _ k s hf) (fun r s1 h1 => ?_))
    · split
      refine mono_bind (calm_tcAnd L _ _ _).mono (fun r => ?_)
      split
      exact (calm_pure _).mono
    · split
      rename_i t f
      refine wp_bind (fun r => ?_) (wp_mono (wp_tcAnd hw ha cs t b k s1 h1.1) (fun r s2 h2 => ?_))
      · split
        exact (calm_pure _).mono
      · split
        rename_i t' fs
        refine wp_pure ⟨h2.1, ?_, fun σ hσ => ?_⟩
        · intro e he
          rcases List.mem_cons.1 he with rfl | he
          · exact h1.2.1
          · exact h2.2.1 e he
        · simp only [All']
          by_cases hx : True' S c σ
          · have hc := (h1.2.2 σ hσ).1 hx
            refine ⟨fun h => (h2.2.2 σ hc).1 h.2, fun hn => ?_⟩
            obtain ⟨f', hf', hc'⟩ := (h2.2.2 σ hc).2 (fun h => hn ⟨hx, h⟩)
            exact ⟨f', by simp [hf'], hc'⟩
          · exact ⟨fun h => absurd h.1 hx, fun _ => ⟨f, by simp, (h1.2.2 σ hσ).2 hx⟩⟩
end

end
end Verif.Env
