import Verif.Calls.ArgLemmas
/-! # All arguments of a call -/
namespace Verif.Calls
open Verif.Types Verif.Env

variable {K X T C : Type} [DecidableEq K] {L : Lang K X T C} {I : Interp}

theorem own_unique {e : Expr X} {env env1 env2 : Env K} {t1 t2 : Ty} {es1 es2 : List Err} (h1 : Own L e env t1 env1 es1) (h2 : Own L e env t2 env2 es2) :
    t1 = t2 ∧ env1 = env2 ∧ es1 = es2 := by
  have e1 := h1 ⟨[], [], []⟩
  rw [h2 ⟨[], [], []⟩] at e1
  simp only [List.nil_append, Option.some.injEq, Prod.mk.injEq, Acc.mk.injEq, and_true] at e1
  exact ⟨e1.1.1.symm, e1.1.2.symm, e1.2.1.symm⟩

theorem and_some (hw : World L.cfg L.ord I) {a b : Env K} (ha : FlatEnv L.cfg a) (hb : FlatEnv L.cfg b) (hctx : b.ctx = a.ctx) :
    ∃ e, envAnd L.cfg L.ord (some a) (some b) = some (some e) ∧ FlatEnv L.cfg e ∧ e.ctx = a.ctx ∧
      ∀ σ, Holds L.cfg I a σ → Holds L.cfg I b σ → Holds L.cfg I e σ := by
  obtain ⟨e, he, _, _⟩ := envsAnd_flat hw.cfgOk hw.leaf hw.ordOk (es := [a, b]) (by simp) (fun e he x t ht => by
    simp only [List.mem_cons, List.not_mem_nil, or_false] at he
    rcases he with rfl | rfl
    · exact .inl (ha x t ht)
    · exact .inl (hb x t ht))
  have h : envAnd L.cfg L.ord (some a) (some b) = some (some e) := by rw [envAnd, he]; rfl
  obtain ⟨h1, h2⟩ := and_ok hw (k := a.ctx) (flatO_some ⟨ha, rfl⟩) (flatO_some ⟨hb, hctx⟩) h
  refine ⟨e, h, (h1 e rfl).1, (h1 e rfl).2, fun σ hσ hσ' => ?_⟩
  exact covers_some.1 (h2 σ (covers_some.2 hσ) (covers_some.2 hσ'))

theorem argsLoop_says (hw : World L.cfg L.ord I) (hi : LeavesInhabited L.cfg I) (hoc : NoOnlyChild L.cfg) (hnp : "not_passed" ∈ names L.cfg.tree)
    (txt : X → Text) (env0 : Env K) : ∀ (params : List (String × Ty)) (args : List (Expr X)) (out : Env K) (s : Acc K),
    args.length ≤ params.length → (∀ p ∈ params, Plain L.cfg p.2) → ArgsOk L args env0 → FlatEnv L.cfg out → out.ctx = env0.ctx →
    ∃ ts out' ms, argsLoop L txt env0 params args out s = some ((ts, out'), add s ms) ∧ CallSays L I env0 params args ts ms ∧
      FlatEnv L.cfg out' ∧ out'.ctx = env0.ctx ∧
      ∀ σ, Holds L.cfg I out σ → (∀ a ∈ args, ∀ t env1 es, Own L a env0 t env1 es → Holds L.cfg I env1 σ) → Holds L.cfg I out' σ := by
  intro params
  induction params with
  | nil =>
    intro args out s hlen _ _ hf hctx
    cases args with
    | nil => exact ⟨[], out, [], by simp [argsLoop, M.pure, add_nil], .done, hf, hctx, fun σ h _ => h⟩
    | cons a as => simp at hlen
  | cons p ps ih =>
    intro args out s hlen hp hargs hf hctx
    obtain ⟨np, pt, hparts, hfn, hfp, hopt, hacc⟩ := param_parts hw hi hoc hnp (hp p (by simp))
    have hp' : ∀ q ∈ ps, Plain L.cfg q.2 := fun q hq => hp q (by simp [hq])
    have hlift : ∀ s : Acc K, M.lift (paramParts L p.2) s = some ((np, pt), s) := fun s => by simp [M.lift, hparts]
    cases args with
    | nil =>
      obtain ⟨ts, out', ms, h1, h2, h3⟩ := ih [] out (add s (if tyEq np T0 then [.noArg p.1] else [])) (by simp) hp' (by intro a ha; cases ha) hf hctx
      have hts : ts = [] := by
        generalize hn : ([] : List (Expr X)) = l at h2
        cases h2 with
        | done => rfl
        | missing _ _ => rfl
        | passed _ _ _ => cases hn
      subst hts
      refine ⟨[], out', (if tyEq np T0 then [.noArg p.1] else []) ++ ms, ?_, .missing ?_ h2, h3⟩
      · rw [argsLoop]
        have h0 : tcArg L txt p none env0 out s = some ((none, out), add s (if tyEq np T0 then [.noArg p.1] else [])) := by
          rw [tcArg, bind_run (hlift s)]
          dsimp only
          rw [bind_run (reportIf_run _ _ s)]
          rfl
        rw [bind_run h0]
        dsimp only
        rw [h1, add_add]
      · unfold Deserves
        dsimp only
        by_cases he : tyEq np T0 = true
        · exact .inr ⟨hopt.1 he, by rw [if_pos he]⟩
        · exact .inl ⟨Classical.byContradiction (fun hno => he (hopt.2 hno)), by rw [if_neg he]⟩
    | cons a as =>
      obtain ⟨t, env1, es, hown, hft, hfe, hce⟩ := hargs a (by simp)
      obtain ⟨e, hand, hfe', hce', hhold⟩ := and_some hw hf hfe (hce.trans hctx.symm)
      have hb : ∃ b, sub L.cfg t pt = some b ∧ Deserves L.cfg I p (some t) (if b then [] else [.argType p.1]) := by
        rcases hacc t hft with ⟨h1, h2⟩ | ⟨h1, h2⟩
        · exact ⟨true, h1, .inl ⟨h2, rfl⟩⟩
        · exact ⟨false, h1, .inr ⟨h2, rfl⟩⟩
      obtain ⟨b, hb, hdes⟩ := hb
      obtain ⟨ts, out', ms, h1, h2, h3, h4, h5⟩ := ih as e (add (add s es) (if b then [] else [.argType p.1])) (by simpa using hlen) hp'
        (fun x hx => hargs x (by simp [hx])) hfe' (hce'.trans hctx)
      refine ⟨t :: ts, out', es ++ (if b then [] else [.argType p.1]) ++ ms, ?_, .passed hown hdes h2, h3, h4, ?_⟩
      · rw [argsLoop]
        have h0 : tcArg L txt p (some a) env0 out s = some ((some t, e), add (add s es) (if b then [] else [.argType p.1])) := by
          rw [tcArg, bind_run (hlift s)]
          dsimp only
          rw [bind_run (own_run hown s)]
          dsimp only
          rw [bind_run (checkArg_flat hfp hft hb _)]
          have : ∀ s : Acc K, M.lift (envAnd L.cfg L.ord (some out) (some env1)) s = some (some e, s) := fun s => by simp [M.lift, hand]
          rw [bind_run (this _)]
          rfl
        rw [bind_run h0]
        dsimp only
        rw [bind_run h1]
        simp [M.pure, add_add, List.append_assoc]
      · intro σ hσ hall
        exact h5 σ (hhold σ hσ (hall a (by simp) t env1 es hown)) (fun x hx => hall x (by simp [hx]))

/-! ### Other types -/

theorem fieldsOk_members {B : Ty} (h : ∀ m ∈ members B, FieldsOk m) : FieldsOk B := by
  cases B with
  | union ms =>
    have : ∀ l : List Ty, (∀ m ∈ l, FieldsOk m) → DeepL (fun t => match t with
        | .record _ fs => (fs.map (·.1)).Nodup
        | _ => True) l := by
      intro l
      induction l with
      | nil => intro _; trivial
      | cons a l ih => intro hl; exact ⟨hl a (by simp), ih (fun m hm => hl m (by simp [hm]))⟩
    exact ⟨trivial, this ms h⟩
  | tbd => exact h _ (by simp [members])
  | hier n => exact h _ (by simp [members])
  | list t => exact h _ (by simp [members])
  | record s fs => exact h _ (by simp [members])
  | proc ps r => exact h _ (by simp [members])

theorem tyEq_tbd {t : Ty} (h : tyEq t .tbd = true) (v : I.V) : den L.cfg I t v ↔ I.tbd v := by
  rw [tyEq_den (cfg := L.cfg) h]; rfl

/-- The messages of the functions here come at the end. -/
theorem ensure_adds {txt : X → Text} {e : Expr X} {T' : Ty} {env : Env K} {s s' : Acc K} {r} (h : ensureType L txt e T' env s = some (r, s')) :
    ∃ ms, s' = add s ms := by
  unfold ensureType at h
  split at h
  · cases h
  · obtain ⟨⟨t, env1⟩, s1, h1, h⟩ := bind_some h
    obtain ⟨es, _, rfl⟩ := own_of h1
    dsimp only at h
    split at h
    · obtain ⟨_, rfl⟩ := pure_of h; exact ⟨es, rfl⟩
    · obtain ⟨b, s2, h2, h⟩ := bind_some h
      obtain ⟨_, rfl⟩ := isSub_of h2
      split at h
      · obtain ⟨_, rfl⟩ := pure_of h; exact ⟨es, rfl⟩
      · rw [bind_run (report_run _ _)] at h
        cases htx : textOf txt e <;> rw [htx] at h
        · cases h
        · obtain ⟨_, rfl⟩ := pure_of h; exact ⟨_, add_add _ _ _⟩
        · obtain ⟨_, rfl⟩ := pure_of h; exact ⟨_, add_add _ _ _⟩
        · obtain ⟨_, rfl⟩ := pure_of h; exact ⟨_, add_add _ _ _⟩

/-- The check of an argument: no message, then it fits. -/
theorem checkArg_sound {txt : X → Text} {name : String} {pt t : Ty} {a : Expr X} {env1 : Env K} {s s' : Acc K} {r}
    (h : checkArg L txt name pt a t env1 s = some (r, s')) :
    ∃ ms, s' = add s ms ∧ (.argType name ∉ ms → tyEq pt .tbd = true ∨ tyEq t .tbd = true ∨ sub L.cfg t pt = some true ∨
      (tyEq t (.hier "List") = true ∧ isListType pt = true)) := by
  unfold checkArg at h
  by_cases h1 : tyEq pt .tbd = true
  · rw [if_pos h1] at h
    obtain ⟨_, rfl⟩ := pure_of h
    exact ⟨[], (add_nil _).symm, fun _ => .inl h1⟩
  rw [if_neg h1] at h
  by_cases h2 : tyEq t .tbd = true
  · rw [if_pos h2] at h
    obtain ⟨q, s1, h3, h⟩ := bind_some h
    obtain ⟨ms, rfl⟩ := ensure_adds h3
    obtain ⟨_, rfl⟩ := pure_of h
    exact ⟨ms, rfl, fun _ => .inr (.inl h2)⟩
  rw [if_neg h2] at h
  obtain ⟨b, s1, h3, h⟩ := bind_some h
  obtain ⟨h3', rfl⟩ := isSub_of h3
  cases b with
  | true =>
    simp only [if_true] at h
    obtain ⟨_, rfl⟩ := pure_of h
    exact ⟨[], (add_nil _).symm, fun _ => .inr (.inr (.inl h3'))⟩
  | false =>
    simp only [Bool.false_eq_true, if_false] at h
    by_cases h4 : (tyEq t (.hier "List") && isListType pt) = true
    · rw [if_pos h4] at h
      obtain ⟨_, rfl⟩ := pure_of h
      rw [Bool.and_eq_true] at h4
      exact ⟨[], (add_nil _).symm, fun _ => .inr (.inr (.inr h4))⟩
    · rw [if_neg h4, bind_run (report_run _ _)] at h
      obtain ⟨_, rfl⟩ := pure_of h
      exact ⟨_, rfl, fun hno => absurd (List.mem_singleton.2 rfl) hno⟩

theorem mixed_not_tbd {cfg : Cfg} {d : Ty} (hd : Compound d) {A : Ty} (h : Mixed cfg d (members A)) : tyEq A .tbd = false := by
  cases ht : tyEq A .tbd with
  | false => rfl
  | true =>
    rw [tyEq_iff] at ht
    rcases h .tbd ((ht .tbd).2 (by simp [members])) with ⟨n, _, e⟩ | e
    · cases e
    · rw [← e] at hd; cases hd

theorem argsLoop_sound (hc : CfgOk L.cfg) (hleaf : IsLeaf L.cfg.tree "List") (ho : SetOrder L.ord) (hnp : HasNotPassed L.cfg)
    (hr : Respects L.cfg I) (hx : Exhaustive L.cfg I) (hdj : SiblingsDisjoint L.cfg I) (hpr : ProcsByResult I) (hi : LeavesInhabited L.cfg I)
    (txt : X → Text) (env0 : Env K) : ∀ (params : List (String × Ty)) (args : List (Expr X)) (out : Env K) (s s' : Acc K) (ts : List Ty) (out' : Env K),
    args.length ≤ params.length → (∀ p ∈ params, p.2 = .tbd ∨ ParamTy L.cfg p.2) →
    argsLoop L txt env0 params args out s = some ((ts, out'), s') →
    ∃ ms, s' = add s ms ∧ ((∀ p ∈ params, .argType p.1 ∉ ms ∧ .noArg p.1 ∉ ms) →
      ts.length = args.length ∧ ∀ (i : Nat) (p : String × Ty), params[i]? = some p →
        (args[i]? = none → p.2 = .tbd ∨ Optional L.cfg I p.2) ∧
        ∀ t, ts[i]? = some t → Fits L.cfg I p.2 t) := by
  intro params
  induction params with
  | nil =>
    intro args out s s' ts out' hlen _ h
    rw [argsLoop] at h
    obtain ⟨e, rfl⟩ := pure_of h
    injection e with e1 e2
    cases args with
    | nil => exact ⟨[], (add_nil _).symm, fun _ => ⟨by rw [e1]; rfl, fun i p hp => by simp at hp⟩⟩
    | cons a as => simp at hlen
  | cons p ps ih =>
    intro args out s s' ts out' hlen hp h
    have hp' : ∀ q ∈ ps, q.2 = .tbd ∨ ParamTy L.cfg q.2 := fun q hq => hp q (by simp [hq])
    -- the parts of the parameter
    have hparts : ∀ np pt, paramParts L p.2 = some (np, pt) →
        (tyEq np T0 = false → p.2 = .tbd ∨ Optional L.cfg I p.2) ∧
        (tyEq pt .tbd = true → p.2 = .tbd) ∧ (∀ t, sub L.cfg t pt = some true → p.2 = .tbd ∨ ∀ v, den L.cfg I t v → Accepts L.cfg I p.2 v) ∧
        (isListType pt = true → TakesListOf L.cfg I p.2) := by
      intro np pt hpp
      rcases hp p (by simp) with he | ⟨d, hd, hfd, hmix, hlist⟩
      · unfold paramParts at hpp
        rw [he] at hpp
        rw [if_pos tyEq_refl] at hpp
        injection hpp with hpp; injection hpp with e1 e2
        subst e1 e2
        exact ⟨fun _ => .inl he, fun _ => he, fun _ _ => .inl he, fun hl => by cases hl⟩
      · unfold paramParts at hpp
        have hntbd := mixed_not_tbd hd hmix
        rw [hntbd] at hpp
        simp only [Bool.false_eq_true, if_false] at hpp
        obtain ⟨hfi, hmo, hden⟩ := split_param hc hleaf ho hnp hd hmix hlist hpp
        have hden := hden I hr hx hdj
        have hfo : FieldsOk pt := fieldsOk_members (fun m hm => by
          rcases hmo m hm with ⟨n, _, rfl⟩ | rfl
          · simp [FieldsOk, Deep]
          · exact hfd)
        refine ⟨fun hne => .inr ?_, fun ht => ?_, fun t hs => .inr (fun v hv => ?_), fun hl => ?_⟩
        · have : ∃ m, m ∈ members np := by
            refine Classical.byContradiction (fun hno => ?_)
            have : tyEq np T0 = true := tyEq_iff.2 (fun m => ⟨fun hm => absurd ⟨m, hm⟩ hno, fun hm => by simp [T0, members] at hm⟩)
            rw [this] at hne; cases hne
          obtain ⟨m, hm⟩ := this
          obtain ⟨n, hn, rfl⟩ := hfi m hm
          obtain ⟨v, hv⟩ := inhabited hc hr hi hn
          exact ⟨v, (hden v).1.1 (den_members.2 ⟨_, hm, hv⟩)⟩
        · rw [mixed_not_tbd hd hmo] at ht; cases ht
        · exact (hden v).2.1 (c14_sound hc hr hpr hfo hs v hv)
        · cases pt with
          | list u => exact ⟨u, fun v => ((hden v).2).symm⟩
          | _ => cases hl
    cases args with
    | nil =>
      rw [argsLoop] at h
      obtain ⟨⟨ot, out1⟩, s1, h0, hk⟩ := bind_some h
      rw [tcArg] at h0
      obtain ⟨⟨np, pt⟩, s2, h2, h0'⟩ := bind_some h0
      obtain ⟨h2', rfl⟩ := lift_of h2
      dsimp only at h0'
      rw [bind_run (reportIf_run _ _ _)] at h0'
      obtain ⟨e, rfl⟩ := pure_of h0'
      injection e with e1 e2
      subst e1 e2
      obtain ⟨ms, rfl, hms⟩ := ih [] _ _ s' ts out' (by simp) hp' hk
      refine ⟨_, add_add _ _ _, fun hno => ?_⟩
      obtain ⟨h3, h4⟩ := hms (fun q hq => by
        have := hno q (by simp [hq])
        simp only [List.mem_append, not_or] at this
        exact ⟨this.1.2, this.2.2⟩)
      refine ⟨h3, fun i q hq => ?_⟩
      cases i with
      | zero =>
        simp only [List.getElem?_cons_zero, Option.some.injEq] at hq
        subst hq
        refine ⟨fun _ => (hparts np pt h2').1 ?_, fun t ht => ?_⟩
        · have := (hno p (by simp)).2
          cases he : tyEq np T0 with
          | false => rfl
          | true => exact absurd (by simp [he]) this
        · have : ts = [] := List.length_eq_zero_iff.1 (by simpa using h3)
          rw [this] at ht; cases ht
      | succ i =>
        have := h4 i q (by simpa using hq)
        refine ⟨fun _ => this.1 (by simp), fun t ht => ?_⟩
        have e : ts = [] := List.length_eq_zero_iff.1 (by simpa using h3)
        rw [e] at ht; cases ht
    | cons a as =>
      rw [argsLoop] at h
      obtain ⟨⟨ot, out1⟩, s1, h0, hk⟩ := bind_some h
      rw [tcArg] at h0
      obtain ⟨⟨np, pt⟩, s2, h2, h0'⟩ := bind_some h0
      obtain ⟨h2', rfl⟩ := lift_of h2
      dsimp only at h0'
      obtain ⟨⟨t, env1⟩, s3, h3, h0a⟩ := bind_some h0'
      obtain ⟨es, hown, rfl⟩ := own_of h3
      dsimp only at h0a
      obtain ⟨env2, s4, h4, h0b⟩ := bind_some h0a
      obtain ⟨ms1, rfl, hms1⟩ := checkArg_sound h4
      obtain ⟨oe, s5, h5, h0c⟩ := bind_some h0b
      obtain ⟨_, rfl⟩ := lift_of h5
      cases oe with
      | none => cases h0c
      | some oe =>
        obtain ⟨e, rfl⟩ := pure_of h0c
        injection e with e1 e2
        subst e1 e2
        dsimp only at hk
        obtain ⟨⟨ts', out2⟩, s6, h6, hk2⟩ := bind_some hk
        obtain ⟨ms, rfl, hms⟩ := ih as _ _ _ ts' out2 (by simpa using hlen) hp' h6
        obtain ⟨e, rfl⟩ := pure_of hk2
        injection e with e1 e2
        subst e1 e2
        refine ⟨es ++ ms1 ++ ms, by simp [add_add, List.append_assoc], fun hno => ?_⟩
        obtain ⟨h7, h8⟩ := hms (fun q hq => by
          have := hno q (by simp [hq])
          simp only [List.mem_append, not_or] at this
          exact ⟨this.1.2, this.2.2⟩)
        have hhead := (hno p (by simp)).1
        simp only [List.mem_append, not_or] at hhead
        refine ⟨by simp [h7], fun i q hq => ?_⟩
        cases i with
        | zero =>
          simp only [List.getElem?_cons_zero, Option.some.injEq] at hq
          subst hq
          refine ⟨fun ha => by simp at ha, fun u hu => ?_⟩
          simp only [Option.toList_some, List.cons_append, List.nil_append, List.getElem?_cons_zero, Option.some.injEq] at hu
          subst hu
          obtain ⟨_, g2, g3, g4⟩ := hparts np pt h2'
          rcases hms1 hhead.1.2 with h9 | h9 | h9 | ⟨h9, h10⟩
          · exact .inl (g2 h9)
          · exact .inr (.inl (fun v => tyEq_tbd (L := L) h9 v))
          · rcases g3 t h9 with h10 | h10
            · exact .inl h10
            · exact .inr (.inr (.inr h10))
          · exact .inr (.inr (.inl ⟨fun v => by rw [tyEq_den (cfg := L.cfg) h9]; rfl, g4 h10⟩))
        | succ i => exact ⟨fun ha => (h8 i q (by simpa using hq)).1 (by simpa using ha), fun u hu => (h8 i q (by simpa using hq)).2 u (by simpa using hu)⟩

end Verif.Calls
