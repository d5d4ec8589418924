import Verif.Env.EnvLemmas
/-!
# What an analysis does to the state
-/
namespace Verif.Env
open Verif.Types

variable {K : Type}

/-- Messages and return environments are only added. -/
def Grows (s s' : Acc K) : Prop := s.errs <+: s'.errs ∧ s.log <+: s'.log ∧ s.rets <+: s'.rets

theorem Grows.refl (s : Acc K) : Grows s s := ⟨List.prefix_refl _, List.prefix_refl _, List.prefix_refl _⟩
theorem Grows.trans {a b c : Acc K} (h1 : Grows a b) (h2 : Grows b c) : Grows a c :=
  ⟨h1.1.trans h2.1, h1.2.1.trans h2.2.1, h1.2.2.trans h2.2.2⟩

structure Mono {α} (m : M K α) : Prop where
  out : ∀ s a s', m s = some (a, s') → Grows s s'
/-- ... and no return environments. -/
structure Calm {α} (m : M K α) : Prop where
  out : ∀ s a s', m s = some (a, s') → Grows s s' ∧ s'.rets = s.rets

theorem Calm.mono {α} {m : M K α} (h : Calm m) : Mono m := ⟨fun s a s' e => (h.out s a s' e).1⟩

theorem bind_some {α β} {m : M K α} {f : α → M K β} {s : Acc K} {b : β} {s' : Acc K} (h : (m >>= f) s = some (b, s')) :
    ∃ a s1, m s = some (a, s1) ∧ f a s1 = some (b, s') := by
  simp only [bind, M.bind] at h
  split at h
  · cases h
  · rename_i a s1 e
    exact ⟨a, s1, e, h⟩

theorem mono_bind {α β} {m : M K α} {f : α → M K β} (h1 : Mono m) (h2 : ∀ a, Mono (f a)) : Mono (m >>= f) := by
  constructor; intro s b s' h
  obtain ⟨a, s1, e1, e2⟩ := bind_some h
  exact (h1.out _ _ _ e1).trans ((h2 _).out _ _ _ e2)

theorem calm_bind {α β} {m : M K α} {f : α → M K β} (h1 : Calm m) (h2 : ∀ a, Calm (f a)) : Calm (m >>= f) := by
  constructor; intro s b s' h
  obtain ⟨a, s1, e1, e2⟩ := bind_some h
  obtain ⟨g1, g2⟩ := h1.out _ _ _ e1
  obtain ⟨g3, g4⟩ := (h2 _).out _ _ _ e2
  exact ⟨g1.trans g3, g4.trans g2⟩

theorem calm_pure {α} (a : α) : Calm (M.pure a : M K α) := by
  constructor; intro s b s' h
  simp only [M.pure, Option.some.injEq, Prod.mk.injEq] at h
  rw [← h.2]; exact ⟨Grows.refl s, rfl⟩

theorem calm_fail {α} : Calm (M.fail : M K α) := by
  constructor; intro s b s' h; cases h

theorem calm_lift {α} (a : Option α) : Calm (M.lift a : M K α) := by
  constructor; intro s b s' h
  simp only [M.lift, Option.map_eq_some_iff, Prod.mk.injEq] at h
  obtain ⟨_, _, _, rfl⟩ := h
  exact ⟨Grows.refl _, rfl⟩

theorem calm_report (e : Err) : Calm (report e : M K Unit) := by
  constructor; intro s b s' h
  simp only [report, Option.some.injEq, Prod.mk.injEq] at h
  rw [← h.2]
  exact ⟨⟨List.prefix_append _ _, List.prefix_append _ _, List.prefix_refl _⟩, rfl⟩

theorem calm_reportAll (es : List Err) : Calm (reportAll es : M K Unit) := by
  constructor; intro s b s' h
  simp only [reportAll, Option.some.injEq, Prod.mk.injEq] at h
  rw [← h.2]
  exact ⟨⟨List.prefix_append _ _, List.prefix_append _ _, List.prefix_refl _⟩, rfl⟩

theorem calm_reportIf (b : Bool) (e : Err) : Calm (reportIf b e : M K Unit) := by
  unfold reportIf
  split
  · exact calm_report e
  · exact calm_pure ()

theorem mono_addReturn (e : Env K) : Mono (addReturn e) := by
  constructor; intro s b s' h
  simp only [addReturn, Option.some.injEq, Prod.mk.injEq] at h
  rw [← h.2]
  exact ⟨List.prefix_refl _, List.prefix_refl _, List.prefix_append _ _⟩

macro "calm" : tactic => `(tactic| repeat' (first
  | assumption | exact calm_pure _ | exact calm_fail | exact calm_lift _ | exact calm_report _ | exact calm_reportAll _
  | exact calm_reportIf _ _ | apply calm_bind | intro _ | split))

section
variable {X T C : Type} [DecidableEq K] (L : Lang K X T C)

theorem calm_tcExpr (e : Expr X) (env : Env K) : Calm (tcExpr L e env) := by
  unfold tcExpr; calm

theorem calm_isSub (A B : Ty) : Calm (isSub L A B : M K Bool) := calm_lift _

theorem calm_narrowed (env : Env K) (x : String) (t : Ty) : Calm (narrowed L env x t) := by
  unfold narrowed
  have h1 := fun e : Expr X => fun env => calm_tcExpr L e env
  have h2 := fun A B => calm_isSub L A B
  refine calm_bind (h1 _ _) (fun r => ?_)
  dsimp only
  refine calm_bind (h2 _ _) (fun b => ?_)
  split
  · exact calm_pure _
  · split
    · exact calm_pure _
    · refine calm_bind (h2 _ _) (fun b => ?_)
      split
      · exact calm_pure _
      · exact calm_fail

theorem calm_plusNewEntry (env : Env K) (x : String) (t : Ty) : Calm (plusNewEntry L env x t) := by
  unfold plusNewEntry
  repeat' (first
  | exact calm_pure _ | exact calm_narrowed L _ _ _ | exact calm_isSub L _ _ | exact calm_report _
  | exact calm_reportIf _ _ | apply calm_bind | intro _ | split)

theorem calm_setWarning (x : String) (A B : Ty) : Calm (setWarning L x A B : M K Unit) := by
  unfold setWarning
  refine calm_bind (calm_isSub L _ _) (fun b => ?_)
  calm

theorem calm_testMessages (x : String) (a b c d e f : Bool) : Calm (testMessages x a b c d e f : M K Unit) := by
  unfold testMessages
  calm

theorem calm_setAToB (env : Env K) (x : String) (e : Expr X) : Calm (setAToB L env x e) := by
  unfold setAToB
  repeat' (first
  | exact calm_pure _ | exact calm_tcExpr L _ _ | exact calm_setWarning L _ _ _
  | apply calm_bind | intro _ | split)

theorem calm_withTypeTest (env : Env K) (x : String) (isA : Bool) (target : Ty × Ty) (b : Bool) :
    Calm (withTypeTest L env x isA target b) := by
  unfold withTypeTest
  repeat' (first
  | exact calm_pure _ | exact calm_fail | exact calm_lift _ | exact calm_tcExpr L _ _ | exact calm_testMessages _ _ _ _ _ _ _
  | apply calm_bind | intro _ | split)

mutual
theorem calm_tcCond : ∀ (c : Cond T C) (env : Option (Env K)) (b : Bool), Calm (tcCond L c env b)
  | .test x isA t, env, b => by
    rw [tcCond.eq_def]; dsimp only; split
    · exact calm_fail
    · exact calm_withTypeTest L _ _ _ _ _
  | .plain c, env, b => by
    rw [tcCond.eq_def]; dsimp only; calm
  | .never, env, b => by
    rw [tcCond]; calm
  | .or cs, env, b => by
    rw [tcCond]
    have := calm_tcOr cs env b
    calm
  | .and cs, env, b => by
    rw [tcCond]
    have := calm_tcAnd cs env b
    calm
  | .notBoth x y, env, b => by
    rw [tcCond]
    have h1 := calm_tcCond x
    have h2 := calm_tcCond y
    refine calm_bind (h1 _ _) (fun r => ?_)
    split
    refine calm_bind (h2 _ _) (fun r => ?_)
    calm
  | .unless x y, env, b => by
    rw [tcCond]
    have h1 := calm_tcCond x
    have h2 := calm_tcCond y
    refine calm_bind (h1 _ _) (fun r => ?_)
    refine calm_bind (h2 _ _) (fun r => ?_)
    exact calm_pure _
theorem calm_tcOr : ∀ (cs : List (Cond T C)) (env : Option (Env K)) (b : Bool), Calm (tcOr L cs env b)
  | [], env, b => by rw [tcOr]; exact calm_pure _
  | c :: cs, env, b => by
    rw [tcOr]
    have h1 := calm_tcCond c
    have h2 := calm_tcOr cs
    refine calm_bind (h1 _ _) (fun r => ?_)
    split
    refine calm_bind (h2 _ _) (fun r => ?_)
    calm
theorem calm_tcAnd : ∀ (cs : List (Cond T C)) (env : Option (Env K)) (b : Bool), Calm (tcAnd L cs env b)
  | [], env, b => by rw [tcAnd]; exact calm_pure _
  | c :: cs, env, b => by
    rw [tcAnd]
    have h1 := calm_tcCond c
    have h2 := calm_tcAnd cs
    refine calm_bind (h1 _ _) (fun r => ?_)
    split
    refine calm_bind (h2 _ _) (fun r => ?_)
    calm
end

theorem calm_checkBefore (l : Loop X T C) (env : Env K) : Calm (checkBefore L l env) := by
  cases l with
  | forever => exact calm_pure _
  | times => exact calm_pure _
  | «while» c => exact calm_tcCond L _ _ _
  | «until» c =>
    rw [checkBefore]
    refine calm_bind (calm_tcCond L _ _ _) (fun r => ?_)
    calm
  | each x e =>
    rw [checkBefore]
    refine calm_bind (calm_tcExpr L _ _) (fun r => ?_)
    split
    refine calm_bind (calm_plusNewEntry L _ _ _) (fun r => ?_)
    exact calm_pure _

/-! ### The passes of a loop -/

/-- What a returning loop has done in its last pass, which started with the messages of before the loop. -/
structure LastPass (check : Env K → M K (Option (Env K) × Option (Env K))) (body : Option (Env K) → M K (Option (Env K)))
    (pre : Env K) (s s' : Acc K) (top : Env K) (exit : Option (Env K)) (s0 s1 : Acc K) (stay : Option (Env K)) (bottom newTop : Env K) : Prop where
  errs : s0.errs = s.errs
  log : s.log <+: s0.log
  rets : s.rets <+: s0.rets
  check : check top s0 = some ((stay, exit), s1)
  body : body stay s1 = some (some bottom, s')
  join : envOr L.cfg L.ord (some (bottom.reduce (keys pre.vars))) (some pre) = some (some newTop)
  same : sameVars newTop.vars top.vars = true

theorem loopPasses_last {pre : Env K} {n : Nat} {check : Env K → M K (Option (Env K) × Option (Env K))}
    {body : Option (Env K) → M K (Option (Env K))} (hc : ∀ e, Mono (check e)) (hb : ∀ e, Mono (body e)) (J : Env K → Acc K → Prop)
    (Q : Acc K → Prop) (hQ : ∀ s s', s.log <+: s'.log → Q s' → Q s) (hcut : ∀ e s, J e s → J e { s with errs := s.errs.take n })
    (hJ : ∀ top s0 s1 s2 stay exit bottom newTop, J top s0 → check top s0 = some ((stay, exit), s1) → body stay s1 = some (some bottom, s2) →
      envOr L.cfg L.ord (some (bottom.reduce (keys pre.vars))) (some pre) = some (some newTop) → Q s2 → J newTop s2) :
    ∀ (fuel i : Nat) (top : Env K) (s : Acc K) (exit : Option (Env K)) (s' : Acc K), s.errs.length = n → Q s' → J top s →
      loopPasses L pre n check body fuel i top s = some (exit, s') →
      ∃ top' s0 s1 stay bottom newTop, J top' s0 ∧ LastPass L check body pre s s' top' exit s0 s1 stay bottom newTop ∧
        (top' = top ∨ ∃ bottom0, envOr L.cfg L.ord (some (Env.reduce bottom0 (keys pre.vars))) (some pre) = some (some top')) := by
  intro fuel
  induction fuel with
  | zero => intro i top s exit s' _ _ _ h; cases h
  | succ fuel ih =>
    intro i top s exit s' hn hq hj h
    rw [loopPasses] at h
    obtain ⟨⟨stay, exit0⟩, s1, e1, h⟩ := bind_some h
    dsimp only at h
    obtain ⟨bottom, s2, e2, h⟩ := bind_some h
    split at h
    · cases h
    · rename_i bottom'
      obtain ⟨newTop, s3, e3, h⟩ := bind_some h
      simp only [M.lift, Option.map_eq_some_iff, Prod.mk.injEq] at e3
      obtain ⟨_, e3, rfl, rfl⟩ := e3
      split at h
      · cases h
      · rename_i newTop'
        split at h
        · rename_i hsame
          split at h
          · simp only [M.pure, Option.some.injEq, Prod.mk.injEq] at h
            obtain ⟨rfl, rfl⟩ := h
            exact ⟨top, s, s1, stay, bottom', newTop', hj, ⟨rfl, List.prefix_refl _, List.prefix_refl _, e1, e2, e3, hsame⟩, .inl rfl⟩
          · cases h
        · obtain ⟨_, s4, e4, h⟩ := bind_some h
          simp only [cut, Option.some.injEq, Prod.mk.injEq] at e4
          have hg := ((hc _).out _ _ _ e1).trans ((hb _).out _ _ _ e2)
          have htake : s2.errs.take n = s.errs := by
            obtain ⟨r, hr⟩ := hg.1
            rw [← hr, ← hn]; simp
          have he4 : s4 = { s2 with errs := s2.errs.take n } := e4.2.symm
          have hlen : s4.errs.length = n := by rw [he4]; dsimp only; rw [htake, hn]
          -- the log only grows in the remaining passes
          have hlog : s4.log <+: s'.log := by
            have : ∀ (fuel i : Nat) (top : Env K) (s : Acc K) (exit : Option (Env K)) (s' : Acc K),
                loopPasses L pre n check body fuel i top s = some (exit, s') → s.log <+: s'.log := by
              intro fuel
              induction fuel with
              | zero => intro i top s exit s' h; cases h
              | succ fuel ih2 =>
                intro i top s exit s' h
                rw [loopPasses] at h
                obtain ⟨⟨stay, exit0⟩, s1, e1, h⟩ := bind_some h
                dsimp only at h
                obtain ⟨bottom, s2, e2, h⟩ := bind_some h
                have hg := (((hc _).out _ _ _ e1).trans ((hb _).out _ _ _ e2)).2.1
                split at h
                · cases h
                · obtain ⟨newTop, s3, e3, h⟩ := bind_some h
                  simp only [M.lift, Option.map_eq_some_iff, Prod.mk.injEq] at e3
                  obtain ⟨_, e3, rfl, rfl⟩ := e3
                  split at h
                  · cases h
                  · split at h
                    · split at h
                      · simp only [M.pure, Option.some.injEq, Prod.mk.injEq] at h
                        rw [← h.2]; exact hg
                      · cases h
                    · obtain ⟨_, s4, e4, h⟩ := bind_some h
                      simp only [cut, Option.some.injEq, Prod.mk.injEq] at e4
                      have := ih2 _ _ _ _ _ h
                      rw [← e4.2] at this
                      exact hg.trans this
            exact this _ _ _ _ _ _ h
          have hq2 : Q s2 := by
            refine hQ s2 s' ?_ hq
            rw [he4] at hlog; exact hlog
          have hj' : J newTop' s4 := by
            rw [he4]
            exact hcut _ _ (hJ _ _ _ _ _ _ _ _ hj e1 e2 e3 hq2)
          obtain ⟨top', s0, s1', stay', bottom0, newTop0, g1, g2, g3⟩ := ih _ _ _ _ _ hlen hq hj' h
          refine ⟨top', s0, s1', stay', bottom0, newTop0, g1, ⟨?_, ?_, ?_, g2.check, g2.body, g2.join, g2.same⟩, ?_⟩
          · rw [g2.errs, he4]; exact htake
          · refine hg.2.1.trans (List.IsPrefix.trans ?_ g2.log)
            rw [he4]
            exact List.prefix_refl _
          · refine hg.2.2.trans (List.IsPrefix.trans ?_ g2.rets)
            rw [he4]
            exact List.prefix_refl _
          · rcases g3 with rfl | g3
            · exact .inr ⟨bottom', e3⟩
            · exact .inr g3

theorem tcLoop_last {check : Env K → M K (Option (Env K) × Option (Env K))}
    {body : Option (Env K) → M K (Option (Env K))} (hc : ∀ e, Mono (check e)) (hb : ∀ e, Mono (body e)) (J : Env K → Acc K → Prop)
    (Q : Acc K → Prop) (hQ : ∀ s s', s.log <+: s'.log → Q s' → Q s) (hcut : ∀ e n s, J e s → J e { s with errs := s.errs.take n }) {pre : Env K}
    (hJ : ∀ top s0 s1 s2 stay exit bottom newTop, J top s0 → check top s0 = some ((stay, exit), s1) → body stay s1 = some (some bottom, s2) →
      envOr L.cfg L.ord (some (bottom.reduce (keys pre.vars))) (some pre) = some (some newTop) → Q s2 → J newTop s2)
    {s s' : Acc K} {exit : Option (Env K)} (hq : Q s') (hj : J pre s) (h : tcLoop L check body pre s = some (exit, s')) :
    ∃ top s0 s1 stay bottom newTop, J top s0 ∧ LastPass L check body pre s s' top exit s0 s1 stay bottom newTop ∧
        (top = pre ∨ ∃ bottom0, envOr L.cfg L.ord (some (Env.reduce bottom0 (keys pre.vars))) (some pre) = some (some top)) := by
  unfold tcLoop at h
  obtain ⟨n, s1, e1, h⟩ := bind_some h
  simp only [mark, Option.some.injEq, Prod.mk.injEq] at e1
  obtain ⟨rfl, rfl⟩ := e1
  exact loopPasses_last L hc hb J Q hQ (fun e s => hcut e _ s) hJ _ _ _ _ _ _ rfl hq hj h

theorem mono_tcLoop {check : Env K → M K (Option (Env K) × Option (Env K))}
    {body : Option (Env K) → M K (Option (Env K))} (hc : ∀ e, Mono (check e)) (hb : ∀ e, Mono (body e)) (pre : Env K) :
    Mono (tcLoop L check body pre) := by
  constructor; intro s exit s' h
  obtain ⟨top, s0, s1, stay, bottom, newTop, _, g, _⟩ := tcLoop_last L hc hb (fun _ _ => True) (fun _ => True) (fun _ _ _ _ => trivial)
    (fun _ _ _ _ => trivial) (fun _ _ _ _ _ _ _ _ _ _ _ _ _ => trivial) trivial trivial h
  have := ((hc _).out _ _ _ g.check).trans ((hb _).out _ _ _ g.body)
  exact ⟨by rw [← g.errs]; exact this.1, g.log.trans this.2.1, g.rets.trans this.2.2⟩

theorem mono_addReturnOf (env : Env K) (t : Ty) : Mono (addReturnOf L env t) := by
  unfold addReturnOf
  refine mono_bind (calm_lift _).mono (fun t' => ?_)
  refine mono_bind (calm_isSub L _ _).mono (fun b => ?_)
  refine mono_bind (calm_reportIf _ _).mono (fun _ => ?_)
  refine mono_bind (calm_isSub L _ _).mono (fun b => ?_)
  refine mono_bind (calm_reportIf _ _).mono (fun _ => ?_)
  exact mono_addReturn _

macro "monoT" : tactic => `(tactic| repeat' (first
  | assumption | exact Calm.mono (calm_pure _) | exact Calm.mono calm_fail | exact Calm.mono (calm_lift _) | exact Calm.mono (calm_report _)
  | exact Calm.mono (calm_reportAll _) | exact Calm.mono (calm_reportIf _ _) | exact Calm.mono (calm_tcExpr _ _ _)
  | exact Calm.mono (calm_plusNewEntry _ _ _ _) | exact Calm.mono (calm_setAToB _ _ _ _) | exact Calm.mono (calm_tcCond _ _ _ _)
  | exact mono_addReturnOf _ _ _
  | apply mono_bind | intro _ | split))

mutual
theorem mono_tc : ∀ (c : Cmd X T C) (env : Option (Env K)), Mono (tc L c env)
  | .note, env => by rw [tc]; monoT
  | .seq a b, env => by
    rw [tc]
    exact mono_bind (mono_tc a _) (fun e => mono_tc b e)
  | .perform e, some env => by rw [tc]; monoT
  | .perform e, none => by simp only [tc]; exact calm_fail.mono
  | .let x e, some env => by rw [tc]; monoT
  | .let x e, none => by simp only [tc]; exact calm_fail.mono
  | .set x e, some env => by rw [tc]; monoT
  | .set x e, none => by simp only [tc]; exact calm_fail.mono
  | .ret e, some env => by rw [tc]; monoT
  | .ret e, none => by simp only [tc]; exact calm_fail.mono
  | .assert c, some env => by rw [tc]; monoT
  | .assert c, none => by simp only [tc]; exact calm_fail.mono
  | .assertIf a b, some env => by rw [tc]; monoT
  | .assertIf a b, none => by simp only [tc]; exact calm_fail.mono
  | .assertIff a b, some env => by rw [tc]; monoT
  | .assertIff a b, none => by simp only [tc]; exact calm_fail.mono
  | .assertElse a b c, some env => by rw [tc]; monoT
  | .assertElse a b c, none => by simp only [tc]; exact calm_fail.mono
  | .assertSince a b, some env => by rw [tc]; monoT
  | .assertSince a b, none => by simp only [tc]; exact calm_fail.mono
  | .ifClosed c a b, some env => by
    rw [tc]
    refine mono_bind (calm_tcCond L _ _ _).mono (fun r => ?_)
    split
    refine mono_bind (mono_tc a _) (fun r => ?_)
    refine mono_bind (mono_tc b _) (fun r => ?_)
    exact (calm_lift _).mono
  | .ifClosed c a b, none => by simp only [tc]; exact calm_fail.mono
  | .ifOther c a tail, some env => by
    rw [tc]
    refine mono_bind (calm_tcCond L _ _ _).mono (fun r => ?_)
    split
    refine mono_bind (mono_tc a _) (fun r => ?_)
    refine mono_bind (mono_tcTail tail _) (fun r => ?_)
    exact (calm_lift _).mono
  | .ifOther c a tail, none => by simp only [tc]; exact calm_fail.mono
  | .loop l body, some env => by
    rw [tc]
    exact mono_tcLoop L (fun e => (calm_checkBefore L l e).mono) (fun e => mono_tc body e) _
  | .loop l body, none => by simp only [tc]; exact calm_fail.mono
theorem mono_tcTail : ∀ (t : Tail X T C) (env : Option (Env K)), Mono (tcTail L t env)
  | .nil, env => by rw [tcTail]; monoT
  | .else a, env => by
    rw [tcTail]
    exact mono_bind (mono_tc a _) (fun r => (calm_pure _).mono)
  | .elseif c a tail, env => by
    rw [tcTail]
    refine mono_bind (calm_tcCond L _ _ _).mono (fun r => ?_)
    split
    refine mono_bind ?_ (fun here => ?_)
    · split
      · monoT
      · exact mono_bind (mono_tc a _) (fun r => (calm_pure _).mono)
    · split
      · monoT
      · exact mono_bind (mono_tcTail tail _) (fun r => (calm_pure _).mono)
end

end
end Verif.Env
