import Verif.Exec.CmdLemmas
/-!
# Early error rules agree with the reference interpreter
-/
namespace Verif.Exec

section
variable {V X C O R : Type} {L : Lang V X C O}

/-- A rule in the given state agrees with the verdict of the reference interpreter. -/
def AgreesRule (m : M V R Unit) (r : R) (v : Verdict V) (f : Frame V) (stk : List (Frame V)) (errs : List (Option V × R)) : Prop :=
  match v with
  | .done k τ => ∃ f', m ⟨f :: stk, errs⟩ = .ok () ⟨f' :: stk, errs ++ List.replicate k (f.focus, r)⟩ ∧ Grown f f' ∧ f'.ret = none ∧ getVar f' = τ
  | .missing k false => m ⟨f :: stk, errs⟩ = .missing ⟨f :: stk, errs ++ List.replicate k (f.focus, r)⟩
  | .missing _ true => True
  | .fail => m ⟨f :: stk, errs⟩ = .fail

theorem AgreesRule.congr {m m' : M V R Unit} {r : R} {v : Verdict V} {f stk} {errs : List (Option V × R)} (h : AgreesRule m' r v f stk errs)
    (e : m ⟨f :: stk, errs⟩ = m' ⟨f :: stk, errs⟩) : AgreesRule m r v f stk errs := by
  unfold AgreesRule at h ⊢
  rw [e]
  exact h

theorem Agrees.verdict {α} {m : M V R α} {a : Res α} {r : R} {k : α → M V R Unit} {k' : α → Verdict V} {f stk} {errs : List (Option V × R)}
    (h : Agrees m a f stk errs) (hk : ∀ b, a = .val b → AgreesRule (k b) r (k' b) f stk errs) : AgreesRule (m >>= k) r (a.verdict k') f stk errs := by
  cases a with
  | val b => exact (hk b rfl).congr (bind_ok h)
  | missing d => cases d with
    | false =>
      have : (m >>= k) ⟨f :: stk, errs⟩ = .missing ⟨f :: stk, errs⟩ := bind_missing h
      simpa [Res.verdict, AgreesRule] using this
    | true => exact trivial
  | fail => exact bind_fail h

theorem syntaxError_ok (r : R) {f : Frame V} {stk} {errs : List (Option V × R)} :
    syntaxError r ⟨f :: stk, errs⟩ = .ok () ⟨f :: stk, errs ++ [(f.focus, r)]⟩ := by
  simp [syntaxError, Bind.bind, M.bind, askFrame]

theorem report_ok (r : R) (t : Bool) {f : Frame V} {stk} {errs : List (Option V × R)} :
    (if t then syntaxError r else M.pure ()) ⟨f :: stk, errs⟩ = .ok () ⟨f :: stk, errs ++ List.replicate (if t then 1 else 0) (f.focus, r)⟩ := by
  cases t <;> simp [syntaxError_ok, M.pure]

theorem once_ok (r : R) (t : Bool) {f : Frame V} (h : Ready f) {stk} {errs : List (Option V × R)} :
    AgreesRule (if t then syntaxError r else M.pure ()) r (once t (getVar f)) f stk errs :=
  ⟨f, report_ok r t, .refl h, h.ret, rfl⟩

theorem done_ok (r : R) {f : Frame V} (h : Ready f) {stk} {errs : List (Option V × R)} : AgreesRule (M.pure ()) r (.done 0 (getVar f)) f stk errs :=
  ⟨f, by simp [M.pure], .refl h, h.ret, rfl⟩

theorem ruleEach_ok (hr : CallsReturn L) (n : Nat) (r : R) (x : String) (c : Cond X C O) : ∀ (vs : List V) (f : Frame V) stk errs, Ready f →
    AgreesRule (ruleEach L n r x c vs) r (refRuleEach L n f.focus (getVar f) x c vs) f stk errs
  | [], f, stk, errs, h => by
    rw [ruleEach, refRuleEach]
    exact done_ok r h
  | v :: vs, f, stk, errs, h => by
    rw [ruleEach, refRuleEach]
    have e := start_let (f := f) (x := x) (v := v) (stk := stk) (errs := errs) (do
          let t ← evalC L (callN L n) c
          if t then syntaxError r else M.pure ()
          onFrame endContour
          ruleEach L n r x c vs : M V R Unit)
    unfold declare
    by_cases hx : (getVar f x).isSome = true
    · rw [if_pos hx] at e
      simp only [hx, if_true]
      exact e
    · rw [if_neg hx] at e
      have hn := getVar_none hx
      obtain ⟨h1, h2⟩ := ready_start h v hn
      have ih := evalC_ok (L := L) (call_ok (R := R) hr n) c _ stk errs h1
      rw [h2] at ih
      simp only [hx, Bool.false_eq_true, if_false]
      generalize refC L (refCall L n) f.focus (bindVar (getVar f) x v) c = a at ih
      cases a with
      | val t =>
        have e2 : ruleEach L n r x c (v :: vs) ⟨f :: stk, errs⟩ = ruleEach L n r x c vs ⟨f :: stk, errs ++ List.replicate (if t then 1 else 0) (f.focus, r)⟩ := by
          rw [ruleEach]
          refine e.trans ?_
          rw [bind_ok ih]
          cases t with
          | true =>
            refine (bind_ok (syntaxError_ok r)).trans ?_
            refine (bind_ok (m := (onFrame endContour : M V R Unit)) (s' := ⟨f :: stk, errs ++ [(f.focus, r)]⟩) (a := ()) (by simp [onFrame, endContour])).trans ?_
            rfl
          | false =>
            refine (bind_ok (a := ()) rfl).trans ?_
            refine (bind_ok (m := (onFrame endContour : M V R Unit)) (s' := ⟨f :: stk, errs⟩) (a := ()) (by simp [onFrame, endContour])).trans ?_
            simp
        rw [ruleEach] at e2
        have ih2 := ruleEach_ok hr n r x c vs f stk (errs ++ List.replicate (if t then 1 else 0) (f.focus, r)) h
        simp only []
        generalize refRuleEach L n f.focus (getVar f) x c vs = w at ih2
        cases w with
        | done k τ =>
          obtain ⟨f', j1, j2⟩ := ih2
          refine ⟨f', e2.trans (j1.trans ?_), j2⟩
          rw [List.append_assoc, List.replicate_append_replicate]
        | missing k d => cases d with
          | true => exact trivial
          | false =>
            have j1 : _ = _ := ih2
            refine e2.trans (j1.trans ?_)
            rw [List.append_assoc, List.replicate_append_replicate]
        | fail => exact e2.trans ih2
      | missing d => exact trivial
      | fail => exact e.trans (bind_fail ih)

theorem rule_ok (hr : CallsReturn L) (n : Nat) (r : R) : ∀ (rule : Rule X C O) (f : Frame V) stk errs, Ready f →
    AgreesRule (execRule L n r rule) r (refRule L n f.focus (getVar f) rule) f stk errs
  | .errIf c, f, stk, errs, h => by
    rw [execRule, refRule]
    refine AgreesRule.congr ?_ (ready_bind h.ret _)
    exact (evalC_ok (call_ok hr n) c f stk errs h).verdict (fun t _ => once_ok r t h)
  | .errIfIf a b, f, stk, errs, h => by
    rw [execRule, refRule]
    refine AgreesRule.congr ?_ (ready_bind h.ret _)
    refine (evalC_ok (call_ok hr n) a f stk errs h).verdict (fun t _ => ?_)
    cases t with
    | true => exact (evalC_ok (call_ok hr n) b f stk errs h).verdict (fun t _ => once_ok r t h)
    | false => exact done_ok r h
  | .errNotIf a b, f, stk, errs, h => by
    rw [execRule, refRule]
    refine AgreesRule.congr ?_ (ready_bind h.ret _)
    refine (evalC_ok (call_ok hr n) b f stk errs h).verdict (fun t _ => ?_)
    cases t with
    | false => exact (evalC_ok (call_ok hr n) a f stk errs h).verdict (fun t _ => once_ok r t h)
    | true => exact done_ok r h
  | .errAlg c a same, f, stk, errs, h => by
    rw [execRule, refRule]
    refine AgreesRule.congr ?_ (ready_bind h.ret _)
    refine (evalC_ok (call_ok hr n) c f stk errs h).verdict (fun t _ => ?_)
    cases t with
    | false => exact done_ok r h
    | true =>
      simp only [if_true]
      have ih := exec_ok (L := L) (call_ok (R := R) hr n) a f stk errs h
      generalize refCmd L (refCall L n) f.focus (getVar f) a = w at ih
      cases w with
      | next τ =>
        obtain ⟨f', i1, _, i3, _⟩ := ih
        show _ = _
        rw [bind_ok i1]
        exact bind_fail (by simp [askFrame, i3])
      | returned τ v =>
        obtain ⟨f', i1, i2, i3, i4⟩ := ih
        have e1 : ∀ k : V → M V R Unit, (do
            exec L (callN L n) a
            let v ← askFrame (fun f => f.ret)
            onFrame (fun f => (stopReturning f).map (·.2))
            k v : M V R Unit) ⟨f :: stk, errs⟩ = k v ⟨{ f' with ret := none } :: stk, errs⟩ := by
          intro k
          rw [bind_ok i1, bind_ok (a := v) (s' := ⟨f' :: stk, errs⟩) (by simp [askFrame, i3]),
            bind_ok (a := ()) (s' := ⟨{ f' with ret := none } :: stk, errs⟩) (by simp [onFrame, stopReturning, i3])]
        have g2 : Grown f { f' with ret := none } := i2.withRet none
        have i5 : getVar { f' with ret := none } = τ := i4
        have i6 : ({ f' with ret := none } : Frame V).ret = none := rfl
        generalize ({ f' with ret := none } : Frame V) = g at e1 g2 i5 i6
        have hp := agrees_prim (R := R) (f := g) (stk := stk) (errs := errs) (fun foc => L.test same foc [v])
        have hfoc : g.focus = f.focus := g2.focus
        rw [hfoc] at hp
        simp only []
        cases ht : L.test same f.focus [v] with
        | val u =>
          rw [ht] at hp
          refine ⟨g, (e1 _).trans ?_, g2, i6, i5⟩
          rw [bind_ok hp, report_ok, hfoc]
        | missing => exact trivial
        | fail =>
          rw [ht] at hp
          exact (e1 _).trans (bind_fail hp)
      | missing => exact trivial
      | fail => exact bind_fail ih
  | .errEach x e c, f, stk, errs, h => by
    rw [execRule, refRule]
    refine AgreesRule.congr ?_ (ready_bind h.ret _)
    refine (evalE_ok (call_ok hr n) e f stk errs h).verdict (fun v _ => ?_)
    cases hv : L.each v with
    | none => simp [AgreesRule, M.fail]
    | some vs => exact ruleEach_ok hr n r x c vs f stk errs h

theorem rules_ok (hr : CallsReturn L) (n : Nat) : ∀ (rs : List (R × Rule X C O)) (f : Frame V) stk errs es, Ready f →
    refRules L n f.focus (getVar f) rs = some es →
    ∃ f', runRules L n rs ⟨f :: stk, errs⟩ = .ok () ⟨f' :: stk, errs ++ es.map (fun r => (f.focus, r))⟩
  | [], f, stk, errs, es, h, he => by
    simp only [refRules, Option.some.injEq] at he
    subst he
    exact ⟨f, by simp [runRules, M.pure]⟩
  | (r, rule) :: rs, f, stk, errs, es, h, he => by
    have ih := rule_ok hr n r rule f stk errs h
    simp only [refRules] at he
    cases hv : refRule L n f.focus (getVar f) rule with
    | done k τ =>
      rw [hv] at ih
      simp only [hv] at he
      obtain ⟨f', i1, i2, i3, i4⟩ := ih
      cases hrs : refRules L n f.focus τ rs with
      | none => rw [hrs] at he; cases he
      | some es' =>
        rw [hrs] at he
        simp only [Option.map_some, Option.some.injEq] at he
        subst he
        obtain ⟨f2, j1⟩ := rules_ok hr n rs f' stk (errs ++ List.replicate k (f.focus, r)) es' (i2.ready i3) (by rw [i2.focus, i4]; exact hrs)
        refine ⟨f2, ?_⟩
        simp only [runRules, i1, notReturning_ok i3, j1, i2.focus]
        simp
    | missing k d =>
      cases d with
      | true => simp [hv] at he
      | false =>
        rw [hv] at ih
        simp only [hv] at he
        cases hrs : refRules L n f.focus (getVar f) rs with
        | none => rw [hrs] at he; cases he
        | some es' =>
          rw [hrs] at he
          simp only [Option.map_some, Option.some.injEq] at he
          subst he
          obtain ⟨f2, j1⟩ := rules_ok hr n rs f stk (errs ++ List.replicate k (f.focus, r)) es' h hrs
          refine ⟨f2, ?_⟩
          have i1 : _ = _ := ih
          simp only [runRules, i1, notReturning_ok h.ret, j1]
          simp
    | fail => simp [hv] at he

end
end Verif.Exec
