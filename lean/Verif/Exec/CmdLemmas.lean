import Verif.Exec.Lemmas
/-!
# Commands and calls agree with the reference interpreter
-/
namespace Verif.Exec

section
variable {V X C O R : Type}

/-- What a command may do to the contours: add variables to the newest, and change values. -/
structure Grown (f f' : Frame V) : Prop where
  focus : f'.focus = f.focus
  uniq : Uniq f'.contours
  keys : ∃ c cs c' cs', f.contours = c :: cs ∧ f'.contours = c' :: cs' ∧ cs.map Contour.has = cs'.map Contour.has ∧ ∀ x, c.has x = true → c'.has x = true

theorem Grown.refl {f : Frame V} (h : Ready f) : Grown f f := by
  obtain ⟨c, cs, e⟩ := List.exists_cons_of_ne_nil h.ne
  exact ⟨rfl, h.uniq, c, cs, c, cs, e, e, rfl, fun _ h => h⟩

theorem Grown.trans {f g h : Frame V} (a : Grown f g) (b : Grown g h) : Grown f h := by
  obtain ⟨a1, _, c, cs, c', cs', e1, e2, e3, e4⟩ := a
  obtain ⟨b1, b2, d, ds, d', ds', g1, g2, g3, g4⟩ := b
  rw [e2] at g1
  injection g1 with g1 g1'
  subst g1 g1'
  exact ⟨b1.trans a1, b2, c, cs, d', ds', e1, g2, e3.trans g3, fun x hx => g4 x (e4 x hx)⟩

theorem Grown.ready {f g : Frame V} (a : Grown f g) (h : g.ret = none) : Ready g := by
  obtain ⟨_, a2, c, cs, c', cs', e1, e2, e3, e4⟩ := a
  exact ⟨a2, by rw [e2]; simp, h⟩

theorem Grown.withRet {f g : Frame V} (a : Grown f g) (r : Option V) : Grown f { g with ret := r } := ⟨a.focus, a.uniq, a.keys⟩

/-- A command in the given state agrees with what the reference interpreter says. -/
def AgreesCmd (m : M V R Unit) (r : End V) (f : Frame V) (stk : List (Frame V)) (errs : List (Option V × R)) : Prop :=
  match r with
  | .next σ => ∃ f', m ⟨f :: stk, errs⟩ = .ok () ⟨f' :: stk, errs⟩ ∧ Grown f f' ∧ f'.ret = none ∧ getVar f' = σ
  | .returned σ v => ∃ f', m ⟨f :: stk, errs⟩ = .ok () ⟨f' :: stk, errs⟩ ∧ Grown f f' ∧ f'.ret = some v ∧ getVar f' = σ
  | .missing => ∃ f', m ⟨f :: stk, errs⟩ = .missing ⟨f' :: stk, errs⟩
  | .fail => m ⟨f :: stk, errs⟩ = .fail

theorem AgreesCmd.congr {m m' : M V R Unit} {r : End V} {f stk} {errs : List (Option V × R)} (h : AgreesCmd m' r f stk errs)
    (e : m ⟨f :: stk, errs⟩ = m' ⟨f :: stk, errs⟩) : AgreesCmd m r f stk errs := by
  unfold AgreesCmd at h ⊢
  rw [e]
  exact h

theorem Agrees.use {α} {m : M V R α} {r : Res α} {k : α → M V R Unit} {k' : α → End V} {f stk} {errs : List (Option V × R)}
    (h : Agrees m r f stk errs) (hk : ∀ a, r = .val a → AgreesCmd (k a) (k' a) f stk errs) : AgreesCmd (m >>= k) (r.use k') f stk errs := by
  cases r with
  | val a => exact (hk a rfl).congr (bind_ok h)
  | missing d => cases d with
    | false => exact ⟨f, bind_missing h⟩
    | true => obtain ⟨f', h⟩ := h; exact ⟨f', bind_missing h⟩
  | fail => exact bind_fail h

theorem getVar_none {f : Frame V} {x : String} (h : ¬ (getVar f x).isSome = true) : getVar f x = none := by
  cases hg : getVar f x <;> simp [hg] at h ⊢

theorem let_ok {f : Frame V} (h : Ready f) (x : String) (v : V) {stk} {errs : List (Option V × R)} :
    AgreesCmd (onFrame (fun f => letVar f x v)) (goOn (declare (getVar f) x v)) f stk errs := by
  unfold declare
  by_cases hx : (getVar f x).isSome = true
  · simp [goOn, AgreesCmd, hx, onFrame, letVar_none hx]
  · have hn := getVar_none hx
    obtain ⟨c, cs, e⟩ := List.exists_cons_of_ne_nil h.ne
    simp only [hx, goOn, AgreesCmd, Bool.false_eq_true, if_false]
    refine ⟨{ f with contours := c.put x v :: cs }, ?_, ⟨rfl, uniq_put hn e h.uniq v, c, cs, _, _, e, rfl, rfl, ?_⟩, h.ret, ?_⟩
    · simp [onFrame, letVar_some hn e]
    · intro y hy
      rw [has_put, hy, Bool.or_true]
    · funext y
      simp only [getVar, getIn_put, bindVar]
      rw [← e]

theorem set_ok {f : Frame V} (h : Ready f) (x : String) (v : V) {stk} {errs : List (Option V × R)} :
    AgreesCmd (onFrame (fun f => setVar f x v)) (goOn (assign (getVar f) x v)) f stk errs := by
  unfold assign
  by_cases hx : (getVar f x).isSome = true
  · simp only [hx, goOn, AgreesCmd, if_true]
    have hs := setAll_has f.contours x v
    obtain ⟨c, cs, e⟩ := List.exists_cons_of_ne_nil h.ne
    refine ⟨{ f with contours := setAll f.contours x v }, by simp [onFrame, setVar_some h.uniq hx], ⟨rfl, uniq_has hs.symm h.uniq, c, cs, _, _, e, by rw [e]; rfl, ?_, ?_⟩, h.ret, ?_⟩
    · have := hs
      rw [e] at this
      injection this with _ this
      exact this.symm
    · rw [e] at hs
      injection hs with h1 _
      intro y hy
      exact (congrFun h1 y).trans hy
    · funext y
      exact getIn_setAll f.contours x y v h.uniq hx
  · have hn := getVar_none hx
    simp [goOn, AgreesCmd, hx, onFrame, setVar_none hn]

/-- Leaving the contour of a body. -/
theorem leave {f f2 : Frame V} {x : String} {v : V} (h : Ready f) (g : Grown { f with contours := (Contour.put [] x v) :: f.contours } f2) :
    ∃ f3, endContour f2 = some f3 ∧ Grown f f3 ∧ f3.ret = f2.ret ∧ getVar f3 = restrict (getVar f) (getVar f2) := by
  obtain ⟨g1, g2, c, cs, c', cs', e1, e2, e3, e4⟩ := g
  injection e1 with e1 e1'
  subst e1'
  rw [e2] at g2
  refine ⟨{ f2 with contours := cs' }, by simp [endContour, e2], ⟨g1, g2.tail, ?_⟩, rfl, ?_⟩
  · obtain ⟨d, ds, e⟩ := List.exists_cons_of_ne_nil h.ne
    rw [e] at e3
    cases cs' with
    | nil => cases e3
    | cons d' ds' =>
      injection e3 with e3 e3'
      exact ⟨d, ds, d', ds', e, rfl, e3', fun y hy => by rw [← e3]; exact hy⟩
  · funext y
    have hs := isSome_has e3 y
    simp only [getVar, restrict, e2]
    by_cases hy : (getIn f.contours y).isSome = true
    · rw [if_pos hy]
      rw [hs] at hy
      simp [getIn, g2.head hy]
    · rw [if_neg hy]
      rw [hs] at hy
      cases hg : getIn cs' y <;> simp [hg] at hy ⊢

variable {L : Lang V X C O} {call : O → List V → M V R V} {rcall : O → List V → Res V}

theorem isReturning_ok {f : Frame V} {stk} {errs : List (Option V × R)} :
    (isReturning : M V R Bool) ⟨f :: stk, errs⟩ = .ok f.ret.isSome ⟨f :: stk, errs⟩ := by
  simp [isReturning, askFrame]

theorem AgreesCmd.after {m : M V R Unit} {r : End V} {f g stk} {errs : List (Option V × R)} (h : AgreesCmd m r g stk errs) (hg : Grown f g)
    {m' : M V R Unit} (e : m' ⟨f :: stk, errs⟩ = m ⟨g :: stk, errs⟩) : AgreesCmd m' r f stk errs := by
  cases r with
  | next σ => obtain ⟨f', h1, h2, h3⟩ := h; exact ⟨f', e.trans h1, hg.trans h2, h3⟩
  | returned σ v => obtain ⟨f', h1, h2, h3⟩ := h; exact ⟨f', e.trans h1, hg.trans h2, h3⟩
  | missing => obtain ⟨f', h1⟩ := h; exact ⟨f', e.trans h1⟩
  | fail => exact e.trans h

theorem each_ok {x : String} {body : M V R Unit} {rbody : Store V → End V} {foc : Option V} {stk} {errs : List (Option V × R)}
    (hb : ∀ f, Ready f → f.focus = foc → AgreesCmd body (rbody (getVar f)) f stk errs) :
    ∀ vs f, Ready f → f.focus = foc → AgreesCmd (eachM x body vs) (refEach x rbody (getVar f) vs) f stk errs
  | [], f, h, _ => ⟨f, rfl, .refl h, h.ret, rfl⟩
  | v :: vs, f, h, hf => by
    rw [eachM, refEach]
    refine AgreesCmd.congr (m' := fun _ => if (getVar f x).isSome then .fail else
        (do
          body
          onFrame endContour
          let r ← isReturning
          if r then M.pure () else eachM x body vs : M V R Unit)
          ⟨{ f with contours := (Contour.put [] x v) :: f.contours } :: stk, errs⟩) ?_ (start_let _)
    unfold declare
    by_cases hx : (getVar f x).isSome = true
    · simp [AgreesCmd, hx]
    · have hn := getVar_none hx
      obtain ⟨h1, h2⟩ := ready_start h v hn
      have ih := hb _ h1 hf
      rw [h2] at ih
      simp only [hx, Bool.false_eq_true, if_false]
      generalize rbody (bindVar (getVar f) x v) = r at ih
      cases r with
      | next σ =>
        obtain ⟨f2, i1, i2, i3, i4⟩ := ih
        obtain ⟨f3, l1, l2, l3, l4⟩ := leave h i2
        have h3 : Ready f3 := l2.ready (l3.trans i3)
        have ih' := each_ok (x := x) hb vs f3 h3 (l2.focus.trans hf)
        rw [l4, i4] at ih'
        refine ih'.after l2 ?_
        rw [bind_ok i1, bind_ok (s' := ⟨f3 :: stk, errs⟩) (a := ()) (by simp [onFrame, l1]), bind_ok isReturning_ok]
        simp [l3, i3]
      | returned σ u =>
        obtain ⟨f2, i1, i2, i3, i4⟩ := ih
        obtain ⟨f3, l1, l2, l3, l4⟩ := leave h i2
        refine ⟨f3, ?_, l2, l3.trans i3, by rw [l4, i4]⟩
        rw [bind_ok i1, bind_ok (s' := ⟨f3 :: stk, errs⟩) (a := ()) (by simp [onFrame, l1]), bind_ok isReturning_ok]
        simp [l3, i3, M.pure]
      | missing =>
        obtain ⟨f2, i1⟩ := ih
        exact ⟨f2, bind_missing i1⟩
      | fail => exact bind_fail ih

mutual
theorem exec_ok (hc : CallsOk call rcall) : ∀ (c : Cmd X C O) (f : Frame V) stk errs, Ready f →
    AgreesCmd (exec L call c) (refCmd L rcall f.focus (getVar f) c) f stk errs
  | .let x e, f, stk, errs, h => by
    rw [exec, refCmd]
    refine AgreesCmd.congr ?_ (ready_bind h.ret _)
    exact (evalE_ok hc e f stk errs h).use (fun v _ => let_ok h x v)
  | .set x e, f, stk, errs, h => by
    rw [exec, refCmd]
    refine AgreesCmd.congr ?_ (ready_bind h.ret _)
    exact (evalE_ok hc e f stk errs h).use (fun v _ => set_ok h x v)
  | .ret e, f, stk, errs, h => by
    rw [exec, refCmd]
    refine AgreesCmd.congr ?_ (ready_bind h.ret _)
    refine (evalE_ok hc e f stk errs h).use (fun v _ => ?_)
    exact ⟨{ f with ret := some v }, by simp [onFrame, startReturning, h.ret], (Grown.refl h).withRet _, rfl, rfl⟩
  | .assert c, f, stk, errs, h => by
    rw [exec, refCmd]
    refine AgreesCmd.congr ?_ (ready_bind h.ret _)
    refine (evalC_ok hc c f stk errs h).use (fun t _ => ?_)
    cases t with
    | true => exact ⟨f, rfl, .refl h, h.ret, rfl⟩
    | false => rfl
  | .seq a b, f, stk, errs, h => by
    rw [exec, refCmd]
    refine AgreesCmd.congr ?_ (ready_bind h.ret _)
    have ih := exec_ok hc a f stk errs h
    generalize hr : refCmd L rcall f.focus (getVar f) a = r at ih
    cases r with
    | next σ =>
      obtain ⟨f2, i1, i2, i3, i4⟩ := ih
      have ih' := exec_ok hc b f2 stk errs (i2.ready i3)
      rw [i4, i2.focus] at ih'
      refine ih'.after i2 ?_
      rw [bind_ok i1, bind_ok isReturning_ok]
      simp [i3]
    | returned σ u =>
      obtain ⟨f2, i1, i2, i3, i4⟩ := ih
      refine ⟨f2, ?_, i2, i3, i4⟩
      rw [bind_ok i1, bind_ok isReturning_ok]
      simp [i3, M.pure]
    | missing =>
      obtain ⟨f2, i1⟩ := ih
      exact ⟨f2, bind_missing i1⟩
    | fail => exact bind_fail ih
  | .ifClosed c a b, f, stk, errs, h => by
    rw [exec, refCmd]
    refine AgreesCmd.congr ?_ (ready_bind h.ret _)
    refine (evalC_ok hc c f stk errs h).use (fun t _ => ?_)
    cases t with
    | true => exact exec_ok hc a f stk errs h
    | false => exact exec_ok hc b f stk errs h
  | .ifOther c a tail, f, stk, errs, h => by
    rw [exec, refCmd]
    refine AgreesCmd.congr ?_ (ready_bind h.ret _)
    refine (evalC_ok hc c f stk errs h).use (fun t _ => ?_)
    cases t with
    | true => exact exec_ok hc a f stk errs h
    | false => exact execTail_ok hc tail f stk errs h
  | .forEach x e body, f, stk, errs, h => by
    rw [exec, refCmd]
    refine AgreesCmd.congr ?_ ((ready_bind h.ret _).trans (ready_bind h.ret _))
    refine (evalE_ok hc e f stk errs h).use (fun v _ => ?_)
    cases hv : L.each v with
    | none => simp [AgreesCmd, M.fail]
    | some vs =>
      simp only []
      exact each_ok (foc := f.focus) (fun g hg hf => hf ▸ exec_ok hc body g stk errs hg) vs f h rfl
theorem execTail_ok (hc : CallsOk call rcall) : ∀ (t : Tail X C O) (f : Frame V) stk errs, Ready f →
    AgreesCmd (execTail L call t) (refTail L rcall f.focus (getVar f) t) f stk errs
  | .nil, f, stk, errs, h => by
    rw [execTail, refTail]
    exact ⟨f, notReturning_ok h.ret, .refl h, h.ret, rfl⟩
  | .else a, f, stk, errs, h => by
    rw [execTail, refTail]
    exact (exec_ok hc a f stk errs h).congr (ready_bind h.ret _)
  | .elseif c a tail, f, stk, errs, h => by
    rw [execTail, refTail]
    refine AgreesCmd.congr ?_ (ready_bind h.ret _)
    refine (evalC_ok hc c f stk errs h).use (fun t _ => ?_)
    cases t with
    | true => exact exec_ok hc a f stk errs h
    | false => exact execTail_ok hc tail f stk errs h
end

/-! ### Calls -/

theorem letAll_ok : ∀ (xs : List String) (vs : List V) (f : Frame V), Ready f →
    match declareAll (getVar f) xs vs with
    | none => letAll f xs vs = none
    | some σ => ∃ f', letAll f xs vs = some f' ∧ Ready f' ∧ getVar f' = σ ∧ f'.focus = f.focus
  | [], [], f, h => ⟨f, rfl, h, rfl, rfl⟩
  | [], _ :: _, f, h => rfl
  | _ :: _, [], f, h => rfl
  | x :: xs, v :: vs, f, h => by
    have := let_ok (R := Unit) h x v (stk := []) (errs := [])
    simp only [declareAll]
    cases hd : declare (getVar f) x v with
    | none =>
      rw [hd] at this
      simp only [goOn, AgreesCmd, onFrame] at this
      cases hl : letVar f x v with
      | none => simp [letAll, hl]
      | some f' => simp [hl] at this
    | some τ =>
      rw [hd] at this
      obtain ⟨f', i1, i2, i3, i4⟩ := this
      simp only [onFrame] at i1
      cases hl : letVar f x v with
      | none => simp [hl] at i1
      | some f'' =>
        simp [hl] at i1
        subst i1
        have ih := letAll_ok xs vs f'' (i2.ready i3)
        rw [i4] at ih
        simp only [Option.bind_some]
        cases hd2 : declareAll τ xs vs with
        | none => rw [hd2] at ih; simpa [letAll, hl] using ih
        | some σ =>
          rw [hd2] at ih
          obtain ⟨f3, j1, j2, j3, j4⟩ := ih
          exact ⟨f3, by simpa [letAll, hl] using j1, j2, j3, j4.trans i2.focus⟩

theorem ready_new (foc : Option V) : Ready (newFrame foc) ∧ getVar (newFrame foc) = fun _ => none :=
  ⟨⟨fun x => by simp [newFrame, Contour.has], by simp [newFrame], rfl⟩, by funext x; simp [getVar, newFrame, getIn, Contour.get]⟩

theorem declareAll_length : ∀ (xs : List String) (vs : List V) (σ τ : Store V), declareAll σ xs vs = some τ → vs.length = xs.length
  | [], [], _, _, _ => rfl
  | [], _ :: _, _, _, h => by cases h
  | _ :: _, [], _, _, h => by cases h
  | x :: xs, v :: vs, σ, τ, h => by
    simp only [declareAll] at h
    cases hd : declare σ x v with
    | none => simp [hd] at h
    | some ρ => simp [hd] at h; simp [declareAll_length xs vs ρ τ h]

theorem defn_ok (hc : CallsOk call rcall) (d : Defn V X C O) (foc : Option V) (vs : List V) (hm : ∀ b, refDefn L rcall foc d vs ≠ .missing b) (s : St V R) :
    execDefn L call d foc vs s = (match refDefn L rcall foc d vs with
      | .val v => .ok v s
      | .missing _ => .missing s
      | .fail => .fail) := by
  have ha := letAll_ok d.params vs (newFrame foc) (ready_new foc).1
  rw [(ready_new foc).2] at ha
  unfold execDefn
  unfold refDefn at hm ⊢
  cases hd : declareAll (fun _ => none) d.params vs with
  | none =>
    rw [hd] at ha
    by_cases hl : vs.length = d.params.length
    · simp [hl, ha, M.fail]
    · simp [hl, M.fail]
  | some σ =>
    rw [hd] at ha
    obtain ⟨f, i1, i2, i3, i4⟩ := ha
    rw [if_pos (declareAll_length _ _ _ _ hd), i1]
    simp only [hd, withFrame] at hm ⊢
    have hfoc : f.focus = foc := i4
    cases hb : d.body with
    | expr e =>
      have ih := evalE_ok (L := L) hc e f s.stack s.errs i2
      simp only [hb, runBody] at hm ⊢
      rw [i3, hfoc] at ih
      generalize refE L rcall foc σ e = r at ih hm
      cases r with
      | val a => simp only [Agrees] at ih; rw [ih]; simp
      | missing b => exact absurd rfl (hm b)
      | fail => simp only [Agrees] at ih; rw [ih]
    | alg c onMissing =>
      have ih := exec_ok (L := L) hc c f s.stack s.errs i2
      simp only [hb, runBody] at hm ⊢
      rw [i3, hfoc] at ih
      generalize refCmd L rcall foc σ c = r at ih hm
      cases r with
      | next τ => obtain ⟨f', j1, _, j3, _⟩ := ih; simp [j1, askFrame, j3]
      | returned τ v => obtain ⟨f', j1, _, j3, _⟩ := ih; simp [j1, askFrame, j3]
      | missing =>
        obtain ⟨f', j1⟩ := ih
        cases onMissing <;> simp [j1]
      | fail => simp only [AgreesCmd] at ih; simp [ih]

theorem call_ok (hr : CallsReturn L) : ∀ n, CallsOk (callN L n : O → List V → M V R V) (refCall L n)
  | 0 => ⟨fun _ _ _ _ _ => rfl, fun _ _ _ h => by cases h⟩
  | n + 1 => by
    refine ⟨fun o vs f stk errs => ?_, hr (n + 1)⟩
    have hm := hr (n + 1) o vs
    simp only [refCall] at hm ⊢
    cases hd : L.defn o vs with
    | none => simp [Agrees, callN, hd, M.fail]
    | some p =>
      obtain ⟨d, foc, args⟩ := p
      simp only [hd] at hm ⊢
      have := defn_ok (call_ok hr n) d foc args hm (⟨f :: stk, errs⟩ : St V R)
      generalize refDefn L (refCall L n) foc d args = r at this hm
      cases r with
      | val v => simpa [Agrees, callN, hd] using this
      | missing b => exact absurd rfl (hm b)
      | fail => simpa [Agrees, callN, hd] using this

end
end Verif.Exec
