import Verif.Exec.Spec
/-!
# Lemmas about contours, and the interpreter agrees with the reference interpreter
-/
namespace Verif.Exec

section
variable {V : Type}

theorem has_iff (c : Contour V) (x : String) : c.has x = (c.get x).isSome := by
  induction c with
  | nil => rfl
  | cons p c ih =>
    obtain ⟨y, v⟩ := p
    simp only [Contour.has, List.any_cons, Contour.get] at ih ⊢
    by_cases h : y = x
    · simp [h]
    · simp [h, ih]

theorem get_put (c : Contour V) (x y : String) (v : V) : (c.put x v).get y = if y = x then some v else c.get y := by
  induction c with
  | nil =>
    by_cases h : y = x
    · simp [Contour.put, Contour.get, h]
    · have : ¬ x = y := fun e => h e.symm
      simp [Contour.put, Contour.get, h, this]
  | cons p c ih =>
    obtain ⟨z, u⟩ := p
    simp only [Contour.put]
    by_cases h : z = x
    · subst h
      simp only [if_true, Contour.get]
      by_cases hy : z = y
      · simp [hy]
      · have : ¬ y = z := fun e => hy e.symm
        simp [hy, this]
    · simp only [h, if_false, Contour.get, ih]
      by_cases hy : z = y
      · subst hy; simp [h]
      · simp [hy]

theorem has_put (c : Contour V) (x y : String) (v : V) : (c.put x v).has y = (decide (y = x) || c.has y) := by
  rw [has_iff, get_put, has_iff]
  by_cases h : y = x <;> simp [h]

/-- No name is in two contours. -/
def Uniq (cs : List (Contour V)) : Prop := ∀ x, cs.countP (fun c => c.has x) ≤ 1

theorem getIn_none_iff (cs : List (Contour V)) (x : String) : getIn cs x = none ↔ cs.countP (fun c => c.has x) = 0 := by
  induction cs with
  | nil => simp [getIn]
  | cons c cs ih =>
    simp only [getIn, List.countP_cons, has_iff]
    cases h : c.get x with
    | some v => simp
    | none => simpa [has_iff] using ih

theorem getIn_isSome_iff (cs : List (Contour V)) (x : String) : (getIn cs x).isSome = true ↔ 0 < cs.countP (fun c => c.has x) := by
  have := getIn_none_iff cs x
  cases h : getIn cs x with
  | none => simp [this.1 h]
  | some v =>
    simp only [Option.isSome_some, true_iff]
    rcases Nat.eq_zero_or_pos (cs.countP (fun c => c.has x)) with h0 | h0
    · rw [this.2 h0] at h; cases h
    · exact h0

theorem Uniq.tail {c : Contour V} {cs : List (Contour V)} (h : Uniq (c :: cs)) : Uniq cs := by
  intro x
  have := h x
  rw [List.countP_cons] at this
  omega

theorem uniq_nil_cons {cs : List (Contour V)} (h : Uniq cs) : Uniq ([] :: cs) := by
  intro x
  rw [List.countP_cons]
  simpa [Contour.has] using h x

/-- What is further down is not in the first contour. -/
theorem Uniq.head {c : Contour V} {cs : List (Contour V)} (h : Uniq (c :: cs)) {x : String} (hx : (getIn cs x).isSome = true) : c.get x = none := by
  have h1 := h x
  have h2 := (getIn_isSome_iff cs x).1 hx
  rw [List.countP_cons] at h1
  cases hc : c.get x with
  | none => rfl
  | some v =>
    have : c.has x = true := by rw [has_iff, hc]; rfl
    rw [if_pos this] at h1
    omega

theorem letVar_none {f : Frame V} {x : String} {v : V} (h : (getVar f x).isSome = true) : letVar f x v = none := by
  have := (getIn_isSome_iff _ _).1 h
  rw [List.countP_pos_iff] at this
  obtain ⟨c, hc, hx⟩ := this
  simp only [letVar, List.all_eq_true]
  rw [if_neg]
  intro hall
  have := hall c hc
  rw [hx] at this
  cases this

theorem not_has {f : Frame V} {x : String} (h : getVar f x = none) : ∀ c ∈ f.contours, c.has x = false := by
  intro c hc
  have := (getIn_none_iff _ _).1 h
  rw [List.countP_eq_zero] at this
  simpa using this c hc

theorem letVar_some {f : Frame V} {x : String} {v : V} (h : getVar f x = none) {c : Contour V} {cs : List (Contour V)} (hc : f.contours = c :: cs) :
    letVar f x v = some { f with contours := c.put x v :: cs } := by
  simp only [letVar]
  rw [if_pos]
  · simp only [hc]
  · rw [List.all_eq_true]
    intro d hd
    simp [not_has h d hd]

theorem getIn_put {c : Contour V} {cs : List (Contour V)} (x y : String) (v : V) :
    getIn (c.put x v :: cs) y = if y = x then some v else getIn (c :: cs) y := by
  simp only [getIn, get_put]
  by_cases h : y = x <;> simp [h]

theorem uniq_put {f : Frame V} {x : String} (h : getVar f x = none) {c : Contour V} {cs : List (Contour V)} (hc : f.contours = c :: cs) (hu : Uniq f.contours) (v : V) :
    Uniq (c.put x v :: cs) := by
  intro y
  rw [hc] at hu
  have h1 := hu y
  have h2 := (getIn_none_iff _ _).1 h
  rw [hc] at h2
  rw [List.countP_cons] at h1 h2 ⊢
  simp only [has_put]
  by_cases hy : y = x
  · subst hy
    have h3 : cs.countP (fun c => c.has y) = 0 := by omega
    simp [h3]
  · simpa [hy] using h1

/-- The contours after a `Set`. -/
def setAll (cs : List (Contour V)) (x : String) (v : V) : List (Contour V) := cs.map (fun c => if c.has x then c.put x v else c)

theorem setAll_has (cs : List (Contour V)) (x : String) (v : V) : (setAll cs x v).map Contour.has = cs.map Contour.has := by
  simp only [setAll, List.map_map]
  refine List.map_congr_left (fun c _ => ?_)
  funext y
  simp only [Function.comp_apply]
  by_cases h : c.has x = true
  · simp only [h, if_true, has_put]
    by_cases hy : y = x
    · subst hy; simp [h]
    · simp [hy]
  · simp [h]

theorem countP_has {cs ds : List (Contour V)} (h : cs.map Contour.has = ds.map Contour.has) (x : String) :
    cs.countP (fun c => c.has x) = ds.countP (fun c => c.has x) := by
  have e : ∀ l : List (Contour V), l.countP (fun c => c.has x) = (l.map Contour.has).countP (fun g => g x) := by
    intro l
    rw [List.countP_map]
    rfl
  rw [e, e, h]

theorem uniq_has {cs ds : List (Contour V)} (h : cs.map Contour.has = ds.map Contour.has) (hu : Uniq cs) : Uniq ds := by
  intro x
  rw [← countP_has h]
  exact hu x

theorem isSome_has {cs ds : List (Contour V)} (h : cs.map Contour.has = ds.map Contour.has) (x : String) : (getIn cs x).isSome = (getIn ds x).isSome := by
  have h1 := getIn_isSome_iff cs x
  have h2 := getIn_isSome_iff ds x
  rw [countP_has h] at h1
  exact Bool.eq_iff_iff.2 (h1.trans h2.symm)

theorem getIn_setAll (cs : List (Contour V)) (x y : String) (v : V) (hu : Uniq cs) (hx : (getIn cs x).isSome = true) :
    getIn (setAll cs x v) y = if y = x then some v else getIn cs y := by
  induction cs with
  | nil => simp [getIn] at hx
  | cons c cs ih =>
    simp only [setAll, List.map_cons, getIn] at ih ⊢
    by_cases h : c.has x = true
    · simp only [h, if_true, get_put]
      by_cases hy : y = x
      · simp [hy]
      · simp only [hy, if_false]
        have : ∀ d ∈ cs, (if d.has x = true then d.put x v else d) = d := by
          intro d hd
          have h1 := hu x
          rw [List.countP_cons, if_pos h] at h1
          have h0 : cs.countP (fun c => c.has x) = 0 := by omega
          have := List.countP_eq_zero.1 h0 d hd
          rw [if_neg this]
        rw [List.map_congr_left this, List.map_id']
    · simp only [h]
      have hc : c.get x = none := by
        rw [has_iff] at h
        cases hg : c.get x with
        | none => rfl
        | some v => rw [hg] at h; simp at h
      have hx' : (getIn cs x).isSome = true := by simpa [getIn, hc] using hx
      by_cases hy : y = x
      · subst hy
        simpa [hc] using ih hu.tail hx'
      · have := ih hu.tail hx'
        rw [if_neg hy] at this
        simp [hy, this]

theorem setVar_some {f : Frame V} {x : String} {v : V} (hu : Uniq f.contours) (h : (getVar f x).isSome = true) :
    setVar f x v = some { f with contours := setAll f.contours x v } := by
  have h1 := (getIn_isSome_iff _ _).1 h
  have h2 := hu x
  rw [List.countP_eq_length_filter] at h1 h2
  have : (f.contours.filter (fun c => c.has x)).length = 1 := by omega
  simp [setVar, this, setAll]

theorem setVar_none {f : Frame V} {x : String} {v : V} (h : getVar f x = none) : setVar f x v = none := by
  have h1 := (getIn_none_iff _ _).1 h
  rw [List.countP_eq_length_filter] at h1
  simp [setVar, h1]

/-! ### Agreement of expressions -/

end

section
variable {V X C O R : Type}

/-- A computation in the given state agrees with a result of the reference interpreter. -/
def Agrees {α} (m : M V R α) (r : Res α) (f : Frame V) (stk : List (Frame V)) (errs : List (Option V × R)) : Prop :=
  match r with
  | .val a => m ⟨f :: stk, errs⟩ = .ok a ⟨f :: stk, errs⟩
  | .missing false => m ⟨f :: stk, errs⟩ = .missing ⟨f :: stk, errs⟩
  | .missing true => ∃ f', m ⟨f :: stk, errs⟩ = .missing ⟨f' :: stk, errs⟩
  | .fail => m ⟨f :: stk, errs⟩ = .fail

/-- A frame that runs. -/
structure Ready (f : Frame V) : Prop where
  uniq : Uniq f.contours
  ne : f.contours ≠ []
  ret : f.ret = none

theorem bind_ok {α β} {m : M V R α} {k : α → M V R β} {s s' a} (h : m s = .ok a s') : (m >>= k) s = k a s' := by
  simp only [Bind.bind, M.bind, h]

theorem bind_missing {α β} {m : M V R α} {k : α → M V R β} {s s'} (h : m s = .missing s') : (m >>= k) s = .missing s' := by
  simp only [Bind.bind, M.bind, h]

theorem bind_fail {α β} {m : M V R α} {k : α → M V R β} {s} (h : m s = .fail) : (m >>= k) s = .fail := by
  simp only [Bind.bind, M.bind, h]

theorem notReturning_ok {f : Frame V} {stk} {errs : List (Option V × R)} (h : f.ret = none) :
    (notReturning : M V R Unit) ⟨f :: stk, errs⟩ = .ok () ⟨f :: stk, errs⟩ := by
  simp [notReturning, askFrame, h]

theorem ready_bind {α} {f : Frame V} {stk} {errs : List (Option V × R)} (h : f.ret = none) (k : M V R α) :
    (notReturning >>= fun _ => k) ⟨f :: stk, errs⟩ = k ⟨f :: stk, errs⟩ := bind_ok (notReturning_ok h)

theorem Agrees.congr {α} {m m' : M V R α} {r : Res α} {f stk} {errs : List (Option V × R)} (h : Agrees m' r f stk errs)
    (e : m ⟨f :: stk, errs⟩ = m' ⟨f :: stk, errs⟩) : Agrees m r f stk errs := by
  unfold Agrees at h ⊢
  rw [e]
  exact h

theorem Agrees.bind {α β} {m : M V R α} {r : Res α} {k : α → M V R β} {k' : α → Res β} {f stk} {errs : List (Option V × R)}
    (h : Agrees m r f stk errs) (hk : ∀ a, r = .val a → Agrees (k a) (k' a) f stk errs) : Agrees (m >>= k) (r.andThen k') f stk errs := by
  cases r with
  | val a =>
    have := hk a rfl
    simp only [Agrees] at h
    exact this.congr (bind_ok h)
  | missing d => cases d with
    | false => exact bind_missing h
    | true => obtain ⟨f', h⟩ := h; exact ⟨f', bind_missing h⟩
  | fail => exact bind_fail h

theorem agrees_pure {α} (a : α) {f stk} {errs : List (Option V × R)} : Agrees (M.pure a) (.val a) f stk errs := rfl

theorem agrees_prim {α} (p : Option V → Prim α) {f : Frame V} {stk} {errs : List (Option V × R)} : Agrees (primM p) ((p f.focus).res) f stk errs := by
  cases h : p f.focus <;> simp [Agrees, Prim.res, primM, Bind.bind, M.bind, askFrame, h, M.pure, M.missing, M.fail]

variable {L : Lang V X C O} {call : O → List V → M V R V} {rcall : O → List V → Res V}

/-- The calls agree, and do not come back with a missing thing. -/
structure CallsOk (call : O → List V → M V R V) (rcall : O → List V → Res V) : Prop where
  agree : ∀ o vs f stk errs, Agrees (call o vs) (rcall o vs) f stk errs
  clean : ∀ o vs d, rcall o vs ≠ .missing d

theorem ready_start {f : Frame V} (h : Ready f) {x : String} (v : V) (hx : getVar f x = none) :
    Ready { f with contours := (Contour.put [] x v) :: f.contours } ∧ getVar { f with contours := (Contour.put [] x v) :: f.contours } = bindVar (getVar f) x v := by
  refine ⟨⟨?_, by simp, h.ret⟩, ?_⟩
  · exact uniq_put (f := startContour f) (c := []) (cs := f.contours) (by simpa [getVar, startContour, getIn, Contour.get] using hx) rfl (uniq_nil_cons h.uniq) v
  · funext y
    simp only [getVar, getIn_put, bindVar]
    by_cases hy : y = x <;> simp [hy, getIn, Contour.get]

/-- Open a contour with one variable. -/
theorem start_let {f : Frame V} {x : String} {v : V} {stk} {errs : List (Option V × R)} {α} (k : M V R α) :
    (onFrame (fun f => some (startContour f)) >>= fun _ => onFrame (fun f => letVar f x v) >>= fun _ => k) ⟨f :: stk, errs⟩ =
      if (getVar f x).isSome then .fail else k ⟨{ f with contours := (Contour.put [] x v) :: f.contours } :: stk, errs⟩ := by
  rw [bind_ok (s' := ⟨startContour f :: stk, errs⟩) (a := ()) (by simp [onFrame])]
  by_cases h : (getVar f x).isSome = true
  · rw [if_pos h]
    refine bind_fail ?_
    have : letVar (startContour f) x v = none := letVar_none (by simpa [getVar, startContour, getIn, Contour.get] using h)
    simp [onFrame, this]
  · rw [if_neg h]
    have hn : getVar f x = none := by cases hg : getVar f x <;> simp [hg] at h ⊢
    have : letVar (startContour f) x v = some { f with contours := (Contour.put [] x v) :: f.contours } :=
      letVar_some (f := startContour f) (c := []) (cs := f.contours) (by simpa [getVar, startContour, getIn, Contour.get] using hn) rfl
    rw [bind_ok (s' := ⟨{ f with contours := (Contour.put [] x v) :: f.contours } :: stk, errs⟩) (a := ()) (by simp [onFrame, this])]

mutual
theorem evalE_ok (hc : CallsOk call rcall) : ∀ (e : Expr X C O) (f : Frame V) stk errs, Ready f →
    Agrees (evalE L call e) (refE L rcall f.focus (getVar f) e) f stk errs
  | .var x, f, stk, errs, h => by
    rw [evalE]
    refine Agrees.congr ?_ (ready_bind h.ret _)
    simp only [refE]
    cases hg : getVar f x <;> simp [Agrees, askFrame, hg]
  | .prim p args, f, stk, errs, h => by
    rw [evalE]
    refine Agrees.congr ?_ (ready_bind h.ret _)
    rw [refE]
    exact (evalArgs_ok hc args f stk errs h).bind (fun vs _ => agrees_prim _)
  | .call o args, f, stk, errs, h => by
    rw [evalE]
    refine Agrees.congr ?_ (ready_bind h.ret _)
    rw [refE]
    exact (evalArgs_ok hc args f stk errs h).bind (fun vs _ => hc.agree o vs f stk errs)
  | .where_ a x b, f, stk, errs, h => by
    rw [evalE]
    refine Agrees.congr ?_ (ready_bind h.ret _)
    rw [refE]
    refine (evalE_ok hc b f stk errs h).bind (fun v _ => ?_)
    unfold declare
    by_cases hx : (getVar f x).isSome = true
    · simp only [hx, if_true]
      exact (start_let _).trans (if_pos hx)
    · have hn : getVar f x = none := by cases hg : getVar f x <;> simp [hg] at hx ⊢
      obtain ⟨h1, h2⟩ := ready_start h v hn
      have ih := evalE_ok hc a { f with contours := (Contour.put [] x v) :: f.contours } stk errs h1
      have e := (start_let (f := f) (x := x) (v := v) (stk := stk) (errs := errs) (do
        let r ← evalE L call a
        onFrame endContour
        M.pure r : M V R V)).trans (if_neg hx)
      simp only [hx]
      rw [h2] at ih
      simp only [Bool.false_eq_true, if_false]
      generalize refE L rcall f.focus (bindVar (getVar f) x v) a = r at ih
      cases r with
      | val u =>
        refine e.trans ?_
        rw [bind_ok ih]
        rw [bind_ok (s' := ⟨f :: stk, errs⟩) (a := ()) (by simp [onFrame, endContour])]
        rfl
      | missing d => cases d with
        | false => exact ⟨_, e.trans (bind_missing ih)⟩
        | true => obtain ⟨f', ih⟩ := ih; exact ⟨f', e.trans (bind_missing ih)⟩
      | fail => exact e.trans (bind_fail ih)
  | .otherwise a c b, f, stk, errs, h => by
    rw [evalE]
    refine Agrees.congr ?_ (ready_bind h.ret _)
    rw [refE]
    refine (evalC_ok hc c f stk errs h).bind (fun t _ => ?_)
    cases t with
    | true => exact evalE_ok hc a f stk errs h
    | false => exact evalE_ok hc b f stk errs h
theorem evalArgs_ok (hc : CallsOk call rcall) : ∀ (es : List (Expr X C O)) (f : Frame V) stk errs, Ready f →
    Agrees (evalArgs L call es) (refArgs L rcall f.focus (getVar f) es) f stk errs
  | [], f, stk, errs, _ => by
    rw [evalArgs, refArgs]
    exact agrees_pure _
  | e :: es, f, stk, errs, h => by
    rw [evalArgs, refArgs]
    exact (evalE_ok hc e f stk errs h).bind (fun v _ => (evalArgs_ok hc es f stk errs h).bind (fun vs _ => agrees_pure _))
theorem evalC_ok (hc : CallsOk call rcall) : ∀ (c : Cond X C O) (f : Frame V) stk errs, Ready f →
    Agrees (evalC L call c) (refC L rcall f.focus (getVar f) c) f stk errs
  | .prim p args, f, stk, errs, h => by
    rw [evalC]
    refine Agrees.congr ?_ (ready_bind h.ret _)
    rw [refC]
    exact (evalArgs_ok hc args f stk errs h).bind (fun vs _ => agrees_prim _)
  | .or cs, f, stk, errs, h => by
    rw [evalC]
    refine Agrees.congr ?_ (ready_bind h.ret _)
    rw [refC]
    exact evalOr_ok hc cs f stk errs h
  | .and cs, f, stk, errs, h => by
    rw [evalC]
    refine Agrees.congr ?_ (ready_bind h.ret _)
    rw [refC]
    exact evalAnd_ok hc cs f stk errs h
  | .unless a b, f, stk, errs, h => by
    rw [evalC]
    refine Agrees.congr ?_ (ready_bind h.ret _)
    rw [refC]
    refine (evalC_ok hc a f stk errs h).bind (fun t _ => ?_)
    cases t with
    | true => exact (evalC_ok hc b f stk errs h).bind (fun u _ => agrees_pure _)
    | false => exact agrees_pure _
theorem evalOr_ok (hc : CallsOk call rcall) : ∀ (cs : List (Cond X C O)) (f : Frame V) stk errs, Ready f →
    Agrees (evalOr L call cs) (refOr L rcall f.focus (getVar f) cs) f stk errs
  | [], f, stk, errs, _ => by
    rw [evalOr, refOr]
    exact agrees_pure _
  | c :: cs, f, stk, errs, h => by
    rw [evalOr, refOr]
    refine (evalC_ok hc c f stk errs h).bind (fun t _ => ?_)
    cases t with
    | true => exact agrees_pure _
    | false => exact evalOr_ok hc cs f stk errs h
theorem evalAnd_ok (hc : CallsOk call rcall) : ∀ (cs : List (Cond X C O)) (f : Frame V) stk errs, Ready f →
    Agrees (evalAnd L call cs) (refAnd L rcall f.focus (getVar f) cs) f stk errs
  | [], f, stk, errs, _ => by
    rw [evalAnd, refAnd]
    exact agrees_pure _
  | c :: cs, f, stk, errs, h => by
    rw [evalAnd, refAnd]
    refine (evalC_ok hc c f stk errs h).bind (fun t _ => ?_)
    cases t with
    | true => exact evalAnd_ok hc cs f stk errs h
    | false => exact agrees_pure _
end

end
end Verif.Exec
