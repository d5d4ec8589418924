import Verif.Exec.Lemmas
/-!
# What a history of calls leaves in a frame
-/
namespace Verif.Exec

section
variable {V : Type}

theorem runOps_snoc : ∀ (os : List (Op V)) (f : Frame V) (o : Op V), runOps f (os ++ [o]) = (match runOps f os with
    | none => none
    | some (f1, rs) => (stepOp f1 o).map (fun p => (p.1, rs ++ [p.2])))
  | [], f, o => by
    simp only [List.nil_append, runOps]
    cases stepOp f o with
    | none => rfl
    | some p => rfl
  | a :: os, f, o => by
    simp only [List.cons_append, runOps]
    cases stepOp f a with
    | none => rfl
    | some p =>
      simp only [runOps_snoc os p.1 o]
      cases runOps p.1 os with
      | none => rfl
      | some q =>
        simp only []
        cases stepOp q.1 o <;> simp

/-- `x` is in the contour at place `i`. -/
def At (os : List (Op V)) (x : String) (i : Nat) : Prop :=
  ∃ pre v post, os = pre ++ .let x v :: post ∧ Inside post ∧ post.countP isStart = post.countP isStop + i

theorem visible_iff (os : List (Op V)) (x : String) : Visible os x ↔ ∃ i, At os x i := by
  constructor
  · rintro ⟨pre, v, post, e, h⟩
    have := h post (List.prefix_refl _)
    exact ⟨post.countP isStart - post.countP isStop, pre, v, post, e, h, by omega⟩
  · rintro ⟨i, pre, v, post, e, h, _⟩
    exact ⟨pre, v, post, e, h⟩

theorem inside_snoc (os : List (Op V)) (o : Op V) : Inside (os ++ [o]) ↔ Inside os ∧ (os ++ [o]).countP isStop ≤ (os ++ [o]).countP isStart := by
  constructor
  · intro h
    exact ⟨fun p hp => h p (hp.trans (List.prefix_append _ _)), h _ (List.prefix_refl _)⟩
  · rintro ⟨h1, h2⟩ p hp
    rcases List.prefix_concat_iff.1 hp with e | e
    · subst e; exact h2
    · exact h1 p e

theorem inside_nil : Inside ([] : List (Op V)) := by
  intro p hp
  rw [List.prefix_nil.1 hp]
  simp

theorem at_snoc (os : List (Op V)) (o : Op V) (x : String) (i : Nat) : At (os ++ [o]) x i ↔
    (∃ v, o = .let x v ∧ i = 0) ∨ ∃ j, At os x j ∧ j + (if isStart o then 1 else 0) = i + (if isStop o then 1 else 0) := by
  constructor
  · rintro ⟨pre, v, post, e, h, hc⟩
    rcases List.eq_nil_or_concat post with hp | ⟨post', o', hp⟩
    · subst hp
      have : os ++ [o] = pre ++ [.let x v] := e
      rw [← List.concat_eq_append, ← List.concat_eq_append] at this
      obtain ⟨_, e2⟩ := List.concat_inj.1 this
      simp at hc
      exact .inl ⟨v, e2, hc.symm⟩
    · subst hp
      rw [List.concat_eq_append] at *
      have : os ++ [o] = (pre ++ .let x v :: post') ++ [o'] := by rw [e]; simp
      rw [← List.concat_eq_append, ← List.concat_eq_append] at this
      obtain ⟨e1, e2⟩ := List.concat_inj.1 this
      subst e2
      obtain ⟨h1, h2⟩ := (inside_snoc _ _).1 h
      have h3 := h1 post' (List.prefix_refl _)
      refine .inr ⟨post'.countP isStart - post'.countP isStop, ⟨pre, v, post', e1, h1, by omega⟩, ?_⟩
      simp only [List.countP_append, List.countP_cons, List.countP_nil] at hc
      omega
  · rintro (⟨v, e, hi⟩ | ⟨j, ⟨pre, v, post, e, h, hc⟩, hj⟩)
    · subst e hi
      exact ⟨os, v, [], rfl, inside_nil, by simp⟩
    · refine ⟨pre, v, post ++ [o], by rw [e]; simp, (inside_snoc _ _).2 ⟨h, ?_⟩, ?_⟩ <;>
      · simp only [List.countP_append, List.countP_cons, List.countP_nil]
        omega

theorem latest_snoc (os : List (Op V)) (o : Op V) (x : String) : latest (os ++ [o]) x = (match o with
    | .let y v => if y = x then some v else latest os x
    | .set y v => if y = x then some v else latest os x
    | _ => latest os x) := by
  simp only [latest, List.foldl_append, List.foldl_cons, List.foldl_nil]
  cases o <;> rfl

theorem depth_snoc (os : List (Op V)) (o : Op V) : depth (os ++ [o]) = depth os + (if isStart o then 1 else 0) - (if isStop o then 1 else 0) := by
  simp only [depth, List.countP_append, List.countP_cons, List.countP_nil]
  split <;> split <;> omega

/-- What holds after a history. -/
structure HInv (os : List (Op V)) (f : Frame V) : Prop where
  len : (f.contours.length : Int) = depth os
  uniq : Uniq f.contours
  at_ : ∀ x i, (∃ c, f.contours[i]? = some c ∧ c.has x = true) ↔ At os x i
  val : ∀ x v, getVar f x = some v → latest os x = some v

theorem getIn_isSome_at (cs : List (Contour V)) (x : String) : (getIn cs x).isSome = true ↔ ∃ (i : Nat) (c : Contour V), cs[i]? = some c ∧ c.has x = true := by
  rw [getIn_isSome_iff, List.countP_pos_iff]
  constructor
  · rintro ⟨c, hc, h⟩
    obtain ⟨i, hi⟩ := List.mem_iff_getElem?.1 hc
    exact ⟨i, c, hi, h⟩
  · rintro ⟨i, c, hi, h⟩
    exact ⟨c, List.mem_of_getElem? hi, h⟩

theorem HInv.visible {os : List (Op V)} {f : Frame V} (h : HInv os f) (x : String) : (getVar f x).isSome = true ↔ Visible os x := by
  rw [visible_iff, getVar, getIn_isSome_at]
  exact exists_congr (fun i => h.at_ x i)

theorem has_at {cs ds : List (Contour V)} (h : cs.map Contour.has = ds.map Contour.has) (x : String) (i : Nat) :
    (∃ c, cs[i]? = some c ∧ c.has x = true) ↔ ∃ c, ds[i]? = some c ∧ c.has x = true := by
  have e : ∀ l : List (Contour V), (∃ c, l[i]? = some c ∧ c.has x = true) ↔ ∃ g, (l.map Contour.has)[i]? = some g ∧ g x = true := by
    intro l
    rw [List.getElem?_map]
    cases l[i]? <;> simp
  rw [e, e, h]

theorem hinv_new (foc : Option V) : HInv ([] : List (Op V)) (newFrame foc) := by
  refine ⟨by simp [newFrame, depth], fun x => by simp [newFrame, Contour.has], fun x i => ?_, fun x v h => ?_⟩
  · constructor
    · rintro ⟨c, hc, hx⟩
      have := List.mem_of_getElem? hc
      simp [newFrame] at this
      subst this
      simp [Contour.has] at hx
    · rintro ⟨pre, v, post, e, _⟩
      cases pre <;> cases e
  · simp [getVar, newFrame, getIn, Contour.get] at h

theorem step_ok {os : List (Op V)} {f : Frame V} (h : HInv os f) (o : Op V) :
    (InOrder os o → ∃ f', stepOp f o = some (f', answer os o) ∧ HInv (os ++ [o]) f') ∧ (¬ InOrder os o → stepOp f o = none) := by
  cases o with
  | start =>
    refine ⟨fun _ => ⟨startContour f, rfl, ?_, uniq_nil_cons h.uniq, fun x i => ?_, fun x v hv => ?_⟩, fun hn => absurd trivial hn⟩
    · rw [depth_snoc]
      have := h.len
      simp [isStart, isStop, startContour]
      omega
    · rw [at_snoc]
      simp only [startContour, isStart, isStop]
      cases i with
      | zero => simp [Contour.has]
      | succ i =>
        have := h.at_ x i
        simp only [List.getElem?_cons_succ, this]
        simp
    · rw [latest_snoc]
      exact h.val x v (by simpa [getVar, startContour, getIn, Contour.get] using hv)
  | stop =>
    have hl := h.len
    constructor
    · intro (hd : 0 < depth os)
      cases hc : f.contours with
      | nil => rw [hc] at hl; simp at hl; omega
      | cons c cs =>
        refine ⟨{ f with contours := cs }, by simp [stepOp, endContour, hc, answer], ?_, ?_, fun x i => ?_, fun x v hv => ?_⟩
        · rw [depth_snoc]
          rw [hc] at hl
          simp [isStart, isStop] at hl ⊢
          omega
        · have := h.uniq
          rw [hc] at this
          exact this.tail
        · rw [at_snoc]
          have := h.at_ x (i + 1)
          rw [hc, List.getElem?_cons_succ] at this
          simp only [this]
          simp [isStart, isStop]
        · rw [latest_snoc]
          refine h.val x v ?_
          have hu := h.uniq
          rw [hc] at hu
          have hv' : getIn cs x = some v := hv
          simp [getVar, hc, getIn, hu.head (x := x) (by rw [hv']; rfl), hv']
    · intro hd
      have hd' : ¬ 0 < depth os := hd
      cases hc : f.contours with
      | nil => simp [stepOp, endContour, hc]
      | cons c cs => rw [hc] at hl; simp at hl; omega
  | «let» x v =>
    have hl := h.len
    constructor
    · rintro ⟨h1, h2⟩
      have hn : getVar f x = none := by
        have := mt (h.visible x).1 h1
        cases hg : getVar f x <;> simp [hg] at this ⊢
      cases hc : f.contours with
      | nil => rw [hc] at hl; simp at hl; omega
      | cons c cs =>
        refine ⟨{ f with contours := c.put x v :: cs }, by simp [stepOp, letVar_some hn hc, answer], ?_, uniq_put hn hc h.uniq v, fun y i => ?_, fun y u hu => ?_⟩
        · rw [depth_snoc]
          rw [hc] at hl
          simp [isStart, isStop] at hl ⊢
          omega
        · rw [at_snoc]
          have := h.at_ y i
          rw [hc] at this
          cases i with
          | zero =>
            simp only [List.getElem?_cons_zero, Option.some.injEq, exists_eq_left', has_put] at this ⊢
            simp only [isStart, isStop, Bool.or_eq_true, decide_eq_true_eq, this]
            simp [eq_comm]
          | succ i =>
            simp only [List.getElem?_cons_succ] at this ⊢
            simp [this, isStart, isStop]
        · rw [latest_snoc]
          have hu' : getIn (c.put x v :: cs) y = some u := hu
          rw [getIn_put] at hu'
          by_cases hy : y = x
          · subst hy
            simpa using hu'
          · have hy' : ¬ x = y := fun e => hy e.symm
            simp only [hy, hy', if_false] at hu' ⊢
            exact h.val y u (by rw [getVar, hc]; exact hu')
    · intro hd
      by_cases hv : Visible os x
      · simp [stepOp, letVar_none ((h.visible x).2 hv)]
      · have hd' : ¬ 0 < depth os := fun h0 => hd ⟨hv, h0⟩
        cases hc : f.contours with
        | nil => simp [stepOp, letVar, hc]
        | cons c cs => rw [hc] at hl; simp at hl; omega
  | set x v =>
    constructor
    · intro (hv : Visible os x)
      have hx := (h.visible x).2 hv
      have hs := setAll_has f.contours x v
      refine ⟨{ f with contours := setAll f.contours x v }, by simp [stepOp, setVar_some h.uniq hx, answer], ?_, uniq_has hs.symm h.uniq, fun y i => ?_, fun y u hu => ?_⟩
      · rw [depth_snoc]
        have hl := h.len
        simp [isStart, isStop, setAll] at hl ⊢
        omega
      · rw [at_snoc, has_at hs, h.at_]
        simp [isStart, isStop]
      · rw [latest_snoc]
        have hu' : getIn (setAll f.contours x v) y = some u := hu
        rw [getIn_setAll _ _ _ _ h.uniq hx] at hu'
        by_cases hy : y = x
        · subst hy
          simpa using hu'
        · have hy' : ¬ x = y := fun e => hy e.symm
          simp only [hy, hy', if_false] at hu' ⊢
          exact h.val y u hu'
    · intro hv
      have : getVar f x = none := by
        have := mt (h.visible x).1 hv
        cases hg : getVar f x <;> simp [hg] at this ⊢
      simp [stepOp, setVar_none this]
  | get x =>
    constructor
    · intro (hv : Visible os x)
      have hx := (h.visible x).2 hv
      cases hg : getVar f x with
      | none => rw [hg] at hx; cases hx
      | some v =>
        refine ⟨f, by simp [stepOp, hg, answer, h.val x v hg], ?_, h.uniq, fun y i => ?_, fun y u hu => ?_⟩
        · rw [depth_snoc]
          have hl := h.len
          simp [isStart, isStop] at hl ⊢
          omega
        · rw [at_snoc, h.at_]
          simp [isStart, isStop]
        · rw [latest_snoc]
          exact h.val y u hu
    · intro hv
      have : getVar f x = none := by
        have := mt (h.visible x).1 hv
        cases hg : getVar f x <;> simp [hg] at this ⊢
      simp [stepOp, this]

theorem run_ok (foc : Option V) : ∀ (n : Nat) (os : List (Op V)), os.length = n → ∀ f rs, runOps (newFrame foc) os = some (f, rs) →
    HInv os f ∧ rs.length = os.length ∧ ∀ pre o post, os = pre ++ o :: post → rs[pre.length]? = some (answer pre o)
  | 0, os, hn, f, rs, h => by
    rw [List.length_eq_zero_iff.1 hn] at h ⊢
    simp [runOps] at h
    obtain ⟨h1, h2⟩ := h
    subst h1 h2
    exact ⟨hinv_new foc, rfl, fun pre o post e => by cases pre <;> cases e⟩
  | n + 1, os, hn, f, rs, h => by
    rcases List.eq_nil_or_concat os with e | ⟨os', o, e⟩
    · subst e; cases hn
    · rw [List.concat_eq_append] at e
      subst e
      rw [runOps_snoc] at h
      cases hr : runOps (newFrame foc) os' with
      | none => rw [hr] at h; cases h
      | some p =>
        obtain ⟨f1, rs1⟩ := p
        rw [hr] at h
        obtain ⟨i1, i2, i3⟩ := run_ok foc n os' (by simpa using hn) f1 rs1 hr
        obtain ⟨s1, s2⟩ := step_ok i1 o
        by_cases ho : InOrder os' o
        · obtain ⟨f', s3, s4⟩ := s1 ho
          simp only [s3, Option.map_some, Option.some.injEq, Prod.mk.injEq] at h
          obtain ⟨h1, h2⟩ := h
          subst h1 h2
          refine ⟨s4, by simp [i2], fun pre o' post e => ?_⟩
          rcases List.eq_nil_or_concat post with hp | ⟨post', o2, hp⟩
          · subst hp
            rw [← List.concat_eq_append, ← List.concat_eq_append] at e
            obtain ⟨e1, e2⟩ := List.concat_inj.1 e
            subst e1 e2
            rw [← i2]
            simp
          · subst hp
            have e' : os' ++ [o] = (pre ++ o' :: post') ++ [o2] := by rw [e]; simp
            rw [← List.concat_eq_append, ← List.concat_eq_append] at e'
            obtain ⟨e1, e2⟩ := List.concat_inj.1 e'
            have := i3 pre o' post' e1
            rw [List.getElem?_append_left]
            · exact this
            · rw [i2, e1]
              simp
        · simp [s2 ho] at h

end
end Verif.Exec
