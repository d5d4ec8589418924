import Verif.Conds.Spec
/-!
# C94: The environments for a comparison are right for both of its outcomes
-/
namespace Verif.Conds

variable {E X T D C S V : Type} [DecidableEq E] [DecidableEq T] {y : Ops E X T D C} {m : Sem E X T D C S V}

omit [DecidableEq E] [DecidableEq T] in
theorem right_swap {r s : Option E} {σ : S} {P : Prop} (neg : Bool) (h : m.Right (r, s) σ P) :
    m.Right (if neg then (s, r) else (r, s)) σ (Negated neg P) := by
  cases neg with
  | false => exact h
  | true => exact ⟨fun hn => h.2 hn, fun hn => h.1 (Classical.not_not.1 hn)⟩

omit [DecidableEq E] in
/-- C94: for `x is y` and `x is not y`, if both types are known. -/
theorem c94_is (hm : Means y m) {neg : Bool} {a b : X} {e : E} {r : Option E × Option E} (h : isCond y neg a b e = some r)
    (hk : ∀ ta e1 tb e2, y.tc a e = some (ta, e1) → y.tc b e1 = some (tb, e2) → ta ≠ y.tbd ∧ tb ≠ y.tbd ∨ ta = tb)
    {σ : S} (hσ : m.holds e σ) : m.Right r σ (Negated neg (m.val σ a = m.val σ b)) := by
  unfold isCond at h
  obtain ⟨⟨ta, e1⟩, h1, h⟩ := Option.bind_eq_some_iff.1 h
  obtain ⟨⟨tb, e2⟩, h2, h⟩ := Option.bind_eq_some_iff.1 h
  dsimp only at h h2
  obtain ⟨v1, w1⟩ := hm.tc _ _ _ _ h1 σ hσ
  obtain ⟨v2, w2⟩ := hm.tc _ _ _ _ h2 σ w1
  by_cases h3 : ta = tb
  · rw [if_pos h3] at h
    obtain rfl := Option.some.inj h
    exact ⟨fun _ => w2, fun _ => w2⟩
  rw [if_neg h3] at h
  obtain ⟨k1, k2⟩ := (hk _ _ _ _ h1 h2).resolve_right h3
  rw [if_neg k1, if_neg k2] at h
  split at h
  · exact nomatch h
  obtain ⟨e3, h4, h⟩ := Option.bind_eq_some_iff.1 h
  obtain ⟨is, h5, rfl⟩ := Option.map_eq_some_iff.1 h
  refine right_swap neg ⟨fun he => ?_, fun _ => w2⟩
  have hc : m.den (y.split ta tb).1 (m.val σ a) := (hm.split _ _ k1 k2 _).2 ⟨v1 k1, he ▸ v2 k2⟩
  exact (hm.narrow _ _ _ _ h5 σ).2 ⟨(hm.narrow _ _ _ _ h4 σ).2 ⟨w2, hc⟩, he ▸ hc⟩

omit [DecidableEq E] in
/-- C94: for `x is y`, whatever is known: if the two are the same, the environment for that case is right. -/
theorem c94_is_equal (hm : Means y m) {neg : Bool} {a b : X} {e : E} {r : Option E × Option E} (h : isCond y neg a b e = some r)
    {σ : S} (hσ : m.holds e σ) (he : m.val σ a = m.val σ b) : m.Holds (if neg then r.2 else r.1) σ := by
  unfold isCond at h
  obtain ⟨⟨ta, e1⟩, h1, h⟩ := Option.bind_eq_some_iff.1 h
  obtain ⟨⟨tb, e2⟩, h2, h⟩ := Option.bind_eq_some_iff.1 h
  dsimp only at h h2
  obtain ⟨v1, w1⟩ := hm.tc _ _ _ _ h1 σ hσ
  obtain ⟨v2, w2⟩ := hm.tc _ _ _ _ h2 σ w1
  by_cases h3 : ta = tb
  · rw [if_pos h3] at h
    obtain rfl := Option.some.inj h
    cases neg <;> exact w2
  rw [if_neg h3] at h
  by_cases k1 : ta = y.tbd
  · rw [if_pos k1] at h
    obtain ⟨e3, h4, rfl⟩ := Option.map_eq_some_iff.1 h
    have k2 : tb ≠ y.tbd := fun k2 => h3 (k1.trans k2.symm)
    have := hm.replace _ _ _ _ h4 σ w2 (he ▸ v2 k2)
    cases neg <;> exact this
  rw [if_neg k1] at h
  by_cases k2 : tb = y.tbd
  · rw [if_pos k2] at h
    obtain ⟨e3, h4, rfl⟩ := Option.map_eq_some_iff.1 h
    have := hm.replace _ _ _ _ h4 σ w2 (he ▸ v1 k1)
    cases neg <;> exact this
  rw [if_neg k2] at h
  split at h
  · exact nomatch h
  obtain ⟨e3, h4, h⟩ := Option.bind_eq_some_iff.1 h
  obtain ⟨is, h5, rfl⟩ := Option.map_eq_some_iff.1 h
  have hc : m.den (y.split ta tb).1 (m.val σ a) := (hm.split _ _ k1 k2 _).2 ⟨v1 k1, he ▸ v2 k2⟩
  have := (hm.narrow _ _ _ _ h5 σ).2 ⟨(hm.narrow _ _ _ _ h4 σ).2 ⟨w2, hc⟩, he ▸ hc⟩
  cases neg <;> exact this

omit [DecidableEq E] in
/-- C94: where the two are the same, both are known to be of both types. -/
theorem c94_is_narrow (hm : Means y m) {neg : Bool} {a b : X} {e : E} {r : Option E × Option E} (h : isCond y neg a b e = some r)
    {ta tb : T} {e1 e2 : E} (h1 : y.tc a e = some (ta, e1)) (h2 : y.tc b e1 = some (tb, e2)) (h3 : ta ≠ tb) (k1 : ta ≠ y.tbd) (k2 : tb ≠ y.tbd)
    {σ : S} (hσ : m.Holds (if neg then r.2 else r.1) σ) : ∀ x, x = a ∨ x = b → m.den ta (m.val σ x) ∧ m.den tb (m.val σ x) := by
  unfold isCond at h
  rw [h1, Option.bind_some] at h
  dsimp only at h
  rw [h2, Option.bind_some] at h
  dsimp only at h
  rw [if_neg h3, if_neg k1, if_neg k2] at h
  split at h
  · exact nomatch h
  obtain ⟨e3, h4, h⟩ := Option.bind_eq_some_iff.1 h
  obtain ⟨is, h5, rfl⟩ := Option.map_eq_some_iff.1 h
  have hs : m.holds is σ := by cases neg <;> exact hσ
  obtain ⟨g1, g2⟩ := (hm.narrow _ _ _ _ h5 σ).1 hs
  obtain ⟨_, g3⟩ := (hm.narrow _ _ _ _ h4 σ).1 g1
  rintro x (rfl | rfl)
  · exact (hm.split _ _ k1 k2 _).1 g3
  · exact (hm.split _ _ k1 k2 _).1 g2

omit [DecidableEq E] [DecidableEq T] in
/-- C94: for `x and y are the same Foo Record` and its negation: if the types are known, the two environments are right for the condition that both are the same and are Foo Records; where that is so, both are known to be Foo Records. -/
theorem c94_same (hm : Means y m) {neg : Bool} {t : T} (ht : t ≠ y.tbd) {a b : X} {e : E} {r : Option E × Option E} (h : sameRecord y neg t a b e = some r)
    (hk : ∀ ta tb e1 e2, y.tc a e = some (ta, e1) → y.tc b e = some (tb, e2) → ta ≠ y.tbd ∧ tb ≠ y.tbd) {σ : S} :
    (m.holds e σ → m.Right r σ (Negated neg (m.val σ a = m.val σ b ∧ m.den t (m.val σ a)))) ∧
    (m.Holds (if neg then r.2 else r.1) σ → m.den t (m.val σ a) ∧ m.den t (m.val σ b)) := by
  unfold sameRecord at h
  obtain ⟨⟨ta, e1⟩, h1, h⟩ := Option.bind_eq_some_iff.1 h
  obtain ⟨⟨tb, e2⟩, h2, h⟩ := Option.bind_eq_some_iff.1 h
  obtain ⟨k1, k2⟩ := hk _ _ _ _ h1 h2
  obtain ⟨e3, h4, h⟩ := Option.bind_eq_some_iff.1 h
  obtain ⟨is, h5, rfl⟩ := Option.map_eq_some_iff.1 h
  constructor
  · intro hσ
    obtain ⟨v1, _⟩ := hm.tc _ _ _ _ h1 σ hσ
    obtain ⟨v2, _⟩ := hm.tc _ _ _ _ h2 σ hσ
    refine right_swap neg ⟨fun ⟨he, hd⟩ => ?_, fun _ => hσ⟩
    exact (hm.narrow _ _ _ _ h5 σ).2 ⟨(hm.narrow _ _ _ _ h4 σ).2 ⟨hσ, (hm.split _ _ k1 ht _).2 ⟨v1 k1, hd⟩⟩, (hm.split _ _ k2 ht _).2 ⟨v2 k2, he ▸ hd⟩⟩
  · intro hs
    have hs : m.holds is σ := by cases neg <;> exact hs
    obtain ⟨g1, g2⟩ := (hm.narrow _ _ _ _ h5 σ).1 hs
    obtain ⟨_, g3⟩ := (hm.narrow _ _ _ _ h4 σ).1 g1
    exact ⟨((hm.split _ _ k1 ht _).1 g3).2, ((hm.split _ _ k2 ht _).1 g2).2⟩

omit [DecidableEq E] [DecidableEq T] in
/-- C94: for `x and y are distinct values`. -/
theorem c94_distinct (hm : Means y m) {a b : X} {e : E} {r : Option E × Option E} (h : distinct y a b e = some r) {σ : S} (hσ : m.holds e σ) :
    m.Right r σ (m.val σ a ≠ m.val σ b) := by
  unfold distinct at h
  obtain ⟨⟨ta, e1⟩, h1, h⟩ := Option.bind_eq_some_iff.1 h
  obtain ⟨⟨tb, e2⟩, h2, rfl⟩ := Option.map_eq_some_iff.1 h
  have := (hm.tc _ _ _ _ h2 σ (hm.tc _ _ _ _ h1 σ hσ).2).2
  exact ⟨fun _ => this, fun _ => this⟩

omit [DecidableEq T] in
/-- C94: for `x and y are both …`, outside of an assertion. -/
theorem c94_both (hm : Means y m) {a b lit : X} {e : E} {r : Option E × Option E} (h : bothLit y a b lit e false = some r) {σ : S} (hσ : m.holds e σ) :
    m.Right r σ (m.val σ a = m.val σ lit ∧ m.val σ b = m.val σ lit) := by
  unfold bothLit at h
  obtain ⟨⟨tl, el⟩, h1, h⟩ := Option.bind_eq_some_iff.1 h
  dsimp only at h
  split at h
  · exact nomatch h
  split at h
  · next hs =>
    obtain ⟨s1, s2⟩ := hm.special _ hs
    have hl := (hm.tc _ _ _ _ h1 σ hσ).1 s1
    obtain ⟨⟨at', af⟩, h2, h⟩ := Option.bind_eq_some_iff.1 h
    obtain ⟨⟨bt, bf⟩, h3, h⟩ := Option.bind_eq_some_iff.1 h
    obtain ⟨a1, a2⟩ := hm.test _ _ _ _ _ h2 σ hσ
    obtain ⟨b1, b2⟩ := hm.test _ _ _ _ _ h3 σ hσ
    dsimp only at h
    split at h
    · next p q =>
      obtain ⟨t, h4, h⟩ := Option.bind_eq_some_iff.1 h
      obtain ⟨f, h5, rfl⟩ := Option.map_eq_some_iff.1 h
      refine ⟨fun ⟨e1, e2⟩ => ?_, fun hn => ?_⟩
      · exact hm.envAnd _ _ _ h4 σ (a1 (by rw [e1]; exact hl)) (b1 (by rw [e2]; exact hl))
      · refine hm.envOr _ _ _ h5 σ ?_
        by_cases hd : m.den tl (m.val σ a)
        · exact .inr (b2 fun hb => hn ⟨s2 _ _ hd hl, s2 _ _ hb hl⟩)
        · exact .inl (a2 hd)
    · exact nomatch h
  · split at h
    · obtain rfl := Option.some.inj h
      exact ⟨fun _ => hσ, fun _ => hσ⟩
    · exact nomatch h

omit [DecidableEq E] [DecidableEq T] in
theorem brackets_sound (hm : Means y m) {e : E} {σ : S} (hσ : m.holds e σ) {ds : List D} :
    ∀ {acc b : T × T}, brackets y e ds acc = some b → ∀ v,
      (m.den b.1 v → m.den acc.1 v ∨ ∃ d ∈ ds, m.described σ d v) ∧ (m.den acc.2 v ∨ (∃ d ∈ ds, m.described σ d v) → m.den b.2 v) := by
  induction ds with
  | nil =>
    intro acc b h v
    obtain rfl := Option.some.inj h
    exact ⟨.inl, fun h => h.elim id fun ⟨_, h, _⟩ => nomatch h⟩
  | cons d ds ih =>
    intro acc b h v
    rw [brackets] at h
    obtain ⟨c, h1, h2⟩ := Option.bind_eq_some_iff.1 h
    obtain ⟨i1, i2⟩ := ih h2 v
    obtain ⟨j1, j2⟩ := hm.bracket _ _ _ h1 σ hσ v
    constructor
    · intro hb
      rcases i1 hb with hb | ⟨d', hd, hb⟩
      · rcases (hm.union _ _ _).1 hb with hb | hb
        · exact .inl hb
        · exact .inr ⟨d, .head _, j1 hb⟩
      · exact .inr ⟨d', .tail _ hd, hb⟩
    · rintro (hb | ⟨d', hd, hb⟩)
      · exact i2 (.inl ((hm.union _ _ _).2 (.inl hb)))
      · rcases List.mem_cons.1 hd with rfl | hd
        · exact i2 (.inl ((hm.union _ _ _).2 (.inr (j2 hb))))
        · exact i2 (.inr ⟨d', hd, hb⟩)

omit [DecidableEq E] [DecidableEq T] in
/-- C94: for `x is neither … nor …`, outside of an assertion, with any number of descriptions. -/
theorem c94_neither (hm : Means y m) {x : X} {ds : List D} {e : E} {r : Option E × Option E} (h : neither y x ds e false = some r) {σ : S} (hσ : m.holds e σ) :
    m.Right r σ (∀ d ∈ ds, ¬ m.described σ d (m.val σ x)) := by
  unfold neither at h
  obtain ⟨b, h1, h2⟩ := Option.bind_eq_some_iff.1 h
  obtain ⟨b1, b2⟩ := brackets_sound hm hσ h1 (m.val σ x)
  obtain ⟨t1, t2⟩ := hm.test _ _ _ _ _ h2 σ hσ
  constructor
  · intro hn
    refine t2 fun hd => ?_
    rcases b1 hd with hd | ⟨d, hd, hv⟩
    · exact hm.zero _ hd
    · exact hn d hd hv
  · intro hn
    refine t1 (b2 (.inr ?_))
    exact Classical.byContradiction fun hc => hn fun d hd hv => hc ⟨d, hd, hv⟩

omit [DecidableEq T] in
/-- C94: for `l contains … x such that c`: the one environment is right for each such element, bound to the variable, and the other if there is no such element. -/
theorem c94_contains (hm : Means y m) {l : X} {d : D} {x : X} {c : C} {e : E} {r : Option E × Option E} (h : containsSuch y l d x c e = some r)
    {σ : S} (hσ : m.holds e σ) :
    (∀ v, m.elem v (m.val σ l) → m.described σ d v → m.truth c (m.bind σ x v) → m.Holds r.1 (m.bind σ x v)) ∧
    ((¬ ∃ v, m.elem v (m.val σ l) ∧ m.described σ d v ∧ m.truth c (m.bind σ x v)) → m.Holds r.2 σ) := by
  unfold containsSuch at h
  obtain ⟨⟨tl, e1⟩, h1, h⟩ := Option.bind_eq_some_iff.1 h
  dsimp only at h
  split at h
  · exact nomatch h
  obtain ⟨b, h2, h⟩ := Option.bind_eq_some_iff.1 h
  split at h
  · obtain ⟨e2, h3, h⟩ := Option.bind_eq_some_iff.1 h
    obtain ⟨⟨t, f⟩, h4, rfl⟩ := Option.map_eq_some_iff.1 h
    refine ⟨fun v _ hd ht => ?_, fun _ => hσ⟩
    exact (hm.cond _ _ _ h4 _ (hm.plusNew _ _ _ _ h3 σ v hσ ((hm.bracket _ _ _ h2 σ hσ v).2 hd))).1 ht
  · exact nomatch h

/-! ## A case -/

/-- Types of truth values: whether `false` is in it, and whether `true` is; `none` is `tbd`. -/
abbrev Ty := Option (Bool × Bool)

def Ty.has (t : Ty) (v : Bool) : Prop := match t with
  | none => True
  | some p => (if v then p.2 else p.1) = true

/-- There are two variables; an environment has their types. -/
abbrev En := Ty × Ty

def En.get (e : En) (x : Bool) : Ty := if x then e.2 else e.1
def En.set (e : En) (x : Bool) (t : Ty) : En := if x then (e.1, t) else (t, e.2)

def meet (a b : Ty) : Ty := match a, b with
  | some a, some b => some (a.1 && b.1, a.2 && b.2)
  | none, b => b
  | a, none => a

def join (a b : Ty) : Ty := match a, b with
  | some a, some b => some (a.1 || b.1, a.2 || b.2)
  | _, _ => none

def minus (a b : Ty) : Ty := match a, b with
  | some a, some b => some (a.1 && !b.1, a.2 && !b.2)
  | none, some b => some (!b.1, !b.2)
  | _, none => some (false, false)

theorem has_meet (a b : Ty) (v : Bool) : (meet a b).has v ↔ a.has v ∧ b.has v := by
  cases a with
  | none => cases b <;> simp [meet, Ty.has]
  | some a => cases b <;> cases v <;> simp [meet, Ty.has]

theorem has_join (a b : Ty) (v : Bool) : (join a b).has v ↔ a.has v ∨ b.has v := by
  cases a with
  | none => cases b <;> simp [join, Ty.has]
  | some a => cases b <;> cases v <;> simp [join, Ty.has]

theorem has_minus (a b : Ty) (v : Bool) : (minus a b).has v ↔ a.has v ∧ ¬ b.has v := by
  cases a with
  | none => cases b <;> cases v <;> simp [minus, Ty.has]
  | some a => cases b <;> cases v <;> simp [minus, Ty.has]

/-- The description is the value itself, and the condition is that the second variable is true. -/
def world : Ops En Bool Ty Bool Unit where
  tc x e := some (e.get x, e)
  replace e x t := some (e.set x t)
  narrow e x t := some (e.set x (meet (e.get x) t))
  split a b := (meet a b, minus a b)
  union := join
  sub _ _ := true
  zero := some (false, false)
  tbd := none
  special t := decide (t = some (true, false))
  test e x is b _ :=
    let i := some (e.set x (meet (e.get x) b.2))
    let o := some (e.set x (minus (e.get x) b.1))
    some (if is then (i, o) else (o, i))
  ofType e x t := decide (e.get x = t)
  envAnd a b := some (meet a.1 b.1, meet a.2 b.2)
  envOr a b := some (match a, b with
    | some a, some b => some (join a.1 b.1, join a.2 b.2)
    | none, b => b
    | a, none => a)
  bracket d _ := some (some (!d, d), some (!d, d))
  plusNew e x t := some (e.set x t)
  cond _ e := some (some (e.set true (meet (e.get true) (some (false, true)))), some (e.set true (meet (e.get true) (some (true, false)))))
  list := some (true, true)
  anyList _ := true
  element t := t

/-- A value contains itself. -/
def sem : Sem En Bool Ty Bool Unit (Bool × Bool) Bool where
  val σ x := if x then σ.2 else σ.1
  den t v := t.has v
  holds e σ := e.1.has σ.1 ∧ e.2.has σ.2
  described _ d v := v = d
  truth _ σ := σ.2 = true
  elem v w := v = w
  bind σ x v := if x then (σ.1, v) else (v, σ.2)

theorem holds_set (e : En) (x : Bool) (t : Ty) (σ : Bool × Bool) (h : sem.holds e σ) (ht : t.has (sem.val σ x)) : sem.holds (e.set x t) σ := by
  cases x
  · exact ⟨ht, h.2⟩
  · exact ⟨h.1, ht⟩

theorem holds_get (e : En) (x : Bool) (σ : Bool × Bool) (h : sem.holds e σ) : (e.get x).has (sem.val σ x) := by
  cases x
  · exact h.1
  · exact h.2

theorem has_single (d v : Bool) : Ty.has (some (!d, d)) v ↔ v = d := by cases d <;> cases v <;> simp [Ty.has]

theorem means_world : Means world sem where
  tc x e t e' h σ hσ := by
    have h := Prod.mk.inj (Option.some.inj h)
    obtain ⟨rfl, rfl⟩ := h
    exact ⟨fun _ => holds_get _ _ _ hσ, hσ⟩
  replace e x t e' h σ hσ ht := by
    obtain rfl := Option.some.inj h
    exact holds_set _ _ _ _ hσ ht
  narrow e x t e' h σ := by
    obtain rfl := Option.some.inj h
    refine ⟨fun hh => ?_, fun hh => holds_set _ _ _ _ hh.1 ((has_meet _ _ _).2 ⟨holds_get _ _ _ hh.1, hh.2⟩)⟩
    cases x
    · have := (has_meet _ _ _).1 hh.1
      exact ⟨⟨this.1, hh.2⟩, this.2⟩
    · have := (has_meet _ _ _).1 hh.2
      exact ⟨⟨hh.1, this.1⟩, this.2⟩
  split a b _ _ v := has_meet a b v
  union a b v := has_join a b v
  zero v := by cases v <;> exact fun h => nomatch h
  special t h := by
    obtain rfl := of_decide_eq_true h
    refine ⟨fun h => (nomatch h), fun v w hv hw => ?_⟩
    cases v with
    | true => exact nomatch hv
    | false => cases w with
      | true => exact nomatch hw
      | false => rfl
  test e x is b r h σ hσ := by
    obtain rfl := Option.some.inj h
    have h1 : sem.den b.2 (sem.val σ x) → sem.holds (e.set x (meet (e.get x) b.2)) σ := fun hd => holds_set _ _ _ _ hσ ((has_meet _ _ _).2 ⟨holds_get _ _ _ hσ, hd⟩)
    have h2 : ¬ sem.den b.1 (sem.val σ x) → sem.holds (e.set x (minus (e.get x) b.1)) σ := fun hd => holds_set _ _ _ _ hσ ((has_minus _ _ _).2 ⟨holds_get _ _ _ hσ, hd⟩)
    cases is <;> exact ⟨h1, h2⟩
  envAnd a b e h σ ha hb := by
    obtain rfl := Option.some.inj h
    exact ⟨(has_meet _ _ _).2 ⟨ha.1, hb.1⟩, (has_meet _ _ _).2 ⟨ha.2, hb.2⟩⟩
  envOr a b e h σ hh := by
    obtain rfl := Option.some.inj h
    cases a with
    | none => exact hh.elim (fun h => h.elim) id
    | some a =>
      cases b with
      | none => exact hh.elim id (fun h => h.elim)
      | some b => exact hh.elim (fun h => ⟨(has_join _ _ _).2 (.inl h.1), (has_join _ _ _).2 (.inl h.2)⟩) (fun h => ⟨(has_join _ _ _).2 (.inr h.1), (has_join _ _ _).2 (.inr h.2)⟩)
  bracket d e b h σ _ v := by
    obtain rfl := Option.some.inj h
    exact ⟨(has_single d v).1, (has_single d v).2⟩
  plusNew e x t e' h σ v hσ ht := by
    obtain rfl := Option.some.inj h
    cases x
    · exact ⟨ht, hσ.2⟩
    · exact ⟨hσ.1, ht⟩
  cond c e r h σ hσ := by
    obtain rfl := Option.some.inj h
    refine ⟨fun ht => holds_set _ _ _ _ hσ ((has_meet _ _ _).2 ⟨holds_get _ _ _ hσ, ?_⟩), fun ht => holds_set _ _ _ _ hσ ((has_meet _ _ _).2 ⟨holds_get _ _ _ hσ, ?_⟩)⟩
    · have ht : σ.2 = true := ht
      show Ty.has _ σ.2
      rw [ht]; rfl
    · have ht : ¬ σ.2 = true := ht
      show Ty.has _ σ.2
      rw [Bool.eq_false_iff.2 ht]; rfl

/-- `x is y`, where the one can be anything and the other is true. -/
example : isCond world false false true (some (true, true), some (false, true)) =
    some (some (some (false, true), some (false, true)), some (some (true, true), some (false, true))) := rfl

example (r : Option En × Option En) (h : isCond world false false true (some (true, true), some (false, true)) = some r) : sem.Holds r.2 (false, true) :=
  (c94_is means_world h (fun ta e1 tb e2 h1 h2 => .inl (by
    have h1 := Prod.mk.inj (Option.some.inj h1)
    have h2 := Prod.mk.inj (Option.some.inj h2)
    rw [← h1.1, ← h2.1, ← h1.2]
    exact ⟨fun h => (nomatch h), fun h => (nomatch h)⟩)) (σ := (false, true)) ⟨rfl, rfl⟩).2 (fun h => nomatch h)

example : neither world false [true] (some (true, true), some (true, true)) false =
    some (some (some (true, false), some (true, true)), some (some (false, true), some (true, true))) := rfl

example : (bothLit world false true true (some (true, true), some (true, false)) false).isSome = true := rfl

example : sameRecord world true (some (false, true)) false true (some (true, true), some (true, true)) =
    some (some (some (true, true), some (true, true)), some (some (false, true), some (false, true))) := rfl

/-- If the type of one side is not known, it becomes the type of the other side even where the two differ: the environment for that case is wrong. -/
theorem c94_is_unknown : ∃ r, isCond world false false true (none, some (false, true)) = some r ∧
    sem.holds (none, some (false, true)) (false, true) ∧ sem.val (false, true) false ≠ sem.val (false, true) true ∧ ¬ sem.Holds r.2 (false, true) :=
  ⟨_, rfl, ⟨trivial, rfl⟩, fun h => (nomatch h), fun h => (nomatch h.1)⟩

/-- For `does not contain … such that`, the two environments are the wrong way round: there is no such element, and the environment for that case is wrong. -/
theorem c94_contains_not : ∃ r, containsSuch world false true true () (some (true, true), some (true, false)) = some r ∧
    sem.holds (some (true, true), some (true, false)) (false, false) ∧
    (¬ ∃ v, sem.elem v (sem.val (false, false) false) ∧ sem.described (false, false) true v ∧ sem.truth () (sem.bind (false, false) true v)) ∧
    ¬ sem.Holds r.1 (false, false) := by
  refine ⟨_, rfl, ⟨rfl, rfl⟩, ?_, fun h => (nomatch h.2)⟩
  rintro ⟨v, h1, h2, _⟩
  have h1 : v = false := h1
  have h2 : v = true := h2
  rw [h1] at h2; exact nomatch h2

end Verif.Conds
