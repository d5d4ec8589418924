import Verif.Unwrap.SplitLemmas
import Verif.Calls.ElementLemmas
import Verif.Env.SoundCmd
/-! # Running the analysis of the shorthands -/
namespace Verif.Unwrap
open Verif.Types Verif.Env Verif.Calls

variable {cfg : Cfg} {ord : List Ty → List Ty}

/-! ## Fields -/

theorem union_same (ho : SetOrder ord) {t : Ty} : ∀ {ts : List Ty}, ts ≠ [] → (∀ x ∈ ts, x = t) → unionOf cfg ord ts = some t := by
  intro ts hne hall
  rw [unionOf_eq ho]
  match ts, hne with
  | t0 :: ts0, _ =>
    have hord := ho (t0 :: ts0)
    have hl : ord (t0 :: ts0) = [t] := by
      have hm : ∀ x ∈ ord (t0 :: ts0), x = t := fun x hx => hall x ((hord.2 x).1 hx)
      have hlen := nodup_one hord.1 (fun x hx y hy => (hm x hx).trans (hm y hy).symm)
      have hin : t0 ∈ ord (t0 :: ts0) := (hord.2 t0).2 (by simp)
      match hl : ord (t0 :: ts0), hlen, hin with
      | [x], _, _ => rw [hm x (by rw [hl]; simp)]
    show (match ord (t0 :: ts0) with
      | [t] => some t
      | ts1 => _) = _
    rw [hl]

theorem dot_one (ho : SetOrder ord) {n : Ty} {s f : String} {fs : Fields} {r : Ty} (hne : members n ≠ []) (hall : ∀ m ∈ members n, m = .record s fs)
    (hf : fieldType cfg ord s fs f = some r) : dotField cfg ord n f = some r := by
  cases n with
  | union ms =>
    have hne : ms ≠ [] := hne
    have hall : ∀ m ∈ ms, m = .record s fs := hall
    unfold dotField
    dsimp only
    rw [mapM_all (g := fun _ => r) (by
      intro m hm
      rw [hall m hm]; exact hf)]
    dsimp only
    refine union_same ho (by simpa using hne) ?_
    intro x hx
    obtain ⟨_, _, rfl⟩ := List.mem_map.1 hx
    rfl
  | record s' fs' =>
    have := hall (.record s' fs') (by simp [members])
    injection this with h1 h2
    subst h1; subst h2
    exact hf
  | tbd => exact absurd (hall .tbd (by simp [members])) (by simp)
  | hier n => exact absurd (hall (.hier n) (by simp [members])) (by simp)
  | list n => exact absurd (hall (.list n) (by simp [members])) (by simp)
  | proc a b => exact absurd (hall (.proc a b) (by simp [members])) (by simp)

theorem dot_none (ho : SetOrder ord) {n : Ty} {f : String} (h : members n = []) : dotField cfg ord n f = some T0 := by
  cases n with
  | union ms =>
    have h : ms = [] := h
    subst h
    show unionOf cfg ord [] = some T0
    rw [unionOf_eq ho]; rfl
  | _ => simp [members] at h

theorem field_normal (u : Option Ty) : fieldType cfg ord CRN (flds ("tilde_normal_", u)) "[[Value]]" = some (u.getD (.hier "Normal")) := by
  cases u <;> simp [fieldType, flds, List.lookup, NormalN]

/-! ## Subtypes, member by member -/

theorem relAll_members {ms : List Ty} {fb : Fields} (h : ∀ m ∈ ms, (∃ fs, m = .record CRN fs) ∧ sub cfg m (.record CRN fb) = some true) :
    relAll cfg ms [.record CRN fb] = some true := by
  induction ms with
  | nil => rfl
  | cons m ms ih =>
    obtain ⟨⟨fs, rfl⟩, h2⟩ := h m (by simp)
    rw [relAll, any_one, rel_rec, h2]
    exact ih (fun x hx => h x (List.mem_cons_of_mem _ hx))

theorem sub_members {A : Ty} {fb : Fields} (h : ∀ m ∈ members A, (∃ fs, m = .record CRN fs) ∧ sub cfg m (.record CRN fb) = some true) :
    sub cfg A (.record CRN fb) = some true := by
  cases A with
  | union ms =>
    have hs : sub cfg (.union ms) (.record CRN fb) = subWith (.union ms) (.record CRN fb) (relAll cfg ms) := rfl
    have htm : .tbd ∉ members (.union ms) := by
      intro hm
      obtain ⟨⟨fs, e⟩, _⟩ := h _ hm
      cases e
    rw [hs, subWith_gen (by simp) htm (by simp [members])]
    split
    · rfl
    · exact relAll_members h
  | record s fs => exact (h _ (by simp [members])).2
  | tbd => obtain ⟨⟨fs, e⟩, _⟩ := h .tbd (by simp [members]); cases e
  | hier n => obtain ⟨⟨fs, e⟩, _⟩ := h (.hier n) (by simp [members]); cases e
  | list n => obtain ⟨⟨fs, e⟩, _⟩ := h (.list n) (by simp [members]); cases e
  | proc a b => obtain ⟨⟨fs, e⟩, _⟩ := h (.proc a b) (by simp [members]); cases e

theorem tyEq_none {A : Ty} : tyEq A T0 = true ↔ members A = [] := by
  rw [tyEq_iff]
  have : members T0 = [] := rfl
  rw [this]
  constructor
  · intro h
    exact List.eq_nil_iff_forall_not_mem.2 (fun m hm => by simpa using (h m).1 hm)
  · intro h m
    rw [h]

/-! ## The parts of the type of an operand -/

/-- What `a` and `n` are to the type `t` of an operand. -/
structure Parts (t a n : Ty) : Prop where
  abrupt : ∀ m, m ∈ members a ↔ ∃ k ∈ abruptNs, ∃ u, m = comp k u ∧ (comp k u ∈ members t ∨ u = none ∧ anyCompletion ∈ members t)
  normal : ∀ m, m ∈ members n ↔ ∃ u, m = comp normalN u ∧ (comp normalN u ∈ members t ∨ u = none ∧ anyCompletion ∈ members t)

theorem normal_kind : normalN ∈ kinds ∧ normalN ∉ abruptNs := by decide

theorem kind_cases {k : String} (h : k ∈ kinds) : k = normalN ∨ k ∈ abruptNs := List.mem_cons.1 h

theorem abrupt_kind {k : String} (h : k ∈ abruptNs) : k ∈ kinds := List.mem_cons_of_mem _ h

theorem abrupt_ne {k : String} (h : k ∈ abruptNs) : k ≠ normalN := by
  rintro rfl; exact normal_kind.2 h

/-- Splitting the Completion Records of the type of an operand. -/
theorem parts_ok (hr : Ready cfg) (ho : SetOrder ord) {t cr : Ty} (h : OperandTy cfg t) (hcr : ∀ m, m ∈ members cr ↔ m ∈ members t ∧ IsComp m) {ab : Ty}
    (hab : abruptTy cfg ord = some ab) : ∃ a n, splitBy cfg ord cr ab = some (a, n) ∧ Parts t a n := by
  obtain ⟨ab', e, hm⟩ := abrupt_ok (cfg := cfg) (ord := ord) ho
  rw [hab] at e; injection e with e; subst e
  have hd : Distinct (members cr) := h.distinct (fun m hm => (hcr m).1 hm)
  obtain ⟨a, n, hs, h1, h2⟩ := split_kinds hr ho hd (ks := abruptNs) (B := ab) ⟨fun k hk => abrupt_kind hk, by decide, hm⟩
  have hany : anyCompletion ∈ members cr ↔ anyCompletion ∈ members t := by
    rw [hcr]; exact ⟨And.left, fun h => ⟨h, .inl rfl⟩⟩
  have hcomp : ∀ k u, k ∈ kinds → (comp k u ∈ members cr ↔ comp k u ∈ members t) := fun k u hk => by
    rw [hcr]; exact ⟨And.left, fun h => ⟨h, comp_isComp hk u⟩⟩
  refine ⟨a, n, hs, fun m => ?_, fun m => ?_⟩
  · rw [h1]
    constructor
    · rintro ⟨k, hk, u, e, hh⟩
      exact ⟨k, hk, u, e, by rwa [hcomp k u (abrupt_kind hk), hany] at hh⟩
    · rintro ⟨k, hk, u, e, hh⟩
      exact ⟨k, hk, u, e, by rwa [hcomp k u (abrupt_kind hk), hany]⟩
  · rw [h2]
    constructor
    · rintro ⟨k, hk, hk', u, e, hh⟩
      rcases kind_cases hk with rfl | hk2
      · exact ⟨u, e, by rwa [hcomp _ u normal_kind.1, hany] at hh⟩
      · exact absurd hk2 hk'
    · rintro ⟨u, e, hh⟩
      exact ⟨normalN, normal_kind.1, normal_kind.2, u, e, by rwa [hcomp _ u normal_kind.1, hany]⟩

theorem Parts.sub_normal (hr : Ready cfg) {t a n : Ty} (h : Parts t a n) : sub cfg n (completionType "tilde_normal_") = some true := by
  refine sub_members (fun m hm => ?_)
  obtain ⟨u, rfl, _⟩ := (h.normal m).1 hm
  refine ⟨isComp_record (comp_isComp normal_kind.1 u), ?_⟩
  have := sub_comp hr normal_kind.1 normal_kind.1 u
  rw [decide_eq_true rfl] at this
  exact this

/-- The type of the contained value. -/
theorem Parts.value (ho : SetOrder ord) {t a n : Ty} (ht : OperandTy cfg t) (h : Parts t a n) :
    (∀ u, comp normalN (some u) ∈ members t → dotField cfg ord n "[[Value]]" = some u) ∧
    (comp normalN none ∈ members t ∨ anyCompletion ∈ members t → dotField cfg ord n "[[Value]]" = some (.hier "Normal")) ∧
    (members n = [] → dotField cfg ord n "[[Value]]" = some T0) := by
  have key : ∀ u, (comp normalN u ∈ members t ∨ u = none ∧ anyCompletion ∈ members t) → ∀ m ∈ members n, m = comp normalN u := by
    intro u hu m hm
    obtain ⟨u', rfl, hu'⟩ := (h.normal m).1 hm
    congr 1
    rcases hu with hu | ⟨rfl, hu⟩
    · rcases hu' with hu' | ⟨rfl, hu'⟩
      · exact ht.one _ _ _ hu' hu
      · exact absurd hu (ht.all hu' _ _)
    · rcases hu' with hu' | ⟨rfl, hu'⟩
      · exact absurd hu' (ht.all hu _ _)
      · rfl
  have run : ∀ u, (comp normalN u ∈ members t ∨ u = none ∧ anyCompletion ∈ members t) → dotField cfg ord n "[[Value]]" = some (u.getD (.hier "Normal")) := by
    intro u hu
    refine dot_one ho (s := CRN) (fs := flds ("tilde_normal_", u)) ?_ (fun m hm => ?_) (field_normal u)
    · intro he
      have := (h.normal (comp normalN u)).2 ⟨u, rfl, hu⟩
      rw [he] at this; cases this
    · rw [key u hu m hm]; exact comp_flds (normalN, u)
  refine ⟨fun u hu => run (some u) (.inl hu), fun hh => run none (hh.imp id (fun x => ⟨rfl, x⟩)), dot_none ho⟩

theorem Parts.operand {t a n : Ty} (ht : OperandTy cfg t) (h : Parts t a n) : OperandTy cfg a where
  each := fun m hm => by
    obtain ⟨k, hk, u, rfl, _⟩ := (h.abrupt m).1 hm
    exact .inl (comp_isComp (abrupt_kind hk) u)
  one := fun k u u' h1 h2 => by
    obtain ⟨k1, _, u1, e1, g1⟩ := (h.abrupt _).1 h1
    obtain ⟨k2, _, u2, e2, g2⟩ := (h.abrupt _).1 h2
    obtain ⟨rfl, rfl⟩ := comp_inj e1
    obtain ⟨rfl, rfl⟩ := comp_inj e2
    rcases g1 with g1 | ⟨rfl, g1⟩
    · rcases g2 with g2 | ⟨rfl, g2⟩
      · exact ht.one _ _ _ g1 g2
      · exact absurd g1 (ht.all g2 _ _)
    · rcases g2 with g2 | ⟨rfl, g2⟩
      · exact absurd g2 (ht.all g1 _ _)
      · rfl
  all := fun h1 _ _ _ => by
    obtain ⟨k1, _, u1, e1, _⟩ := (h.abrupt _).1 h1
    exact comp_ne_any _ _ e1.symm

theorem Parts.onlyA {t a n : Ty} (h : Parts t a n) : OnlyCompletions a := fun m hm => by
  obtain ⟨k, hk, u, rfl, _⟩ := (h.abrupt m).1 hm
  exact comp_isComp (abrupt_kind hk) u

section
variable {K X T C : Type} [DecidableEq K] {L : Lang K X T C}

/-- What is returned is recorded as it is, if it is all Completion Records. -/
theorem wrapped_comps (hr : Ready L.cfg) (ho : SetOrder L.ord) {t : Ty} (ht : OperandTy L.cfg t) (hoc : OnlyCompletions t) (env : Env K) :
    wrapped L env t = some t := by
  unfold wrapped
  split
  · obtain ⟨cr, non, e, _, _, h3, _⟩ := split_any hr ho ht
    rw [e]
    dsimp only
    rw [if_pos]
    rw [tyEq_none, h3]
    intro n hn
    obtain ⟨fs, e⟩ := isComp_record (hoc _ hn)
    cases e
  · rfl

theorem addReturn_of {env : Env K} {t t' : Ty} {s s' : Acc K} {u : Unit} (h : addReturnOf L env t s = some (u, s')) (hw : wrapped L env t = some t') :
    ∃ ms : List Err, (∀ m ∈ ms, m = .returnType ∨ m = .notReturned) ∧ s' = { add s ms with rets := s.rets ++ [env.set .ret t'] } ∧
      (.returnType ∈ ms ↔ sub L.cfg t' (L.expected env.ctx) ≠ some true) := by
  unfold addReturnOf at h
  obtain ⟨t1, s1, h1, k1⟩ := bind_some h
  obtain ⟨e1, e1'⟩ := lift_of h1
  rw [hw] at e1; injection e1 with e1; subst e1
  obtain ⟨ok, s2, h2, k2⟩ := bind_some k1
  obtain ⟨e2, e2'⟩ := isSub_of h2
  obtain ⟨_, s3, h3, k3⟩ := bind_some k2
  rw [reportIf_run, e2', e1'] at h3
  obtain ⟨nr, s4, h4, k4⟩ := bind_some k3
  obtain ⟨e4, e4'⟩ := isSub_of h4
  obtain ⟨_, s5, h5, k5⟩ := bind_some k4
  rw [reportIf_run, e4'] at h5
  injection h3 with h3; injection h3 with _ h3
  injection h5 with h5; injection h5 with _ h5
  rw [← h3] at h5
  simp only [addReturn, Option.some.injEq, Prod.mk.injEq] at k5
  rw [← h5] at k5
  obtain ⟨_, k5⟩ := k5
  rw [← k5]
  clear k5 h5 h3
  refine ⟨(if !ok then [.returnType] else []) ++ (if nr then [.notReturned] else []), ?_, ?_, ?_⟩
  · intro m hm
    cases ok <;> cases nr <;> simp at hm <;> simp [hm]
  · rw [add_add]; rfl
  · rw [e2]
    cases ok <;> cases nr <;> simp

/-- The two ways that the analysis of a shorthand can go. -/
theorem unwrap_of (hr : Ready L.cfg) (ho : SetOrder L.ord) {o : Op} {callOf : X → Option (String × List (Expr X))} {slot : Expr X → Option (Ty × Ty)}
    {e : Expr X} {env env1 env' : Env K} {t rt : Ty} {es : List Err} (hown : Own L e env t env1 es) (ht : OperandTy L.cfg t) {s s' : Acc K}
    (h : unwrap L o callOf slot e env s = some ((rt, env'), s')) :
    ((∀ m ∈ members t, ¬ IsComp m) ∧ env' = env1 ∧ s' = add s (es ++ [noPart]) ∧
      ∀ I : Interp, Respects L.cfg I → Exhaustive L.cfg I → ∀ v : I.V, den L.cfg I rt v ↔ den L.cfg I t v) ∨
    ((∃ m ∈ members t, IsComp m) ∧ ∃ a n ms, Parts t a n ∧ (∀ m, m ∈ ms ↔ Deserved o t m) ∧ dotField L.cfg L.ord n "[[Value]]" = some rt ∧
      ((o = .bang ∧ members n ≠ [] ∧ env' = env1 ∧ s' = add s (es ++ ms)) ∨
       (o = .question ∧ ∃ rest s3, (∀ m ∈ rest, m = .returnType ∨ m = .notReturned) ∧ (.returnType ∈ rest ↔ sub L.cfg a (L.expected env1.ctx) ≠ some true) ∧
         s3 = { add s (es ++ ms ++ rest) with rets := s.rets ++ [env1.set .ret a] } ∧ after L callOf slot e rt env1 s3 = some (env', s')))) := by
  unfold unwrap at h
  obtain ⟨⟨t', env1'⟩, s1, h1, k1⟩ := bind_some h
  rw [own_run hown] at h1
  injection h1 with h1; injection h1 with h1 h1'; injection h1 with h1a h1b
  subst h1a; subst h1b; subst h1'
  dsimp only at k1
  have htbd : tyEq t .tbd = false := by
    cases he : tyEq t .tbd with
    | false => rfl
    | true =>
      rw [tyEq_iff] at he
      have hm := (he .tbd).2 (by simp [members])
      rcases ht.each _ hm with h | ⟨n, _, e, _⟩
      · obtain ⟨fs, e⟩ := isComp_record h
        cases e
      · cases e
  rw [htbd] at k1
  simp only [Bool.false_eq_true, if_false] at k1
  obtain ⟨⟨cr, non⟩, s2, h2, k2⟩ := bind_some k1
  obtain ⟨h2, h2'⟩ := lift_of h2
  rw [h2'] at k2
  obtain ⟨cr', non', hs, hcr, hnf, hnon, hden⟩ := split_any hr ho ht
  rw [h2] at hs
  injection hs with hs; injection hs with hs1 hs2; subst hs1; subst hs2
  dsimp only at k2
  have hcomps : members cr = [] ↔ ∀ m ∈ members t, ¬ IsComp m := by
    rw [List.eq_nil_iff_forall_not_mem]
    exact ⟨fun h m hm hc => h m ((hcr m).2 ⟨hm, hc⟩), fun h m hm => h m ((hcr m).1 hm).1 ((hcr m).1 hm).2⟩
  cases hc0 : tyEq cr T0 with
  | true =>
    rw [hc0, if_pos rfl] at k2
    have hno := hcomps.1 (tyEq_none.1 hc0)
    obtain ⟨_, s3, h3, k3⟩ := bind_some k2
    rw [report_run] at h3
    injection h3 with h3; injection h3 with _ h3
    obtain ⟨e3, e3'⟩ := pure_of k3
    injection e3 with e3a e3b
    subst e3a; subst e3b
    refine .inl ⟨hno, rfl, by rw [e3', ← h3, add_add], fun I hR hE v => ?_⟩
    rw [hden I hR hE v, den_members]
    constructor
    · rintro ⟨n, hn, hv⟩; exact ⟨_, hn, by simpa [den] using hv⟩
    · rintro ⟨m, hm, hv⟩
      rcases ht.each m hm with h | ⟨n, _, rfl, _⟩
      · exact absurd h (hno m hm)
      · exact ⟨n, hm, by simpa [den] using hv⟩
  | false =>
    rw [hc0] at k2
    simp only [Bool.false_eq_true, if_false] at k2
    have hex : ∃ m ∈ members t, IsComp m := by
      refine Classical.byContradiction (fun hh => ?_)
      have : tyEq cr T0 = true := tyEq_none.2 (hcomps.2 (fun m hm hc => hh ⟨m, hm, hc⟩))
      rw [hc0] at this; cases this
    obtain ⟨_, s3, h3, k3⟩ := bind_some k2
    rw [reportIf_run] at h3
    injection h3 with h3; injection h3 with _ h3
    obtain ⟨ab, s4, h4, k4⟩ := bind_some k3
    obtain ⟨h4, h4'⟩ := lift_of h4
    obtain ⟨⟨a, n⟩, s5, h5, k5⟩ := bind_some k4
    obtain ⟨h5, h5'⟩ := lift_of h5
    obtain ⟨a', n', hp1, hp⟩ := parts_ok hr ho ht hcr h4
    rw [h5] at hp1
    injection hp1 with hp1; injection hp1 with hp1 hp2; subst hp1; subst hp2
    dsimp only at k5
    obtain ⟨_, s6, h6, k6⟩ := bind_some k5
    rw [h5', h4', ← h3] at h6
    -- the messages
    have ha0 : tyEq a T0 = true ↔ anyCompletion ∉ members t ∧ ∀ k ∈ abruptNs, ∀ u, comp k u ∉ members t := by
      rw [tyEq_none, List.eq_nil_iff_forall_not_mem]
      constructor
      · intro h
        refine ⟨fun hm => h (comp "tilde_break_" none) ((hp.abrupt _).2 ⟨_, by decide, none, rfl, .inr ⟨rfl, hm⟩⟩), fun k hk u hm => h _ ((hp.abrupt _).2 ⟨k, hk, u, rfl, .inl hm⟩)⟩
      · rintro ⟨g1, g2⟩ m hm
        obtain ⟨k, hk, u, _, hh | ⟨_, hh⟩⟩ := (hp.abrupt m).1 hm
        · exact g2 k hk u hh
        · exact g1 hh
    have hn0 : tyEq n T0 = true ↔ anyCompletion ∉ members t ∧ ∀ u, comp normalN u ∉ members t := by
      rw [tyEq_none, List.eq_nil_iff_forall_not_mem]
      constructor
      · intro h
        refine ⟨fun hm => h (comp normalN none) ((hp.normal _).2 ⟨none, rfl, .inr ⟨rfl, hm⟩⟩), fun u hm => h _ ((hp.normal _).2 ⟨u, rfl, .inl hm⟩)⟩
      · rintro ⟨g1, g2⟩ m hm
        obtain ⟨u, _, hh | ⟨_, hh⟩⟩ := (hp.normal m).1 hm
        · exact g2 u hh
        · exact g1 hh
    have hom : (!tyEq non T0) = true ↔ ∃ n, .hier n ∈ members t := by
      have : tyEq non T0 = true ↔ ∀ n, .hier n ∉ members t := tyEq_none.trans hnon
      cases hx : tyEq non T0 with
      | true => simp only [Bool.not_true, Bool.false_eq_true, false_iff, not_exists]; exact this.1 hx
      | false =>
        simp only [Bool.not_false, true_iff]
        refine Classical.byContradiction (fun hh => ?_)
        rw [this.2 (fun n hn => hh ⟨n, hn⟩)] at hx; cases hx
    have hnoPart : ∀ m, ¬ (m = noPart ∧ ∀ a ∈ members t, ¬ IsComp a) := fun m ⟨_, hh⟩ => by
      obtain ⟨m, hm, hc⟩ := hex
      exact hh m hm hc
    refine .inr ⟨hex, a, n, ?_⟩
    unfold unwrapParts at k6
    obtain ⟨ok, s7, h7, k7⟩ := bind_some k6
    obtain ⟨h7, h7'⟩ := isSub_of h7
    rw [hp.sub_normal hr] at h7
    injection h7 with h7; subst h7
    simp only [if_true] at k7
    obtain ⟨rt', s8, h8, k8⟩ := bind_some k7
    obtain ⟨h8, h8'⟩ := lift_of h8
    rw [h8', h7'] at k8
    cases o with
    | bang =>
      unfold partMessages at h6
      dsimp only at h6
      split at h6
      · cases h6
      · rename_i hn
        obtain ⟨_, h6⟩ := pure_of h6
        obtain ⟨e, e'⟩ := pure_of k8
        injection e with e1 e2
        subst e1; subst e2
        refine ⟨if (!tyEq non T0) then [omitted] else [], hp, fun m => ?_, h8, .inl ⟨rfl, fun hh => hn (tyEq_none.2 hh), rfl, ?_⟩⟩
        · unfold Deserved
          rw [← hom]
          constructor
          · intro hm
            refine .inr ⟨hex, .inl ?_⟩
            split at hm
            · rename_i hc; exact ⟨List.mem_singleton.1 hm, hc⟩
            · cases hm
          · rintro (hh | ⟨_, ⟨rfl, hc⟩ | ⟨hh, _⟩⟩)
            · exact absurd hh (hnoPart m)
            · rw [if_pos hc]; simp
            · cases hh
        · rw [e', h6, add_add]
    | question =>
      unfold partMessages at h6
      dsimp only at h6
      obtain ⟨_, s9, h9, k9⟩ := bind_some h6
      rw [reportIf_run] at h9
      injection h9 with h9; injection h9 with _ h9
      rw [reportIf_run, ← h9] at k9
      injection k9 with k9; injection k9 with _ k9
      dsimp only at k8
      obtain ⟨_, s10, h10, k10⟩ := bind_some k8
      obtain ⟨rest, hr1, hr2, hr3⟩ := addReturn_of h10 (wrapped_comps hr ho (hp.operand ht) hp.onlyA env1)
      obtain ⟨env2, s11, h11, k11⟩ := bind_some k10
      obtain ⟨e, e'⟩ := pure_of k11
      injection e with e1 e2
      subst e1; subst e2; subst e'
      refine ⟨(if (!tyEq non T0) then [omitted] else []) ++ (if tyEq a T0 then [noAbrupt] else []) ++ (if tyEq n T0 then [noNormal] else []), hp, fun m => ?_, h8, .inr ⟨rfl, rest, s10, hr1, hr3, ?_, h11⟩⟩
      · unfold Deserved
        rw [← hom, ← ha0, ← hn0]
        simp only [List.mem_append]
        constructor
        · intro hm
          refine .inr ⟨hex, ?_⟩
          rcases hm with (hm | hm) | hm
          · left
            split at hm
            · rename_i hc; exact ⟨List.mem_singleton.1 hm, hc⟩
            · cases hm
          · refine .inr ⟨by simp, .inl ?_⟩
            split at hm
            · rename_i hc; exact ⟨List.mem_singleton.1 hm, hc⟩
            · cases hm
          · refine .inr ⟨by simp, .inr ?_⟩
            split at hm
            · rename_i hc; exact ⟨List.mem_singleton.1 hm, hc⟩
            · cases hm
        · rintro (hh | ⟨_, ⟨rfl, hc⟩ | ⟨_, ⟨rfl, hc⟩ | ⟨rfl, hc⟩⟩⟩)
          · exact absurd hh (hnoPart m)
          · rw [if_pos hc]; simp
          · rw [if_pos hc]; simp
          · rw [if_pos hc]; simp
      · rw [hr2, ← k9]
        simp only [add_add]
        simp [add]

end

end Verif.Unwrap
