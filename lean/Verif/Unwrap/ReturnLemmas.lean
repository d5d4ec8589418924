import Verif.Unwrap.AfterLemmas
/-! # What is recorded of a return -/
namespace Verif.Unwrap
open Verif.Types Verif.Env Verif.Calls

variable {cfg : Cfg} {ord : List Ty → List Ty}

/-- The union of types of Completion Records of different kinds. -/
theorem or_comps (ho : SetOrder ord) {A B : Ty} (hd : Distinct (members A ++ members B)) (hnA : members A ≠ []) (hnB : members B ≠ [])
    {x y : Ty} (hx : x ∈ members A) (hy : y ∈ members B) (hxy : x ≠ y) (hAB : A ≠ B) :
    ∃ T, orTy cfg ord A B = some T ∧ ∀ m, m ∈ members T ↔ m ∈ members A ∨ m ∈ members B := by
  have h0 : ∀ C, members C ≠ [] → C ≠ T0 := by rintro C hC rfl; exact hC rfl
  have ht : ∀ C, (∀ m ∈ members C, IsComp m) → C ≠ .tbd := by
    rintro C hC rfl
    obtain ⟨fs, e⟩ := isComp_record (hC .tbd (by simp [members]))
    cases e
  have hAt := ht A (fun m hm => hd.each m (by simp [hm]))
  have hBt := ht B (fun m hm => hd.each m (by simp [hm]))
  unfold orTy
  rw [if_neg hAB, unionOf_eq ho]
  have hord := ho [A, B]
  have hmem : ∀ x, x ∈ ord [A, B] ↔ x = A ∨ x = B := by intro x; rw [hord.2]; simp
  have hf1 : (ord [A, B]).filter (· ≠ T0) = ord [A, B] := by
    rw [List.filter_eq_self]; intro m hm
    rcases (hmem m).1 hm with rfl | rfl
    · simpa using h0 _ hnA
    · simpa using h0 _ hnB
  have hf2 : (ord [A, B]).filter (· ≠ .tbd) = ord [A, B] := by
    rw [List.filter_eq_self]; intro m hm
    rcases (hmem m).1 hm with rfl | rfl
    · simpa using hAt
    · simpa using hBt
  have hstep : unionStep cfg ord (unionOf cfg ord) [A, B] = match ord [A, B] with
      | [t] => some t
      | ts1 => match ts1.filter (· ≠ T0) with
        | [t] => some t
        | ts2 => match ts2.filter (· ≠ .tbd) with
          | [t] => some t
          | ts3 => unionGeneral cfg ord (unionOf cfg ord) ts3 := rfl
  rw [hstep]
  have hlen := two_of hord.1 ((hmem A).2 (.inl rfl)) ((hmem B).2 (.inr rfl)) hAB
  have hfm : ∀ m, m ∈ (ord [A, B]).flatMap members ↔ m ∈ members A ∨ m ∈ members B := by
    intro m
    rw [List.mem_flatMap]
    constructor
    · rintro ⟨x, hx, hm⟩
      rcases (hmem x).1 hx with rfl | rfl
      · exact .inl hm
      · exact .inr hm
    · rintro (hm | hm)
      · exact ⟨A, (hmem A).2 (.inl rfl), hm⟩
      · exact ⟨B, (hmem B).2 (.inr rfl), hm⟩
  match hl : ord [A, B], hlen with
  | a :: b :: l, _ =>
    rw [hl] at hf1 hf2 hfm
    simp only [hf1, hf2]
    obtain ⟨T, hT, hm⟩ := unionGeneral_comps (cfg := cfg) (rec := unionOf cfg ord) ho (ts := a :: b :: l)
      (hd.congr (fun m hm => by simpa using (hfm m).1 hm)) ((hfm x).2 (.inl hx)) ((hfm y).2 (.inr hy)) hxy
    exact ⟨T, hT, fun m => by rw [hm, hfm]⟩

/-- The union with the empty type. -/
theorem or_empty (ho : SetOrder ord) {A : Ty} (hA : A ≠ T0) : orTy cfg ord A T0 = some A := by
  unfold orTy
  rw [if_neg hA, unionOf_eq ho]
  have hord := ho [A, T0]
  have hmem : ∀ x, x ∈ ord [A, T0] ↔ x = A ∨ x = T0 := by intro x; rw [hord.2]; simp
  have hlen := two_of hord.1 ((hmem A).2 (.inl rfl)) ((hmem T0).2 (.inr rfl)) hA
  have hf1 : (ord [A, T0]).filter (· ≠ T0) = [A] := by
    have hnd : ((ord [A, T0]).filter (· ≠ T0)).Nodup := hord.1.sublist List.filter_sublist
    have hall : ∀ x, x ∈ (ord [A, T0]).filter (· ≠ T0) ↔ x = A := by
      intro x
      rw [List.mem_filter, hmem]
      constructor
      · rintro ⟨rfl | rfl, h⟩
        · rfl
        · simp at h
      · rintro rfl
        exact ⟨.inl rfl, by simpa using hA⟩
    match hl : (ord [A, T0]).filter (· ≠ T0), hall, hnd with
    | [], hall, _ => have := (hall A).2 rfl; cases this
    | [x], hall, _ => rw [(hall x).1 (by simp)]
    | x :: z :: l, hall, hnd =>
      rw [(hall x).1 (by simp), (hall z).1 (by simp)] at hnd
      simp at hnd
  have hstep : unionStep cfg ord (unionOf cfg ord) [A, T0] = match ord [A, T0] with
      | [t] => some t
      | ts1 => match ts1.filter (· ≠ T0) with
        | [t] => some t
        | ts2 => match ts2.filter (· ≠ .tbd) with
          | [t] => some t
          | ts3 => unionGeneral cfg ord (unionOf cfg ord) ts3 := rfl
  rw [hstep]
  match hl : ord [A, T0], hlen with
  | a :: b :: l, _ =>
    rw [hl] at hf1
    simp only [hf1]

section
variable {K X T C : Type} [DecidableEq K] {L : Lang K X T C} {I : Interp}

/-- A type that is recorded for a return has what is returned. -/
theorem wrapped_sound (hr : Ready L.cfg) (ho : SetOrder L.ord) (hR : Respects L.cfg I) (hE : Exhaustive L.cfg I) {t : Ty} (ht : OperandTy L.cfg t)
    (hmix : (∃ n, .hier n ∈ members t) → anyCompletion ∉ members t ∧ ∀ u, comp normalN u ∉ members t)
    (hnc : ∀ n, .hier n ∈ members t → ∀ w, I.named n w → ¬ IsCompletion L.cfg I w) (env : Env K) :
    ∃ T, wrapped L env t = some T ∧ ∀ w v, den L.cfg I t w → ReturnedAs L.cfg I (L.wraps env.ctx) w v → den L.cfg I T v := by
  unfold wrapped ReturnedAs
  cases hwr : L.wraps env.ctx with
  | false =>
    refine ⟨t, rfl, fun w v hw hv => ?_⟩
    rcases hv with ⟨e, _⟩ | ⟨_, rfl⟩
    · cases e
    · exact hw
  | true =>
    obtain ⟨cr, non, hs, hcr, hfl, hnon, hden⟩ := split_any hr ho ht
    rw [if_pos rfl, hs]
    dsimp only
    have hcompl : ∀ w, (∃ m ∈ members t, IsComp m ∧ den L.cfg I m w) → IsCompletion L.cfg I w := by
      rintro w ⟨m, _, rfl | ⟨k, _, u, rfl⟩, hw⟩
      · exact den_any.1 hw
      · exact (den_comp.1 hw).1
    cases hn0 : tyEq non T0 with
    | true =>
      have hno := hnon.1 (tyEq_none.1 hn0)
      rw [if_pos rfl]
      refine ⟨t, rfl, fun w v hw hv => ?_⟩
      have hw' := hw
      rw [den_members] at hw'
      obtain ⟨m, hm, hwm⟩ := hw'
      have hc := hcompl w ⟨m, hm, (ht.each m hm).elim id (fun ⟨n, _, e, _⟩ => absurd (e ▸ hm) (hno n)), hwm⟩
      rcases hv with ⟨_, hn, _⟩ | ⟨_, rfl⟩
      · exact absurd hc hn
      · exact hw
    | false =>
      simp only [Bool.false_eq_true, if_false]
      have hhas : ∃ n, .hier n ∈ members t := Classical.byContradiction (fun hh => by
        have := tyEq_none.2 (hnon.2 (fun n hn => hh ⟨n, hn⟩))
        rw [hn0] at this; cases this)
      obtain ⟨hany, hnor⟩ := hmix hhas
      have hR' : (Ty.record CRN [("[[Type]]", .hier "tilde_normal_"), ("[[Value]]", non)]) = comp normalN (some non) := rfl
      rw [hR']
      have key : ∀ T : Ty, (∀ m, m ∈ members T ↔ m = comp normalN (some non) ∨ m ∈ members cr) → ∀ w v, den L.cfg I t w →
          ReturnedAs L.cfg I true w v → den L.cfg I T v := by
        intro T hT w v hw hv
        rw [den_members] at hw ⊢
        obtain ⟨m, hm, hwm⟩ := hw
        rcases ht.each m hm with hc | ⟨n, _, rfl, _⟩
        · have hc' := hcompl w ⟨m, hm, hc, hwm⟩
          rcases hv with ⟨_, hn, _⟩ | ⟨_, rfl⟩
          · exact absurd hc' hn
          · exact ⟨m, (hT m).2 (.inr ((hcr m).2 ⟨hm, hc⟩)), hwm⟩
        · simp only [den] at hwm
          have hc' := hnc n hm w hwm
          rcases hv with ⟨_, _, hv⟩ | ⟨e | e, _⟩
          rotate_left
          · cases e
          · exact absurd e hc'
          refine ⟨_, (hT _).2 (.inl rfl), den_comp.2 ⟨hv.1, hv.2.1, fun t' e => ⟨w, hv.2.2, ?_⟩⟩⟩
          injection e with e; subst e
          exact (hden I hR hE w).2 ⟨n, hm, hwm⟩
      by_cases hc0 : members cr = []
      · have hcrT : cr = T0 := by
          cases cr with
          | union ms => have : ms = [] := hc0; rw [this]; rfl
          | _ => simp [members] at hc0
        rw [hcrT, or_empty ho (by simp [comp, T0])]
        refine ⟨_, rfl, fun w v hw hv => key _ (fun m => ?_) w v hw (by unfold ReturnedAs; simpa using hv)⟩
        rw [hc0]
        simp [comp, members]
      · obtain ⟨y, hy⟩ := List.exists_mem_of_ne_nil _ hc0
        have hmA : members (comp normalN (some non)) = [comp normalN (some non)] := rfl
        have hynot : comp normalN (some non) ∉ members cr := fun h => hnor _ ((hcr _).1 h).1
        have hd : Distinct (members (comp normalN (some non)) ++ members cr) := by
          rw [hmA]
          constructor
          · intro m hm
            rcases List.mem_append.1 hm with hm | hm
            · rw [List.mem_singleton.1 hm]; exact comp_isComp normal_kind.1 _
            · exact ((hcr m).1 hm).2
          · intro k u u' h1 h2
            rcases List.mem_append.1 h1 with h1 | h1
            · obtain ⟨rfl, rfl⟩ := comp_inj (List.mem_singleton.1 h1)
              rcases List.mem_append.1 h2 with h2 | h2
              · exact (comp_inj (List.mem_singleton.1 h2)).2.symm
              · exact absurd ((hcr _).1 h2).1 (hnor _)
            · rcases List.mem_append.1 h2 with h2 | h2
              · obtain ⟨rfl, rfl⟩ := comp_inj (List.mem_singleton.1 h2)
                exact absurd ((hcr _).1 h1).1 (hnor _)
              · exact ht.one _ _ _ ((hcr _).1 h1).1 ((hcr _).1 h2).1
          · intro h
            rcases List.mem_append.1 h with h | h
            · exact absurd (List.mem_singleton.1 h).symm (comp_ne_any _ _)
            · exact absurd ((hcr _).1 h).1 hany
        obtain ⟨T, hT, hmT⟩ := or_comps (cfg := L.cfg) (ord := L.ord) ho hd (by rw [hmA]; simp) hc0 (x := comp normalN (some non)) (by rw [hmA]; simp) hy
          (by rintro rfl; exact hynot hy) (by intro e; exact hynot (by rw [← e, hmA]; simp))
        refine ⟨T, hT, fun w v hw hv => key T (fun m => ?_) w v hw (by unfold ReturnedAs; simpa using hv)⟩
        rw [hmT, hmA, List.mem_singleton]

theorem assert_adds {e : Expr X} {A t : Ty} {env : Env K} {s s' : Acc K} (h : assertType L e A env s = some (t, s')) :
    ∃ env1 es ms, Own L e env t env1 es ∧ s' = add s ms := by
  unfold assertType at h
  split at h
  · cases h
  · obtain ⟨⟨t', env1⟩, s1, h1, k1⟩ := bind_some h
    obtain ⟨es, hown, e1⟩ := own_of h1
    dsimp only at k1 hown
    split at k1
    · obtain ⟨_, s2, h2, k2⟩ := bind_some k1
      rw [report_run, e1, add_add] at h2
      injection h2 with h2; injection h2 with _ h2
      obtain ⟨rfl, e2⟩ := pure_of k2
      exact ⟨env1, es, es ++ [.isTBD], hown, by rw [e2, h2]⟩
    · obtain ⟨b, s2, h2, k2⟩ := bind_some k1
      obtain ⟨_, e2⟩ := isSub_of h2
      split at k2
      · obtain ⟨rfl, e3⟩ := pure_of k2
        exact ⟨env1, es, es, hown, by rw [e3, e2, e1]⟩
      · cases k2

theorem assert_quiet {x : String} {A t t' : Ty} {env : Env K} {s s' : Acc K} (hx : get env.vars (.var x) = some t) (ht : tyEq t .tbd = false)
    (h : assertType L (.var x : Expr X) A env s = some (t', s')) : t' = t ∧ s' = s := by
  unfold assertType at h
  split at h
  · cases h
  · rw [tcExpr_found hx, bind_run (show (M.pure (t, env) : M K _) s = some ((t, env), s) from rfl)] at h
    dsimp only at h
    rw [ht] at h
    simp only [Bool.false_eq_true, if_false] at h
    obtain ⟨b, s2, h2, k2⟩ := bind_some h
    obtain ⟨_, e2⟩ := isSub_of h2
    split at k2
    · obtain ⟨rfl, e3⟩ := pure_of k2
      exact ⟨rfl, by rw [e3, e2]⟩
    · cases k2

/-- Splitting by the normal completions. -/
theorem parts_normal (hr : Ready L.cfg) (ho : SetOrder L.ord) {t : Ty} (ht : OperandTy L.cfg t) (hoc : OnlyCompletions t) :
    ∃ n a, splitBy L.cfg L.ord t (completionType "tilde_normal_") = some (n, a) ∧ Parts t a n := by
  have hd : Distinct (members t) := ht.distinct (fun m hm => ⟨hm, hoc m hm⟩)
  obtain ⟨n, a, hs, h1, h2⟩ := split_kinds hr ho hd (ks := [normalN]) (B := completionType "tilde_normal_") ⟨by simp [normal_kind.1], by simp, fun m => by
    show m ∈ [completionType "tilde_normal_"] ↔ _
    simp [normalN]⟩
  refine ⟨n, a, hs, fun m => ?_, fun m => ?_⟩
  · rw [h2]
    constructor
    · rintro ⟨k, hk, hk', u, hh⟩
      exact ⟨k, (kind_cases hk).resolve_left (fun e => hk' (by simp [e])), u, hh⟩
    · rintro ⟨k, hk, u, hh⟩
      exact ⟨k, abrupt_kind hk, by simpa using abrupt_ne hk, u, hh⟩
  · rw [h1]
    simp

/-- Abrupt completions, or a throw completion. -/
theorem or_throw (ho : SetOrder L.ord) {t a n : Ty} (ht : OperandTy L.cfg t) (hp : Parts t a n) (hne : members a ≠ [])
    (hth : ∀ u, comp "tilde_throw_" (some u) ∉ members t) :
    ∃ T, orTy L.cfg L.ord a (completionType "tilde_throw_") = some T ∧ (∀ m, m ∈ members T ↔ m ∈ members a ∨ m = completionType "tilde_throw_") ∧
      OperandTy L.cfg T ∧ OnlyCompletions T := by
  have hB : completionType "tilde_throw_" = comp "tilde_throw_" none := rfl
  have hthr : "tilde_throw_" ∈ abruptNs := by decide
  have hao := hp.operand (cfg := L.cfg) ht
  have hth' : ∀ u, comp "tilde_throw_" u ∈ members a → u = none := by
    intro u hu
    obtain ⟨k, _, u', e, hh⟩ := (hp.abrupt _).1 hu
    obtain ⟨rfl, rfl⟩ := comp_inj e
    cases u with
    | none => rfl
    | some w =>
      rcases hh with hh | ⟨hh, _⟩
      · exact absurd hh (hth w)
      · cases hh
  have hany : anyCompletion ∉ members a := by
    intro h
    obtain ⟨k, _, u, e, _⟩ := (hp.abrupt _).1 h
    exact comp_ne_any _ _ e.symm
  have hone : ∀ ms : List Ty, (∀ m, m ∈ ms → m ∈ members a ∨ m = completionType "tilde_throw_") → ∀ k u u', comp k u ∈ ms → comp k u' ∈ ms → u = u' := by
    intro ms hms k u u' h1 h2
    rcases hms _ h1 with h1 | h1
    · rcases hms _ h2 with h2 | h2
      · exact hao.one _ _ _ h1 h2
      · rw [hB] at h2
        obtain ⟨rfl, rfl⟩ := comp_inj h2
        exact hth' u h1
    · rw [hB] at h1
      obtain ⟨rfl, rfl⟩ := comp_inj h1
      rcases hms _ h2 with h2 | h2
      · exact (hth' u' h2).symm
      · rw [hB] at h2
        exact (comp_inj h2).2.symm
  have hcomp : ∀ m, m ∈ members a ∨ m = completionType "tilde_throw_" → IsComp m := by
    rintro m (hm | rfl)
    · exact hp.onlyA m hm
    · exact comp_isComp (abrupt_kind hthr) none
  have hnany : ¬ (anyCompletion ∈ members a ∨ anyCompletion = completionType "tilde_throw_") := by
    rintro (h | h)
    · exact hany h
    · exact comp_ne_any "tilde_throw_" none h.symm
  have hin : ∀ m, m ∈ members a ++ [completionType "tilde_throw_"] → m ∈ members a ∨ m = completionType "tilde_throw_" := by
    intro m hm; simpa using hm
  obtain ⟨T, hT, hm⟩ := or_comp (cfg := L.cfg) (ord := L.ord) ho (A := a) (B := completionType "tilde_throw_") (k := "tilde_throw_") rfl
    ⟨fun m hm => hcomp m (hin m hm), hone _ hin, fun h => absurd (hin _ h) hnany⟩ hne
  exact ⟨T, hT, hm, ⟨fun m h => .inl (hcomp m ((hm m).1 h)), hone _ (fun m => (hm m).1), fun h => absurd ((hm _).1 h) hnany⟩, fun m h => hcomp m ((hm m).1 h)⟩

end

end Verif.Unwrap
