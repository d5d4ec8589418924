import Verif.Calls.LoopLemmas
/-! # Checking the type of an expression, and elements of lists -/
namespace Verif.Calls
open Verif.Types Verif.Env

variable {K X T C : Type} [DecidableEq K] {L : Lang K X T C} {I : Interp}

theorem isTBD_iff {t : Ty} : tyEq t .tbd = true ↔ IsTBD t := by
  rw [tyEq_iff]
  unfold IsTBD
  simp [members]

theorem not_isTBD {t : Ty} (h : ¬ IsTBD t) : tyEq t .tbd = false := by
  cases hq : tyEq t .tbd with
  | false => rfl
  | true => exact absurd (isTBD_iff.1 hq) h

theorem replaced_spec (e : Expr X) (A : Ty) (env : Env K) : Retyped e A env (replaced env e A) := by
  cases e with
  | other e => exact ⟨rfl, fun k => rfl⟩
  | var x =>
    refine ⟨rfl, fun k => ?_⟩
    simp only [replaced, Env.set]
    by_cases hk : k = .var x
    · subst hk; simp [get_put_self]
    · rw [if_neg hk, get_put_ne _ _ (Ne.symm hk)]

/-- What `ensureType` does, once the type of the expression is known. -/
theorem ensure_run {txt : X → Text} {e : Expr X} {A t : Ty} {env env1 : Env K} {es : List Err} (hA : ¬ IsTBD A) (hown : Own L e env t env1 es) (s : Acc K) :
    ensureType L txt e A env s =
      (if tyEq t .tbd then some ((A, replaced env1 e A), add s es)
      else match sub L.cfg t A with
        | none => none
        | some true => some ((t, env1), add s es)
        | some false => match textOf txt e with
          | .null => none
          | .undefined => some ((t, env1), add s (es ++ [.wrongType]))
          | .empty => some ((t, env1), add s (es ++ [.wrongType]))
          | .other => some ((A, replaced env1 e A), add s (es ++ [.wrongType]))) := by
  unfold ensureType
  rw [not_isTBD hA]
  simp only [Bool.false_eq_true, if_false]
  rw [bind_run (own_run hown s)]
  dsimp only
  split
  · rfl
  · cases hs : sub L.cfg t A with
    | none => simp [bind, M.bind, isSub, M.lift, hs]
    | some b =>
      rw [bind_run (isSub_run hs _)]
      cases b with
      | true => rfl
      | false =>
        simp only [Bool.false_eq_true, if_false]
        rw [bind_run (report_run _ _), add_add]
        cases textOf txt e <;> rfl

theorem ensure_of {txt : X → Text} {e : Expr X} {A : Ty} {env : Env K} {s s' : Acc K} {r} (h : ensureType L txt e A env s = some (r, s')) :
    ¬ IsTBD A ∧ ∃ t env1 es, Own L e env t env1 es := by
  unfold ensureType at h
  split at h
  · cases h
  · rename_i hA
    obtain ⟨⟨t, env1⟩, s1, h1, h2⟩ := bind_some h
    obtain ⟨es, ho, _⟩ := own_of h1
    exact ⟨fun hh => hA (isTBD_iff.2 hh), t, env1, es, ho⟩

theorem within_sub (hc : CfgOk L.cfg) {A B : Ty} (hB : FieldsOk B) (h : sub L.cfg A B = some true) : Within L.cfg A B :=
  fun _ hr hp v hv => c14_sound hc hr hp hB h v hv

theorem flat_fieldsOk {B : Ty} (hB : Flat L.cfg B) : FieldsOk B := fieldsOk_members (fun m hm => by
  obtain ⟨n, _, rfl⟩ := hB m hm
  simp [FieldsOk, Deep])

theorem sub_within (hc : CfgOk L.cfg) {A B : Ty} (hA : Flat L.cfg A) (hB : Flat L.cfg B) (h : Within L.cfg A B) : sub L.cfg A B = some true :=
  c14_complete_named hc hA hB (fun I hr v hv => by
    let J : Interp := { I with procs := fun _ _ _ => False }
    have hrJ : Respects L.cfg J := { top := hr.top, child := hr.child, list := hr.list, record := hr.record, proc := fun _ _ _ h => h.elim }
    have key : ∀ T', Flat L.cfg T' → ∀ v, den L.cfg J T' v ↔ den L.cfg I T' v := by
      intro T' hT v
      rw [den_members, den_members (A := T')]
      constructor
      · rintro ⟨m, hm, hv⟩
        obtain ⟨n, _, rfl⟩ := hT m hm
        exact ⟨_, hm, hv⟩
      · rintro ⟨m, hm, hv⟩
        obtain ⟨n, _, rfl⟩ := hT m hm
        exact ⟨_, hm, hv⟩
    exact (key B hB v).1 (h J hrJ (fun _ _ _ _ _ _ _ h => h.elim) v ((key A hA v).2 hv)))

theorem not_isTBD_flat {A : Ty} (h : Flat L.cfg A) : ¬ IsTBD A := fun hh => by
  have := flat_not_tbd h
  rw [isTBD_iff.2 hh] at this; cases this

/-! ### Appending -/

/-- None of the messages that say something is wrong. -/
theorem var_own {x : String} {t lt : Ty} {env env1 : Env K} {es : List Err} (hx : get env.vars (.var x) = some lt) (h : Own L (.var x) env t env1 es) :
    t = lt ∧ env1 = env ∧ es = [] := by
  have h2 : Own L (.var x : Expr X) env lt env [] := fun s => by
    unfold tcExpr
    simp [hx, M.pure]
  exact own_unique h h2

theorem narrow_of {x : String} {A : Ty} {env env' : Env K} {s s' : Acc K} (h : narrow L env (.var x : Expr X) A s = some (env', s')) {lt : Ty}
    (hx : get env.vars (.var x) = some lt) : s' = s ∧ (env' = env ∨ env' = env.set (.var x) A) := by
  unfold narrow at h
  dsimp only at h
  unfold narrowed at h
  obtain ⟨r, s1, h1, h2⟩ := bind_some h
  obtain ⟨es, ho, rfl⟩ := own_of h1
  obtain ⟨e1, e2, rfl⟩ := var_own hx ho
  rw [add_nil] at h2
  dsimp only at h2
  obtain ⟨b, s2, h3, h4⟩ := bind_some h2
  obtain ⟨_, rfl⟩ := isSub_of h3
  split at h4
  · obtain ⟨rfl, rfl⟩ := pure_of h4
    exact ⟨rfl, .inl e2⟩
  · split at h4
    · obtain ⟨rfl, rfl⟩ := pure_of h4
      exact ⟨rfl, .inr (by rw [e2])⟩
    · obtain ⟨b2, s3, h5, h6⟩ := bind_some h4
      obtain ⟨_, rfl⟩ := isSub_of h5
      split at h6
      · obtain ⟨rfl, rfl⟩ := pure_of h6
        exact ⟨rfl, .inr (by rw [e2])⟩
      · cases h6

theorem caseOf_of {list item : Ty} {ind : Bool} {s s' : Acc K} {c : Case} (h : caseOf L list item ind s = some (c, s')) : s' = s ∧
    (match c with
    | .shrug => tyEq item .tbd = true
    | .takes => tyEq list (.hier "List") = true ∨ tyEq list (.list .tbd) = true ∨ tyEq list .tbd = true ∨ tyEq list (.list T0) = true
    | .dropUndefined => tyEq list (.union [.list (.hier "PromiseReaction Record"), .hier "Undefined"]) = true ∧ tyEq item (.hier "PromiseReaction Record") = true
    | .fromList => tyEq item .tbd = true
    | _ => True) := by
  unfold caseOf at h
  split at h
  · rename_i hh; obtain ⟨rfl, rfl⟩ := pure_of h; simp only [Bool.and_eq_true] at hh; exact ⟨rfl, hh.2⟩
  split at h
  · rename_i hh; obtain ⟨rfl, rfl⟩ := pure_of h; simp only [Bool.or_eq_true] at hh
    refine ⟨rfl, ?_⟩
    rcases hh with ((hh | hh) | hh) | hh
    · exact .inl hh
    · exact .inr (.inl hh)
    · exact .inr (.inr (.inl hh))
    · exact .inr (.inr (.inr hh))
  split at h
  · obtain ⟨rfl, rfl⟩ := pure_of h; exact ⟨rfl, trivial⟩
  split at h
  · rename_i hh; obtain ⟨rfl, rfl⟩ := pure_of h; simp only [Bool.and_eq_true] at hh; exact ⟨rfl, hh⟩
  split at h
  · obtain ⟨rfl, rfl⟩ := pure_of h; exact ⟨rfl, trivial⟩
  split at h
  · rename_i hh; obtain ⟨rfl, rfl⟩ := pure_of h; exact ⟨rfl, hh⟩
  split at h
  · obtain ⟨rfl, rfl⟩ := pure_of h; exact ⟨rfl, trivial⟩
  obtain ⟨b, s1, h1, h2⟩ := bind_some h
  obtain ⟨_, rfl⟩ := isSub_of h1
  obtain ⟨rfl, rfl⟩ := pure_of h2
  refine ⟨rfl, ?_⟩
  cases b <;> trivial

theorem append_ok (hc : CfgOk L.cfg) (hr : Respects L.cfg I) (hp : ProcsByResult I) (htbd : ∀ v, ¬ I.tbd v) (hlu : ∀ v l, I.elems v = some l → ¬ I.named "Undefined" v)
    {S : Sem X T C I} {txt : X → Text} {item : Expr X} {x : String} {env env' : Env K} {lt : Ty} (hx : get env.vars (.var x) = some lt)
    (hfo : FieldsOk lt) (hbare : ∃ v, ¬ (den L.cfg I lt v ↔ I.named "List" v)) (hitem : RightAbout L S item x) {s s' : Acc K} {ms : List Err}
    (h : canBeElement L txt item (.var x) env s = some (env', s')) (hms : NewMessages s s' ms)
    (hq : .wrongType ∉ ms ∧ .notAList ∉ ms ∧ ∀ y, .undefined y ∉ ms) {σ : Store I} {w v' : I.V} (hσ : Holds L.cfg I env σ) (hw : Eval S item σ w)
    (happ : Appended I (σ x) w v') : Holds L.cfg I env' (update σ x v') := by
  unfold canBeElement at h
  obtain ⟨⟨lt1, env1⟩, s1, h1, h2⟩ := bind_some h
  obtain ⟨es1, ho1, rfl⟩ := own_of h1
  obtain ⟨e1, e2, e3⟩ := var_own hx ho1
  dsimp only at e1 e2
  subst e1 e2 e3
  dsimp only at h2
  obtain ⟨⟨it, env2⟩, s2, h3, h4⟩ := bind_some h2
  obtain ⟨es, ho2, rfl⟩ := own_of h3
  dsimp only at h4 ho2
  rw [add_nil] at h4
  obtain ⟨c, s3, h5, h6⟩ := bind_some h4
  obtain ⟨rfl, hcase⟩ := caseOf_of h5
  obtain ⟨l, hl, hl'⟩ := happ
  have hold : den L.cfg I lt1 (σ x) := (hσ x).1 _ hx
  -- once the messages are known, so are the facts about the item
  have facts : ∀ rest, s' = add (add s es) rest → get env2.vars (.var x) = some lt1 ∧ den L.cfg I it w ∧ Holds L.cfg I env2 σ ∧ .wrongType ∉ rest ∧ .notAList ∉ rest ∧ ∀ y, .undefined y ∉ rest := by
    intro rest he
    have hm : ms = es ++ rest := by
      unfold NewMessages at hms
      rw [he] at hms
      simp only [add, List.append_assoc] at hms
      exact (List.append_cancel_left hms).symm
    rw [hm] at hq
    simp only [List.mem_append, not_or] at hq
    obtain ⟨g1, g2⟩ := hitem _ _ _ _ ho2 (fun y => (hq.2.2 y).1)
    obtain ⟨g3, g4⟩ := g2 σ w hσ hw
    exact ⟨g1.trans hx, g3, g4, hq.1.2, hq.2.1.2, fun y => (hq.2.2 y).2⟩
  have ntbd : ∀ {t : Ty} {v : I.V}, tyEq t .tbd = true → ¬ den L.cfg I t v := fun ht hd => htbd _ ((tyEq_tbd (L := L) ht _).1 hd)
  cases c with
  | shrug =>
    obtain ⟨rfl, he⟩ := pure_of h6
    obtain ⟨_, g2, _⟩ := facts [] (by rw [he, add_nil])
    exact absurd g2 (ntbd hcase)
  | takes =>
    obtain ⟨rfl, he⟩ := pure_of h6
    obtain ⟨_, g2, g3, _⟩ := facts [] (by rw [he, add_nil])
    have hempty : l = [] := by
      rcases hcase with hh | hh | hh | hh
      · obtain ⟨v, hv⟩ := hbare
        exact absurd (tyEq_den (cfg := L.cfg) hh v) hv
      · obtain ⟨l2, e, hall⟩ := (tyEq_den (cfg := L.cfg) hh _).1 hold
        rw [hl] at e; injection e with e; subst e
        cases l with
        | nil => rfl
        | cons a l => exact absurd (hall a (by simp)) (htbd _)
      · exact absurd hold (ntbd hh)
      · obtain ⟨l2, e, hall⟩ := (tyEq_den (cfg := L.cfg) hh _).1 hold
        rw [hl] at e; injection e with e; subst e
        cases l with
        | nil => rfl
        | cons a l => exact absurd (hall a (by simp)) (by simp [T0, den, denAny])
    subst hempty
    exact holds_set g3 ⟨[w], hl', fun y hy => by simp only [List.mem_singleton] at hy; subst hy; exact g2⟩
  | addSymbol =>
    rw [element] at h6
    rw [bind_run (report_run _ _)] at h6
    obtain ⟨t, s4, h7, h8⟩ := bind_some h6
    obtain ⟨_, rfl⟩ := lift_of h7
    obtain ⟨rfl, rfl⟩ := pure_of h8
    exact absurd (List.mem_singleton.2 rfl) (facts _ rfl).2.2.2.1
  | addUndefined =>
    rw [element] at h6
    rw [bind_run (report_run _ _)] at h6
    obtain ⟨t, s4, h7, h8⟩ := bind_some h6
    obtain ⟨_, rfl⟩ := lift_of h7
    obtain ⟨rfl, rfl⟩ := pure_of h8
    exact absurd (List.mem_singleton.2 rfl) (facts _ rfl).2.2.2.1
  | dropNull =>
    rw [element] at h6
    rw [bind_run (report_run _ _)] at h6
    obtain ⟨rfl, rfl⟩ := pure_of h6
    exact absurd (List.mem_singleton.2 rfl) (facts _ rfl).2.2.2.1
  | notList =>
    rw [element] at h6
    rw [bind_run (report_run _ _)] at h6
    obtain ⟨rfl, rfl⟩ := pure_of h6
    exact absurd (List.mem_singleton.2 rfl) (facts _ rfl).2.2.2.2.1
  | fromList =>
    rw [element] at h6
    obtain ⟨t, s4, h7, h8⟩ := bind_some h6
    obtain ⟨_, rfl⟩ := lift_of h7
    obtain ⟨rfl, he⟩ := pure_of h8
    obtain ⟨_, g2, _⟩ := facts [] (by rw [he, add_nil])
    exact absurd g2 (ntbd hcase)
  | dropUndefined =>
    rw [element] at h6
    have hs' : s' = add s es := by
      cases hg : get env2.vars (.var x) with
      | some t => exact (narrow_of h6 hg).1
      | none =>
        unfold narrow at h6
        dsimp only at h6
        unfold narrowed at h6
        exfalso
        obtain ⟨rest, he⟩ : ∃ rest, s' = add (add s es) rest := by
          obtain ⟨r, s4, k1, k2⟩ := bind_some h6
          obtain ⟨es3, _, rfl⟩ := own_of k1
          dsimp only at k2
          obtain ⟨b, s5, k3, k4⟩ := bind_some k2
          obtain ⟨_, rfl⟩ := isSub_of k3
          split at k4
          · obtain ⟨_, rfl⟩ := pure_of k4; exact ⟨es3, rfl⟩
          · split at k4
            · obtain ⟨_, rfl⟩ := pure_of k4; exact ⟨es3, rfl⟩
            · obtain ⟨b2, s6, k5, k6⟩ := bind_some k4
              obtain ⟨_, rfl⟩ := isSub_of k5
              split at k6
              · obtain ⟨_, rfl⟩ := pure_of k6; exact ⟨es3, rfl⟩
              · cases k6
        rw [(facts rest he).1] at hg; cases hg
    obtain ⟨g1, g2, g3, _⟩ := facts [] (by rw [hs', add_nil])
    obtain ⟨_, hres⟩ := narrow_of h6 g1
    have hwPR : I.named "PromiseReaction Record" w := (tyEq_den (cfg := L.cfg) hcase.2 w).1 g2
    have hv' : den L.cfg I (.list (.hier "PromiseReaction Record")) v' := by
      refine ⟨_, hl', fun y hy => ?_⟩
      simp only [List.mem_append, List.mem_singleton] at hy
      rcases hy with hy | rfl
      · have := (tyEq_den (cfg := L.cfg) hcase.1 (σ x)).1 hold
        simp only [den, denAny] at this
        rcases this with ⟨l2, e, hall⟩ | hu | hf
        · rw [hl] at e; injection e with e; subst e
          exact hall y hy
        · exact absurd hu (hlu _ _ hl)
        · exact hf.elim
      · exact hwPR
    rcases hres with rfl | rfl
    · exact holds_update g3 g1 ((tyEq_den (cfg := L.cfg) hcase.1 v').2 (.inl hv'))
    · exact holds_set g3 hv'
  | check =>
    rw [element] at h6
    obtain ⟨t, s4, h7, h8⟩ := bind_some h6
    obtain ⟨hel, rfl⟩ := lift_of h7
    cases lt1 with
    | list u =>
      simp only [elementType, Option.some.injEq] at hel
      subst hel
      obtain ⟨⟨t', env3⟩, s5, h9, h10⟩ := bind_some h8
      obtain ⟨rfl, rfl⟩ := pure_of h10
      obtain ⟨hA, t2, env4, es2, ho3⟩ := ensure_of h9
      rw [ensure_run hA ho3] at h9
      -- the second analysis of the item
      have fin : ∀ rest, s' = add (add s es) (es2 ++ rest) → get env4.vars (.var x) = some (.list u) ∧ den L.cfg I t2 w ∧ Holds L.cfg I env4 σ ∧ .wrongType ∉ rest := by
        intro rest he
        obtain ⟨g1, g2, g3, g4, g5, g6⟩ := facts _ he
        simp only [List.mem_append, not_or] at g4 g6
        obtain ⟨k1, k2⟩ := hitem _ _ _ _ ho3 (fun y => (g6 y).1)
        obtain ⟨k3, k4⟩ := k2 σ w g3 hw
        exact ⟨k1.trans g1, k3, k4, g4.2⟩
      split at h9
      · rename_i ht
        injection h9 with h9; injection h9 with _ he
        obtain ⟨_, g2, _⟩ := fin [] (by rw [← he, List.append_nil])
        exact absurd g2 (ntbd ht)
      · split at h9
        · cases h9
        · rename_i hs
          injection h9 with h9; injection h9 with e he
          injection e with e1 e2
          subst e2
          obtain ⟨g1, g2, g3, _⟩ := fin [] (by rw [← he, List.append_nil])
          have hfu : FieldsOk u := hfo.2
          have hwu := c14_sound hc hr hp hfu hs w g2
          obtain ⟨l2, e, hall⟩ := hold
          rw [hl] at e; injection e with e; subst e
          refine holds_update g3 g1 ⟨_, hl', fun y hy => ?_⟩
          simp only [List.mem_append, List.mem_singleton] at hy
          rcases hy with hy | rfl
          · exact hall y hy
          · exact hwu
        · have hwt : ∀ rest, s' = add (add s es) (es2 ++ rest) → .wrongType ∈ rest → False := fun rest he hm => (fin rest he).2.2.2 hm
          split at h9
          · cases h9
          all_goals
            injection h9 with h9; injection h9 with _ he
            exact (hwt [.wrongType] he.symm (by simp)).elim
    | tbd => cases hel
    | hier n => cases hel
    | record a b => cases hel
    | proc a b => cases hel
    | union a => cases hel

end Verif.Calls
