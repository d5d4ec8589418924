import Verif.Calls.ExactLemmas
import Verif.Env.Sound
/-! # Arguments -/
namespace Verif.Calls
open Verif.Types Verif.Env

variable {K X T C : Type} [DecidableEq K] {L : Lang K X T C}

/-- More messages. -/
def add (s : Acc K) (es : List Err) : Acc K := { s with errs := s.errs ++ es, log := s.log ++ es }

theorem add_nil (s : Acc K) : add s [] = s := by simp [add]
theorem add_add (s : Acc K) (a b : List Err) : add (add s a) b = add s (a ++ b) := by simp [add]

theorem own_of {e : Expr X} {env : Env K} {s s' : Acc K} {r : Ty × Env K} (h : tcExpr L e env s = some (r, s')) :
    ∃ es, Own L e env r.1 r.2 es ∧ s' = add s es := by
  cases e with
  | var x =>
    unfold tcExpr at h
    dsimp only at h
    cases hg : get env.vars (.var x) with
    | some t =>
      rw [hg] at h
      simp only [M.pure, Option.some.injEq, Prod.mk.injEq] at h
      obtain ⟨rfl, rfl⟩ := h
      refine ⟨[], fun s => ?_, (add_nil s).symm⟩
      unfold tcExpr
      simp [hg, M.pure]
    | none =>
      rw [hg] at h
      simp only [bind, M.bind, report, M.pure, Option.some.injEq, Prod.mk.injEq] at h
      obtain ⟨rfl, rfl⟩ := h
      refine ⟨[.undefined x], fun s => ?_, rfl⟩
      unfold tcExpr
      simp [hg, bind, M.bind, report, M.pure]
  | other e =>
    unfold tcExpr at h
    dsimp only at h
    cases hg : L.expr e env with
    | none => rw [hg] at h; cases h
    | some q =>
      obtain ⟨q, es⟩ := q
      rw [hg] at h
      simp only [bind, M.bind, reportAll, M.pure, Option.some.injEq, Prod.mk.injEq] at h
      obtain ⟨rfl, rfl⟩ := h
      refine ⟨es, fun s => ?_, rfl⟩
      unfold tcExpr
      simp [hg, bind, M.bind, reportAll, M.pure]

theorem own_run {e : Expr X} {env env' : Env K} {t : Ty} {es : List Err} (h : Own L e env t env' es) (s : Acc K) :
    tcExpr L e env s = some ((t, env'), add s es) := h s

theorem isSub_run {A B : Ty} {b : Bool} (h : sub L.cfg A B = some b) (s : Acc K) : isSub L A B s = some (b, s) := by
  simp [isSub, M.lift, h]

theorem isSub_of {A B : Ty} {b : Bool} {s s' : Acc K} (h : isSub L A B s = some (b, s')) : sub L.cfg A B = some b ∧ s' = s := by
  simp only [isSub, M.lift, Option.map_eq_some_iff] at h
  obtain ⟨a, ha, e⟩ := h
  injection e with e1 e2
  exact ⟨e1 ▸ ha, e2.symm⟩

theorem lift_of {α} {a : Option α} {b : α} {s s' : Acc K} (h : M.lift a s = some (b, s')) : a = some b ∧ s' = s := by
  simp only [M.lift, Option.map_eq_some_iff] at h
  obtain ⟨c, ha, e⟩ := h
  injection e with e1 e2
  exact ⟨e1 ▸ ha, e2.symm⟩

theorem bind_run {α β} {m : M K α} {f : α → M K β} {s s1 : Acc K} {a : α} (h : m s = some (a, s1)) : (m >>= f) s = f a s1 := by
  simp only [bind, M.bind, h]

theorem pure_of {α} {a b : α} {s s' : Acc K} (h : (M.pure a : M K α) s = some (b, s')) : b = a ∧ s' = s := by
  simp only [M.pure, Option.some.injEq, Prod.mk.injEq] at h
  exact ⟨h.1.symm, h.2.symm⟩

theorem reportIf_run (b : Bool) (e : Err) (s : Acc K) : reportIf b e s = some ((), add s (if b then [e] else [])) := by
  cases b <;> simp [reportIf, report, M.pure, add]

theorem report_run (e : Err) (s : Acc K) : report e s = some ((), add s [e]) := rfl

/-! ### Parameters given by names -/

/-- Names of the hierarchy that do not contain `List`. -/
theorem split_names (hc : CfgOk L.cfg) {A i o : Ty} (hnp : "not_passed" ∈ names L.cfg.tree) (hA : Plain L.cfg A)
    (h : splitBy L.cfg L.ord A notPassed = some (i, o)) (ho : SetOrder L.ord) :
    ∃ ns : List String, (∀ n ∈ ns, n ∈ names L.cfg.tree) ∧ "List" ∉ ns ∧ unionOf L.cfg L.ord (ns.map .hier) = some o := by
  unfold splitBy at h
  split at h
  · injection h with h; injection h with h1 h2
    subst h1 h2
    exact ⟨[], by simp, by simp, by rw [unionOf_eq ho]; rfl⟩
  · obtain ⟨as, e, has⟩ := named_map (cfg := L.cfg) (fun m hm => by obtain ⟨n, hn, e, _⟩ := hA m hm; exact ⟨n, hn, e⟩)
    split at h
    · cases h
    · rename_i i0 o0 hr
      split at h
      · rename_i i1 o1 hi ho1
        injection h with h; injection h with h1 h2
        subst h1 h2
        rw [e] at hr
        have hund := splitRec_under hc _ as (members notPassed) _ has (by simp [notPassed, members]) hr
        dsimp only at hund
        obtain ⟨ns, e', hns⟩ := named_map (cfg := L.cfg) (ts := o0) (fun t ht => by
          obtain ⟨a, _, k, e, hk⟩ := hund t ht
          exact ⟨k, hk.mem_right, e⟩)
        refine ⟨ns, hns, fun hl => ?_, e' ▸ ho1⟩
        obtain ⟨a, ha, k, e2, hk⟩ := hund (.hier "List") (by rw [e']; exact List.mem_map.2 ⟨_, hl, rfl⟩)
        injection e2 with e2
        subst e2
        obtain ⟨n, _, e3, hno⟩ := hA (.hier a) (by rw [e]; exact List.mem_map.2 ⟨_, ha, rfl⟩)
        injection e3 with e3
        subst e3
        exact hno hk
      · cases h

theorem Plain.flat {cfg : Cfg} {A : Ty} (h : Plain cfg A) : Flat cfg A := fun m hm => by
  obtain ⟨n, hn, e, _⟩ := h m hm; exact ⟨n, hn, e⟩

theorem inhabited (hc : CfgOk L.cfg) {I : Interp} (hr : Respects L.cfg I) (hi : LeavesInhabited L.cfg I) {n : String} (hn : n ∈ names L.cfg.tree) : ∃ v, I.named n v := by
  obtain ⟨l, h1, h2⟩ := leaf_under hc hn
  obtain ⟨v, hv⟩ := hi l h1.mem_right h2
  exact ⟨v, hr.anc h1 v hv⟩

/-- What is known of a parameter given by names. -/
theorem param_parts (hw : World L.cfg L.ord I) (hi : LeavesInhabited L.cfg I) (hoc : NoOnlyChild L.cfg) (hnp : "not_passed" ∈ names L.cfg.tree)
    {A : Ty} (hA : Plain L.cfg A) : ∃ np pt, paramParts L A = some (np, pt) ∧ Flat L.cfg np ∧ Flat L.cfg pt ∧
      (tyEq np T0 = true ↔ ¬ Optional L.cfg I A) ∧
      ∀ t, Flat L.cfg t → (sub L.cfg t pt = some true ∧ (∀ v, den L.cfg I t v → Accepts L.cfg I A v)) ∨
        (sub L.cfg t pt = some false ∧ ∃ v, den L.cfg I t v ∧ ¬ Accepts L.cfg I A v) := by
  have hB : Flat L.cfg notPassed := flat_hier hnp
  obtain ⟨i, o, hs, hfi, hfo, hd⟩ := split_flat hw.cfgOk hw.leaf hw.ordOk hA.flat hB
  have hd := hd I hw.respects hw.exhaustive hw.disjoint
  obtain ⟨ns, hns, hl, hu⟩ := split_names hw.cfgOk hnp hA hs hw.ordOk
  have hacc : ∀ v, den L.cfg I o v ↔ Accepts L.cfg I A v := fun v => (hd v).2
  refine ⟨i, o, ?_, hfi, hfo, ?_, ?_⟩
  · unfold paramParts
    rw [flat_not_tbd hA.flat, hs]; rfl
  · constructor
    · rintro he ⟨v, hv, hn⟩
      exact tyEq_T0 (cfg := L.cfg) he ((hd v).1.2 ⟨hv, hn⟩)
    · intro hno
      rw [tyEq_iff]
      intro m
      constructor
      · intro hm
        obtain ⟨n, hn, rfl⟩ := hfi m hm
        obtain ⟨v, hv⟩ := inhabited hw.cfgOk hw.respects hi hn
        obtain ⟨h1, h2⟩ := (hd v).1.1 (den_members.2 ⟨_, hm, hv⟩)
        exact absurd ⟨v, h1, h2⟩ hno
      · intro hm; simp [T0, members] at hm
  · intro t ht
    by_cases hall : ∀ v, den L.cfg I t v → Accepts L.cfg I A v
    · refine .inl ⟨sub_of_anc hw.cfgOk ht hfo (fun n hn => ?_), hall⟩
      obtain ⟨n', hn', e⟩ := ht _ hn
      injection e with e
      subst e
      refine union_covers hw.cfgOk hw.ordOk hoc hl hu hn' (full_of_den hw.cfgOk hw.respects hw.disjoint hi hns (fun v hv => ?_))
      have := (hacc v).2 (hall v (den_members.2 ⟨_, hn, hv⟩))
      obtain ⟨T, hT, _, hTd⟩ := union_flat hw.cfgOk hw.ordOk (ts := ns.map .hier) (fun t ht => by
        obtain ⟨k, hk, rfl⟩ := List.mem_map.1 ht
        exact flat_hier (hns k hk))
      rw [hu] at hT
      injection hT with hT
      subst hT
      obtain ⟨u, hu', huv⟩ := (hTd I hw.respects hw.exhaustive v).1 this
      obtain ⟨k, hk, rfl⟩ := List.mem_map.1 hu'
      exact ⟨k, hk, huv⟩
    · rcases sub_total hw.cfgOk ht hfo with h | h
      · exact absurd (fun v hv => (hacc v).1 (sub_flat hw.cfgOk hw.respects ht hfo h v hv)) hall
      · refine .inr ⟨h, ?_⟩
        rw [Classical.not_forall] at hall
        obtain ⟨v, hv⟩ := hall
        rw [Classical.not_imp] at hv
        exact ⟨v, hv⟩

theorem flat_not_list {cfg : Cfg} {t : Ty} (h : Flat cfg t) : isListType t = false := by
  cases t with
  | list t => obtain ⟨n, _, e⟩ := h (.list t) (by simp [members]); cases e
  | _ => rfl

/-- The check of an argument, where types are given by names. -/
theorem checkArg_flat {txt : X → Text} {name : String} {pt t : Ty} {a : Expr X} {env1 : Env K} (hpt : Flat L.cfg pt) (ht : Flat L.cfg t) {b : Bool}
    (hs : sub L.cfg t pt = some b) (s : Acc K) :
    checkArg L txt name pt a t env1 s = some (env1, add s (if b then [] else [.argType name])) := by
  unfold checkArg
  rw [flat_not_tbd hpt, flat_not_tbd ht]
  simp only [Bool.false_eq_true, if_false]
  rw [bind_run (isSub_run hs s)]
  cases b with
  | true => simp [M.pure, add_nil]
  | false =>
    rw [flat_not_list hpt]
    simp only [Bool.false_eq_true, if_false, Bool.and_false]
    rw [bind_run (report_run _ s)]
    rfl

end Verif.Calls
