import Verif.Env.TypeLemmas
import Verif.Common
/-!
# Environments: look-ups, joins and meets
-/
namespace Verif.Env
open Verif.Types

variable {cfg : Cfg} {ord : List Ty → List Ty} {K : Type}

theorem get_put_self (vs : Vars) (x : Key) (t : Ty) : get (put vs x t) x = some t := by
  induction vs with
  | nil => simp [put, get]
  | cons p r ih =>
    obtain ⟨k, u⟩ := p
    by_cases h : k = x
    · simp [put, get, h]
    · simp [put, get, h, ih]

theorem get_put_ne (vs : Vars) {x y : Key} (t : Ty) (h : x ≠ y) : get (put vs x t) y = get vs y := by
  induction vs with
  | nil => simp [put, get, h]
  | cons p r ih =>
    obtain ⟨k, u⟩ := p
    by_cases hk : k = x
    · subst hk; simp [put, get, h]
    · simp [put, get, hk, ih]

theorem mem_keys {vs : Vars} {x : Key} : x ∈ keys vs ↔ ∃ t, get vs x = some t := by
  induction vs with
  | nil => simp [keys, get]
  | cons p r ih =>
    obtain ⟨k, u⟩ := p
    by_cases hk : k = x
    · subst hk; simp [keys, get]
    · have : x ≠ k := fun h => hk h.symm
      simp only [keys, List.map_cons, List.mem_cons, this, false_or, get, hk, if_false]
      exact ih

theorem not_mem_keys {vs : Vars} {x : Key} : x ∉ keys vs ↔ get vs x = none := by
  rw [mem_keys]
  cases get vs x <;> simp

theorem get_filter (vs : Vars) (ks : List Key) (x : Key) :
    get (vs.filter (fun p => decide (p.1 ∈ ks))) x = if x ∈ ks then get vs x else none := by
  induction vs with
  | nil => simp [get]
  | cons p r ih =>
    obtain ⟨k, u⟩ := p
    by_cases hk : k ∈ ks
    · rw [List.filter_cons_of_pos (by simpa using hk)]
      by_cases hx : k = x
      · subst hx; simp [get, hk]
      · simp [get, hx, ih]
    · rw [List.filter_cons_of_neg (by simpa using hk), ih]
      by_cases hx : k = x
      · subst hx; simp [hk]
      · simp [get, hx]

/-- A dict built entry by entry. -/
theorem get_mapM {f : Key → Option Ty} {ks : List Key} {vs : Vars} (h : ks.mapM (fun x => (f x).map (fun t => (x, t))) = some vs) (x : Key) :
    get vs x = if x ∈ ks then f x else none := by
  induction ks generalizing vs with
  | nil => simp at h; subst h; simp [get]
  | cons k ks ih =>
    simp only [List.mapM_cons, Option.bind_eq_bind, Option.bind_eq_some_iff, Option.pure_def, Option.some.injEq,
      Option.map_eq_some_iff] at h
    obtain ⟨p, ⟨t, ht, rfl⟩, vs', hvs, rfl⟩ := h
    by_cases hx : k = x
    · subst hx; simp [get, ht]
    · have : x ≠ k := fun h => hx h.symm
      simp [get, hx, ih hvs, this]

theorem mapM_entries {f : Key → Option Ty} {ks : List Key} (h : ∀ k ∈ ks, ∃ t, f k = some t) :
    ∃ vs, ks.mapM (fun x => (f x).map (fun t => (x, t))) = some vs := by
  obtain ⟨bs, h1, _⟩ := mapM_some (l := ks) (f := fun x => (f x).map (fun t => (x, t))) (fun k hk => by
    obtain ⟨t, ht⟩ := h k hk
    exact ⟨(k, t), by simp [ht]⟩)
  exact ⟨bs, h1⟩

theorem mem_allKeys {es : List (Env K)} {x : Key} : x ∈ allKeys es ↔ ∃ e ∈ es, ∃ t, get e.vars x = some t := by
  simp only [allKeys, List.mem_eraseDups, List.mem_flatMap, mem_keys]

theorem sameVars_iff {v w : Vars} : sameVars v w = true ↔ ∀ x, (∀ A, get v x = some A → ∃ B, get w x = some B ∧ tyEq A B = true) ∧
    (get v x = none → get w x = none) := by
  simp only [sameVars, Bool.and_eq_true, List.all_eq_true]
  constructor
  · rintro ⟨h1, h2⟩ x
    constructor
    · intro A hA
      have := h1 x (mem_keys.2 ⟨A, hA⟩)
      rw [hA] at this
      split at this
      · rename_i A' B e1 e2
        injection e1 with e1; subst e1
        exact ⟨B, e2, this⟩
      · cases this
    · intro hv
      refine Classical.byContradiction (fun hw => ?_)
      obtain ⟨B, hB⟩ := Option.ne_none_iff_exists'.1 hw
      have := h2 x (mem_keys.2 ⟨B, hB⟩)
      rw [hv] at this
      cases this
  · intro h
    constructor
    · intro x hx
      obtain ⟨A, hA⟩ := mem_keys.1 hx
      obtain ⟨B, hB, e⟩ := (h x).1 A hA
      rw [hA, hB]; exact e
    · intro x hx
      obtain ⟨B, hB⟩ := mem_keys.1 hx
      cases hv : get v x with
      | some A => rfl
      | none => rw [(h x).2 hv] at hB; cases hB

theorem sameVars_holds {e e' : Env K} (h : sameVars e.vars e'.vars = true) {I : Interp} {σ : Store I} :
    Holds cfg I e σ ↔ Holds cfg I e' σ := by
  rw [sameVars_iff] at h
  constructor
  · intro hh x
    obtain ⟨h1, h2⟩ := h (.var x)
    obtain ⟨g1, g2⟩ := hh x
    constructor
    · intro t ht
      cases hv : get e.vars (.var x) with
      | none => rw [h2 hv] at ht; cases ht
      | some A =>
        obtain ⟨B, hB, e1⟩ := h1 A hv
        rw [ht] at hB; injection hB with hB; subst hB
        exact (tyEq_den e1 _).1 (g1 A hv)
    · intro hn
      cases hv : get e.vars (.var x) with
      | none => exact g2 hv
      | some A =>
        obtain ⟨B, hB, e1⟩ := h1 A hv
        rw [hn] at hB; cases hB
  · intro hh x
    obtain ⟨h1, h2⟩ := h (.var x)
    obtain ⟨g1, g2⟩ := hh x
    constructor
    · intro t ht
      obtain ⟨B, hB, e1⟩ := h1 t ht
      exact (tyEq_den e1 _).2 (g1 B hB)
    · intro hn
      exact g2 (h2 hn)

/-! ### Setting and reducing -/

theorem holds_set {e : Env K} {I : Interp} {σ : Store I} {x : String} {t : Ty} {v : I.V} (h : Holds cfg I e σ) (hv : den cfg I t v) :
    Holds cfg I (e.set (.var x) t) (update σ x v) := by
  intro y
  by_cases hy : y = x
  · subst hy
    simp only [Env.set, get_put_self, update, if_true]
    exact ⟨fun t' ht' => by injection ht' with ht'; exact ht' ▸ hv, fun h => by cases h⟩
  · have : Key.var x ≠ .var y := fun h => hy (by injection h with h; exact h.symm)
    simp only [Env.set, get_put_ne _ _ this, update, hy, if_false]
    exact h y

theorem update_self {I : Interp} (σ : Store I) (x : String) : update σ x (σ x) = σ := by
  funext y; unfold update; split
  · rename_i h; rw [h]
  · rfl

/-- Giving a variable another type that its value has. -/
theorem holds_retype {e : Env K} {I : Interp} {σ : Store I} {x : String} {t : Ty} (h : Holds cfg I e σ) (hv : den cfg I t (σ x)) :
    Holds cfg I (e.set (.var x) t) σ := by
  have := holds_set (x := x) h hv
  rwa [update_self] at this

/-- A store changed at a variable whose static type still fits. -/
theorem holds_update {e : Env K} {I : Interp} {σ : Store I} {x : String} {t : Ty} {v : I.V} (h : Holds cfg I e σ)
    (hx : get e.vars (.var x) = some t) (hv : den cfg I t v) : Holds cfg I e (update σ x v) := by
  intro y
  by_cases hy : y = x
  · subst hy
    simp only [update, if_true]
    exact ⟨fun t' ht' => by rw [hx] at ht'; injection ht' with ht'; exact ht' ▸ hv, fun hn => by rw [hx] at hn; cases hn⟩
  · simp only [update, hy, if_false]
    exact h y

theorem flat_set {e : Env K} {x : Key} {t : Ty} (h : FlatEnv cfg e) (ht : Flat cfg t) : FlatEnv cfg (e.set x t) := by
  intro y u hu
  by_cases hy : x = y
  · subst hy
    simp only [Env.set, get_put_self] at hu
    injection hu with hu; exact hu ▸ ht
  · simp only [Env.set, get_put_ne _ _ hy] at hu
    exact h y u hu

theorem flat_reduce {e : Env K} {ks : List Key} (h : FlatEnv cfg e) : FlatEnv cfg (e.reduce ks) := by
  intro y u hu
  simp only [Env.reduce, get_filter] at hu
  split at hu
  · exact h y u hu
  · cases hu

/-! ### Joins -/

theorem typeOr_den {x : String} {e : Env K} {I : Interp} {σ : Store I} (h : Holds cfg I e σ) : den cfg I (typeOr (.var x) e) (σ x) := by
  obtain ⟨h1, h2⟩ := h x
  unfold typeOr
  cases hx : get e.vars (.var x) with
  | none => exact h2 hx
  | some t => exact h1 t hx

theorem flat_typeOr (hns : "not_set" ∈ names cfg.tree) {e : Env K} (h : FlatEnv cfg e) (x : Key) : Flat cfg (typeOr x e) := by
  unfold typeOr
  cases hx : get e.vars x with
  | none => exact flat_hier hns
  | some t => exact h x t hx

section
variable [DecidableEq K]

/-- The three cases of a join. -/
theorem envsOr_cases {envs : List (Option (Env K))} {r : Option (Env K)} (h : envsOr cfg ord envs = some r) :
    (envs.filterMap id = [] ∧ r = none) ∨ (∃ e, envs.filterMap id = [e] ∧ r = some e) ∨
    ∃ e0 e, e0 ∈ envs.filterMap id ∧ r = some e ∧ e.ctx = e0.ctx ∧ (∀ e' ∈ envs.filterMap id, e'.ctx = e.ctx) ∧
      ∀ x, get e.vars x = if x ∈ allKeys (envs.filterMap id) then unionOf cfg ord ((envs.filterMap id).map (typeOr x)) else none := by
  unfold envsOr at h
  split at h
  · rename_i e; injection h with h; exact .inl ⟨e, h.symm⟩
  · rename_i e' e; injection h with h; exact .inr (.inl ⟨_, e, h.symm⟩)
  · rename_i e0 es _ e
    refine .inr (.inr ⟨e0, ?_⟩)
    split at h
    · rename_i hctx
      split at h
      · cases h
      · rename_i vs hvs
        injection h with h
        refine ⟨_, by rw [e]; simp, h.symm, rfl, ?_, ?_⟩
        · rw [e]; simpa using hctx
        · intro x
          rw [e]
          exact get_mapM hvs x
    · cases h

/-- A join keeps every store that one of the environments holds of; types need not be named. -/
theorem envsOr_upper {I : Interp} {P : Ty → Prop} (hu : ∀ ts T, (∀ t ∈ ts, P t) → unionOf cfg ord ts = some T →
      ∀ t ∈ ts, ∀ v, den cfg I t v → den cfg I T v) (hns : P notSet) {envs : List (Option (Env K))} {r : Option (Env K)}
    (hP : ∀ e, some e ∈ envs → ∀ x t, get e.vars x = some t → P t)
    (h : envsOr cfg ord envs = some r) {e : Env K} (he : some e ∈ envs) {σ : Store I} (hσ : Holds cfg I e σ) : Covers cfg I r σ := by
  have hmem : ∀ e, e ∈ envs.filterMap id ↔ some e ∈ envs := by
    intro e
    simp [List.mem_filterMap]
  have hPor : ∀ x, ∀ t ∈ (envs.filterMap id).map (typeOr x), P t := by
    intro x t ht
    obtain ⟨e', he', rfl⟩ := List.mem_map.1 ht
    unfold typeOr
    cases hx : get e'.vars x with
    | none => exact hns
    | some t => exact hP e' ((hmem e').1 he') x t hx
  rcases envsOr_cases h with ⟨h0, rfl⟩ | ⟨e1, h1, rfl⟩ | ⟨e0, e1, _, rfl, _, _, hget⟩
  · have := (hmem e).2 he
    rw [h0] at this; cases this
  · have := (hmem e).2 he
    rw [h1, List.mem_singleton] at this
    subst this
    exact ⟨_, rfl, hσ⟩
  · refine ⟨_, rfl, fun x => ?_⟩
    rw [hget]
    constructor
    · intro t ht
      split at ht
      · exact hu _ _ (hPor (.var x)) ht (typeOr (.var x) e) (List.mem_map.2 ⟨e, (hmem e).2 he, rfl⟩) _ (typeOr_den hσ)
      · cases ht
    · intro hn
      have hx : get e.vars (.var x) = none := by
        split at hn
        · rename_i hk
          -- the variable is in some environment, and the union failed: then the join did
          exfalso
          unfold envsOr at h
          split at h
          · rename_i e2
            rw [e2] at hk; simp [allKeys] at hk
          · rename_i e' e2
            injection h with h; injection h with h; subst h
            have := hget (.var x)
            rw [if_pos hk, hn] at this
            rw [e2, mem_allKeys] at hk
            obtain ⟨e3, he3, t, ht⟩ := hk
            simp only [List.mem_singleton] at he3
            subst he3
            rw [this] at ht; cases ht
          · rename_i e0' es' _ e2
            split at h
            · split at h
              · cases h
              · rename_i vs hvs
                rw [e2] at hk hn
                rw [mapM_some_iff] at hvs
                have : (unionOf cfg ord ((e0' :: es').map (typeOr (Key.var x)))).map (fun t => (Key.var x, t)) ∈ vs.map some := by
                  rw [← hvs]
                  exact List.mem_map.2 ⟨_, hk, rfl⟩
                rw [hn] at this
                simp at this
            · cases h
        · rename_i hk
          rw [mem_allKeys] at hk
          cases hx : get e.vars (.var x) with
          | none => rfl
          | some t => exact absurd ⟨e, (hmem e).2 he, t, hx⟩ hk
      exact (hσ x).2 hx

/-- Joins of environments with named types in one context: defined, and exact. -/
theorem envsOr_flat (hc : CfgOk cfg) (ho : SetOrder ord) (hns : "not_set" ∈ names cfg.tree) {envs : List (Option (Env K))} {k : K}
    (hf : ∀ e, some e ∈ envs → FlatEnv cfg e ∧ e.ctx = k) :
    ∃ r, envsOr cfg ord envs = some r ∧ (r = none ↔ ∀ e, some e ∉ envs) ∧ ∀ e, r = some e → FlatEnv cfg e ∧ e.ctx = k ∧
      ∀ x, (get e.vars x = none ↔ ∀ e', some e' ∈ envs → get e'.vars x = none) ∧
        ∀ t, get e.vars x = some t → ∀ I : Interp, Respects cfg I → Exhaustive cfg I → ∀ v : I.V,
          den cfg I t v ↔ ∃ e', some e' ∈ envs ∧ den cfg I (typeOr x e') v := by
  have hmem : ∀ e, e ∈ envs.filterMap id ↔ some e ∈ envs := by
    intro e
    simp [List.mem_filterMap]
  have hU : ∀ x, ∃ T, unionOf cfg ord ((envs.filterMap id).map (typeOr x)) = some T ∧ Flat cfg T ∧
      ∀ I : Interp, Respects cfg I → Exhaustive cfg I → ∀ v : I.V, den cfg I T v ↔ ∃ t ∈ (envs.filterMap id).map (typeOr x), den cfg I t v := by
    intro x
    refine union_flat hc ho (fun t ht => ?_)
    obtain ⟨e', he', rfl⟩ := List.mem_map.1 ht
    exact flat_typeOr hns (hf e' ((hmem e').1 he')).1 x
  have hdef : ∃ r, envsOr cfg ord envs = some r := by
    unfold envsOr
    split
    · exact ⟨_, rfl⟩
    · exact ⟨_, rfl⟩
    · rename_i e0 es _ e
      rw [if_pos]
      · obtain ⟨vs, hvs⟩ := mapM_entries (f := fun x => unionOf cfg ord ((e0 :: es).map (typeOr x))) (ks := allKeys (e0 :: es)) (fun x _ => by
          obtain ⟨T, hT, _⟩ := hU x
          rw [e] at hT
          exact ⟨T, hT⟩)
        rw [hvs]
        exact ⟨_, rfl⟩
      · have h0 : e0.ctx = k := (hf e0 ((hmem e0).1 (by rw [e]; simp))).2
        rw [List.all_eq_true]
        intro e' he'
        have := (hf e' ((hmem e').1 (by rw [e]; exact he'))).2
        simp [this, h0]
  obtain ⟨r, hr⟩ := hdef
  refine ⟨r, hr, ?_, ?_⟩
  · rcases envsOr_cases hr with ⟨h0, rfl⟩ | ⟨e1, h1, rfl⟩ | ⟨e0, e1, he0, rfl, _⟩
    · simp only [true_iff]
      intro e he
      have := (hmem e).2 he
      rw [h0] at this; cases this
    · simp only [reduceCtorEq, false_iff]
      intro h
      exact h e1 ((hmem e1).1 (by rw [h1]; simp))
    · simp only [reduceCtorEq, false_iff]
      intro h
      exact h e0 ((hmem e0).1 he0)
  · intro e he
    rcases envsOr_cases hr with ⟨h0, rfl⟩ | ⟨e1, h1, rfl⟩ | ⟨e0, e1, he0, rfl, hctx, hall, hget⟩
    · cases he
    · injection he with he; subst he
      have h1' : ∀ e', some e' ∈ envs ↔ e' = e1 := by
        intro e'; rw [← hmem, h1, List.mem_singleton]
      obtain ⟨g1, g2⟩ := hf e1 ((h1' _).2 rfl)
      refine ⟨g1, g2, fun x => ⟨?_, ?_⟩⟩
      · constructor
        · intro h e' he'; rw [(h1' e').1 he']; exact h
        · intro h; exact h e1 ((h1' _).2 rfl)
      · intro t ht I hI hx v
        constructor
        · intro hv; exact ⟨e1, (h1' _).2 rfl, by rw [typeOr, ht]; exact hv⟩
        · rintro ⟨e', he', hv⟩
          rw [(h1' e').1 he', typeOr, ht] at hv
          exact hv
    · injection he with he; subst he
      refine ⟨?_, ?_, fun x => ⟨?_, ?_⟩⟩
      · intro x t ht
        rw [hget] at ht
        split at ht
        · obtain ⟨T, hT, hf, _⟩ := hU x
          rw [hT] at ht; injection ht with ht; exact ht ▸ hf
        · cases ht
      · rw [hctx]; exact (hf e0 ((hmem e0).1 he0)).2
      · rw [hget]
        obtain ⟨T, hT, _⟩ := hU x
        rw [hT]
        constructor
        · intro h e' he'
          split at h
          · cases h
          · rename_i hk
            rw [mem_allKeys] at hk
            cases hx : get e'.vars x with
            | none => rfl
            | some t => exact absurd ⟨e', (hmem e').2 he', t, hx⟩ hk
        · intro h
          rw [if_neg]
          rw [mem_allKeys]
          rintro ⟨e', he', t, ht⟩
          rw [h e' ((hmem e').1 he')] at ht
          cases ht
      · intro t ht I hI hx v
        rw [hget] at ht
        split at ht
        · obtain ⟨T, hT, _, hd⟩ := hU x
          rw [hT] at ht; injection ht with ht; subst ht
          rw [hd I hI hx v]
          constructor
          · rintro ⟨t, ht, hv⟩
            obtain ⟨e', he', rfl⟩ := List.mem_map.1 ht
            exact ⟨e', (hmem e').1 he', hv⟩
          · rintro ⟨e', he', hv⟩
            exact ⟨_, List.mem_map.2 ⟨e', (hmem e').2 he', rfl⟩, hv⟩
        · cases ht

end

/-! ### Meets -/

theorem meetTypes_flat (hc : CfgOk cfg) (hleaf : IsLeaf cfg.tree "List") (ho : SetOrder ord) : ∀ (ts : List Ty) (A : Ty), Flat cfg A → (∀ t ∈ ts, Flat cfg t) →
    ∃ T, meetTypes cfg ord A ts = some T ∧ Flat cfg T ∧ ∀ I : Interp, Respects cfg I → Exhaustive cfg I → SiblingsDisjoint cfg I → ∀ v : I.V,
      den cfg I T v ↔ den cfg I A v ∧ ∀ t ∈ ts, den cfg I t v := by
  intro ts
  induction ts with
  | nil => intro A hA _; exact ⟨A, rfl, hA, fun I _ _ _ v => by simp⟩
  | cons t ts ih =>
    intro A hA hts
    obtain ⟨i, o, hs, hi, _, hd⟩ := split_flat hc hleaf ho hA (hts t (by simp))
    obtain ⟨T, hT, hf, hd'⟩ := ih i hi (fun x hx => hts x (by simp [hx]))
    refine ⟨T, by rw [meetTypes, hs]; exact hT, hf, fun I h1 h2 h3 v => ?_⟩
    rw [hd' I h1 h2 h3 v, (hd I h1 h2 h3 v).1]
    simp only [List.mem_cons, forall_eq_or_imp, and_assoc]

theorem meetAt_flat (hc : CfgOk cfg) (hleaf : IsLeaf cfg.tree "List") (ho : SetOrder ord) {ts : List Ty} (h : ∀ t ∈ ts, Flat cfg t ∨ t = .tbd) :
    ∃ T, meetAt cfg ord ts = some T ∧ (T = .tbd ∧ (∀ t ∈ ts, t = .tbd) ∨ Flat cfg T ∧ (∃ t ∈ ts, t ≠ .tbd) ∧
      ∀ I : Interp, Respects cfg I → Exhaustive cfg I → SiblingsDisjoint cfg I → ∀ v : I.V,
      den cfg I T v ↔ ∀ t ∈ ts, t ≠ .tbd → den cfg I t v) := by
  have hm : ∀ t, t ∈ ts.filter (fun t => !tyEq t .tbd) ↔ t ∈ ts ∧ t ≠ .tbd := by
    intro t
    rw [List.mem_filter]
    refine and_congr_right (fun ht => ?_)
    rcases h t ht with hf | rfl
    · rw [flat_not_tbd hf]
      simp only [Bool.not_false, true_iff]
      rintro rfl; exact not_flat_tbd hf
    · simp [tyEq_refl]
  unfold meetAt
  split
  · rename_i e
    refine ⟨_, rfl, .inl ⟨rfl, fun t ht => ?_⟩⟩
    refine Classical.byContradiction (fun hn => ?_)
    have := (hm t).2 ⟨ht, hn⟩
    rw [e] at this; cases this
  · rename_i t ts' e
    have hfl : ∀ u ∈ t :: ts', Flat cfg u := by
      intro u hu
      rw [← e, hm] at hu
      exact (h u hu.1).resolve_right hu.2
    obtain ⟨T, hT, hf, hd⟩ := meetTypes_flat hc hleaf ho ts' t (hfl t (by simp)) (fun u hu => hfl u (by simp [hu]))
    have ht := (hm t).1 (by rw [e]; simp)
    refine ⟨T, hT, .inr ⟨hf, ⟨t, ht⟩, fun I h1 h2 h3 v => ?_⟩⟩
    rw [hd I h1 h2 h3 v]
    constructor
    · rintro ⟨g1, g2⟩ u hu hn
      have := (hm u).2 ⟨hu, hn⟩
      rw [e, List.mem_cons] at this
      rcases this with rfl | hu'
      · exact g1
      · exact g2 u hu'
    · intro g
      refine ⟨g t ht.1 ht.2, fun u hu => ?_⟩
      have := (hm u).1 (by rw [e]; simp [hu])
      exact g u this.1 this.2

theorem mem_commonKeys {es : List (Env K)} (hne : es ≠ []) {x : Key} : x ∈ commonKeys es ↔ ∀ e ∈ es, ∃ t, get e.vars x = some t := by
  simp only [commonKeys, List.mem_filter, mem_allKeys, List.all_eq_true, Option.isSome_iff_exists]
  constructor
  · exact And.right
  · intro h
    refine ⟨?_, h⟩
    cases es with
    | nil => exact absurd rfl hne
    | cons e es => exact ⟨e, by simp, h e (by simp)⟩

/-- Meets of environments whose types are named or TBD: defined, and exact. -/
theorem envsAnd_flat (hc : CfgOk cfg) (hleaf : IsLeaf cfg.tree "List") (ho : SetOrder ord) {es : List (Env K)} (hne : es ≠ [])
    (h : ∀ e ∈ es, ∀ x t, get e.vars x = some t → Flat cfg t ∨ t = .tbd) :
    ∃ e, envsAnd cfg ord es = some e ∧ (∃ e0 ∈ es, e.ctx = e0.ctx) ∧ ∀ x,
      (get e.vars x = none ↔ ∃ e' ∈ es, get e'.vars x = none) ∧
      ∀ t, get e.vars x = some t → (t = .tbd ∧ (∀ e' ∈ es, get e'.vars x = some .tbd) ∨
        Flat cfg t ∧ (∃ e' ∈ es, get e'.vars x ≠ some .tbd) ∧
        ∀ I : Interp, Respects cfg I → Exhaustive cfg I → SiblingsDisjoint cfg I → ∀ v : I.V,
          den cfg I t v ↔ ∀ e' ∈ es, ∀ u, get e'.vars x = some u → u ≠ .tbd → den cfg I u v) := by
  -- one environment that says the same as all others
  have single : ∀ e0 ∈ es, (∀ e' ∈ es, sameVars e0.vars e'.vars = true) → ∀ x,
      (get e0.vars x = none ↔ ∃ e' ∈ es, get e'.vars x = none) ∧
      ∀ t, get e0.vars x = some t → (t = .tbd ∧ (∀ e' ∈ es, get e'.vars x = some .tbd) ∨
        Flat cfg t ∧ (∃ e' ∈ es, get e'.vars x ≠ some .tbd) ∧
        ∀ I : Interp, Respects cfg I → Exhaustive cfg I → SiblingsDisjoint cfg I → ∀ v : I.V,
          den cfg I t v ↔ ∀ e' ∈ es, ∀ u, get e'.vars x = some u → u ≠ .tbd → den cfg I u v) := by
    intro e0 he0 hs x
    constructor
    · constructor
      · intro hn; exact ⟨e0, he0, hn⟩
      · rintro ⟨e', he', hn⟩
        have := sameVars_iff.1 (hs e' he') x
        cases hx : get e0.vars x with
        | none => rfl
        | some t =>
          obtain ⟨B, hB, _⟩ := this.1 t hx
          rw [hn] at hB; cases hB
    · intro t ht
      rcases h e0 he0 x t ht with hf | rfl
      · right
        refine ⟨hf, ⟨e0, he0, ?_⟩, fun I _ _ _ v => ?_⟩
        · rw [ht]; intro e; injection e with e; subst e; exact not_flat_tbd hf
        · constructor
          · intro hv e' he' u hu _
            obtain ⟨B, hB, e⟩ := (sameVars_iff.1 (hs e' he') x).1 t ht
            rw [hu] at hB; injection hB with hB; subst hB
            exact (tyEq_den e v).1 hv
          · intro g
            exact g e0 he0 t ht (by rintro rfl; exact not_flat_tbd hf)
      · left
        refine ⟨rfl, fun e' he' => ?_⟩
        obtain ⟨B, hB, e⟩ := (sameVars_iff.1 (hs e' he') x).1 _ ht
        rcases h e' he' x B hB with hf | rfl
        · have e' : tyEq B .tbd = true := tyEq_iff.2 (fun m => (tyEq_iff.1 e m).symm)
          rw [flat_not_tbd hf] at e'; cases e'
        · exact hB
  unfold envsAnd
  split
  · exact absurd rfl hne
  · rename_i e0
    refine ⟨e0, rfl, ⟨e0, by simp, rfl⟩, single e0 (by simp) ?_⟩
    intro e' he'
    simp only [List.mem_singleton] at he'
    subst he'
    rw [sameVars_iff]
    exact fun x => ⟨fun A hA => ⟨A, hA, tyEq_refl⟩, id⟩
  · rename_i e0 es' _
    split
    · rename_i hs
      refine ⟨e0, rfl, ⟨e0, by simp, rfl⟩, single e0 (by simp) ?_⟩
      intro e' he'
      rcases List.mem_cons.1 he' with rfl | he'
      · rw [sameVars_iff]
        exact fun x => ⟨fun A hA => ⟨A, hA, tyEq_refl⟩, id⟩
      · exact hs.2 e' he'
    · have hmeet : ∀ x, ∃ T, meetAt cfg ord ((e0 :: es').filterMap (fun e => get e.vars x)) = some T ∧
          (T = .tbd ∧ (∀ t ∈ (e0 :: es').filterMap (fun e => get e.vars x), t = .tbd) ∨ Flat cfg T ∧ (∃ t ∈ (e0 :: es').filterMap (fun e => get e.vars x), t ≠ .tbd) ∧
          ∀ I : Interp, Respects cfg I → Exhaustive cfg I → SiblingsDisjoint cfg I → ∀ v : I.V,
          den cfg I T v ↔ ∀ t ∈ (e0 :: es').filterMap (fun e => get e.vars x), t ≠ .tbd → den cfg I t v) := by
        intro x
        refine meetAt_flat hc hleaf ho (fun t ht => ?_)
        obtain ⟨e', he', hx⟩ := List.mem_filterMap.1 ht
        exact h e' he' x t hx
      obtain ⟨vs, hvs⟩ := mapM_entries (f := fun x => meetAt cfg ord ((e0 :: es').filterMap (fun e => get e.vars x)))
        (ks := commonKeys (e0 :: es')) (fun x _ => by obtain ⟨T, hT, _⟩ := hmeet x; exact ⟨T, hT⟩)
      rw [hvs]
      refine ⟨_, rfl, ⟨e0, by simp, rfl⟩, fun x => ?_⟩
      have hget := get_mapM hvs x
      dsimp only
      rw [hget]
      obtain ⟨T, hT, hcase⟩ := hmeet x
      rw [hT]
      constructor
      · constructor
        · intro hn
          split at hn
          · cases hn
          · rename_i hk
            rw [mem_commonKeys (by simp)] at hk
            refine Classical.byContradiction (fun hno => hk (fun e' he' => ?_))
            cases hx : get e'.vars x with
            | none => exact absurd ⟨e', he', hx⟩ hno
            | some t => exact ⟨t, rfl⟩
        · rintro ⟨e', he', hn⟩
          rw [if_neg]
          rw [mem_commonKeys (by simp)]
          intro hall
          obtain ⟨t, ht⟩ := hall e' he'
          rw [hn] at ht; cases ht
      · intro t ht
        split at ht
        · rename_i hk
          rw [mem_commonKeys (by simp)] at hk
          injection ht with ht; subst ht
          have hin : ∀ e' ∈ e0 :: es', ∀ u, get e'.vars x = some u → u ∈ (e0 :: es').filterMap (fun e => get e.vars x) :=
            fun e' he' u hu => List.mem_filterMap.2 ⟨e', he', hu⟩
          rcases hcase with ⟨h1, h2⟩ | ⟨h1, ⟨t, ht, hne'⟩, h2⟩
          · left
            refine ⟨h1, fun e' he' => ?_⟩
            obtain ⟨u, hu⟩ := hk e' he'
            rw [hu, h2 u (hin e' he' u hu)]
          · right
            refine ⟨h1, ?_, fun I i1 i2 i3 v => ?_⟩
            · obtain ⟨e', he', hx⟩ := List.mem_filterMap.1 ht
              refine ⟨e', he', ?_⟩
              rw [hx]; intro e; injection e with e; exact hne' e
            · rw [h2 I i1 i2 i3 v]
              constructor
              · intro g e' he' u hu hn; exact g u (hin e' he' u hu) hn
              · intro g u hu hn
                obtain ⟨e', he', hx⟩ := List.mem_filterMap.1 hu
                exact g e' he' u hx hn
        · cases ht

end Verif.Env
