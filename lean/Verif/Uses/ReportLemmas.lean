import Verif.Uses.HitLemmas
/-!
# The report on a production
-/
namespace Verif.Uses
open Verif.Uses.Spec
open Verif.Defs (Str)
open Verif.Gram (matchRhs optbits Item Sym IKind BitsOk)

/-! ## Annotations -/

/-- An item that stops the check. -/
def Odd (x : Item) : Prop := ∃ k text, x = .plain (.other k text) ∧ (k = .BUT_ONLY ∨ k = .U_RANGE ∨ k = .U_PROP ∨ k = .U_ANY)

/-- An annotation that calls for a message. -/
def Unusual (title lhs : Str) (x : Item) : Prop :=
  ∃ k text, x = .plain (.other k text) ∧ UnusualKind k ∧ ¬Excepted title lhs k

theorem role_wrong (x : Item) : role x = .wrong ↔ Odd x := by
  unfold Odd
  cases x with
  | qm s => simp [role]
  | plain s =>
    cases s with
    | gnt a p => simp [role]
    | other k t => cases k <;> simp [role]

theorem role_annotation (x : Item) (k : IKind) : role x = .annotation k ↔ ∃ text, x = .plain (.other k text) ∧ UnusualKind k := by
  unfold UnusualKind
  cases x with
  | qm s => simp [role]
  | plain s =>
    cases s with
    | gnt a p => simp [role]
    | other k' t => cases k' <;> simp [role] <;> cases k <;> simp

theorem tolerated_iff (title lhs : Str) (k : IKind) : tolerated title lhs k = true ↔ Excepted title lhs k := by
  unfold tolerated Excepted allowed
  simp only [Bool.or_eq_true, Bool.and_eq_true, decide_eq_true_eq, List.mem_cons, List.not_mem_nil, Prod.mk.injEq, or_false, or_assoc]
  apply or_congr Iff.rfl
  constructor
  · rintro (h | h | h | h | h)
    · exact Or.inl ⟨h.1, Or.inl h.2⟩
    · exact Or.inl ⟨h.1, Or.inr h.2⟩
    · exact Or.inr (Or.inl h)
    · exact Or.inr (Or.inr (Or.inl h))
    · exact Or.inr (Or.inr (Or.inr h))
  · rintro (⟨h1, h | h⟩ | h | h | h) <;> simp_all

theorem annMsgs_none (title lhs : Str) (r : Nat) : ∀ (xs : List Item) (i : Nat), annMsgs title lhs r i xs = none ↔ ∃ x ∈ xs, Odd x
  | [], i => by simp [annMsgs]
  | x :: xs, i => by
    have hx := role_wrong x
    unfold annMsgs
    cases hr : role x with
    | symbol =>
      have : ¬Odd x := fun h => by rw [hx.2 h] at hr; cases hr
      simp [annMsgs_none title lhs r xs (i + 1), this]
    | annotation k =>
      have : ¬Odd x := fun h => by rw [hx.2 h] at hr; cases hr
      simp [annMsgs_none title lhs r xs (i + 1), this]
    | wrong => simp [hx.1 hr]

theorem mem_annMsgs (title lhs : Str) (r : Nat) (m : Msg) : ∀ (xs : List Item) (i : Nat) (ms : List Msg), annMsgs title lhs r i xs = some ms →
    (m ∈ ms ↔ ∃ (k : Nat) (x : Item), xs[k]? = some x ∧ Unusual title lhs x ∧ m = .annotation r (i + k))
  | [], i, ms, h => by
    simp only [annMsgs, Option.some.injEq] at h; subst h
    simp
  | x :: xs, i, ms, h => by
    have step : ∀ ms', annMsgs title lhs r (i + 1) xs = some ms' →
        (m ∈ ms' ↔ ∃ (k : Nat) (y : Item), (x :: xs)[k + 1]? = some y ∧ Unusual title lhs y ∧ m = .annotation r (i + (k + 1))) := by
      intro ms' h'
      rw [mem_annMsgs title lhs r m xs (i + 1) ms' h']
      simp only [List.getElem?_cons_succ, show ∀ k, i + 1 + k = i + (k + 1) from fun k => by omega]
    have split0 : (∃ (k : Nat) (y : Item), (x :: xs)[k]? = some y ∧ Unusual title lhs y ∧ m = .annotation r (i + k)) ↔
        (Unusual title lhs x ∧ m = .annotation r i) ∨
          ∃ (k : Nat) (y : Item), (x :: xs)[k + 1]? = some y ∧ Unusual title lhs y ∧ m = .annotation r (i + (k + 1)) := by
      constructor
      · rintro ⟨k, y, h1, h2, h3⟩
        cases k with
        | zero => simp only [List.getElem?_cons_zero, Option.some.injEq] at h1; subst h1; exact Or.inl ⟨h2, h3⟩
        | succ k => exact Or.inr ⟨k, y, h1, h2, h3⟩
      · rintro (⟨h1, h2⟩ | ⟨k, y, h1, h2, h3⟩)
        · exact ⟨0, x, rfl, h1, h2⟩
        · exact ⟨k + 1, y, h1, h2, h3⟩
    rw [split0]
    unfold annMsgs at h
    cases hr : role x with
    | symbol =>
      simp only [hr] at h
      have hu : ¬Unusual title lhs x := by
        rintro ⟨k, text, h1, h2, _⟩
        rw [(role_annotation x k).2 ⟨text, h1, h2⟩] at hr; cases hr
      rw [step ms h]
      simp [hu]
    | annotation k =>
      simp only [hr, Option.map_eq_some_iff] at h
      obtain ⟨ms', h1, rfl⟩ := h
      obtain ⟨text, hx, hk⟩ := (role_annotation x k).1 hr
      have hu : Unusual title lhs x ↔ ¬tolerated title lhs k = true := by
        rw [tolerated_iff]
        constructor
        · rintro ⟨k', text', h2, _, h4⟩
          rw [hx] at h2; cases h2; exact h4
        · intro h2; exact ⟨k, text, hx, hk, h2⟩
      rw [List.mem_append, step ms' h1, hu]
      apply or_congr _ Iff.rfl
      by_cases ht : tolerated title lhs k = true <;> simp [ht]
    | wrong => simp [hr] at h

theorem annMsgs_order (title lhs : Str) (r : Nat) : ∀ (xs : List Item) (i : Nat) (ms : List Msg), annMsgs title lhs r i xs = some ms →
    ms.Pairwise Earlier
  | [], i, ms, h => by
    simp only [annMsgs, Option.some.injEq] at h; subst h; exact .nil
  | x :: xs, i, ms, h => by
    unfold annMsgs at h
    cases hr : role x with
    | symbol => simp only [hr] at h; exact annMsgs_order title lhs r xs (i + 1) ms h
    | annotation k =>
      simp only [hr, Option.map_eq_some_iff] at h
      obtain ⟨ms', h1, rfl⟩ := h
      rw [List.pairwise_append]
      refine ⟨?_, annMsgs_order title lhs r xs (i + 1) ms' h1, ?_⟩
      · split
        · exact .nil
        · exact List.pairwise_singleton ..
      · intro a ha b hb
        obtain ⟨k, x, _, _, rfl⟩ := (mem_annMsgs title lhs r b xs (i + 1) ms' h1).1 hb
        split at ha
        · simp at ha
        · simp only [List.mem_singleton] at ha; subst ha
          exact Or.inr ⟨rfl, Or.inr (Or.inr ⟨rfl, show i < i + 1 + k by omega⟩)⟩
    | wrong => simp [hr] at h

theorem annsMsgs_none (title lhs : Str) : ∀ (uss : List (List Item)) (r : Nat), annsMsgs title lhs r uss = none ↔ ∃ us ∈ uss, ∃ x ∈ us, Odd x
  | [], r => by simp [annsMsgs]
  | us :: uss, r => by
    have hx := annMsgs_none title lhs r us 0
    unfold annsMsgs
    cases hr : annMsgs title lhs r 0 us with
    | none =>
      obtain ⟨x, h1, h2⟩ := hx.1 hr
      simp only [true_iff]
      exact ⟨us, List.mem_cons_self .., x, h1, h2⟩
    | some ms =>
      have : ¬∃ x ∈ us, Odd x := fun h => by rw [hx.2 h] at hr; cases hr
      simp only [Option.map_eq_none_iff, annsMsgs_none title lhs uss (r + 1), List.mem_cons, exists_eq_or_imp]
      exact ⟨Or.inr, fun h => h.elim (fun h => absurd h this) id⟩

theorem mem_annsMsgs (title lhs : Str) (m : Msg) : ∀ (uss : List (List Item)) (r : Nat) (ms : List Msg), annsMsgs title lhs r uss = some ms →
    (m ∈ ms ↔ ∃ (q : Nat) (us : List Item) (k : Nat) (x : Item), uss[q]? = some us ∧ us[k]? = some x ∧ Unusual title lhs x ∧ m = .annotation (r + q) k)
  | [], r, ms, h => by
    simp only [annsMsgs, Option.some.injEq] at h; subst h
    simp
  | us :: uss, r, ms, h => by
    unfold annsMsgs at h
    cases hr : annMsgs title lhs r 0 us with
    | none => simp [hr] at h
    | some as =>
      simp only [hr, Option.map_eq_some_iff] at h
      obtain ⟨ms', h1, rfl⟩ := h
      rw [List.mem_append, mem_annMsgs title lhs r m us 0 as hr, mem_annsMsgs title lhs m uss (r + 1) ms' h1]
      constructor
      · rintro (⟨k, x, h2, h3, h4⟩ | ⟨q, us', k, x, h2, h3, h4, h5⟩)
        · exact ⟨0, us, k, x, rfl, h2, h3, by rw [h4]; simp⟩
        · exact ⟨q + 1, us', k, x, h2, h3, h4, by rw [h5]; congr 1; omega⟩
      · rintro ⟨q, us', k, x, h2, h3, h4, h5⟩
        cases q with
        | zero =>
          simp only [List.getElem?_cons_zero, Option.some.injEq] at h2; subst h2
          exact Or.inl ⟨k, x, h3, h4, by rw [h5]; simp⟩
        | succ q => exact Or.inr ⟨q, us', k, x, h2, h3, h4, by rw [h5]; congr 1; omega⟩

theorem annsMsgs_order (title lhs : Str) : ∀ (uss : List (List Item)) (r : Nat) (ms : List Msg), annsMsgs title lhs r uss = some ms →
    ms.Pairwise Earlier
  | [], r, ms, h => by
    simp only [annsMsgs, Option.some.injEq] at h; subst h; exact .nil
  | us :: uss, r, ms, h => by
    unfold annsMsgs at h
    cases hr : annMsgs title lhs r 0 us with
    | none => simp [hr] at h
    | some as =>
      simp only [hr, Option.map_eq_some_iff] at h
      obtain ⟨ms', h1, rfl⟩ := h
      rw [List.pairwise_append]
      refine ⟨annMsgs_order title lhs r us 0 as hr, annsMsgs_order title lhs uss (r + 1) ms' h1, ?_⟩
      intro a ha b hb
      obtain ⟨k, x, _, _, rfl⟩ := (mem_annMsgs title lhs r a us 0 as hr).1 ha
      obtain ⟨q, us', k', x', _, _, _, rfl⟩ := (mem_annsMsgs title lhs b uss (r + 1) ms' h1).1 hb
      exact Or.inr ⟨rfl, Or.inr (Or.inl (show r < r + 1 + q by omega))⟩

/-! ## Parameters -/

theorem repeating_iff (i : Str) : i ∈ repeating ↔ MayRepeat i := by
  unfold repeating MayRepeat
  simp only [List.mem_cons, List.not_mem_nil, or_false]

theorem checkParams_none (id : Option Str) (up dp : List Str) : checkParams id up dp = none ↔ up ≠ [] ∧ up = dp ∧ id = none := by
  unfold checkParams
  by_cases hd : dp = []
  · by_cases hu : up = []
    · simp [hd, hu]
    · simp [hd, hu]
  · by_cases hu : up = []
    · simp [hd, hu]
    · by_cases he : up = dp
      · subst he
        cases id with
        | none => simp [hd]
        | some i => simp only [ne_eq, hd, not_false_eq_true, if_true, not_true, if_false]; split <;> simp
      · simp [hd, hu, he]

/-- The messages on parameters. -/
inductive ParamDue (id : Option Str) (up dp : List Str) : Msg → Prop where
  | params : up ≠ [] → dp ≠ [] → up ≠ dp → ParamDue id up dp (.params up dp)
  | unusualParams : up ≠ [] → up = dp → (∀ i, id = some i → ¬MayRepeat i) → ParamDue id up dp (.unusualParams up)
  | paramsNone : up ≠ [] → dp = [] → ParamDue id up dp .paramsNone

theorem checkParams_some (id : Option Str) (up dp : List Str) (s : Option Bool) (ms : List Msg) (h : checkParams id up dp = some (s, ms)) :
    s = (if dp ≠ [] then some (decide (up = [])) else none) ∧ (∀ m, m ∈ ms ↔ ParamDue id up dp m) ∧ ms.length ≤ 1 := by
  unfold checkParams at h
  by_cases hd : dp = []
  · by_cases hu : up = []
    · simp only [hd, hu, ne_eq, not_true, if_false, Option.some.injEq, Prod.mk.injEq] at h
      obtain ⟨rfl, rfl⟩ := h
      refine ⟨by simp [hd], fun m => ?_, by simp⟩
      simp only [List.not_mem_nil, false_iff]
      intro h; cases h <;> contradiction
    · simp only [hd, hu, ne_eq, not_true, not_false_eq_true, if_false, if_true, Option.some.injEq, Prod.mk.injEq] at h
      obtain ⟨rfl, rfl⟩ := h
      refine ⟨by simp [hd], fun m => ?_, by simp⟩
      simp only [List.mem_singleton]
      constructor
      · rintro rfl; exact .paramsNone hu hd
      · intro h
        cases h with
        | params _ h => exact absurd hd h
        | unusualParams h1 h2 => exact absurd (h2.trans hd) h1
        | paramsNone => rfl
  · by_cases hu : up = []
    · simp only [hd, hu, ne_eq, not_true, not_false_eq_true, if_false, if_true, Option.some.injEq, Prod.mk.injEq] at h
      obtain ⟨rfl, rfl⟩ := h
      refine ⟨by simp [hd, hu], fun m => ?_, by simp⟩
      simp only [List.not_mem_nil, false_iff]
      intro h; cases h <;> contradiction
    · by_cases he : up = dp
      · subst he
        cases id with
        | none => simp [hd] at h
        | some i =>
          simp only [ne_eq, hd, not_true, not_false_eq_true, if_false, if_true] at h
          split at h
          · next hi =>
            simp only [Option.some.injEq, Prod.mk.injEq] at h
            obtain ⟨rfl, rfl⟩ := h
            refine ⟨by simp [hu], fun m => ?_, by simp⟩
            simp only [List.not_mem_nil, false_iff]
            intro h
            cases h with
            | params _ _ h => exact h rfl
            | unusualParams _ _ h => exact h i rfl ((repeating_iff i).1 hi)
            | paramsNone h h' => exact h h'
          · next hi =>
            simp only [Option.some.injEq, Prod.mk.injEq] at h
            obtain ⟨rfl, rfl⟩ := h
            refine ⟨by simp [hu], fun m => ?_, by simp⟩
            simp only [List.mem_singleton]
            constructor
            · rintro rfl
              exact .unusualParams hu rfl (fun j hj => by cases hj; exact fun h => hi ((repeating_iff i).2 h))
            · intro h
              cases h with
              | params _ _ h => exact absurd rfl h
              | unusualParams => rfl
              | paramsNone h h' => exact absurd h' h
      · simp only [hd, hu, he, ne_eq, not_true, not_false_eq_true, if_false, if_true, Option.some.injEq, Prod.mk.injEq] at h
        obtain ⟨rfl, rfl⟩ := h
        refine ⟨by simp [hd, hu], fun m => ?_, by simp⟩
        simp only [List.mem_singleton]
        constructor
        · rintro rfl; exact .params hu hd he
        · intro h
          cases h with
          | params => rfl
          | unusualParams _ h => exact absurd h he
          | paramsNone _ h => exact absurd h hd

/-! ## The right-hand sides -/

/-- `u_lhs_args_are_suppressed`. -/
def Case.flag (c : Case) : Option Bool := if c.dParams ≠ [] then some (decide (c.uParams = [])) else none

theorem withLhs_notes (c : Case) {n : Gram.Notes} {st : List Step} (h : NotesFor n st) :
    (withLhs c.lhs (Case.flag c) n).argsSuppressed = c.suppressed st ∧ (withLhs c.lhs (Case.flag c) n).argsIntact = c.intact st ∧
    (withLhs c.lhs (Case.flag c) n).annSuppressed = st.filterMap leftText ∧ (withLhs c.lhs (Case.flag c) n).annIntact = st.filterMap keptText := by
  unfold Case.flag Case.suppressed Case.intact
  rw [← h.intact, ← h.suppressed, ← h.annIntact, ← h.annSuppressed]
  by_cases hd : c.dParams = []
  · simp [hd, withLhs]
  · by_cases hu : c.uParams = []
    · simp [hd, hu, withLhs]
    · simp [hd, hu, withLhs]

/-- The messages for a pair of right-hand sides. -/
inductive PairDue (c : Case) (r : Nat) (us ds : List Item) : Msg → Prop where
  | arg (i u d m) : Meets us ds i u d → ArgDue r i u d m → PairDue c r us ds m
  | argsMixed (st) : Match us ds st → c.suppressed st ≠ [] → c.intact st ≠ [] → PairDue c r us ds (.argsMixed (c.suppressed st) (c.intact st))
  | annsMixed (st) : Match us ds st → st.filterMap leftText ≠ [] → st.filterMap keptText ≠ [] →
      PairDue c r us ds (.annsMixed (st.filterMap leftText) (st.filterMap keptText))

theorem mem_pairMsgs (c : Case) (r : Nat) (us ds : List Item) (m : Msg) : m ∈ pairMsgs c.lhs (Case.flag c) r us ds ↔ PairDue c r us ds m := by
  unfold pairMsgs
  rw [List.mem_append, mem_loopMsgs]
  constructor
  · rintro (⟨k, u, d, h1, h2⟩ | h)
    · rw [Nat.zero_add] at h2
      exact .arg k u d m h1 h2
    · cases hm : matchRhs us ds with
      | none => simp [hm] at h
      | some n =>
        simp only [hm] at h
        obtain ⟨st, h1, h2⟩ := match_some hm
        obtain ⟨k1, k2, k3, k4⟩ := withLhs_notes c h2
        unfold noteMsgs at h
        rw [k1, k2, k3, k4, List.mem_append] at h
        rcases h with h | h
        · split at h
          · next hn => simp only [List.mem_singleton] at h; subst h; exact .argsMixed st h1 hn.1 hn.2
          · simp at h
        · split at h
          · next hn => simp only [List.mem_singleton] at h; subst h; exact .annsMixed st h1 hn.1 hn.2
          · simp at h
  · intro h
    cases h with
    | arg i u d m h1 h2 => exact Or.inl ⟨i, u, d, h1, by rw [Nat.zero_add]; exact h2⟩
    | argsMixed st h1 h2 h3 =>
      obtain ⟨n, h4, h5⟩ := match_notes h1
      obtain ⟨k1, k2, k3, k4⟩ := withLhs_notes c h5
      refine Or.inr ?_
      simp only [h4, noteMsgs, k1, k2, k3, k4, List.mem_append]
      rw [if_pos ⟨h2, h3⟩]
      exact Or.inl (List.mem_singleton.2 rfl)
    | annsMixed st h1 h2 h3 =>
      obtain ⟨n, h4, h5⟩ := match_notes h1
      obtain ⟨k1, k2, k3, k4⟩ := withLhs_notes c h5
      refine Or.inr ?_
      simp only [h4, noteMsgs, k1, k2, k3, k4, List.mem_append]
      refine Or.inr ?_
      rw [if_pos ⟨h2, h3⟩]
      exact List.mem_singleton.2 rfl

theorem pairDue_stage {c : Case} {r : Nat} {us ds : List Item} {m : Msg} (h : PairDue c r us ds m) : stage m = 4 := by
  cases h with
  | arg i u d m h1 h2 => cases h2 <;> rfl
  | argsMixed => rfl
  | annsMixed => rfl

theorem mem_numberMsgs (c : Case) (r : Nat) (m : Msg) : m ∈ numberMsgs r (disFor (hits c.uss c.dss) r) ↔
    ((∀ j, ¬c.Hit r j) ∧ m = .noMatch r) ∨
      ∃ js, Increasing js ∧ (∀ j, j ∈ js ↔ c.Hit r j) ∧ 2 ≤ js.length ∧ m = .manyMatch r js.length := by
  have hinc := disFor_increasing (hits_increasing c.uss c.dss) r
  have hmem := fun j => mem_disFor c r j
  generalize disFor (hits c.uss c.dss) r = dis at hinc hmem
  have hu : ∀ js, Increasing js → (∀ j, j ∈ js ↔ c.Hit r j) → js = dis := fun js h1 h2 =>
    increasing_unique js dis h1 hinc (fun n => by rw [h2, hmem])
  unfold numberMsgs
  match dis, hinc, hmem, hu with
  | [], hinc, hmem, hu =>
    simp only [List.length_nil, List.mem_singleton]
    constructor
    · intro h; exact Or.inl ⟨fun j hj => by simpa using (hmem j).2 hj, h⟩
    · rintro (⟨_, h⟩ | ⟨js, h1, h2, h3, _⟩)
      · exact h
      · rw [hu js h1 h2] at h3; simp at h3
  | [d], hinc, hmem, hu =>
    simp only [List.length_cons, List.length_nil, List.not_mem_nil, false_iff]
    rintro (⟨h, _⟩ | ⟨js, h1, h2, h3, _⟩)
    · exact h d ((hmem d).1 (List.mem_cons_self ..))
    · rw [hu js h1 h2] at h3; simp at h3
  | d :: e :: ds, hinc, hmem, hu =>
    simp only [List.length_cons, List.mem_singleton]
    constructor
    · intro h; exact Or.inr ⟨d :: e :: ds, hinc, hmem, by simp, h⟩
    · rintro (⟨h, _⟩ | ⟨js, h1, h2, h3, h4⟩)
      · exact absurd ((hmem d).1 (List.mem_cons_self ..)) (h d)
      · rw [h4, hu js h1 h2]; rfl

theorem mem_sameMsgs (c : Case) (j : Nat) (m : Msg) : m ∈ sameMsgs j (uisFor (hits c.uss c.dss) j) ↔
    ∃ rs, Increasing rs ∧ (∀ r, r ∈ rs ↔ c.Hit r j) ∧ 2 ≤ rs.length ∧ m = .same (rs.map (· + 1)) (j + 1) := by
  have hinc := uisFor_increasing (hits_increasing c.uss c.dss) j
  have hmem := fun r => mem_uisFor c r j
  generalize uisFor (hits c.uss c.dss) j = uis at hinc hmem
  have hu : ∀ js, Increasing js → (∀ r, r ∈ js ↔ c.Hit r j) → js = uis := fun js h1 h2 =>
    increasing_unique js uis h1 hinc (fun n => by rw [h2, hmem])
  unfold sameMsgs
  match uis, hinc, hmem, hu with
  | [], hinc, hmem, hu =>
    simp only [List.length_nil, List.not_mem_nil, false_iff]
    rintro ⟨js, h1, h2, h3, _⟩
    rw [hu js h1 h2] at h3; simp at h3
  | [d], hinc, hmem, hu =>
    simp only [List.length_cons, List.length_nil, List.not_mem_nil, false_iff]
    rintro ⟨js, h1, h2, h3, _⟩
    rw [hu js h1 h2] at h3; simp at h3
  | d :: e :: ds, hinc, hmem, hu =>
    simp only [List.length_cons, List.mem_singleton]
    constructor
    · intro h; exact ⟨d :: e :: ds, hinc, hmem, by simp, h⟩
    · rintro ⟨js, h1, h2, h3, h4⟩
      rw [h4, hu js h1 h2]

theorem mem_orderMsgs (c : Case) (m : Msg) : m ∈ orderMsgs ((hits c.uss c.dss).map (·.2)) ↔
    ∃ ms r r' j j', LexIncreasing ms ∧ (∀ r j, (r, j) ∈ ms ↔ c.Hit r j) ∧ c.Hit r j ∧ c.Hit r' j' ∧ r < r' ∧ j' < j ∧
      m = .outOfOrder (ms.map (fun m => m.2 + 1)) := by
  have hinc := hits_increasing c.uss c.dss
  have hmem := fun r j => mem_hits c r j
  generalize hits c.uss c.dss = hs at hinc hmem
  unfold orderMsgs
  have hun := unsorted_iff hinc
  rw [← sortNat_iff] at hun
  constructor
  · intro h
    split at h
    · simp at h
    · next hn =>
      simp only [List.mem_singleton] at h
      obtain ⟨r, j, r', j', h1, h2, h3, h4⟩ := hun.1 hn
      exact ⟨hs, r, r', j, j', hinc, hmem, (hmem ..).1 h1, (hmem ..).1 h2, h3, h4, by rw [h, List.map_map]; rfl⟩
  · rintro ⟨ms, r, r', j, j', h1, h2, h3, h4, h5, h6, h7⟩
    have he : ms = hs := lexIncreasing_unique ms hs h1 hinc (fun ⟨a, b⟩ => by rw [h2, hmem])
    rw [if_neg (hun.2 ⟨r, j, r', j', (hmem ..).2 h3, (hmem ..).2 h4, h5, h6⟩), h7, he, List.map_map]
    exact List.mem_singleton.2 rfl

theorem hit_lt {c : Case} {r j : Nat} (h : c.Hit r j) : r < c.uss.length ∧ j < c.dss.length := by
  obtain ⟨us, ds, st, h1, h2, _⟩ := h
  exact ⟨(List.getElem?_eq_some_iff.1 h1).1, (List.getElem?_eq_some_iff.1 h2).1⟩

/-- The comparison never fails, and gives what it should. -/
theorem compare_some (c : Case) (before : List Msg) : ∃ rep, compare c.lhs (Case.flag c) before c.uss c.dss = some rep ∧
    rep.msgs = before ++ pairs (fun i us _ ds => pairMsgs c.lhs (Case.flag c) i us ds) c.uss c.dss ++
        (List.range c.uss.length).flatMap (fun u => numberMsgs u (disFor (hits c.uss c.dss) u)) ++ orderMsgs ((hits c.uss c.dss).map (·.2)) ++
        (List.range c.dss.length).flatMap (fun d => sameMsgs d (uisFor (hits c.uss c.dss) d)) ∧
    rep.puks = pairs (fun _ us _ ds => pairPuks c.lhs us ds) c.uss c.dss ∧
    rep.found = some ((List.range c.uss.length).map (fun u => foundFor (disFor (hits c.uss c.dss) u))) := by
  have h := (sortNat_iff _).2 (firsts_sorted (hits_increasing c.uss c.dss))
  unfold compare
  simp only
  rw [if_pos h]
  exact ⟨_, rfl, rfl, rfl, rfl⟩

theorem mem_pairPuks (lhs : Str) (us ds : List Item) (l red bits : Str) : (l, red, bits) ∈ pairPuks lhs us ds ↔
    l = lhs ∧ ∃ st, Match us ds st ∧ red = reduce ds ∧ BitsOk (st.filterMap treatment) bits := by
  unfold pairPuks
  constructor
  · intro h
    cases hm : matchRhs us ds with
    | none => simp [hm] at h
    | some n =>
      simp only [hm, List.mem_map, Prod.mk.injEq] at h
      obtain ⟨b, h1, rfl, rfl, rfl⟩ := h
      obtain ⟨st, h2, h3⟩ := match_some hm
      rw [Gram.optbits_mem, h3.optional] at h1
      exact ⟨rfl, st, h2, rfl, h1⟩
  · rintro ⟨rfl, st, h1, rfl, h2⟩
    obtain ⟨n, h3, h4⟩ := match_notes h1
    simp only [h3, List.mem_map]
    exact ⟨bits, by rw [Gram.optbits_mem, h4.optional]; exact h2, rfl⟩

/-! ## All together -/

theorem earlier_of_stage {a b : Msg} (h : stage a < stage b) : Earlier a b := Or.inl h

theorem pairwise_append_stage {xs ys : List Msg} (n : Nat) (hx : xs.Pairwise Earlier) (hy : ys.Pairwise Earlier)
    (h1 : ∀ a ∈ xs, stage a < n) (h2 : ∀ b ∈ ys, n ≤ stage b) : (xs ++ ys).Pairwise Earlier :=
  List.pairwise_append.2 ⟨hx, hy, fun a ha b hb => Or.inl (Nat.lt_of_lt_of_le (h1 a ha) (h2 b hb))⟩

theorem pairwise_short {xs : List Msg} (h : xs.length ≤ 1) : xs.Pairwise Earlier := by
  match xs, h with
  | [], _ => exact .nil
  | [x], _ => exact List.pairwise_singleton ..

theorem range_increasing (n : Nat) : (List.range n).Pairwise (· < ·) := List.pairwise_lt_range

theorem right_of (c : Case) (s : Option Bool) (ps as : List Msg) (hp : checkParams c.id c.uParams c.dParams = some (s, ps))
    (ha : annsMsgs c.sec.title c.lhs 0 c.uss = some as) :
    ∃ rep, compare c.lhs s ((if c.uColons ≠ c.dColons then [.colons c.uColons c.dColons] else []) ++ ps ++ as) c.uss c.dss = some rep ∧ c.Right rep := by
  obtain ⟨hs, hpm, hpl⟩ := checkParams_some _ _ _ _ _ hp
  have hs : s = Case.flag c := hs
  subst hs
  obtain ⟨rep, h1, h2, h3, h4⟩ := compare_some c ((if c.uColons ≠ c.dColons then [.colons c.uColons c.dColons] else []) ++ ps ++ as)
  refine ⟨rep, h1, ?_, ?_, ?_, ?_⟩
  · intro m
    rw [h2]
    simp only [List.mem_append, mem_pairs, mem_pairMsgs, List.mem_flatMap, List.mem_range, mem_numberMsgs, mem_sameMsgs, mem_orderMsgs, hpm,
      mem_annsMsgs c.sec.title c.lhs m c.uss 0 as ha, Nat.zero_add]
    constructor
    · rintro ((((((h | h) | ⟨q, us, k, x, h5, h6, ⟨kk, text, rfl, h7, h8⟩, rfl⟩) | ⟨r, us, j, ds, h5, h6, h⟩) |
        ⟨r, hr, (⟨h5, rfl⟩ | ⟨js, h5, h6, h7, rfl⟩)⟩) | ⟨ms, r, r', j, j', h5, h6, h7, h8, h9, h10, rfl⟩) | ⟨j, hj, rs, h5, h6, h7, rfl⟩)
      · split at h
        · next hc => simp only [List.mem_singleton] at h; subst h; exact .colons hc
        · simp at h
      · cases h with
        | params h5 h6 h7 => exact .params h5 h6 h7
        | unusualParams h5 h6 h7 => exact .unusualParams h5 h6 h7
        | paramsNone h5 h6 => exact .paramsNone h5 h6
      · exact .annotation q k us kk text h5 h6 h7 h8
      · have hds := List.mem_of_getElem? h6
        cases h with
        | arg i u d m h7 h8 =>
          cases h8 with
          | args n up dp h9 h10 h11 h12 h13 h14 => exact .args r i us ds u d n up dp h5 hds h7 h9 h10 h11 h12 h13 h14
          | argsNone n up h9 h10 h11 h12 => exact .argsNone r i us ds u d n up h5 hds h7 h9 h10 h11 h12
        | argsMixed st h7 h8 h9 => exact .argsMixed us ds st (List.mem_of_getElem? h5) hds h7 h8 h9
        | annsMixed st h7 h8 h9 => exact .annsMixed us ds st (List.mem_of_getElem? h5) hds h7 h8 h9
      · exact .noMatch r hr h5
      · exact .manyMatch r js h5 h6 h7
      · exact .outOfOrder ms r r' j j' h5 h6 h7 h8 h9 h10
      · exact .same j rs h5 h6 h7
    · intro h
      cases h with
      | colons h => exact Or.inl (Or.inl (Or.inl (Or.inl (Or.inl (Or.inl (by rw [if_pos h]; exact List.mem_singleton.2 rfl))))))
      | params h5 h6 h7 => exact Or.inl (Or.inl (Or.inl (Or.inl (Or.inl (Or.inr (.params h5 h6 h7))))))
      | unusualParams h5 h6 h7 => exact Or.inl (Or.inl (Or.inl (Or.inl (Or.inl (Or.inr (.unusualParams h5 h6 h7))))))
      | paramsNone h5 h6 => exact Or.inl (Or.inl (Or.inl (Or.inl (Or.inl (Or.inr (.paramsNone h5 h6))))))
      | annotation r i us k text h5 h6 h7 h8 => exact Or.inl (Or.inl (Or.inl (Or.inl (Or.inr ⟨r, us, i, _, h5, h6, ⟨k, text, rfl, h7, h8⟩, rfl⟩))))
      | args r i us ds u d n up dp h5 h6 h7 h9 h10 h11 h12 h13 h14 =>
        obtain ⟨j, hj⟩ := List.getElem?_of_mem h6
        exact Or.inl (Or.inl (Or.inl (Or.inr ⟨r, us, j, ds, h5, hj, .arg i u d _ h7 (.args n up dp h9 h10 h11 h12 h13 h14)⟩)))
      | argsNone r i us ds u d n up h5 h6 h7 h9 h10 h11 h12 =>
        obtain ⟨j, hj⟩ := List.getElem?_of_mem h6
        exact Or.inl (Or.inl (Or.inl (Or.inr ⟨r, us, j, ds, h5, hj, .arg i u d _ h7 (.argsNone n up h9 h10 h11 h12)⟩)))
      | argsMixed us ds st h5 h6 h7 h8 h9 =>
        obtain ⟨r, hr⟩ := List.getElem?_of_mem h5
        obtain ⟨j, hj⟩ := List.getElem?_of_mem h6
        exact Or.inl (Or.inl (Or.inl (Or.inr ⟨r, us, j, ds, hr, hj, .argsMixed st h7 h8 h9⟩)))
      | annsMixed us ds st h5 h6 h7 h8 h9 =>
        obtain ⟨r, hr⟩ := List.getElem?_of_mem h5
        obtain ⟨j, hj⟩ := List.getElem?_of_mem h6
        exact Or.inl (Or.inl (Or.inl (Or.inr ⟨r, us, j, ds, hr, hj, .annsMixed st h7 h8 h9⟩)))
      | noMatch r hr h5 => exact Or.inl (Or.inl (Or.inr ⟨r, hr, Or.inl ⟨h5, rfl⟩⟩))
      | manyMatch r js h5 h6 h7 =>
        have hr : r < c.uss.length := by
          match js, h6, h7 with
          | j :: _, h6, _ => exact (hit_lt ((h6 j).1 (List.mem_cons_self ..))).1
        exact Or.inl (Or.inl (Or.inr ⟨r, hr, Or.inr ⟨js, h5, h6, h7, rfl⟩⟩))
      | outOfOrder ms r r' j j' h5 h6 h7 h8 h9 h10 => exact Or.inl (Or.inr ⟨ms, r, r', j, j', h5, h6, h7, h8, h9, h10, rfl⟩)
      | same j rs h5 h6 h7 =>
        have hj : j < c.dss.length := by
          match rs, h6, h7 with
          | r :: _, h6, _ => exact (hit_lt ((h6 r).1 (List.mem_cons_self ..))).2
        exact Or.inr ⟨j, hj, rs, h5, h6, h7, rfl⟩
  · rw [h2]
    have s1 : ∀ a ∈ (if c.uColons ≠ c.dColons then [Msg.colons c.uColons c.dColons] else []), stage a = 1 := by
      intro a h
      split at h
      · simp only [List.mem_singleton] at h; subst h; rfl
      · simp at h
    have s2 : ∀ a ∈ ps, stage a = 2 := by
      intro a h
      cases (hpm a).1 h <;> rfl
    have s3 : ∀ a ∈ as, stage a = 3 := by
      intro a h
      obtain ⟨_, _, _, _, _, _, _, rfl⟩ := (mem_annsMsgs c.sec.title c.lhs a c.uss 0 as ha).1 h
      rfl
    have s4 : ∀ a ∈ pairs (fun i us _ ds => pairMsgs c.lhs (Case.flag c) i us ds) c.uss c.dss, stage a = 4 := by
      intro a h
      obtain ⟨r, us, j, ds, _, _, h⟩ := (mem_pairs ..).1 h
      exact pairDue_stage ((mem_pairMsgs ..).1 h)
    have n5 : ∀ u a, a ∈ numberMsgs u (disFor (hits c.uss c.dss) u) → stage a = 5 ∧ place a = (u, 0) := by
      intro u a h
      rcases (mem_numberMsgs c u a).1 h with ⟨_, rfl⟩ | ⟨_, _, _, _, rfl⟩ <;> exact ⟨rfl, rfl⟩
    have s5 : ∀ a ∈ (List.range c.uss.length).flatMap (fun u => numberMsgs u (disFor (hits c.uss c.dss) u)), stage a = 5 := by
      intro a h
      obtain ⟨u, _, h⟩ := List.mem_flatMap.1 h
      exact (n5 u a h).1
    have s6 : ∀ a ∈ orderMsgs ((hits c.uss c.dss).map (·.2)), stage a = 6 := by
      intro a h
      obtain ⟨_, _, _, _, _, _, _, _, _, _, _, rfl⟩ := (mem_orderMsgs c a).1 h
      rfl
    have n7 : ∀ d a, a ∈ sameMsgs d (uisFor (hits c.uss c.dss) d) → stage a = 7 ∧ place a = (d + 1, 0) := by
      intro d a h
      obtain ⟨_, _, _, _, rfl⟩ := (mem_sameMsgs c d a).1 h
      exact ⟨rfl, rfl⟩
    have s7 : ∀ a ∈ (List.range c.dss.length).flatMap (fun d => sameMsgs d (uisFor (hits c.uss c.dss) d)), stage a = 7 := by
      intro a h
      obtain ⟨u, _, h⟩ := List.mem_flatMap.1 h
      exact (n7 u a h).1
    have o1 : (if c.uColons ≠ c.dColons then [Msg.colons c.uColons c.dColons] else []).Pairwise Earlier := by
      split
      · exact List.pairwise_singleton ..
      · exact .nil
    have o4 : (pairs (fun i us _ ds => pairMsgs c.lhs (Case.flag c) i us ds) c.uss c.dss).Pairwise Earlier := by
      have : ∀ r us ds, ∀ a ∈ pairMsgs c.lhs (Case.flag c) r us ds, stage a = 4 := fun r us ds a h => pairDue_stage ((mem_pairMsgs ..).1 h)
      have hh : ∀ {a b : Msg}, stage a = 4 → stage b = 4 → Earlier a b := fun h h' => Or.inr ⟨h.trans h'.symm, Or.inl h⟩
      apply pairs_pairwise
      · intro r us j ds
        exact List.pairwise_of_forall_mem_list (fun a ha b hb => hh (this _ _ _ a ha) (this _ _ _ b hb))
      · intro r us j ds j' ds' _ a ha b hb
        exact hh (this _ _ _ a ha) (this _ _ _ b hb)
      · intro r us r' us' j ds j' ds' _ a ha b hb
        exact hh (this _ _ _ a ha) (this _ _ _ b hb)
    have o5 : ((List.range c.uss.length).flatMap (fun u => numberMsgs u (disFor (hits c.uss c.dss) u))).Pairwise Earlier := by
      rw [List.pairwise_flatMap]
      refine ⟨fun u _ => pairwise_short ?_, (range_increasing _).imp ?_⟩
      · unfold numberMsgs; split <;> simp
      · intro u u' hu a ha b hb
        obtain ⟨k1, k2⟩ := n5 u a ha
        obtain ⟨k3, k4⟩ := n5 u' b hb
        exact Or.inr ⟨k1.trans k3.symm, Or.inr (Or.inl (by rw [k2, k4]; exact hu))⟩
    have o7 : ((List.range c.dss.length).flatMap (fun d => sameMsgs d (uisFor (hits c.uss c.dss) d))).Pairwise Earlier := by
      rw [List.pairwise_flatMap]
      refine ⟨fun u _ => pairwise_short ?_, (range_increasing _).imp ?_⟩
      · unfold sameMsgs; split <;> simp
      · intro u u' hu a ha b hb
        obtain ⟨k1, k2⟩ := n7 u a ha
        obtain ⟨k3, k4⟩ := n7 u' b hb
        exact Or.inr ⟨k1.trans k3.symm, Or.inr (Or.inl (by rw [k2, k4]; exact Nat.add_lt_add_right hu 1))⟩
    have o6 : (orderMsgs ((hits c.uss c.dss).map (·.2))).Pairwise Earlier := pairwise_short (by unfold orderMsgs; split <;> simp)
    refine pairwise_append_stage 7 (pairwise_append_stage 6 (pairwise_append_stage 5 (pairwise_append_stage 4 (pairwise_append_stage 3
      (pairwise_append_stage 2 o1 (pairwise_short hpl) ?_ ?_) (annsMsgs_order _ _ _ _ _ ha) ?_ ?_) o4 ?_ ?_) o5 ?_ ?_) o6 ?_ ?_) o7 ?_ ?_
    all_goals
      intro a h
      try simp only [List.mem_append] at h
    · rw [s1 a h]; decide
    · rw [s2 a h]; decide
    · rcases h with h | h
      · rw [s1 a h]; decide
      · rw [s2 a h]; decide
    · rw [s3 a h]; decide
    · rcases h with (h | h) | h
      · rw [s1 a h]; decide
      · rw [s2 a h]; decide
      · rw [s3 a h]; decide
    · rw [s4 a h]; decide
    · rcases h with ((h | h) | h) | h
      · rw [s1 a h]; decide
      · rw [s2 a h]; decide
      · rw [s3 a h]; decide
      · rw [s4 a h]; decide
    · rw [s5 a h]; decide
    · rcases h with (((h | h) | h) | h) | h
      · rw [s1 a h]; decide
      · rw [s2 a h]; decide
      · rw [s3 a h]; decide
      · rw [s4 a h]; decide
      · rw [s5 a h]; decide
    · rw [s6 a h]; decide
    · rcases h with ((((h | h) | h) | h) | h) | h
      · rw [s1 a h]; decide
      · rw [s2 a h]; decide
      · rw [s3 a h]; decide
      · rw [s4 a h]; decide
      · rw [s5 a h]; decide
      · rw [s6 a h]; decide
    · rw [s7 a h]; decide
  · intro l red bits
    rw [h3]
    simp only [mem_pairs, mem_pairPuks]
    constructor
    · rintro ⟨r, us, j, ds, h5, h6, h7, st, h8, h9, h10⟩
      exact ⟨h7, us, ds, st, List.mem_of_getElem? h5, List.mem_of_getElem? h6, h8, h9, h10⟩
    · rintro ⟨h7, us, ds, st, h5, h6, h8, h9, h10⟩
      obtain ⟨r, hr⟩ := List.getElem?_of_mem h5
      obtain ⟨j, hj⟩ := List.getElem?_of_mem h6
      exact ⟨r, us, j, ds, hr, hj, h7, st, h8, h9, h10⟩
  · refine ⟨_, h4, by simp, ?_⟩
    intro r hr
    have hg : ((List.range c.uss.length).map (fun u => foundFor (disFor (hits c.uss c.dss) u)))[r]? =
        some (foundFor (disFor (hits c.uss c.dss) r)) := by
      rw [List.getElem?_map, List.getElem?_range hr]; rfl
    rw [hg]
    refine ⟨fun j => ?_, ?_⟩
    · rw [Option.some.injEq, foundFor_some]
      simp only [mem_disFor]
    · rw [Option.some.injEq, foundFor_none]
      simp only [mem_disFor]

end Verif.Uses
