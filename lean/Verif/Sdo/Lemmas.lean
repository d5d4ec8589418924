import Verif.Sdo.Spec
/-!
# Lemmas: the map, the dispatch, and the instances of right-hand sides
-/
namespace Verif.Sdo
open Verif.Gram (Sym Item IKind)

variable {R : Type}

/-! ## The map -/

theorem getRules_addRule (m : List (Puk × List R)) (p q : Puk) (d : R) :
    getRules (addRule m p d) q = if q = p then getRules m q ++ [d] else getRules m q := by
  induction m with
  | nil =>
    simp only [addRule, getRules]
    by_cases h : p = q
    · simp [h]
    · simp [h, Ne.symm h]
  | cons x m ih =>
    obtain ⟨k, ds⟩ := x
    simp only [addRule]
    by_cases hk : k = p
    · subst hk
      simp only [if_true, getRules]
      by_cases hq : k = q
      · simp [hq]
      · simp [hq, Ne.symm hq]
    · simp only [if_neg hk, getRules, ih]
      by_cases hq : k = q
      · subst hq; simp [hk]
      · simp [hq]

theorem getRules_addAll (d : R) (ps : List Puk) (q : Puk) : ∀ (m : List (Puk × List R)), ps.Nodup →
    getRules (ps.foldl (fun m p => addRule m p d) m) q = getRules m q ++ (if q ∈ ps then [d] else []) := by
  induction ps with
  | nil => simp
  | cons p ps ih =>
    intro m hn
    rw [List.nodup_cons] at hn
    rw [List.foldl_cons, ih _ hn.2, getRules_addRule]
    by_cases h : q = p
    · subst h; simp [hn.1]
    · simp [h]

theorem getRules_map (defs : List (R × List Puk)) (hn : ∀ d ∈ defs, d.2.Nodup) (q : Puk) :
    getRules (coverageMap defs) q = rulesFor defs q := by
  have : ∀ (ds : List (R × List Puk)) (m : List (Puk × List R)), (∀ d ∈ ds, d.2.Nodup) →
      getRules (ds.foldl (fun m d => d.2.foldl (fun m p => addRule m p d.1) m) m) q
        = getRules m q ++ rulesFor ds q := by
    intro ds
    induction ds with
    | nil => simp [rulesFor]
    | cons d ds ih =>
      intro m hd
      rw [List.foldl_cons, ih _ (fun x hx => hd x (by simp [hx])), getRules_addAll _ _ _ _ (hd d (by simp))]
      by_cases h : q ∈ d.2 <;> simp [rulesFor, h]
  simpa [coverageMap, getRules] using this defs [] hn

theorem mem_keys_addRule (m : List (Puk × List R)) (p q : Puk) (d : R) :
    q ∈ (addRule m p d).map (·.1) ↔ q ∈ m.map (·.1) ∨ q = p := by
  induction m with
  | nil => simp [addRule]
  | cons x m ih =>
    obtain ⟨k, ds⟩ := x
    simp only [addRule]
    by_cases hk : k = p
    · subst hk; simp only [if_true, List.map_cons, List.mem_cons]
      constructor
      · rintro (h | h)
        · exact .inr h
        · exact .inl (.inr h)
      · rintro ((h | h) | h)
        · exact .inl h
        · exact .inr h
        · exact .inl h
    · simp only [if_neg hk, List.map_cons, List.mem_cons, ih, or_assoc]

theorem mem_keys (defs : List (R × List Puk)) (q : Puk) :
    q ∈ (coverageMap defs).map (·.1) ↔ ∃ d ∈ defs, q ∈ d.2 := by
  have h1 : ∀ (d : R) (ps : List Puk) (m : List (Puk × List R)),
      q ∈ (ps.foldl (fun m p => addRule m p d) m).map (·.1) ↔ q ∈ m.map (·.1) ∨ q ∈ ps := by
    intro d ps
    induction ps with
    | nil => simp
    | cons p ps ih => intro m; rw [List.foldl_cons, ih, mem_keys_addRule, List.mem_cons, or_assoc]
  have h2 : ∀ (ds : List (R × List Puk)) (m : List (Puk × List R)),
      q ∈ (ds.foldl (fun m d => d.2.foldl (fun m p => addRule m p d.1) m) m).map (·.1)
        ↔ q ∈ m.map (·.1) ∨ ∃ d ∈ ds, q ∈ d.2 := by
    intro ds
    induction ds with
    | nil => simp
    | cons d ds ih =>
      intro m
      rw [List.foldl_cons, ih, h1]
      simp [or_assoc]
  simpa [coverageMap] using h2 defs []

theorem rulesFor_ne_nil (defs : List (R × List Puk)) (q : Puk) :
    rulesFor defs q ≠ [] ↔ ∃ d ∈ defs, q ∈ d.2 := by
  simp only [rulesFor, ne_eq, List.map_eq_nil_iff, List.filter_eq_nil_iff, decide_eq_true_eq]
  constructor
  · intro h
    apply Classical.byContradiction
    intro hc
    exact h (fun d hd hq => hc ⟨d, hd, hq⟩)
  · rintro ⟨d, hd, hq⟩ h
    exact h d hd hq

/-! ## Dispatch -/

theorem dispatches_eq (m : List (Puk × List R)) (cs : List Tree) : dispatches m cs = cs.map (dispatch m) := by
  induction cs with
  | nil => rw [dispatches]; rfl
  | cons c cs ih => rw [dispatches, ih]; rfl

/-- No optional node among `cs` has several children. -/
def ShortOpts (cs : List Tree) : Prop :=
  ∀ s r b gs, Tree.node s r b gs ∈ cs → s.getLast? = some '?' → gs.length ≤ 1

theorem chains_eq (m : List (Puk × List R)) (cs : List Tree) (h : ShortOpts cs) :
    chains m cs = some ((belows cs).map (dispatch m)) := by
  induction cs with
  | nil => rw [chains]; rfl
  | cons c cs ih =>
    have ih := ih (fun s r b gs hm => h s r b gs (by simp [hm]))
    cases c with
    | leaf => rw [chains, ih]; rfl
    | node s r b gs =>
      rw [chains]
      simp only [ih, belows, isOpt, decide_eq_true_eq]
      by_cases ho : s.getLast? = some '?'
      · simp only [ho, if_true, dispatches_eq]
        have := h s r b gs (by simp) ho
        match gs, this with
        | [], _ => simp
        | [g], _ => simp
      · simp [ho]

theorem belows_size {cs : List Tree} {u : Tree} (h : u ∈ belows cs) : sizeOf u < sizeOf cs := by
  induction cs with
  | nil => simp [belows] at h
  | cons c cs ih =>
    cases c with
    | leaf => have := ih h; simp; omega
    | node s r b gs =>
      rw [belows, List.mem_append] at h
      rcases h with h | h
      · split at h
        · have := List.sizeOf_lt_of_mem h
          simp; omega
        · rw [List.mem_singleton] at h
          subst h
          simp; omega
      · have := ih h
        simp; omega

theorem onlyBelow_size {t u : Tree} (h : OnlyBelow t u) : sizeOf u < sizeOf t := by
  obtain ⟨s, r, b, cs, rfl, hb⟩ := h
  have : u ∈ belows cs := by simp [hb]
  have := belows_size this
  simp; omega

theorem optOk_belows {cs : List Tree} (h : ∀ c ∈ cs, OptOk c) {u : Tree} (hu : u ∈ belows cs) : OptOk u := by
  induction cs with
  | nil => simp [belows] at hu
  | cons c cs ih =>
    have ih := ih (fun x hx => h x (by simp [hx]))
    cases c with
    | leaf => exact ih hu
    | node s r b gs =>
      rw [belows, List.mem_append] at hu
      rcases hu with hu | hu
      · have hc := h _ (List.mem_cons_self ..)
        split at hu
        · cases hc with
          | node hg _ => exact hg u hu
        · rw [List.mem_singleton] at hu
          subst hu
          exact hc
      · exact ih hu

theorem optOk_below {t u : Tree} (ht : OptOk t) (h : OnlyBelow t u) : OptOk u := by
  obtain ⟨s, r, b, cs, rfl, hb⟩ := h
  cases ht with
  | node hc _ => exact optOk_belows hc (by simp [hb])

variable {defs : List (R × List Puk)}

theorem dispatch_node (hn : ∀ d ∈ defs, d.2.Nodup) {s r b cs} (ht : OptOk (.node s r b cs)) :
    dispatch (coverageMap defs) (.node s r b cs) =
      match rulesFor defs ⟨s, r, b⟩ with
      | d :: ds => only (.node s r b cs) (d :: ds)
      | [] => match belows cs with
        | [u] => dispatch (coverageMap defs) u
        | _ => .noRule (.node s r b cs) := by
  cases ht with
  | node _ hs =>
    rw [dispatch, getRules_map defs hn, chains_eq _ _ hs]
    cases rulesFor defs ⟨s, r, b⟩ with
    | cons d ds => rfl
    | nil =>
      match belows cs with
      | [] => rfl
      | [u] => rfl
      | _ :: _ :: _ => rfl

theorem dispatch_chain (hn : ∀ d ∈ defs, d.2.Nodup) {t u : Tree} (h : ChainTo defs t u) (ht : OptOk t) :
    dispatch (coverageMap defs) t = dispatch (coverageMap defs) u ∧ OptOk u := by
  induction h with
  | here t => exact ⟨rfl, ht⟩
  | next hp hr hb _ ih =>
    have ⟨h1, h2⟩ := ih (optOk_below ht hb)
    refine ⟨?_, h2⟩
    obtain ⟨s, r, b, cs, rfl, hb⟩ := hb
    cases hp
    rw [dispatch_node hn ht, hr, hb]
    exact h1

/-- Where a chain ends. -/
inductive Stop (defs : List (R × List Puk)) : Tree → Outcome R → Prop
  | leaf : Stop defs .leaf .crash
  | one {s r b cs d} : rulesFor defs ⟨s, r, b⟩ = [d] → Stop defs (.node s r b cs) (.rule (.node s r b cs) d)
  | many {s r b cs} : 2 ≤ (rulesFor defs ⟨s, r, b⟩).length → Stop defs (.node s r b cs) .crash
  | zero {s r b cs} : rulesFor defs ⟨s, r, b⟩ = [] → (∀ u, belows cs ≠ [u]) →
      Stop defs (.node s r b cs) (.noRule (.node s r b cs))

theorem stop_dispatch (hn : ∀ d ∈ defs, d.2.Nodup) {t : Tree} {o : Outcome R} (h : Stop defs t o) (ht : OptOk t) :
    dispatch (coverageMap defs) t = o := by
  cases h with
  | leaf => rw [dispatch]
  | one h => rw [dispatch_node hn ht, h]; rfl
  | @many s r b cs h =>
    rw [dispatch_node hn ht]
    match rulesFor defs ⟨s, r, b⟩, h with
    | _ :: _ :: _, _ => rfl
  | @zero s r b cs h hb =>
    rw [dispatch_node hn ht, h]
    match h' : belows cs with
    | [] => rfl
    | [u] => exact absurd h' (hb u)
    | _ :: _ :: _ => rfl

theorem chain_stops (t : Tree) : ∃ u o, ChainTo defs t u ∧ Stop defs u o := by
  match t with
  | .leaf => exact ⟨_, _, .here _, .leaf⟩
  | .node s r b cs =>
    match h : rulesFor defs ⟨s, r, b⟩ with
    | [d] => exact ⟨_, _, .here _, .one h⟩
    | _ :: _ :: _ => exact ⟨_, _, .here _, .many (by simp [h])⟩
    | [] =>
      match hb : belows cs with
      | [u] =>
        have hu : OnlyBelow (.node s r b cs) u := ⟨s, r, b, cs, rfl, hb⟩
        have hlt := onlyBelow_size hu
        obtain ⟨v, o, h1, h2⟩ := chain_stops u
        exact ⟨v, o, .next rfl h hu h1, h2⟩
      | [] => exact ⟨_, _, .here _, .zero h (by simp [hb])⟩
      | _ :: _ :: _ => exact ⟨_, _, .here _, .zero h (by simp [hb])⟩
termination_by sizeOf t
decreasing_by simpa using hlt

/-! ## Instances of right-hand sides -/

theorem joinSp_eq (ps : List (List Char)) : joinSp ps = [' '].intercalate ps := by
  induction ps with
  | nil => rfl
  | cons p ps ih =>
    cases ps with
    | nil => simp [joinSp, List.intercalate]
    | cons q ps =>
      rw [joinSp, ih]
      simp [List.intercalate, List.intersperse]

/-- `reduce_rhs` gives the label if it succeeds. -/
theorem reduceRhs_eq {its : List Item} {r : List Char} (h : reduceRhs its = some r) : r = label its := by
  have hp : ∀ (its : List Item) (ps : List (List Char)), pieces its = some ps →
      ps = its.flatMap (fun it => match it with
        | .plain (.gnt n _) => [n]
        | .qm (.gnt n _) => [n ++ ['?']]
        | .qm (.other _ t) => [t ++ ['?']]
        | .plain (.other k t) =>
          if k ∈ [IKind.BACKTICKED_THING, .NAMED_CHAR, .U_ANY, .U_PROP, .U_RANGE] then [t] else []) := by
    intro its
    induction its with
    | nil => intro ps h; simp [pieces] at h; simp [h]
    | cons it its ih =>
      intro ps h
      rw [pieces] at h
      cases h1 : piece it with
      | none => simp [h1] at h
      | some p1 =>
        cases h2 : pieces its with
        | none => simp [h1, h2] at h
        | some p2 =>
          simp only [h1, h2, Option.some.injEq] at h
          subst h
          rw [List.flatMap_cons, ← ih _ h2]
          congr 1
          match it, h1 with
          | .plain (.gnt n _), h1 => simpa [piece] using h1.symm
          | .qm (.gnt n _), h1 => simpa [piece] using h1.symm
          | .qm (.other k t), h1 => cases k <;> simp_all [piece]
          | .plain (.other k t), h1 => cases k <;> simp_all [piece]
  unfold reduceRhs at h
  cases hps : pieces its with
  | none => simp [hps] at h
  | some ps =>
    simp only [hps, Option.some.injEq] at h
    rw [← h, joinSp_eq, hp _ _ hps]
    rfl

/-- The combinations are all ways of choosing a bit for each optional symbol. -/
theorem mem_optCombos {l : List Sym} {cs : List (List (Sym × Bool))} (h : optCombos l = some cs)
    (c : List (Sym × Bool)) : c ∈ cs ↔ c.map (·.1) = l := by
  match l, h with
  | [], h =>
    simp only [optCombos, Option.some.injEq] at h; subst h
    simp
  | [a], h =>
    simp only [optCombos, Option.some.injEq] at h; subst h
    match c with
    | [] => simp
    | [(x, i)] => cases i <;> simp
    | _ :: _ :: _ => simp
  | [a, b], h =>
    simp only [optCombos, Option.some.injEq] at h; subst h
    match c with
    | [] => simp
    | [_] => simp
    | [(x, i), (y, j)] => cases i <;> cases j <;> simp
    | _ :: _ :: _ :: _ => simp
  | [a, b, d], h =>
    simp only [optCombos, Option.some.injEq] at h; subst h
    match c with
    | [] => simp
    | [_] => simp
    | [_, _] => simp
    | [(x, i), (y, j), (z, k)] => cases i <;> cases j <;> cases k <;> simp
    | _ :: _ :: _ :: _ :: _ => simp

theorem combo_instance (its : List Item) : ∀ (c : List (Sym × Bool)), c.map (·.1) = rsqs its →
    ∃ ns, InstanceNts its (comboBits c) ns ∧ ns.Perm (plainNts its ++ requiredNts c) := by
  induction its with
  | nil =>
    intro c hc
    simp only [rsqs, List.map_eq_nil_iff] at hc; subst hc
    exact ⟨[], .nil, .refl _⟩
  | cons it its ih =>
    intro c hc
    match it with
    | .plain (.other k t) =>
      obtain ⟨ns, h1, h2⟩ := ih c hc
      exact ⟨ns, .terminal h1, h2⟩
    | .plain (.gnt n ps) =>
      obtain ⟨ns, h1, h2⟩ := ih c hc
      exact ⟨n :: ns, .nt h1, h2.cons n⟩
    | .qm s =>
      match c, hc with
      | (x, i) :: c, hc =>
        simp only [rsqs, List.map_cons, List.cons.injEq] at hc
        obtain ⟨rfl, hc'⟩ := hc
        obtain ⟨ns, h1, h2⟩ := ih c hc'
        cases i with
        | false =>
          refine ⟨ns, .absent h1, ?_⟩
          cases x <;> exact h2
        | true =>
          cases x with
          | other k t => exact ⟨ns, .presentTerminal h1, h2⟩
          | gnt n ps =>
            refine ⟨n :: ns, .presentNt h1, (h2.cons n).trans ?_⟩
            exact List.perm_middle.symm

theorem instance_combo {its : List Item} {bits : List Char} {ns : List Name} (h : InstanceNts its bits ns) :
    ∃ c : List (Sym × Bool), c.map (·.1) = rsqs its ∧ comboBits c = bits ∧ ns.Perm (plainNts its ++ requiredNts c) := by
  induction h with
  | nil => exact ⟨[], rfl, rfl, .refl _⟩
  | terminal _ ih => exact ih
  | nt _ ih =>
    obtain ⟨c, h1, h2, h3⟩ := ih
    exact ⟨c, h1, h2, h3.cons _⟩
  | @absent s _ _ _ _ ih =>
    obtain ⟨c, h1, h2, h3⟩ := ih
    refine ⟨(s, false) :: c, by simp [rsqs, h1], by simp [← h2, comboBits], ?_⟩
    cases s <;> exact h3
  | @presentNt n ps _ _ _ _ ih =>
    obtain ⟨c, h1, h2, h3⟩ := ih
    exact ⟨(.gnt n ps, true) :: c, by simp [rsqs, h1], by simp [← h2, comboBits],
      (h3.cons _).trans List.perm_middle.symm⟩
  | @presentTerminal k t _ _ _ _ ih =>
    obtain ⟨c, h1, h2, h3⟩ := ih
    exact ⟨(.other k t, true) :: c, by simp [rsqs, h1], by simp [← h2, comboBits], h3⟩

end Verif.Sdo
