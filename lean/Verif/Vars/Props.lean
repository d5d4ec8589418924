import Verif.Vars.Lemmas
/-!
# C39: the check of variables
-/
namespace Verif.Vars

abbrev final (h : Header) (a : VNode) : Things := (descend .other 0 a).foldl visit (fromHeader h)

theorem final_ok (h : Header) (a : VNode) (x : String) :
    dDefs (final h a) x = headerDefs h x ++ ((descend .other 0 a).filterMap (isDef x)).map some ∧
    dUses (final h a) x = (descend .other 0 a).filterMap (isUse x) ∧
    (dOkay (final h a) x = true ↔ h.discriminated = true ∧ Declares h x) := by
  obtain ⟨h1, h2, h3, _⟩ := header_ok h x
  obtain ⟨g1, g2, g3⟩ := visits_ok (descend .other 0 a) x (fromHeader h)
  rw [g1, g2, g3, h1, h2]
  exact ⟨rfl, by simp, h3⟩

theorem final_nodup (h : Header) (a : VNode) : ((final h a).map (·.1)).Nodup := visits_nodup _ _ (header_ok h "").2.2.2

/-- The list of nodes is the list of paths. -/
theorem occ_list (a : VNode) (f : Occ → Option Nat) (i : Nat) : i ∈ (descend .other 0 a).filterMap f ↔
    ∃ path n p j, nodeAt .other 0 a path = some (n, p, j) ∧ f ⟨n, p, j⟩ = some i := by
  have hmap := pathsN_map a .other 0
  rw [List.mem_filterMap]
  constructor
  · rintro ⟨o, ho, hf⟩
    have : some (trip o) ∈ (pathsN a).map (nodeAt .other 0 a) := by rw [hmap]; exact List.mem_map.2 ⟨o, ho, rfl⟩
    obtain ⟨path, _, hp⟩ := List.mem_map.1 this
    exact ⟨path, o.node, o.parent, o.index, hp, hf⟩
  · rintro ⟨path, n, p, j, hp, hf⟩
    have hm : path ∈ pathsN a := (mem_pathsN a .other 0 path).2 (by rw [hp]; rfl)
    have : some (n, p, j) ∈ (descend .other 0 a).map (fun o => some (trip o)) := by
      rw [← hmap]; exact List.mem_map.2 ⟨path, hm, hp⟩
    obtain ⟨o, ho, he⟩ := List.mem_map.1 this
    injection he with he
    obtain ⟨on, op, oi⟩ := o
    simp only [trip, Prod.mk.injEq] at he
    obtain ⟨rfl, rfl, rfl⟩ := he
    exact ⟨_, ho, hf⟩

theorem isDef_iff (x : String) (n : VNode) (p : VKind) (j i : Nat) : isDef x ⟨n, p, j⟩ = some i ↔ n.kind = .var ∧ n.text = x ∧ n.id = i ∧ roleOf p j = .definition := by
  unfold isDef roleOf
  by_cases hp : p = .defvar
  · simp only [hp, and_true, if_true]
    by_cases hk : n.kind = .var ∧ n.text = x
    · simp [hk]
    · simp only [hk, if_false]
      constructor
      · intro h; cases h
      · rintro ⟨h1, h2, _⟩; exact absurd ⟨h1, h2⟩ hk
  · simp only [hp, and_false, if_false, reduceCtorEq, false_iff]
    by_cases hs : p = .sorted ∧ j = 3 <;> simp [hs]

theorem isUse_iff (x : String) (n : VNode) (p : VKind) (j i : Nat) : isUse x ⟨n, p, j⟩ = some i ↔ n.kind = .var ∧ n.text = x ∧ n.id = i ∧ roleOf p j = .use := by
  unfold isUse roleOf
  by_cases hp : p = .defvar
  · simp [hp]
  · by_cases hs : p = .sorted ∧ j = 3
    · simp [hs]
    · by_cases hk : n.kind = .var ∧ n.text = x
      · simp [hp, hs, hk]
      · simp only [hp, hs, if_false]
        simp only [ne_eq, not_false_eq_true, and_true, hk, if_false, hp]
        constructor
        · intro h; cases h
        · rintro ⟨h1, h2, _⟩; exact absurd ⟨h1, h2⟩ hk

theorem mem_role {a : VNode} {x : String} {r : Role} {f : Occ → Option Nat}
    (hf : ∀ n p j i, f ⟨n, p, j⟩ = some i ↔ n.kind = .var ∧ n.text = x ∧ n.id = i ∧ roleOf p j = r) (i : Nat) :
    i ∈ (descend .other 0 a).filterMap f ↔ ∃ path, Occurs a path x i r := by
  rw [occ_list]
  constructor
  · rintro ⟨path, n, p, j, hp, h⟩
    exact ⟨path, n, p, j, hp, (hf _ _ _ _).1 h⟩
  · rintro ⟨path, n, p, j, hp, h⟩
    exact ⟨path, n, p, j, hp, (hf _ _ _ _).2 h⟩

theorem first_iff {a : VNode} {x : String} {r : Role} {f : Occ → Option Nat}
    (hf : ∀ n p j i, f ⟨n, p, j⟩ = some i ↔ n.kind = .var ∧ n.text = x ∧ n.id = i ∧ roleOf p j = r) {i0 : Nat} {rest : List Nat}
    (hl : (descend .other 0 a).filterMap f = i0 :: rest) (i : Nat) : First a x r i ↔ i = i0 := by
  have hmap : (pathsN a).map (fun q => (nodeAt .other 0 a q).map (fun t => (⟨t.1, t.2.1, t.2.2⟩ : Occ))) = (descend .other 0 a).map some := by
    have := congrArg (List.map (Option.map (fun (t : VNode × VKind × Nat) => (⟨t.1, t.2.1, t.2.2⟩ : Occ)))) (pathsN_map a .other 0)
    simpa [List.map_map, Function.comp_def] using this
  obtain ⟨p, hp, o, h1, h2, h3⟩ := first_filterMap _ f _ _ hmap (sorted_pathsN a) i0 rest hl
  simp only [Option.map_eq_some_iff] at h1
  obtain ⟨⟨n, pk, j⟩, hn, rfl⟩ := h1
  have occ0 : Occurs a p x i0 r := ⟨n, pk, j, hn, (hf _ _ _ _).1 h2⟩
  have min0 : ∀ path' k, Occurs a path' x k r → ¬ path' < p := by
    rintro path' k ⟨n', p', j', hn', hk⟩
    have hm : path' ∈ pathsN a := (mem_pathsN a .other 0 path').2 (by rw [hn']; rfl)
    refine h3 path' hm ⟨n', p', j'⟩ (by simp [hn']) ?_
    rw [(hf n' p' j' k).2 hk]
    simp
  constructor
  · rintro ⟨path, hocc, hmin⟩
    have e1 := hmin p i0 occ0
    have e2 := min0 path i hocc
    have he : path = p := List.le_antisymm e1 e2
    subst he
    obtain ⟨n', p', j', hn', _, _, hid, _⟩ := hocc
    rw [hn] at hn'
    injection hn' with hn'
    simp only [Prod.mk.injEq] at hn'
    obtain ⟨rfl, rfl, rfl⟩ := hn'
    rw [← hid]
    exact ((hf _ _ _ _).1 h2).2.2.1
  · rintro rfl
    exact ⟨p, occ0, min0⟩

theorem insert_perm (p : String × Thing) (ts : Things) : (insertThing p ts).Perm (p :: ts) := by
  induction ts with
  | nil => exact .refl _
  | cons q r ih =>
    rw [insertThing]
    split
    · exact .refl _
    · exact (ih.cons q).trans (.swap p q r)

theorem sort_perm (ts : Things) : (sortThings ts).Perm ts := by
  induction ts with
  | nil => exact .refl _
  | cons p r ih => exact (insert_perm p _).trans (ih.cons p)

theorem insert_sorted (p : String × Thing) (ts : Things) (h : ts.Pairwise (fun p q => p.1 ≤ q.1)) : (insertThing p ts).Pairwise (fun p q => p.1 ≤ q.1) := by
  induction ts with
  | nil => simp [insertThing]
  | cons q r ih =>
    rw [List.pairwise_cons] at h
    rw [insertThing]
    split
    · next hle =>
      rw [List.pairwise_cons]
      refine ⟨?_, List.pairwise_cons.2 h⟩
      intro x hx
      rcases List.mem_cons.1 hx with rfl | hx
      · exact hle
      · exact String.le_trans hle (h.1 x hx)
    · next hle =>
      rw [List.pairwise_cons]
      refine ⟨?_, ih h.2⟩
      intro x hx
      rcases List.mem_cons.1 ((insert_perm p r).mem_iff.1 hx) with rfl | hx
      · exact (String.le_total _ _).resolve_left hle
      · exact h.1 x hx

theorem sort_sorted (ts : Things) : (sortThings ts).Pairwise (fun p q => p.1 ≤ q.1) := by
  induction ts with
  | nil => simp [sortThings]
  | cons p r ih => exact insert_sorted p _ ih

theorem mem_check (h : Header) (a : VNode) (m : Msg) : m ∈ check h a ↔ ∃ x t, get x (final h a) = some t ∧ m ∈ judge a.id x t := by
  unfold check
  simp only [List.mem_flatMap, (sort_perm _).mem_iff]
  constructor
  · rintro ⟨⟨x, t⟩, hm, hj⟩
    exact ⟨x, t, (get_mem (final_nodup h a)).2 hm, hj⟩
  · rintro ⟨x, t, hg, hj⟩
    exact ⟨(x, t), (get_mem (final_nodup h a)).1 hg, hj⟩

theorem headerDefs_nil (h : Header) (x : String) : headerDefs h x = [] ↔ ¬ Declares h x := by
  have key : (h.params.filter (fun p => p.1 = x)).map (·.2) = [] ↔ ¬ ∃ d, (x, d) ∈ h.params := by
    rw [List.map_eq_nil_iff, List.filter_eq_nil_iff]
    constructor
    · rintro hn ⟨d, hd⟩
      exact hn _ hd (by simp)
    · intro hn p hp he
      simp only [decide_eq_true_eq] at he
      exact hn ⟨p.2, by rw [← he]; exact hp⟩
  unfold headerDefs Declares
  rw [List.append_eq_nil_iff, key]
  cases hf : h.forVar with
  | none => simp
  | some q =>
    obtain ⟨y, i⟩ := q
    by_cases hy : y = x
    · simp [hy]
    · simp [hy]

theorem headerDefs_head (h : Header) (x : String) : (headerDefs h x).head? = firstDecl h x := by
  unfold headerDefs firstDecl
  have key : ∀ l : List (String × Option Nat), ((l.filter (fun p => p.1 = x)).map (·.2)).head? = (l.find? (fun p => p.1 = x)).map (·.2) := by
    intro l
    induction l with
    | nil => rfl
    | cons p l ih =>
      by_cases hp : p.1 = x
      · simp [List.filter_cons, List.find?_cons, hp]
      · simp only [List.filter_cons, List.find?_cons, hp, decide_false, Bool.false_eq_true, if_false]; exact ih
  rw [List.head?_append, key]
  cases h.params.find? (fun p => p.1 = x) with
  | some p => simp
  | none =>
    simp only [Option.map_none, Option.none_or]
    cases hf : h.forVar with
    | none => rfl
    | some q =>
      obtain ⟨y, i⟩ := q
      by_cases hy : y = x <;> simp [hy]

theorem uses_iff (h : Header) (a : VNode) (x : String) : dUses (final h a) x ≠ [] ↔ Used a x := by
  rw [(final_ok h a x).2.1]
  unfold Used
  constructor
  · intro hne
    obtain ⟨i, hi⟩ := List.exists_mem_of_ne_nil _ hne
    obtain ⟨path, hp⟩ := (mem_role (isUse_iff x) i).1 hi
    exact ⟨path, i, hp⟩
  · rintro ⟨path, i, hp⟩ he
    have := (mem_role (isUse_iff x) i).2 ⟨path, hp⟩
    rw [he] at this
    cases this

theorem defs_iff (h : Header) (a : VNode) (x : String) : dDefs (final h a) x ≠ [] ↔ Defined h a x := by
  rw [(final_ok h a x).1]
  unfold Defined
  rw [ne_eq, List.append_eq_nil_iff, headerDefs_nil, List.map_eq_nil_iff]
  constructor
  · intro hne
    by_cases hd : Declares h x
    · exact .inl hd
    · have hne' : (descend .other 0 a).filterMap (isDef x) ≠ [] := fun he => hne ⟨hd, he⟩
      obtain ⟨i, hi⟩ := List.exists_mem_of_ne_nil _ hne'
      obtain ⟨path, hp⟩ := (mem_role (isDef_iff x) i).1 hi
      exact .inr ⟨path, i, hp⟩
  · rintro (hd | ⟨path, i, hp⟩) ⟨h1, h2⟩
    · exact h1 hd
    · have := (mem_role (isDef_iff x) i).2 ⟨path, hp⟩
      rw [h2] at this
      cases this

theorem mem_check' (h : Header) (a : VNode) (m : Msg) : m ∈ check h a ↔ ∃ x, m ∈ judge a.id x ⟨dDefs (final h a) x, dUses (final h a) x, dOkay (final h a) x⟩ := by
  rw [mem_check]
  constructor
  · rintro ⟨x, t, hg, hj⟩
    exact ⟨x, by simpa [dDefs, dUses, dOkay, hg] using hj⟩
  · rintro ⟨x, hj⟩
    cases hg : get x (final h a) with
    | none => simp [dDefs, dUses, hg, judge] at hj
    | some t => exact ⟨x, t, hg, by simpa [dDefs, dUses, dOkay, hg] using hj⟩

/-! ## The theorems -/

/-- C39: a variable is reported as undefined if, and only if, it is used and defined nowhere, neither in the algorithm nor in its header; at its first use. -/
theorem c39_undefined (h : Header) (a : VNode) (x : String) (i : Nat) :
    .undefined i x ∈ check h a ↔ Used a x ∧ ¬ Defined h a x ∧ First a x .use i := by
  rw [mem_check', ← uses_iff h a x, ← defs_iff h a x]
  have hu := (final_ok h a x).2.1
  have hj : (∃ y, Msg.undefined i x ∈ judge a.id y ⟨dDefs (final h a) y, dUses (final h a) y, dOkay (final h a) y⟩) ↔
      ∃ r, dUses (final h a) x = i :: r ∧ dDefs (final h a) x = [] := by
    constructor
    · rintro ⟨y, hy⟩
      unfold judge at hy
      simp only [List.mem_append] at hy
      rcases hy with hy | hy
      · split at hy
        · cases hy
        · split at hy <;> simp at hy
      · cases hus : dUses (final h a) y with
        | nil => simp [hus] at hy
        | cons u r =>
          simp only [hus] at hy
          split at hy
          · next hd =>
            simp only [List.mem_singleton, Msg.undefined.injEq] at hy
            obtain ⟨rfl, rfl⟩ := hy
            exact ⟨r, hus, by simpa using hd⟩
          · cases hy
    · rintro ⟨r, hr, hd⟩
      exact ⟨x, by simp [judge, hr, hd]⟩
  rw [hj]
  constructor
  · rintro ⟨r, hr, hd⟩
    refine ⟨by rw [hr]; simp, fun hne => hne hd, ?_⟩
    rw [hu] at hr
    exact (first_iff (isUse_iff x) hr i).2 rfl
  · rintro ⟨h1, h2, h3⟩
    have hd : dDefs (final h a) x = [] := Classical.not_not.1 h2
    cases hus : dUses (final h a) x with
    | nil => exact absurd hus h1
    | cons u r =>
      rw [hu] at hus
      have := (first_iff (isUse_iff x) hus i).1 h3
      subst this
      exact ⟨r, rfl, hd⟩

/-- C39: a variable is reported as unused if, and only if, it is defined and used nowhere, unless it comes from the header of an operation with several definitions;
at its first definition. -/
theorem c39_unused (h : Header) (a : VNode) (x : String) (i : Nat) :
    .unused i x ∈ check h a ↔ Defined h a x ∧ ¬ Used a x ∧ ¬ (h.discriminated = true ∧ Declares h x) ∧ DefAt h a x i := by
  rw [mem_check', ← uses_iff h a x, ← defs_iff h a x, ← (final_ok h a x).2.2]
  have hdf := (final_ok h a x).1
  have hj : (∃ y, Msg.unused i x ∈ judge a.id y ⟨dDefs (final h a) y, dUses (final h a) y, dOkay (final h a) y⟩) ↔
      ∃ d r, dDefs (final h a) x = d :: r ∧ dUses (final h a) x = [] ∧ dOkay (final h a) x = false ∧ i = d.getD a.id := by
    constructor
    · rintro ⟨y, hy⟩
      unfold judge at hy
      simp only [List.mem_append] at hy
      rcases hy with hy | hy
      · cases hds : dDefs (final h a) y with
        | nil => simp [hds] at hy
        | cons d r =>
          simp only [hds] at hy
          split at hy
          · next hc =>
            simp only [List.mem_singleton, Msg.unused.injEq] at hy
            obtain ⟨rfl, rfl⟩ := hy
            simp only [Bool.and_eq_true, List.isEmpty_iff, Bool.not_eq_true'] at hc
            exact ⟨d, r, hds, hc.1, hc.2, rfl⟩
          · cases hy
      · split at hy
        · cases hy
        · split at hy <;> simp at hy
    · rintro ⟨d, r, hr, hu, ho, rfl⟩
      exact ⟨x, by simp [judge, hr, hu, ho]⟩
  rw [hj]
  have hat : ∀ d r, dDefs (final h a) x = d :: r → (DefAt h a x i ↔ i = d.getD a.id) := by
    intro d r hr
    rw [hdf] at hr
    unfold DefAt
    rw [← headerDefs_head]
    cases hh : headerDefs h x with
    | cons e l =>
      rw [hh] at hr
      simp only [List.cons_append, List.cons.injEq] at hr
      rw [← hr.1]
      cases e <;> simp
    | nil =>
      rw [hh] at hr
      simp only [List.nil_append] at hr
      cases hf : (descend .other 0 a).filterMap (isDef x) with
      | nil => simp [hf] at hr
      | cons j l =>
        rw [hf] at hr
        simp only [List.map_cons, List.cons.injEq] at hr
        rw [← hr.1]
        exact first_iff (isDef_iff x) hf i
  constructor
  · rintro ⟨d, r, hr, hu, ho, hi⟩
    refine ⟨by rw [hr]; simp, fun hne => hne hu, by simp [ho], (hat d r hr).2 hi⟩
  · rintro ⟨h1, h2, h3, h4⟩
    have hu : dUses (final h a) x = [] := Classical.not_not.1 h2
    cases hds : dDefs (final h a) x with
    | nil => exact absurd hds h1
    | cons d r => exact ⟨d, r, rfl, hu, by simpa using h3, (hat d r hds).1 h4⟩

/-- C39: each variable has at most one message, and the messages are sorted by variable. -/
theorem c39_sorted (h : Header) (a : VNode) : ((check h a).map Msg.name).Pairwise (· < ·) := by
  unfold check
  have hnd := final_nodup h a
  have hnd' : ((sortThings (final h a)).map (·.1)).Nodup := ((sort_perm _).map _).nodup_iff.2 hnd
  have hs := sort_sorted (final h a)
  have key : ∀ l : List (String × Thing), l.Pairwise (fun p q => p.1 ≤ q.1) → (l.map (·.1)).Nodup →
      ((l.flatMap (fun p => judge a.id p.1 p.2)).map Msg.name).Pairwise (· < ·) := by
    intro l
    induction l with
    | nil => intro _ _; simp
    | cons p l ih =>
      intro hp hn
      rw [List.pairwise_cons] at hp
      simp only [List.map_cons, List.nodup_cons] at hn
      have names : ∀ q : String × Thing, ∀ m ∈ judge a.id q.1 q.2, m.name = q.1 := by
        intro q m hm
        unfold judge at hm
        simp only [List.mem_append] at hm
        rcases hm with hm | hm
        · split at hm
          · cases hm
          · split at hm
            · simp only [List.mem_singleton] at hm; subst hm; rfl
            · cases hm
        · split at hm
          · cases hm
          · split at hm
            · simp only [List.mem_singleton] at hm; subst hm; rfl
            · cases hm
      have one : ((judge a.id p.1 p.2).map Msg.name).Pairwise (· < ·) := by
        unfold judge
        cases p.2.defs <;> cases p.2.uses <;> cases p.2.okay <;> simp
      simp only [List.flatMap_cons, List.map_append]
      rw [List.pairwise_append]
      refine ⟨one, ih hp.2 hn.2, ?_⟩
      intro u hu v hv
      obtain ⟨m, hm, rfl⟩ := List.mem_map.1 hu
      obtain ⟨m', hm', rfl⟩ := List.mem_map.1 hv
      obtain ⟨q, hq, hm'⟩ := List.mem_flatMap.1 hm'
      rw [names p m hm, names q m' hm']
      have hle : p.1 ≤ q.1 := hp.1 q hq
      have hne : p.1 ≠ q.1 := fun he => hn.1 (by rw [he]; exact List.mem_map.2 ⟨q, hq, rfl⟩)
      apply Classical.not_not.1
      intro hlt
      exact hne (String.le_antisymm hle hlt)
  exact key _ hs hnd'

/-! ### An example -/

def exVar (i : Nat) (x : String) : VNode := .mk i .var x []
def exDef (i : Nat) (x : String) : VNode := .mk (i + 1) .defvar x [exVar i x]
/-- Let _b_ be _a_. Let _c_ be _d_. Return the sorted _e_ ... as _f_. -/
def exAlg : VNode := .mk 0 .other "" [.mk 1 .other "" [exDef 2 "_b_", exVar 4 "_a_"], .mk 5 .other "" [.mk 6 .text "Let" [], exDef 7 "_c_", exVar 9 "_d_"],
  .mk 10 .sorted "" [exVar 11 "_e_", .mk 12 .other "" [], .mk 13 .other "" [], exVar 14 "_f_"], exVar 15 "_d_", exDef 16 "_b_"]

example : check ⟨[("_a_", some 20), ("_g_", none)], some ("_e_", 21), false⟩ exAlg =
    [.unused 2 "_b_", .unused 7 "_c_", .undefined 9 "_d_", .unused 0 "_g_"] := by decide +kernel
example : check ⟨[("_a_", some 20), ("_g_", none)], some ("_e_", 21), true⟩ exAlg = [.unused 2 "_b_", .unused 7 "_c_", .undefined 9 "_d_"] := by decide +kernel

end Verif.Vars
