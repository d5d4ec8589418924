import Verif.Focus.Spec
/-!
# Lemmas about the references to nonterminals
-/
namespace Verif.Focus
open Verif.Gram (Sym Item IKind)
open Verif.Sdo (Name Puk Tree NtDef Conf Kids Plain isOpt label)

variable {G : Name → NtDef} {n : Name}

theorem isOpt_append (n : Name) : isOpt (n ++ ['?']) = true := by simp [isOpt]

theorem isOpt_false {n : Name} (h : n.getLast? ≠ some '?') : isOpt n = false := by simp [isOpt, h]

theorem refs_append (m m' : FocusMap) (n : Name) : refs (m ++ m') n = refs m n ++ refs m' n := by simp [refs]

theorem refs_one (a : Name) (r : Ref) (n : Name) : refs [(a, r)] n = if a = n then [r] else [] := by
  by_cases h : a = n <;> simp [refs, h]

theorem entries_append : ∀ (xs ys : List Tree), entries (xs ++ ys) = match entries xs with | none => none | some m => match entries ys with | none => none | some m' => some (m ++ m')
  | [], ys => by cases h : entries ys <;> simp [entries, h]
  | x :: xs, ys => by
    rw [List.cons_append, entries, entries, entries_append xs ys]
    cases entry x with
    | none => rfl
    | some m =>
      cases entries xs with
      | none => rfl
      | some m' => cases entries ys <;> simp

theorem entries_leaves : ∀ j, entries (List.replicate j .leaf) = some []
  | 0 => rfl
  | j + 1 => by rw [List.replicate_succ, entries, entries_leaves j]; rfl

/-- What is there of the occurrences. -/
def marks (n : Name) : List Item → List Char → List Bool
  | [], _ => []
  | .plain (.gnt m _) :: its, bs => if m = n then true :: marks n its bs else marks n its bs
  | .qm (.gnt m _) :: its, b :: bs => if m = n then (b = '1') :: marks n its bs else marks n its bs
  | .qm (.gnt _ _) :: its, [] => marks n its []
  | .plain (.other _ _) :: its, bs => marks n its bs
  | .qm (.other _ _) :: its, bs => marks n its bs

def Ref.there : Ref → Bool
  | .node _ => true
  | .absent => false

/-- The plain nonterminals aren't named like optional ones. -/
def NamesOk (its : List Item) : Prop := ∀ m ps, Item.plain (.gnt m ps) ∈ its → m.getLast? ≠ some '?'

theorem conf_sym {n : Name} {c : Tree} (h : Conf G n c) : ∃ r b gs, c = .node n r b gs ∧ ∃ rhss, G n = .main rhss := by
  cases h with
  | node h1 h2 h3 => exact ⟨_, _, _, rfl, _, h1⟩

theorem kids_stands (hp : Plain G) (n : Name) : ∀ {its : List Item} {bits : List Char} {cs : List Tree}, Kids G its bits cs → (∀ k t, Item.qm (.other k t) ∉ its) →
    NamesOk its ∧ ∃ rs, Stands n its cs rs ∧ rs.map Ref.there = marks n its bits
  | [], bits, cs, h, hq => by
    cases h with
    | nil => exact ⟨fun m ps h => (by cases h), [], .nil, rfl⟩
  | it :: its, bits, cs, h, hq => by
    have hq' : ∀ k t, Item.qm (.other k t) ∉ its := fun k t h => hq k t (List.mem_cons_of_mem _ h)
    cases h with
    | terminals j h =>
      obtain ⟨h1, rs, h2, h3⟩ := kids_stands hp n h hq'
      refine ⟨fun m ps h => ?_, rs, .terminals j h2, by rw [h3]; simp [marks]⟩
      rcases List.mem_cons.1 h with h | h
      · cases h
      · exact h1 m ps h
    | @nt m ps _ _ c cs' hc h =>
      obtain ⟨h1, rs, h2, h3⟩ := kids_stands hp n h hq'
      obtain ⟨r, b, gs, rfl, rhss, hg⟩ := conf_sym hc
      refine ⟨fun m' ps' h => ?_, ?_⟩
      · rcases List.mem_cons.1 h with h | h
        · cases h; exact hp.names m rhss hg
        · exact h1 m' ps' h
      · by_cases e : m = n
        · subst e
          exact ⟨_, .here h2, by simp [marks, h3, Ref.there]⟩
        · exact ⟨_, .other e h2, by simp [marks, h3, e]⟩
    | @absentNt m ps _ _ cs' h =>
      obtain ⟨h1, rs, h2, h3⟩ := kids_stands hp n h hq'
      refine ⟨fun m' ps' h => ?_, ?_⟩
      · rcases List.mem_cons.1 h with h | h
        · cases h
        · exact h1 m' ps' h
      · by_cases e : m = n
        · subst e
          exact ⟨_, .hereAbsent h2, by simp [marks, h3, Ref.there]⟩
        · exact ⟨_, .otherAbsent e h2, by simp [marks, h3, e]⟩
    | @presentNt m ps _ _ c cs' hc h =>
      obtain ⟨h1, rs, h2, h3⟩ := kids_stands hp n h hq'
      obtain ⟨r, b, gs, rfl, rhss, hg⟩ := conf_sym hc
      refine ⟨fun m' ps' h => ?_, ?_⟩
      · rcases List.mem_cons.1 h with h | h
        · cases h
        · exact h1 m' ps' h
      · by_cases e : m = n
        · subst e
          exact ⟨_, .herePresent h2, by simp [marks, h3, Ref.there]⟩
        · exact ⟨_, .otherPresent e h2, by simp [marks, h3, e]⟩
    | absentTerminal h => exact absurd (List.mem_cons_self ..) (hq _ _)
    | presentTerminal h => exact absurd (List.mem_cons_self ..) (hq _ _)

theorem stands_refs {its : List Item} {cs : List Tree} {rs : List Ref} (h : Stands n its cs rs) (hn : NamesOk its) :
    ∃ m, entries cs = some m ∧ refs m n = rs ∧ ∀ r ∈ rs, checked n r = some r := by
  induction h with
  | nil => exact ⟨[], rfl, rfl, fun r h => (by cases h)⟩
  | terminals j h ih =>
    obtain ⟨m, h1, h2, h3⟩ := ih (fun m ps h => hn m ps (List.mem_cons_of_mem _ h))
    exact ⟨m, by rw [entries_append, entries_leaves, h1]; rfl, h2, h3⟩
  | @here ps its r b gs cs rs h ih =>
    obtain ⟨m, h1, h2, h3⟩ := ih (fun m ps h => hn m ps (List.mem_cons_of_mem _ h))
    have ho := isOpt_false (hn n ps (List.mem_cons_self ..))
    refine ⟨_, by simp only [entries, entry, ho, h1]; rfl, ?_, fun x hx => ?_⟩
    · rw [refs_append, refs_one, if_pos rfl, h2]; rfl
    · rcases List.mem_cons.1 hx with rfl | hx
      · simp [checked]
      · exact h3 x hx
  | @other m' ps its r b gs cs rs e h ih =>
    obtain ⟨m, h1, h2, h3⟩ := ih (fun m ps h => hn m ps (List.mem_cons_of_mem _ h))
    have ho := isOpt_false (hn m' ps (List.mem_cons_self ..))
    refine ⟨_, by simp only [entries, entry, ho, h1]; rfl, ?_, h3⟩
    rw [refs_append, refs_one, if_neg e, h2]; rfl
  | @hereAbsent ps its r b cs rs h ih =>
    obtain ⟨m, h1, h2, h3⟩ := ih (fun m ps h => hn m ps (List.mem_cons_of_mem _ h))
    refine ⟨_, by simp only [entries, entry, isOpt_append, h1]; rfl, ?_, fun x hx => ?_⟩
    · rw [refs_append, refs_one, List.dropLast_concat, if_pos rfl, h2]; rfl
    · rcases List.mem_cons.1 hx with rfl | hx
      · rfl
      · exact h3 x hx
  | @herePresent ps its r b r' b' gs cs rs h ih =>
    obtain ⟨m, h1, h2, h3⟩ := ih (fun m ps h => hn m ps (List.mem_cons_of_mem _ h))
    refine ⟨_, by simp only [entries, entry, isOpt_append, h1]; rfl, ?_, fun x hx => ?_⟩
    · rw [refs_append, refs_one, List.dropLast_concat, if_pos rfl, h2]; rfl
    · rcases List.mem_cons.1 hx with rfl | hx
      · simp [checked]
      · exact h3 x hx
  | @otherAbsent m' ps its r b cs rs e h ih =>
    obtain ⟨m, h1, h2, h3⟩ := ih (fun m ps h => hn m ps (List.mem_cons_of_mem _ h))
    refine ⟨_, by simp only [entries, entry, isOpt_append, h1]; rfl, ?_, h3⟩
    rw [refs_append, refs_one, List.dropLast_concat, if_neg e, h2]; rfl
  | @otherPresent m' ps its r b c cs rs e h ih =>
    obtain ⟨m, h1, h2, h3⟩ := ih (fun m ps h => hn m ps (List.mem_cons_of_mem _ h))
    refine ⟨_, by simp only [entries, entry, isOpt_append, h1]; rfl, ?_, h3⟩
    rw [refs_append, refs_one, List.dropLast_concat, if_neg e, h2]; rfl

theorem checked_sym {n : Name} {r : Ref} (h : checked n r = some r) : r = .absent ∨ ∃ u, r = .node u ∧ HasSym n u := by
  cases r with
  | absent => exact .inl rfl
  | node u =>
    cases u with
    | leaf => cases h
    | node s a b cs =>
      rw [checked] at h
      split at h
      · rename_i e
        subst e
        exact .inr ⟨_, rfl, .node⟩
      · cases h

/-- Resolving, in terms of what the occurrences on the right-hand side stand for. -/
theorem resolve_iff (t : Tree) (p : Puk) (m : FocusMap) (rs : List Ref) (ht : checked p.lhs (.node t) = some (.node t)) (hc : ∀ r ∈ rs, checked n r = some r)
    (hm : refs m n = (if p.lhs = n then [.node t] else []) ++ rs) (o : Ordinal) (r : Ref) : resolve p m o n = some r ↔ Means n t p rs o r := by
  by_cases e : p.lhs = n
  · rw [if_pos e] at hm
    rw [e] at ht
    cases rs with
    | nil =>
      rw [resolve, hm]
      constructor
      · intro h
        cases o with
        | no =>
          have h : checked n (.node t) = some r := h
          rw [ht] at h
          cases h
          exact .self e rfl
        | derived => cases h
        | num k => cases h
      · intro h
        cases h with
        | self _ _ => exact ht
        | missing h1 => exact absurd e h1
        | only h1 => exact absurd e h1
        | nth h1 => exact absurd e h1
        | derived _ h2 => cases h2
        | left _ h2 => cases h2
        | right _ h2 => cases h2
    | cons x rs =>
      cases rs with
      | nil =>
        have hx := hc x (List.mem_singleton.2 rfl)
        rw [resolve, hm]
        simp only [List.singleton_append, choose, if_pos e.symm]
        constructor
        · intro h
          cases o with
          | no =>
            dsimp at h
            by_cases hl : p ∈ meansLeft
            · rw [if_pos hl] at h
              have h : checked n (.node t) = some r := h
              rw [ht] at h
              cases h
              exact .left e rfl hl
            · by_cases hr : p ∈ meansRight
              · rw [if_neg hl, if_pos hr] at h
                have h : checked n x = some r := h
                rw [hx] at h
                cases h
                exact .right e rfl hl hr
              · simp [hl, hr] at h
          | derived =>
            have h : checked n x = some r := h
            rw [hx] at h
            cases h
            exact .derived e rfl
          | num k => cases h
        · intro h
          cases h with
          | self _ h2 => cases h2
          | missing h1 => exact absurd e h1
          | only h1 => exact absurd e h1
          | nth h1 => exact absurd e h1
          | derived _ h2 => cases h2; exact hx
          | left _ h2 h3 => simp [h3, ht]
          | right _ h2 h3 h4 => cases h2; simp [h3, h4, hx]
      | cons y rs =>
        rw [resolve, hm]
        have hl : ¬ (Ref.node t :: x :: y :: rs).length = 2 := by simp
        simp only [List.singleton_append, choose, if_pos e.symm, if_neg hl]
        constructor
        · intro h
          cases o <;> cases h
        · intro h
          cases h with
          | self _ h2 => cases h2
          | missing h1 => exact absurd e h1
          | only h1 => exact absurd e h1
          | nth h1 => exact absurd e h1
          | derived _ h2 => cases h2
          | left _ h2 => cases h2
          | right _ h2 => cases h2
  · rw [if_neg e, List.nil_append] at hm
    have e' : ¬ n = p.lhs := fun h => e h.symm
    cases rs with
    | nil =>
      rw [resolve, hm]
      constructor
      · intro h; cases h; exact .missing e rfl
      · intro h
        cases h with
        | missing => rfl
        | only _ h2 => cases h2
        | nth _ h2 => simp at h2
        | self h1 => exact absurd h1 e
        | derived h1 => exact absurd h1 e
        | left h1 => exact absurd h1 e
        | right h1 => exact absurd h1 e
    | cons x rs =>
      cases rs with
      | nil =>
        have hx := hc x (List.mem_singleton.2 rfl)
        rw [resolve, hm]
        constructor
        · intro h
          cases o with
          | no =>
            have h : checked n x = some r := h
            rw [hx] at h
            cases h
            exact .only e rfl
          | derived => cases h
          | num k => cases h
        · intro h
          cases h with
          | missing _ h2 => cases h2
          | only _ h2 => cases h2; exact hx
          | nth _ h2 => simp at h2
          | self h1 => exact absurd h1 e
          | derived h1 => exact absurd h1 e
          | left h1 => exact absurd h1 e
          | right h1 => exact absurd h1 e
      | cons y rs =>
        rw [resolve, hm]
        simp only [choose, if_neg e']
        constructor
        · intro h
          cases o with
          | no => cases h
          | derived => cases h
          | num k =>
            dsimp only at h
            by_cases hk : 1 ≤ k ∧ k ≤ (x :: y :: rs).length
            · rw [if_pos hk] at h
              have hlt : k - 1 < (x :: y :: rs).length := by omega
              rw [List.getElem?_eq_getElem hlt] at h
              have hx := hc _ (List.getElem_mem hlt)
              have h : checked n ((x :: y :: rs)[k - 1]) = some r := h
              rw [hx] at h
              cases h
              exact .nth e (by simp) hk.1 (List.getElem?_eq_getElem hlt)
            · rw [if_neg hk] at h; cases h
        · intro h
          cases h with
          | missing _ h2 => cases h2
          | only _ h2 => cases h2
          | @nth k _ _ h2 h3 h4 =>
            have hlt : k - 1 < (x :: y :: rs).length := by
              cases Nat.lt_or_ge (k - 1) (x :: y :: rs).length with
              | inl h => exact h
              | inr h => rw [List.getElem?_eq_none h] at h4; cases h4
            have hk : 1 ≤ k ∧ k ≤ (x :: y :: rs).length := ⟨h3, by omega⟩
            dsimp only
            rw [if_pos hk, h4]
            exact hc r (List.mem_of_getElem? h4)
          | self h1 => exact absurd h1 e
          | derived h1 => exact absurd h1 e
          | left h1 => exact absurd h1 e
          | right h1 => exact absurd h1 e

/-! ### The analysis -/

theorem occ_named (n : Name) : ∀ its, Occ n its (named n its)
  | [] => .nil
  | .plain (.gnt m ps) :: its => by
    rw [named]
    split
    · rename_i e; subst e; exact .here (occ_named _ its)
    · rename_i e
      exact .skip (fun ps' => ⟨fun h => e (by cases h; rfl), fun h => (by cases h)⟩) (occ_named n its)
  | .qm (.gnt m ps) :: its => by
    rw [named]
    split
    · rename_i e; subst e; exact .hereOpt (occ_named _ its)
    · rename_i e
      exact .skip (fun ps' => ⟨fun h => (by cases h), fun h => e (by cases h; rfl)⟩) (occ_named n its)
  | .plain (.other _ _) :: its => .skip (fun ps' => ⟨fun h => (by cases h), fun h => (by cases h)⟩) (occ_named n its)
  | .qm (.other _ _) :: its => .skip (fun ps' => ⟨fun h => (by cases h), fun h => (by cases h)⟩) (occ_named n its)

theorem occ_iff {its : List Item} {os : List Bool} : Occ n its os ↔ os = named n its := by
  refine ⟨fun h => ?_, fun h => h ▸ occ_named n its⟩
  induction h with
  | nil => rfl
  | here h ih => simp [named, ih]
  | hereOpt h ih => simp [named, ih]
  | @skip it its os h1 h2 ih =>
    match it, h1 with
    | .plain (.gnt m ps), h1 =>
      have : m ≠ n := fun e => (h1 ps).1 (by rw [e])
      simp [named, this, ih]
    | .qm (.gnt m ps), h1 =>
      have : m ≠ n := fun e => (h1 ps).2 (by rw [e])
      simp [named, this, ih]
    | .plain (.other _ _), _ => simp [named, ih]
    | .qm (.other _ _), _ => simp [named, ih]

theorem any_id (os : List Bool) : os.any id = true ↔ true ∈ os := by simp

theorem any_at (os : List Bool) (k : Nat) : (os[k]?).any id = true ↔ os[k]? = some true := by
  cases os[k]? with
  | none => simp
  | some b => cases b <;> simp

/-- A right-hand side. -/
theorem sRhs_spec (x : Prefix) (n lhs : Name) (its : List Item) :
    (sRhs x n lhs its = none ↔ Unfit n lhs (named n its) x) ∧
    ∀ e a, sRhs x n lhs its = some (e, a) → (∀ k, e = some k ↔ x = .bare ∧ k = total n lhs (named n its) ∧ 2 ≤ k) ∧ (a = true ↔ MayMiss n lhs (named n its) x) := by
  have ord : ∀ (j : Nat), (x.num = j + 1) → sRhs x n lhs its = (if (if lhs = n then 1 else 0) = 0 ∧ x.num ≤ (named n its).length then some (none, ((named n its)[x.num - 1]?).any id) else none) := by
    intro j hj
    cases x <;> first | rfl | (simp [Prefix.num] at hj)
  have ordu : ∀ (j : Nat), x.num = j + 1 → (sRhs x n lhs its = none ↔ lhs = n ∨ (named n its).length < j + 1) := by
    intro j hj
    rw [ord j hj, hj]
    by_cases e : lhs = n
    · simp [e]
    · simp only [e, if_false, true_and, false_or]
      split <;> rename_i h <;> simp <;> omega
  have ords : ∀ (j : Nat), x.num = j + 1 → ∀ e a, sRhs x n lhs its = some (e, a) → e = none ∧ (a = true ↔ (named n its)[j]? = some true) := by
    intro j hj e a h
    rw [ord j hj, hj] at h
    by_cases hc : (if lhs = n then 1 else 0) = 0 ∧ j + 1 ≤ (named n its).length
    · rw [if_pos hc] at h
      cases h
      exact ⟨rfl, any_at _ _⟩
    · rw [if_neg hc] at h
      cases h
  cases x with
  | this =>
    rw [sRhs]
    by_cases e : lhs = n
    · simp only [e, if_true]
      refine ⟨⟨fun h => (by cases h), fun h => ?_⟩, fun e' a h => ?_⟩
      · cases h with | this h => exact absurd rfl h
      · cases h
        exact ⟨fun k => ⟨fun h => (by cases h), fun h => (by cases h.1)⟩, fun h => (by cases h), fun h => (by cases h)⟩
    · simp only [e, if_false]
      exact ⟨⟨fun _ => .this e, fun _ => by simp⟩, fun e' a h => (by simp at h)⟩
  | bare =>
    rw [sRhs]
    refine ⟨⟨fun h => ?_, fun h => (by cases h)⟩, fun e' a h => ?_⟩
    · by_cases h0 : (if lhs = n then 1 else 0) + (named n its).length = 0
      · rw [if_pos h0] at h; cases h
      · rw [if_neg h0] at h; cases h
    · have ht : (if lhs = n then 1 else 0) + (named n its).length = total n lhs (named n its) := by rw [total]; omega
      rw [ht] at h
      by_cases h0 : total n lhs (named n its) = 0
      · rw [if_pos h0] at h
        cases h
        rw [total] at h0
        by_cases e : lhs = n
        · simp [e] at h0
        · have hl : named n its = [] := List.length_eq_zero_iff.1 (by omega)
          refine ⟨fun k => ⟨fun h => (by cases h), fun ⟨_, h1, h2⟩ => ?_⟩, fun _ => .missing e hl, fun _ => rfl⟩
          rw [total] at h1; omega
      · rw [if_neg h0] at h
        cases h
        refine ⟨fun k => ?_, ?_⟩
        · by_cases h1 : total n lhs (named n its) = 1
          · rw [if_pos h1]
            exact ⟨fun h => (by cases h), fun ⟨_, h2, h3⟩ => by omega⟩
          · rw [if_neg h1]
            exact ⟨fun h => (by cases h; exact ⟨rfl, rfl, by omega⟩), fun ⟨_, h2, _⟩ => by rw [h2]⟩
        · rw [any_id]
          refine ⟨fun h => .bare h, fun h => ?_⟩
          cases h with
          | missing h1 h2 => exact absurd (by simp [total, h1, h2]) h0
          | bare h => exact h
  | derived =>
    rw [sRhs]
    by_cases e : lhs = n
    · by_cases h1 : (named n its).length = 1
      · simp only [e, h1, if_true, true_and]
        refine ⟨⟨fun h => (by cases h), fun h => ?_⟩, fun e' a h => ?_⟩
        · cases h with | derived h => rcases h with h | h
                                      · exact absurd rfl h
                                      · exact absurd h1 h
        · cases h
          refine ⟨fun k => ⟨fun h => (by cases h), fun h => (by cases h.1)⟩, ?_⟩
          rw [any_id]
          exact ⟨fun h => .derived h, fun h => by cases h with | derived h => exact h⟩
      · have : ¬ ((if lhs = n then 1 else 0) = 1 ∧ (named n its).length = 1) := fun h => h1 h.2
        rw [if_neg this]
        exact ⟨⟨fun _ => .derived (.inr h1), fun _ => rfl⟩, fun e' a h => (by cases h)⟩
    · have : ¬ ((if lhs = n then 1 else 0) = 1 ∧ (named n its).length = 1) := fun h => by simp [e] at h
      rw [if_neg this]
      exact ⟨⟨fun _ => .derived (.inl e), fun _ => rfl⟩, fun e' a h => (by cases h)⟩
  | first =>
    refine ⟨(ordu 0 rfl).trans ⟨fun h => .first h, fun h => by cases h with | first h => exact h⟩, fun e' a h => ?_⟩
    obtain ⟨rfl, h2⟩ := ords 0 rfl e' a h
    exact ⟨fun k => ⟨fun h => (by cases h), fun h => (by cases h.1)⟩, h2.trans ⟨fun h => .first h, fun h => by cases h with | first h => exact h⟩⟩
  | second =>
    refine ⟨(ordu 1 rfl).trans ⟨fun h => .second h, fun h => by cases h with | second h => exact h⟩, fun e' a h => ?_⟩
    obtain ⟨rfl, h2⟩ := ords 1 rfl e' a h
    exact ⟨fun k => ⟨fun h => (by cases h), fun h => (by cases h.1)⟩, h2.trans ⟨fun h => .second h, fun h => by cases h with | second h => exact h⟩⟩
  | third =>
    refine ⟨(ordu 2 rfl).trans ⟨fun h => .third h, fun h => by cases h with | third h => exact h⟩, fun e' a h => ?_⟩
    obtain ⟨rfl, h2⟩ := ords 2 rfl e' a h
    exact ⟨fun k => ⟨fun h => (by cases h), fun h => (by cases h.1)⟩, h2.trans ⟨fun h => .third h, fun h => by cases h with | third h => exact h⟩⟩
  | fourth =>
    refine ⟨(ordu 3 rfl).trans ⟨fun h => .fourth h, fun h => by cases h with | fourth h => exact h⟩, fun e' a h => ?_⟩
    obtain ⟨rfl, h2⟩ := ords 3 rfl e' a h
    exact ⟨fun k => ⟨fun h => (by cases h), fun h => (by cases h.1)⟩, h2.trans ⟨fun h => .fourth h, fun h => by cases h with | fourth h => exact h⟩⟩

theorem sLoop_spec (x : Prefix) (n : Name) : ∀ ss : List ((Nat × Nat) × Name × List Item),
    (sLoop x n ss = none ↔ ∃ q lhs its, (q, lhs, its) ∈ ss ∧ Unfit n lhs (named n its) x) ∧
    ∀ es a, sLoop x n ss = some (es, a) →
      (∀ q k, (q, k) ∈ es ↔ ∃ lhs its, (q, lhs, its) ∈ ss ∧ x = .bare ∧ k = total n lhs (named n its) ∧ 2 ≤ k) ∧
      (a = true ↔ ∃ q lhs its, (q, lhs, its) ∈ ss ∧ MayMiss n lhs (named n its) x)
  | [] => ⟨⟨fun h => (by cases h), fun ⟨_, _, _, h, _⟩ => (by cases h)⟩, fun es a h => by
      cases h
      exact ⟨fun q k => ⟨fun h => (by cases h), fun ⟨_, _, h, _⟩ => (by cases h)⟩, fun h => (by cases h), fun ⟨_, _, _, h, _⟩ => (by cases h)⟩⟩
  | (q0, lhs0, its0) :: ss => by
    obtain ⟨g1, g2⟩ := sRhs_spec x n lhs0 its0
    obtain ⟨i1, i2⟩ := sLoop_spec x n ss
    rw [sLoop]
    cases hs : sRhs x n lhs0 its0 with
    | none =>
      refine ⟨⟨fun _ => ⟨q0, lhs0, its0, List.mem_cons_self .., g1.1 hs⟩, fun _ => rfl⟩, fun es a h => (by cases h)⟩
    | some v =>
      obtain ⟨e0, a0⟩ := v
      obtain ⟨g3, g4⟩ := g2 e0 a0 hs
      have g5 : ¬ Unfit n lhs0 (named n its0) x := fun h => by rw [g1.2 h] at hs; cases hs
      cases hl : sLoop x n ss with
      | none =>
        refine ⟨⟨fun _ => ?_, fun _ => rfl⟩, fun es a h => (by cases h)⟩
        obtain ⟨q, l, i, h1, h2⟩ := i1.1 hl
        exact ⟨q, l, i, List.mem_cons_of_mem _ h1, h2⟩
      | some w =>
        obtain ⟨es0, b0⟩ := w
        obtain ⟨i3, i4⟩ := i2 es0 b0 hl
        refine ⟨⟨fun h => (by cases h), fun ⟨q, l, i, h1, h2⟩ => ?_⟩, fun es a h => ?_⟩
        · rcases List.mem_cons.1 h1 with h1 | h1
          · cases h1; exact absurd h2 g5
          · have := i1.2 ⟨q, l, i, h1, h2⟩
            rw [hl] at this; cases this
        · cases h
          refine ⟨fun q k => ?_, ?_⟩
          · rw [List.mem_append, i3]
            constructor
            · rintro (h | ⟨l, i, h1, h2⟩)
              · cases e0 with
                | none => cases h
                | some k0 =>
                  cases List.mem_singleton.1 h
                  exact ⟨lhs0, its0, List.mem_cons_self .., (g3 k).1 rfl⟩
              · exact ⟨l, i, List.mem_cons_of_mem _ h1, h2⟩
            · rintro ⟨l, i, h1, h2⟩
              rcases List.mem_cons.1 h1 with h1 | h1
              · cases h1
                left
                rw [(g3 k).2 h2]
                exact List.mem_singleton.2 rfl
              · exact .inr ⟨l, i, h1, h2⟩
          · rw [Bool.or_eq_true, g4, i4]
            constructor
            · rintro (h | ⟨q, l, i, h1, h2⟩)
              · exact ⟨q0, lhs0, its0, List.mem_cons_self .., h⟩
              · exact ⟨q, l, i, List.mem_cons_of_mem _ h1, h2⟩
            · rintro ⟨q, l, i, h1, h2⟩
              rcases List.mem_cons.1 h1 with h1 | h1
              · cases h1; exact .inl h2
              · exact .inr ⟨q, l, i, h1, h2⟩

theorem mem_sites {ps : List (Name × List (List Item))} {i j : Nat} {lhs : Name} {its : List Item} :
    ((i, j), lhs, its) ∈ sites ps ↔ ∃ rhss, 1 ≤ i ∧ ps[i - 1]? = some (lhs, rhss) ∧ 1 ≤ j ∧ rhss[j - 1]? = some its := by
  simp only [sites, List.mem_flatMap, List.mem_map, Prod.exists, List.mem_zipIdx_iff_le_and_getElem?_sub]
  constructor
  · rintro ⟨l, rhss, i', ⟨h1, h2⟩, its', j', ⟨h3, h4⟩, h5⟩
    cases h5
    exact ⟨rhss, h1, h2, h3, h4⟩
  · rintro ⟨rhss, h1, h2, h3, h4⟩
    exact ⟨lhs, rhss, i, ⟨h1, h2⟩, its, j, ⟨h3, h4⟩, rfl⟩

theorem mem_sites' {ps : List (Name × List (List Item))} {lhs : Name} {its : List Item} :
    (∃ q, (q, lhs, its) ∈ sites ps) ↔ ∃ rhss, (lhs, rhss) ∈ ps ∧ its ∈ rhss := by
  constructor
  · rintro ⟨⟨i, j⟩, h⟩
    obtain ⟨rhss, _, h2, _, h4⟩ := mem_sites.1 h
    exact ⟨rhss, List.mem_of_getElem? h2, List.mem_of_getElem? h4⟩
  · rintro ⟨rhss, h1, h2⟩
    obtain ⟨i, hi⟩ := List.mem_iff_getElem?.1 h1
    obtain ⟨j, hj⟩ := List.mem_iff_getElem?.1 h2
    exact ⟨(i + 1, j + 1), mem_sites.2 ⟨rhss, by omega, hi, by omega, hj⟩⟩

/-! ### Headings -/

theorem shows_marks {hs its : List Item} {bits : List Char} (h : Shows hs its bits) (n : Name) :
    (named n hs).length ≤ (marks n its bits).length ∧ ((named n hs).length = (marks n its bits).length → ∀ (i : Nat), (marks n its bits)[i]? = some false → (named n hs)[i]? = some true) := by
  induction h with
  | nil => exact ⟨Nat.le_refl _, fun _ i h => (by simp [marks] at h)⟩
  | @nt m ps ps' hs its bits h ih =>
    by_cases e : m = n
    · simp only [named, marks, e, if_true, List.length_cons]
      refine ⟨by omega, fun hl i hi => ?_⟩
      cases i with
      | zero => simp at hi
      | succ i => simpa using ih.2 (by omega) i (by simpa using hi)
    · simpa only [named, marks, e, if_false] using ih
  | more h ih => simpa only [named] using ih
  | less h ih => simpa only [marks] using ih
  | @opt m ps ps' hs its b bits h ih =>
    by_cases e : m = n
    · simp only [named, marks, e, if_true, List.length_cons]
      refine ⟨by omega, fun hl i hi => ?_⟩
      cases i with
      | zero => rfl
      | succ i => simpa using ih.2 (by omega) i (by simpa using hi)
    · simpa only [named, marks, e, if_false] using ih
  | @present m ps ps' hs its bits h ih =>
    by_cases e : m = n
    · simp only [named, marks, e, if_true, List.length_cons]
      refine ⟨by omega, fun hl i hi => ?_⟩
      cases i with
      | zero => simp at hi
      | succ i => simpa using ih.2 (by omega) i (by simpa using hi)
    · simpa only [named, marks, e, if_false] using ih
  | @hidden m ps hs its bits h ih =>
    by_cases e : m = n
    · simp only [marks, e, if_true, List.length_cons]
      exact ⟨by omega, fun hl => by omega⟩
    · simpa only [marks, e, if_false] using ih

theorem marks_len (n : Name) : ∀ {its : List Item} {bits : List Char} {cs : List Tree}, Kids G its bits cs → (∀ k t, Item.qm (.other k t) ∉ its) →
    (marks n its bits).length = (named n its).length
  | [], _, _, _, _ => by simp [marks, named]
  | it :: its, bits, cs, h, hq => by
    have hq' : ∀ k t, Item.qm (.other k t) ∉ its := fun k t h => hq k t (List.mem_cons_of_mem _ h)
    cases h with
    | terminals j h => simpa [marks, named] using marks_len n h hq'
    | @nt m ps _ _ c cs' hc h =>
      have := marks_len n h hq'
      by_cases e : m = n <;> simp [marks, named, e, this]
    | @absentNt m ps _ _ cs' h =>
      have := marks_len n h hq'
      by_cases e : m = n <;> simp [marks, named, e, this]
    | @presentNt m ps _ _ c cs' hc h =>
      have := marks_len n h hq'
      by_cases e : m = n <;> simp [marks, named, e, this]
    | absentTerminal h => exact absurd (List.mem_cons_self ..) (hq _ _)
    | presentTerminal h => exact absurd (List.mem_cons_self ..) (hq _ _)

/-! ### Nodes -/

mutual
theorem same_iff : ∀ t u : Tree, same t u = true ↔ t = u
  | .leaf, .leaf => by simp [same]
  | .leaf, .node .. => by simp [same]
  | .node .., .leaf => by simp [same]
  | .node s r b cs, .node s' r' b' cs' => by
    simp only [same, Bool.and_eq_true, decide_eq_true_eq, sames_iff cs cs', Tree.node.injEq]
    constructor
    · rintro ⟨⟨⟨h1, h2⟩, h3⟩, h4⟩; exact ⟨h1, h2, h3, h4⟩
    · rintro ⟨h1, h2, h3, h4⟩; exact ⟨⟨⟨h1, h2⟩, h3⟩, h4⟩
theorem sames_iff : ∀ ts us : List Tree, sames ts us = true ↔ ts = us
  | [], [] => by simp [sames]
  | [], _ :: _ => by simp [sames]
  | _ :: _, [] => by simp [sames]
  | t :: ts, u :: us => by simp [sames, same_iff t u, sames_iff ts us]
end

theorem any_is (t : Tree) (rs : List Ref) : rs.any (Ref.is t) = true ↔ Ref.node t ∈ rs := by
  rw [List.any_eq_true]
  constructor
  · rintro ⟨r, h1, h2⟩
    cases r with
    | absent => cases h2
    | node u => rw [Ref.is, same_iff] at h2; subst h2; exact h1
  · intro h; exact ⟨_, h, (same_iff t t).2 rfl⟩

end Verif.Focus
