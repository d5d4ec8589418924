import Verif.Ids.Spec
/-! # Lemmas for the checks of ids -/
namespace Verif.Ids
open Verif.HTML (Str Attrs Node)
open Verif.Validate (nStart nStop nName nAttrs nInner nKids slice)

variable {cfg : Cfg}

/-! ## The nodes -/

theorem mem_preorderL (x : Node) (cs : List Node) : x ∈ preorderL cs ↔ ∃ c ∈ cs, x ∈ preorder c := by
  induction cs with
  | nil => simp [preorderL]
  | cons c cs ih => simp [preorderL, ih]

theorem in_trans {a b c : Node} (h : In a b) (h' : In b c) : In a c := by
  induction h' with
  | root => exact h
  | kid _ hc ih => exact .kid ih hc

theorem self_mem_preorder (n : Node) : n ∈ preorder n := by
  obtain ⟨s, e, nm, a, i, k⟩ := n
  simp [preorder]

theorem preorder_in : ∀ (doc n : Node), n ∈ preorder doc → In doc n
  | .mk s e nm a i kids, n, h => by
    rw [preorder, List.mem_cons, mem_preorderL] at h
    rcases h with rfl | ⟨c, hc, h⟩
    · exact .root
    · have hlt : sizeOf c < 1 + sizeOf s + sizeOf e + sizeOf nm + sizeOf a + sizeOf i + sizeOf kids := by
        have := List.sizeOf_lt_of_mem hc; omega
      exact in_trans (.kid .root hc) (preorder_in c n h)
termination_by d => sizeOf d
decreasing_by simpa using hlt

theorem preorder_trans : ∀ (doc n c : Node), n ∈ preorder doc → c ∈ nKids n → c ∈ preorder doc
  | .mk s e nm a i kids, n, c, h, hc => by
    rw [preorder, List.mem_cons, mem_preorderL] at h ⊢
    rcases h with rfl | ⟨d, hd, h⟩
    · exact .inr ⟨c, hc, self_mem_preorder c⟩
    · have hlt : sizeOf d < 1 + sizeOf s + sizeOf e + sizeOf nm + sizeOf a + sizeOf i + sizeOf kids := by
        have := List.sizeOf_lt_of_mem hd; omega
      exact .inr ⟨d, hd, preorder_trans d n c h hc⟩
termination_by d => sizeOf d
decreasing_by simpa using hlt

theorem mem_preorder (doc n : Node) : n ∈ preorder doc ↔ In doc n := by
  constructor
  · exact preorder_in doc n
  · intro h
    induction h with
    | root => exact self_mem_preorder doc
    | kid _ hc ih => exact preorder_trans doc _ _ ih hc

/-! ## The dict -/

theorem lookup_put (d : List (Str × Node)) (x y : Str) (n : Node) :
    (put d x n).lookup y = if y = x then some n else d.lookup y := by
  induction d with
  | nil =>
    simp only [put, List.lookup]
    by_cases h : y = x
    · subst h; simp
    · have : (y == x) = false := by simpa using h
      simp [this, h]
  | cons p d ih =>
    obtain ⟨z, m⟩ := p
    simp only [put]
    by_cases hz : z = x
    · rw [if_pos hz]
      subst hz
      by_cases h : y = z
      · subst h; simp
      · have : (y == z) = false := by simpa using h
        simp [List.lookup, this, h]
    · rw [if_neg hz]
      simp only [List.lookup]
      by_cases h : y = z
      · subst h; simp [hz]
      · have : (y == z) = false := by simpa using h
        simp only [this]
        exact ih

theorem keys_put (d : List (Str × Node)) (x y : Str) (n : Node) :
    y ∈ (put d x n).map (·.1) ↔ y = x ∨ y ∈ d.map (·.1) := by
  induction d with
  | nil => simp [put]
  | cons p d ih =>
    obtain ⟨z, m⟩ := p
    simp only [put]
    by_cases hz : z = x
    · subst hz; simp
    · rw [if_neg hz, List.map_cons, List.mem_cons, ih, List.map_cons, List.mem_cons]
      constructor
      · rintro (h | h | h)
        · exact .inr (.inl h)
        · exact .inl h
        · exact .inr (.inr h)
      · rintro (h | h | h)
        · exact .inr (.inl h)
        · exact .inl h
        · exact .inr (.inr h)

/-- The dict after some declarations. -/
def putAll (d : List (Str × Node)) (D : List (Str × Node)) : List (Str × Node) := D.foldl (fun d p => put d p.1 p.2) d

theorem putAll_append (d D E : List (Str × Node)) : putAll d (D ++ E) = putAll (putAll d D) E := by
  simp [putAll, List.foldl_append]

theorem keys_putAll (D d : List (Str × Node)) (y : Str) :
    y ∈ (putAll d D).map (·.1) ↔ y ∈ d.map (·.1) ∨ y ∈ D.map (·.1) := by
  induction D generalizing d with
  | nil => simp [putAll]
  | cons p D ih =>
    have : putAll d (p :: D) = putAll (put d p.1 p.2) D := rfl
    rw [this, ih, keys_put, List.map_cons, List.mem_cons]
    constructor
    · rintro ((h | h) | h)
      · exact .inr (.inl h)
      · exact .inl h
      · exact .inr (.inr h)
    · rintro (h | h | h)
      · exact .inl (.inr h)
      · exact .inl (.inl h)
      · exact .inr h

theorem not_keys {D : List (Str × Node)} {x : Str} : x ∉ D.map (·.1) ↔ ∀ p ∈ D, p.1 ≠ x := by
  simp only [List.mem_map, not_exists, not_and]

theorem lastDecl_cons (x y : Str) (m n : Node) (D : List (Str × Node)) :
    LastDecl ((x, m) :: D) y n ↔ LastDecl D y n ∨ (y ∉ D.map (·.1) ∧ y = x ∧ n = m) := by
  constructor
  · rintro ⟨pre, post, he, hp⟩
    cases pre with
    | nil =>
      injection he with h1 h2
      injection h1 with h3 h4
      subst h2; subst h3; subst h4
      exact .inr ⟨not_keys.2 hp, rfl, rfl⟩
    | cons q pre =>
      injection he with h1 h2
      exact .inl ⟨pre, post, h2, hp⟩
  · rintro (⟨pre, post, he, hp⟩ | ⟨h1, rfl, rfl⟩)
    · exact ⟨(x, m) :: pre, post, by rw [he]; rfl, hp⟩
    · exact ⟨[], D, rfl, not_keys.1 h1⟩

theorem lookup_putAll (D d : List (Str × Node)) (y : Str) (n : Node) :
    (putAll d D).lookup y = some n ↔ LastDecl D y n ∨ (y ∉ D.map (·.1) ∧ d.lookup y = some n) := by
  induction D generalizing d with
  | nil =>
    constructor
    · intro h; exact .inr ⟨by simp, h⟩
    · rintro (⟨pre, post, he, _⟩ | ⟨_, h⟩)
      · cases pre <;> cases he
      · exact h
  | cons p D ih =>
    obtain ⟨x, m⟩ := p
    have : putAll d ((x, m) :: D) = putAll (put d x m) D := rfl
    rw [this, ih, lookup_put, lastDecl_cons, List.map_cons, List.mem_cons, not_or]
    constructor
    · rintro (h | ⟨h1, h2⟩)
      · exact .inl (.inl h)
      · by_cases h : y = x
        · rw [if_pos h] at h2; injection h2 with h2
          exact .inl (.inr ⟨h1, h, h2.symm⟩)
        · rw [if_neg h] at h2
          exact .inr ⟨⟨h, h1⟩, h2⟩
    · rintro ((h | ⟨h1, h2, h3⟩) | ⟨⟨h1, h2⟩, h3⟩)
      · exact .inl h
      · refine .inr ⟨h1, ?_⟩
        rw [if_pos h2, h3]
      · refine .inr ⟨h2, ?_⟩
        rw [if_neg h1]; exact h3

theorem lookup_dict (D : List (Str × Node)) (y : Str) (n : Node) :
    (putAll [] D).lookup y = some n ↔ LastDecl D y n := by
  rw [lookup_putAll]
  simp

theorem lookup_none {α} (d : List (Str × α)) (y : Str) : d.lookup y = none ↔ y ∉ d.map (·.1) := by
  induction d with
  | nil => simp
  | cons p d ih =>
    obtain ⟨z, m⟩ := p
    simp only [List.lookup, List.map_cons, List.mem_cons, not_or]
    by_cases h : y = z
    · subst h; simp
    · have : (y == z) = false := by simpa using h
      simp [this, h, ih]

/-- The keys of a dict built by `put` are distinct. -/
theorem nodup_put (d : List (Str × Node)) (x : Str) (n : Node) (h : (d.map (·.1)).Nodup) : ((put d x n).map (·.1)).Nodup := by
  induction d with
  | nil => simp [put]
  | cons p d ih =>
    obtain ⟨z, m⟩ := p
    simp only [List.map_cons, List.nodup_cons] at h
    simp only [put]
    by_cases hz : z = x
    · subst hz
      rw [if_pos rfl]
      simp only [List.map_cons, List.nodup_cons]
      exact h
    · rw [if_neg hz]
      simp only [List.map_cons, List.nodup_cons]
      refine ⟨?_, ih h.2⟩
      rw [keys_put, not_or]
      exact ⟨hz, h.1⟩

theorem nodup_putAll (D d : List (Str × Node)) (h : (d.map (·.1)).Nodup) : ((putAll d D).map (·.1)).Nodup := by
  induction D generalizing d with
  | nil => exact h
  | cons p D ih => exact ih _ (nodup_put _ _ _ h)

theorem mem_lookup (d : List (Str × Node)) (h : (d.map (·.1)).Nodup) (x : Str) (n : Node) :
    (x, n) ∈ d ↔ d.lookup x = some n := by
  induction d with
  | nil => simp
  | cons p d ih =>
    obtain ⟨z, m⟩ := p
    simp only [List.map_cons, List.nodup_cons] at h
    simp only [List.lookup, List.mem_cons, Prod.mk.injEq]
    by_cases hx : x = z
    · subst hx
      simp only [true_and, BEq.rfl, Option.some.injEq]
      constructor
      · rintro (h1 | h1)
        · exact h1.symm
        · exact absurd (List.mem_map.2 ⟨_, h1, rfl⟩) h.1
      · intro h1; exact .inl h1.symm
    · have : (x == z) = false := by simpa using hx
      simp only [this, hx, false_and, false_or]
      exact ih h.2

/-! ## Repeated declarations -/

/-- The messages about repeated ids, where those in `K` are declared before. -/
def Dup (K : List Str) : List (Str × Node) → Node × Say → Prop
  | [], _ => False
  | (x, n) :: D, m => (x ∈ K ∧ m = (n, .duplicate x)) ∨ Dup (x :: K) D m

theorem dup_congr {K K' : List Str} (h : ∀ x, x ∈ K ↔ x ∈ K') (D : List (Str × Node)) (m : Node × Say) : Dup K D m ↔ Dup K' D m := by
  induction D generalizing K K' with
  | nil => exact Iff.rfl
  | cons p D ih =>
    simp only [Dup, h]
    rw [ih (K := p.1 :: K) (K' := p.1 :: K')]
    intro x
    simp only [List.mem_cons, h]

theorem dup_append (K : List Str) (D E : List (Str × Node)) (m : Node × Say) :
    Dup K (D ++ E) m ↔ Dup K D m ∨ Dup (D.map (·.1) ++ K) E m := by
  induction D generalizing K with
  | nil => simp [Dup]
  | cons p D ih =>
    simp only [List.cons_append, Dup, ih, or_assoc, List.map_cons]
    rw [dup_congr (K := D.map (·.1) ++ p.1 :: K) (K' := p.1 :: (D.map (·.1) ++ K))]
    intro x
    simp only [List.mem_append, List.mem_cons]
    constructor
    · rintro (h | h | h)
      · exact .inr (.inl h)
      · exact .inl h
      · exact .inr (.inr h)
    · rintro (h | h | h)
      · exact .inr (.inl h)
      · exact .inl h
      · exact .inr (.inr h)

theorem dup_iff (K : List Str) (D : List (Str × Node)) (m : Node × Say) :
    Dup K D m ↔ ∃ pre post x n, D = pre ++ (x, n) :: post ∧ (x ∈ K ∨ x ∈ pre.map (·.1)) ∧ m = (n, .duplicate x) := by
  induction D generalizing K with
  | nil => simp [Dup]
  | cons p D ih =>
    obtain ⟨y, q⟩ := p
    simp only [Dup, ih]
    constructor
    · rintro (⟨h1, h2⟩ | ⟨pre, post, x, n, h1, h2, h3⟩)
      · exact ⟨[], D, y, q, rfl, .inl h1, h2⟩
      · refine ⟨(y, q) :: pre, post, x, n, by rw [h1]; rfl, ?_, h3⟩
        rcases h2 with h2 | h2
        · rcases List.mem_cons.1 h2 with h2 | h2
          · exact .inr (by simp [h2])
          · exact .inl h2
        · exact .inr (by rw [List.map_cons]; exact List.mem_cons_of_mem _ h2)
    · rintro ⟨pre, post, x, n, h1, h2, h3⟩
      cases pre with
      | nil =>
        injection h1 with h4 h5
        injection h4 with h6 h7
        subst h6; subst h7
        rcases h2 with h2 | h2
        · exact .inl ⟨h2, h3⟩
        · simp at h2
      | cons r pre =>
        injection h1 with h4 h5
        subst h4
        refine .inr ⟨pre, post, x, n, h5, ?_, h3⟩
        rcases h2 with h2 | h2
        · exact .inl (List.mem_cons_of_mem _ h2)
        · rw [List.map_cons, List.mem_cons] at h2
          rcases h2 with h2 | h2
          · exact .inl (by simp [h2])
          · exact .inr h2

/-! ## Gathering -/

/-- What a step of the gathering does if it succeeds. -/
structure Did (D : List (Str × Node)) (O : List Str) (L : Node × Say → Prop) (st st' : St) : Prop where
  dict : st'.dict = putAll st.dict D
  old : st'.old = st.old ++ O
  msgs : ∀ m, m ∈ st'.msgs ↔ m ∈ st.msgs ∨ Dup (st.dict.map (·.1)) D m ∨ L m

theorem did_refl (st : St) : Did [] [] (fun _ => False) st st :=
  ⟨rfl, by simp, by intro m; simp [Dup]⟩

theorem did_declare (x : Str) (n : Node) (st : St) : Did [(x, n)] [] (fun _ => False) st (declare x n st) := by
  refine ⟨rfl, by simp [declare], ?_⟩
  intro m
  simp only [declare, Dup, or_false]
  by_cases h : x ∈ st.dict.map (·.1)
  · rw [if_pos h, List.mem_append, List.mem_singleton]
    simp only [h, true_and]
  · rw [if_neg h]
    simp only [h, false_and, or_false]

theorem did_trans {D E O P L M} {a b c : St} (h : Did D O L a b) (h' : Did E P M b c) :
    Did (D ++ E) (O ++ P) (fun m => L m ∨ M m) a c := by
  refine ⟨?_, ?_, ?_⟩
  · rw [h'.dict, h.dict, putAll_append]
  · rw [h'.old, h.old, List.append_assoc]
  · intro m
    rw [h'.msgs, h.msgs, dup_append, dup_congr (K := D.map (·.1) ++ a.dict.map (·.1)) (K' := b.dict.map (·.1))]
    · constructor
      · rintro ((h | h | h) | h | h)
        · exact .inl h
        · exact .inr (.inl (.inl h))
        · exact .inr (.inr (.inl h))
        · exact .inr (.inl (.inr h))
        · exact .inr (.inr (.inr h))
      · rintro (h | (h | h) | (h | h))
        · exact .inl (.inl h)
        · exact .inl (.inr (.inl h))
        · exact .inr (.inl h)
        · exact .inl (.inr (.inr h))
        · exact .inr (.inr h)
    · intro x
      rw [h.dict, keys_putAll, List.mem_append, or_comm]

theorem did_congr {D D' O O' L L'} {a b : St} (h : Did D O L a b) (hD : D = D') (hO : O = O') (hL : ∀ m, L m ↔ L' m) : Did D' O' L' a b := by
  subst hD; subst hO
  refine ⟨h.dict, h.old, ?_⟩
  intro m; rw [h.msgs, hL]

theorem gatherSteps_spec (n : Node) (xs : List Str) (st : St) :
    (gatherSteps n xs st = none ↔ ∃ x ∈ xs, pStep.isPrefixOf x = false) ∧
    ∀ st', gatherSteps n xs st = some st' → Did (xs.map (fun x => (x, n))) [] (fun _ => False) st st' := by
  induction xs generalizing st with
  | nil =>
    constructor
    · simp [gatherSteps]
    · intro st' h; injection h with h; subst h; exact did_refl st
  | cons x xs ih =>
    simp only [gatherSteps]
    by_cases hp : pStep.isPrefixOf x = true
    · rw [if_pos hp]
      constructor
      · rw [(ih _).1]
        constructor
        · rintro ⟨y, hy, h⟩; exact ⟨y, by simp [hy], h⟩
        · rintro ⟨y, hy, h⟩
          rcases List.mem_cons.1 hy with rfl | hy
          · rw [hp] at h; cases h
          · exact ⟨y, hy, h⟩
      · intro st' h
        exact did_congr (did_trans (did_declare x n st) ((ih _).2 st' h)) rfl rfl (by simp)
    · rw [if_neg hp]
      constructor
      · simp only [true_iff]; exact ⟨x, by simp, Bool.eq_false_iff.2 hp⟩
      · intro st' h; cases h

theorem gatherOld_spec (os : List Str) (st : St) (hn : st.old.Nodup) :
    (gatherOld os st = none ↔ ¬ (st.old ++ os).Nodup) ∧
    ∀ st', gatherOld os st = some st' → Did [] os (fun _ => False) st st' := by
  induction os generalizing st with
  | nil =>
    constructor
    · simp [gatherOld, hn]
    · intro st' h; injection h with h; subst h; exact did_refl st
  | cons o os ih =>
    simp only [gatherOld]
    by_cases ho : o ∈ st.old
    · rw [if_pos ho]
      constructor
      · simp only [true_iff]
        intro h
        rw [List.nodup_append] at h
        exact h.2.2 o ho o (by simp) rfl
      · intro st' h; cases h
    · rw [if_neg ho]
      have hn' : (st.old ++ [o]).Nodup := by
        rw [List.nodup_append]
        refine ⟨hn, by simp, ?_⟩
        intro a ha b hb hab
        simp only [List.mem_singleton] at hb
        subst hb; subst hab; exact ho ha
      have ih := ih { st with old := st.old ++ [o] } hn'
      simp only [List.append_assoc, List.singleton_append] at ih
      refine ⟨ih.1, ?_⟩
      intro st' h
      have := ih.2 st' h
      refine ⟨this.dict, ?_, this.msgs⟩
      rw [this.old]; simp

/-- The messages about a node with an id, apart from repetition. -/
def NodeSays (cfg : Cfg) (n : Node) (m : Node × Say) : Prop :=
  ∃ x ms, attr n aId = some (some x) ∧ aoidMsgs cfg n x = some ms ∧ (m ∈ prefixMsgs n x ∨ m ∈ ms)

/-- What stops the gathering at a node by itself. -/
def NodeBad (cfg : Cfg) (n : Node) : Prop :=
  attr n aId = some none ∨ (∃ x, attr n aId = some (some x) ∧ aoidMsgs cfg n x = none) ∨
  (nName n = sAlg ∧ ∃ x ∈ cfg.stepIds n, pStep.isPrefixOf x = false) ∨ attr n aOldids = some none

theorem gatherId_spec (n : Node) (st : St) :
    (gatherId cfg n st = none ↔ attr n aId = some none ∨ ∃ x, attr n aId = some (some x) ∧ aoidMsgs cfg n x = none) ∧
    ∀ st', gatherId cfg n st = some st' →
      Did ((match attr n aId with | some (some x) => [x] | _ => []).map (fun x => (x, n))) [] (NodeSays cfg n) st st' := by
  unfold gatherId
  cases ha : attr n aId with
  | none =>
    constructor
    · simp
    · intro st' h; injection h with h; subst h
      refine did_congr (did_refl st) rfl rfl ?_
      intro m
      simp [NodeSays, ha]
  | some v =>
    cases v with
    | none =>
      constructor
      · simp
      · intro st' h; cases h
    | some x =>
      simp only
      cases hm : aoidMsgs cfg n x with
      | none =>
        constructor
        · simp [hm]
        · intro st' h; cases h
      | some ms =>
        constructor
        · simp [hm]
        · intro st' h; injection h with h; subst h
          have hd := did_declare x n st
          refine ⟨hd.dict, hd.old, ?_⟩
          intro m
          simp only [List.mem_append, hd.msgs m]
          constructor
          · rintro (((h | h | h) | h) | h)
            · exact .inl h
            · exact .inr (.inl h)
            · exact h.elim
            · exact .inr (.inr ⟨x, ms, ha, hm, .inl h⟩)
            · exact .inr (.inr ⟨x, ms, ha, hm, .inr h⟩)
          · rintro (h | h | ⟨x', ms', h1, h2, h3⟩)
            · exact .inl (.inl (.inl h))
            · exact .inl (.inl (.inr (.inl h)))
            · rw [ha] at h1; injection h1 with h1; injection h1 with h1; subst h1
              rw [hm] at h2; injection h2 with h2; subst h2
              rcases h3 with h3 | h3
              · exact .inl (.inr h3)
              · exact .inr h3

theorem gather1_spec (n : Node) (st : St) (hn : st.old.Nodup) :
    (gather1 cfg n st = none ↔ NodeBad cfg n ∨ ¬ (st.old ++ oldsAt n).Nodup) ∧
    ∀ st', gather1 cfg n st = some st' →
      Did ((idsAt cfg n).map (fun x => (x, n))) (oldsAt n) (NodeSays cfg n) st st' := by
  unfold gather1
  have h1 := gatherId_spec (cfg := cfg) n st
  cases hg : gatherId cfg n st with
  | none =>
    constructor
    · simp only [true_iff]
      left
      rcases h1.1.1 hg with h | h
      · exact .inl h
      · exact .inr (.inl h)
    · intro st' h; cases h
  | some st1 =>
    simp only
    have hd1 := h1.2 st1 hg
    have nb1 : ¬ (attr n aId = some none ∨ ∃ x, attr n aId = some (some x) ∧ aoidMsgs cfg n x = none) := by
      intro hx; have := h1.1.2 hx; rw [hg] at this; cases this
    have h2 := gatherSteps_spec n (if nName n = sAlg then cfg.stepIds n else []) st1
    have hst : (∃ x ∈ (if nName n = sAlg then cfg.stepIds n else []), pStep.isPrefixOf x = false) ↔
        (nName n = sAlg ∧ ∃ x ∈ cfg.stepIds n, pStep.isPrefixOf x = false) := by
      by_cases h : nName n = sAlg
      · simp [h]
      · simp [h]
    rw [hst] at h2
    cases hs : gatherSteps n (if nName n = sAlg then cfg.stepIds n else []) st1 with
    | none =>
      constructor
      · simp only [true_iff]
        exact .inl (.inr (.inr (.inl (h2.1.1 hs))))
      · intro st' h; cases h
    | some st2 =>
      have hd2 := h2.2 st2 hs
      have nb2 : ¬ (nName n = sAlg ∧ ∃ x ∈ cfg.stepIds n, pStep.isPrefixOf x = false) := by
        intro hx; have := h2.1.2 hx; rw [hs] at this; cases this
      have hd12 := did_trans hd1 hd2
      have hold : st2.old = st.old := by rw [hd2.old, hd1.old]; simp
      have hids : ((match attr n aId with | some (some x) => [x] | _ => []).map (fun x => (x, n)) ++
          (if nName n = sAlg then cfg.stepIds n else []).map (fun x => (x, n))) = (idsAt cfg n).map (fun x => (x, n)) := by
        rw [idsAt, List.map_append]
        generalize attr n aId = v
        rcases v with _ | _ | x <;> rfl
      rw [hids] at hd12
      have hd12 := did_congr (L' := NodeSays cfg n) hd12 rfl rfl (by intro m; simp)
      simp only
      have nb : ∀ (h : attr n aOldids ≠ some none), ¬ NodeBad cfg n := by
        intro h hb
        rcases hb with hb | hb | hb | hb
        · exact nb1 (.inl hb)
        · exact nb1 (.inr hb)
        · exact nb2 hb
        · exact h hb
      cases ho : attr n aOldids with
      | none =>
        have hoe : oldsAt n = [] := by simp [oldsAt, ho]
        simp only [hoe]
        constructor
        · simp only [reduceCtorEq, List.append_nil, false_iff]
          rintro (hb | hb)
          · exact nb (by rw [ho]; simp) hb
          · exact hb hn
        · intro st' h; injection h with h; subst h
          exact did_congr hd12 rfl (by simp) (fun _ => Iff.rfl)
      | some v =>
        cases v with
        | none =>
          constructor
          · simp only [true_iff]; exact .inl (.inr (.inr (.inr ho)))
          · intro st' h; cases h
        | some s =>
          have hoe : oldsAt n = splitComma s := by simp [oldsAt, ho]
          simp only [hoe]
          have h3 := gatherOld_spec (splitComma s) st2 (by rw [hold]; exact hn)
          constructor
          · rw [h3.1, hold]
            constructor
            · exact .inr
            · rintro (hb | hb)
              · exact absurd hb (nb (by rw [ho]; simp))
              · exact hb
          · intro st' h
            exact did_congr (did_trans hd12 (h3.2 st' h)) (by simp) (by simp) (by simp)

theorem gatherAll_spec (ns : List Node) (st : St) (hn : st.old.Nodup) :
    (gatherAll cfg ns st = none ↔ (∃ n ∈ ns, NodeBad cfg n) ∨ ¬ (st.old ++ ns.flatMap oldsAt).Nodup) ∧
    ∀ st', gatherAll cfg ns st = some st' →
      Did (decls cfg ns) (ns.flatMap oldsAt) (fun m => ∃ n ∈ ns, NodeSays cfg n m) st st' := by
  induction ns generalizing st with
  | nil =>
    constructor
    · simp [gatherAll, hn]
    · intro st' h; injection h with h; subst h
      exact did_congr (did_refl st) rfl rfl (by simp)
  | cons n ns ih =>
    simp only [gatherAll]
    have h1 := gather1_spec (cfg := cfg) n st hn
    cases hg : gather1 cfg n st with
    | none =>
      constructor
      · simp only [true_iff]
        rcases h1.1.1 hg with h | h
        · exact .inl ⟨n, by simp, h⟩
        · right
          intro hx
          apply h
          rw [List.flatMap_cons, ← List.append_assoc] at hx
          exact (List.nodup_append.1 hx).1
      · intro st' h; cases h
    | some st1 =>
      simp only
      have hd := h1.2 st1 hg
      have hnot : ¬ (NodeBad cfg n ∨ ¬ (st.old ++ oldsAt n).Nodup) := by
        intro hx; have := h1.1.2 hx; rw [hg] at this; cases this
      rw [not_or] at hnot
      have hn1 : st1.old.Nodup := by
        rw [hd.old]; exact Classical.byContradiction hnot.2
      have ih := ih st1 hn1
      constructor
      · rw [ih.1, hd.old, List.flatMap_cons, ← List.append_assoc]
        constructor
        · rintro (⟨k, hk, h⟩ | h)
          · exact .inl ⟨k, by simp [hk], h⟩
          · exact .inr h
        · rintro (⟨k, hk, h⟩ | h)
          · rcases List.mem_cons.1 hk with rfl | hk
            · exact absurd h hnot.1
            · exact .inl ⟨k, hk, h⟩
          · exact .inr h
      · intro st' h
        refine did_congr (did_trans hd (ih.2 st' h)) ?_ ?_ ?_
        · simp [decls]
        · simp
        · intro m; simp

/-! ## The conditions of the program and of the specification -/

theorem pre_true {p x : Str} : p.isPrefixOf x = true ↔ ∃ y, x = p ++ y := by
  rw [List.isPrefixOf_iff_prefix]
  constructor
  · rintro ⟨t, h⟩; exact ⟨t, h.symm⟩
  · rintro ⟨t, h⟩; exact ⟨t, h.symm⟩

theorem pre_false {p x : Str} : p.isPrefixOf x = false ↔ ¬ ∃ y, x = p ++ y := by
  rw [← pre_true]; exact Bool.eq_false_iff

theorem prefixFor_iff (nm p : Str) : prefixFor nm = some p ↔
    ((nm = sIntro ∨ nm = sClause ∨ nm = sAnnex) ∧ p = pSec ∨ nm = sEqn ∧ p = pEqn ∨
        nm = sFigure ∧ p = pFigure ∨ nm = sTable ∧ p = pTable) := by
  unfold prefixFor
  by_cases h1 : nm = sIntro ∨ nm = sClause ∨ nm = sAnnex
  · rw [if_pos h1]
    constructor
    · intro h; injection h with h; exact .inl ⟨h1, h.symm⟩
    · rintro (⟨_, rfl⟩ | ⟨h, _⟩ | ⟨h, _⟩ | ⟨h, _⟩)
      · rfl
      · subst h; exact absurd h1 (by decide)
      · subst h; exact absurd h1 (by decide)
      · subst h; exact absurd h1 (by decide)
  · rw [if_neg h1]
    by_cases h2 : nm = sEqn
    · subst h2
      rw [if_pos rfl]
      constructor
      · intro h; injection h with h; exact .inr (.inl ⟨rfl, h.symm⟩)
      · rintro (⟨h, _⟩ | ⟨_, rfl⟩ | ⟨h, _⟩ | ⟨h, _⟩)
        · exact absurd h h1
        · rfl
        · exact absurd h (by decide)
        · exact absurd h (by decide)
    · rw [if_neg h2]
      by_cases h3 : nm = sFigure
      · subst h3
        rw [if_pos rfl]
        constructor
        · intro h; injection h with h; exact .inr (.inr (.inl ⟨rfl, h.symm⟩))
        · rintro (⟨h, _⟩ | ⟨h, _⟩ | ⟨_, rfl⟩ | ⟨h, _⟩)
          · exact absurd h h1
          · exact absurd h (by decide)
          · rfl
          · exact absurd h (by decide)
      · rw [if_neg h3]
        by_cases h4 : nm = sTable
        · subst h4
          rw [if_pos rfl]
          constructor
          · intro h; injection h with h; exact .inr (.inr (.inr ⟨rfl, h.symm⟩))
          · rintro (⟨h, _⟩ | ⟨h, _⟩ | ⟨h, _⟩ | ⟨_, rfl⟩)
            · exact absurd h h1
            · exact absurd h (by decide)
            · exact absurd h (by decide)
            · rfl
        · rw [if_neg h4]
          simp [h1, h2, h3, h4]

theorem prefixFor_none (nm : Str) : prefixFor nm = none ↔ nm ∉ [sIntro, sClause, sAnnex, sEqn, sFigure, sTable] := by
  constructor
  · intro h hm
    have hp := prefixFor_iff nm
    rw [h] at hp
    simp only [List.mem_cons, List.not_mem_nil, or_false] at hm
    rcases hm with e | e | e | e | e | e
    · exact nomatch (hp _).2 (.inl ⟨.inl e, rfl⟩)
    · exact nomatch (hp _).2 (.inl ⟨.inr (.inl e), rfl⟩)
    · exact nomatch (hp _).2 (.inl ⟨.inr (.inr e), rfl⟩)
    · exact nomatch (hp _).2 (.inr (.inl ⟨e, rfl⟩))
    · exact nomatch (hp _).2 (.inr (.inr (.inl ⟨e, rfl⟩)))
    · exact nomatch (hp _).2 (.inr (.inr (.inr ⟨e, rfl⟩)))
  · intro h
    simp only [List.mem_cons, List.not_mem_nil, or_false, not_or] at h
    simp [prefixFor, h]

theorem mem_prefixMsgs (n : Node) (x : Str) (m : Node × Say) : m ∈ prefixMsgs n x ↔
    (∃ p, prefixFor (nName n) = some p ∧ (¬ ∃ y, x = p ++ y) ∧ m = (n, .wantPrefix p)) ∨
    (prefixFor (nName n) = none ∧ (∃ p ∈ [pSec, pEqn, pFigure, pTable], ∃ y, x = p ++ y) ∧ m = (n, .oddPrefix)) := by
  unfold prefixMsgs
  cases h : prefixFor (nName n) with
  | some p =>
    simp only [Option.some.injEq, exists_eq_left', reduceCtorEq, false_and, or_false]
    by_cases hp : p.isPrefixOf x = true
    · rw [if_pos hp]
      have := pre_true.1 hp
      simp [this]
    · rw [if_neg hp]
      rw [pre_true] at hp
      simp only [List.mem_singleton, hp, not_false_eq_true, true_and]
  | none =>
    simp only [reduceCtorEq, false_and, exists_false, true_and, false_or]
    by_cases hp : pSec.isPrefixOf x = true ∨ pEqn.isPrefixOf x = true ∨ pFigure.isPrefixOf x = true ∨ pTable.isPrefixOf x = true
    · rw [if_pos hp]
      simp only [pre_true] at hp
      have : ∃ p ∈ [pSec, pEqn, pFigure, pTable], ∃ y, x = p ++ y := by
        rcases hp with h | h | h | h
        · exact ⟨_, by simp, h⟩
        · exact ⟨_, List.mem_cons_of_mem _ (List.mem_cons_self ..), h⟩
        · exact ⟨_, List.mem_cons_of_mem _ (List.mem_cons_of_mem _ (List.mem_cons_self ..)), h⟩
        · exact ⟨_, List.mem_cons_of_mem _ (List.mem_cons_of_mem _ (List.mem_cons_of_mem _ (List.mem_cons_self ..))), h⟩
      simp only [List.mem_singleton, this, true_and]
    · rw [if_neg hp]
      simp only [pre_true] at hp
      constructor
      · intro h; cases h
      · rintro ⟨⟨p, hm, h⟩, _⟩
        exfalso
        apply hp
        simp only [List.mem_cons, List.not_mem_nil, or_false] at hm
        rcases hm with rfl | rfl | rfl | rfl
        · exact .inl h
        · exact .inr (.inl h)
        · exact .inr (.inr (.inl h))
        · exact .inr (.inr (.inr h))

theorem aoidMsgs_none (n : Node) (x : Str) : aoidMsgs cfg n x = none ↔
    ∃ v, attr n aAoid = some v ∧ (v = none ∨ nName n ≠ sClause ∧ nName n ≠ sEqn) := by
  unfold aoidMsgs
  cases h : attr n aAoid with
  | none => simp
  | some v =>
    cases v with
    | none => simp
    | some a =>
      simp only [Option.some.injEq, exists_eq_left', reduceCtorEq, false_or]
      by_cases hc : nName n = sClause ∨ nName n = sEqn
      · rw [if_pos hc]
        have hp : ∃ p, prefixFor (nName n) = some p := by
          rcases hc with e | e
          · exact ⟨_, (prefixFor_iff _ _).2 (.inl ⟨.inr (.inl e), rfl⟩)⟩
          · exact ⟨_, (prefixFor_iff _ _).2 (.inr (.inl ⟨e, rfl⟩))⟩
        obtain ⟨p, hp⟩ := hp
        simp only [hp]
        constructor
        · intro h; split at h <;> cases h
        · rintro ⟨h1, h2⟩; rcases hc with e | e
          · exact absurd e h1
          · exact absurd e h2
      · rw [if_neg hc, ← not_or]
        simp [hc]

theorem aoidMsgs_some (n : Node) (x : Str) (ms : List (Node × Say)) (h : aoidMsgs cfg n x = some ms) (m : Node × Say) :
    m ∈ ms ↔ ∃ a p, attr n aAoid = some (some a) ∧ (nName n = sClause ∧ p = pSec ∨ nName n = sEqn ∧ p = pEqn) ∧
      x ∉ cfg.possibles p a ∧ m = (n, .wantId a) := by
  unfold aoidMsgs at h
  cases ha : attr n aAoid with
  | none => rw [ha] at h; injection h with h; subst h; simp
  | some v =>
    rw [ha] at h
    cases v with
    | none => cases h
    | some a =>
      simp only at h
      by_cases hc : nName n = sClause ∨ nName n = sEqn
      · rw [if_pos hc] at h
        have hp : ∃ p, prefixFor (nName n) = some p ∧ ∀ q, (nName n = sClause ∧ q = pSec ∨ nName n = sEqn ∧ q = pEqn) ↔ q = p := by
          rcases hc with e | e
          · refine ⟨_, (prefixFor_iff _ _).2 (.inl ⟨.inr (.inl e), rfl⟩), ?_⟩
            intro q
            rw [e]
            simp only [true_and, show ¬ (sClause = sEqn) by decide, false_and, or_false]
          · refine ⟨_, (prefixFor_iff _ _).2 (.inr (.inl ⟨e, rfl⟩)), ?_⟩
            intro q
            rw [e]
            simp only [true_and, show ¬ (sEqn = sClause) by decide, false_and, false_or]
        obtain ⟨p, hp, hq⟩ := hp
        simp only [hp] at h
        simp only [hq, Option.some.injEq]
        split at h
        · rename_i hx
          injection h with h; subst h
          constructor
          · intro h; cases h
          · rintro ⟨a', q, rfl, rfl, h3, h4⟩; exact absurd hx h3
        · rename_i hx
          injection h with h; subst h
          rw [List.mem_singleton]
          constructor
          · rintro rfl; exact ⟨a, p, rfl, rfl, hx, rfl⟩
          · rintro ⟨a', q, rfl, rfl, h3, h4⟩; exact h4
      · rw [if_neg hc] at h; cases h

/-! ## References -/

theorem ref1_none (dict : List (Str × Node)) (n : Node) : ref1 cfg dict n = none ↔
    (nName n = sXref ∧ ¬ ∃ x, attr n aHref = some (some ('#' :: x))) ∨ ∃ x, Refers n x ∧ refMsgs cfg dict n x = none := by
  unfold ref1
  by_cases hx : nName n = sXref
  · rw [if_pos hx]
    simp only [Refers, hx, true_and]
    cases ha : attr n aHref with
    | none => simp
    | some v =>
      cases v with
      | none => simp
      | some s =>
        cases s with
        | nil => simp
        | cons c s =>
          by_cases hc : c = '#'
          · subst hc
            simp only [Option.map_eq_none_iff, Option.some.injEq, List.cons.injEq, true_and, exists_eq', not_true_eq_false,
              false_or, exists_eq_left']
          · split
            · rename_i h; injection h with h; injection h with h; injection h with h1 h2; exact absurd h1 hc
            · simp [hc]
  · rw [if_neg hx]
    simp [Refers, hx]

theorem ref1_some (dict : List (Str × Node)) (n : Node) (r : List Str × List (Node × Say)) (h : ref1 cfg dict n = some r) :
    (∀ x, x ∈ r.1 ↔ Refers n x) ∧ ∀ m, m ∈ r.2 ↔ ∃ x ms, Refers n x ∧ refMsgs cfg dict n x = some ms ∧ m ∈ ms := by
  unfold ref1 at h
  by_cases hx : nName n = sXref
  · rw [if_pos hx] at h
    simp only [Refers, hx, true_and]
    split at h
    · rename_i x ha
      rw [ha]
      obtain ⟨ms, hm, he⟩ := Option.map_eq_some_iff.1 h
      subst he
      constructor
      · intro y
        simp only [List.mem_singleton, Option.some.injEq, List.cons.injEq, true_and]
        exact eq_comm
      · intro m
        constructor
        · intro h'; exact ⟨x, ms, rfl, hm, h'⟩
        · rintro ⟨y, ms', h1, h2, h3⟩
          injection h1 with h1; injection h1 with h1; injection h1 with _ h1
          subst h1
          rw [hm] at h2; injection h2 with h2; subst h2
          exact h3
    · cases h
  · rw [if_neg hx] at h
    injection h with h; subst h
    simp [Refers, hx]

theorem refAll_none (dict : List (Str × Node)) (ns : List Node) : refAll cfg dict ns = none ↔ ∃ n ∈ ns, ref1 cfg dict n = none := by
  induction ns with
  | nil => simp [refAll]
  | cons n ns ih =>
    simp only [refAll, List.mem_cons, exists_eq_or_imp]
    cases h1 : ref1 cfg dict n with
    | none => simp
    | some r =>
      rw [← ih]
      cases h2 : refAll cfg dict ns with
      | none => simp
      | some k => simp

theorem refAll_some (dict : List (Str × Node)) (ns : List Node) (r : List Str × List (Node × Say)) (h : refAll cfg dict ns = some r) :
    (∀ x, x ∈ r.1 ↔ ∃ n ∈ ns, Refers n x) ∧
    ∀ m, m ∈ r.2 ↔ ∃ n ∈ ns, ∃ x ms, Refers n x ∧ refMsgs cfg dict n x = some ms ∧ m ∈ ms := by
  induction ns generalizing r with
  | nil => injection h with h; subst h; simp
  | cons n ns ih =>
    simp only [refAll] at h
    cases h1 : ref1 cfg dict n with
    | none => rw [h1] at h; cases h
    | some q =>
      rw [h1] at h
      cases h2 : refAll cfg dict ns with
      | none => simp only [h2] at h; cases h
      | some k =>
        simp only [h2] at h
        injection h with h; subst h
        have hq := ref1_some dict n q h1
        have hk := ih k h2
        simp only [List.mem_append, hq.1, hq.2, hk.1, hk.2, List.mem_cons, exists_eq_or_imp, implies_true, and_self]

theorem dfnMsgs_none (ref d : Node) (x : Str) : dfnMsgs cfg ref d x = none ↔
    (inner cfg d = none ∨ inner cfg ref = none ∨ inner cfg d = some [] ∨
        attr d aVariants = some none ∧ inner cfg ref ≠ some []) := by
  unfold dfnMsgs
  cases hd : inner cfg d with
  | none => simp
  | some dt =>
    cases hr : inner cfg ref with
    | none => simp
    | some rt =>
      simp only [reduceCtorEq, false_or, Option.some.injEq]
      by_cases h1 : dt = []
      · simp [h1]
      · rw [if_neg h1]
        by_cases h2 : rt = []
        · simp [h1, h2]
        · rw [if_neg h2]
          cases attr d aVariants with
          | none => simp [h1]
          | some v => cases v <;> simp [h1, h2]

theorem dfnMsgs_some (ref d : Node) (x : Str) (ms : List (Node × Say)) (h : dfnMsgs cfg ref d x = some ms) (m : Node × Say) :
    m ∈ ms ↔ Needless cfg ref d ∧ m = (ref, .needless x) := by
  unfold dfnMsgs at h
  unfold Needless
  cases hd : inner cfg d with
  | none => rw [hd] at h; cases h
  | some dt =>
    rw [hd] at h
    cases hr : inner cfg ref with
    | none => rw [hr] at h; cases h
    | some rt =>
      rw [hr] at h
      simp only at h
      have hE : ∀ (P : Str → Str → Prop), (∃ dt' rt', some dt = some dt' ∧ some rt = some rt' ∧ P dt' rt') ↔ P dt rt := by
        intro P
        constructor
        · rintro ⟨_, _, h1, h2, h3⟩; injection h1 with h1; injection h2 with h2; subst h1; subst h2; exact h3
        · intro h; exact ⟨dt, rt, rfl, rfl, h⟩
      rw [hE (fun dt rt => (rt = [] ∨ rt = dt ∨ ∃ v, attr d aVariants = some (some v) ∧ rt ∈ splitComma v))]
      by_cases h1 : dt = []
      · rw [if_pos h1] at h; cases h
      · rw [if_neg h1] at h
        by_cases h2 : rt = []
        · rw [if_pos h2] at h
          injection h with h; subst h
          simp [h2]
        · rw [if_neg h2] at h
          cases hv : attr d aVariants with
          | none =>
            rw [hv] at h
            injection h with h; subst h
            simp only [splitComma, List.mem_singleton, h2, or_false, reduceCtorEq, false_and, exists_false, false_or]
            by_cases h3 : rt = dt <;> simp [h3]
          | some v =>
            rw [hv] at h
            cases v with
            | none => cases h
            | some v =>
              injection h with h; subst h
              simp only [h2, false_or, Option.some.injEq, exists_eq_left']
              by_cases h3 : rt = dt ∨ rt ∈ splitComma v
              · rw [if_pos h3]; simp only [h3, true_and, List.mem_singleton]
              · rw [if_neg h3]; simp only [h3, false_and, List.not_mem_nil]

theorem sDfn_not : sDfn ∉ [sClause, sAnnex, sTable, sAlg, sNote] := by decide

theorem refMsgs_none (D : List (Str × Node)) (ref : Node) (x : Str) : refMsgs cfg (putAll [] D) ref x = none ↔
    ∃ d, LastDecl D x d ∧ nName d = sDfn ∧ (inner cfg d = none ∨ inner cfg ref = none ∨ inner cfg d = some [] ∨
        attr d aVariants = some none ∧ inner cfg ref ≠ some []) := by
  unfold refMsgs
  cases hl : (putAll [] D).lookup x with
  | none =>
    have : ∀ d, ¬ LastDecl D x d := by
      intro d h; rw [← lookup_dict, hl] at h; cases h
    simp only [this, false_and, exists_false, iff_false]
    split <;> simp
  | some d =>
    have hd : ∀ d', LastDecl D x d' ↔ d' = d := by
      intro d'; rw [← lookup_dict, hl]; simp [eq_comm]
    simp only [hd, exists_eq_left]
    by_cases h1 : nName d ∈ [sClause, sAnnex, sTable, sAlg, sNote]
    · rw [if_pos h1]
      have : nName d ≠ sDfn := by intro e; rw [e] at h1; exact sDfn_not h1
      simp [this]
    · rw [if_neg h1]
      by_cases h2 : nName d = sDfn
      · rw [if_pos h2, dfnMsgs_none]; simp [h2]
      · rw [if_neg h2]; simp [h2]

theorem refMsgs_some (D : List (Str × Node)) (ref : Node) (x : Str) (ms : List (Node × Say))
    (h : refMsgs cfg (putAll [] D) ref x = some ms) (m : Node × Say) : m ∈ ms ↔
    (x ∉ D.map (·.1) ∧ x ∉ imported ∧ m = (ref, .missing x)) ∨
    (∃ d, LastDecl D x d ∧ nName d = sDfn ∧ Needless cfg ref d ∧ m = (ref, .needless x)) ∨
    (∃ d, LastDecl D x d ∧ nName d ∉ [sClause, sAnnex, sTable, sAlg, sNote, sDfn] ∧ m = (d, .oddTarget)) := by
  unfold refMsgs at h
  have hk := keys_putAll D [] x
  simp only [List.map_nil, List.not_mem_nil, false_or] at hk
  cases hl : (putAll [] D).lookup x with
  | none =>
    rw [hl] at h
    have hno : ∀ d, ¬ LastDecl D x d := by
      intro d h; rw [← lookup_dict, hl] at h; cases h
    have hx : x ∉ D.map (·.1) := by rw [← hk]; exact (lookup_none _ _).1 hl
    simp only [hno, false_and, exists_false, or_false, hx, not_false_eq_true, true_and]
    simp only at h
    split at h
    · rename_i hi; injection h with h; subst h; simp [hi]
    · rename_i hi; injection h with h; subst h; simp [hi]
  | some d =>
    rw [hl] at h
    have hd : ∀ d', LastDecl D x d' ↔ d' = d := by
      intro d'; rw [← lookup_dict, hl]; simp [eq_comm]
    have hx : x ∈ D.map (·.1) := by
      rw [← hk]
      refine Classical.byContradiction fun hc => ?_
      rw [(lookup_none _ _).2 hc] at hl; cases hl
    simp only [hd, exists_eq_left, hx, not_true_eq_false, false_and, false_or]
    simp only at h
    have hmem : nName d ∈ [sClause, sAnnex, sTable, sAlg, sNote, sDfn] ↔ nName d ∈ [sClause, sAnnex, sTable, sAlg, sNote] ∨ nName d = sDfn := by
      rw [show [sClause, sAnnex, sTable, sAlg, sNote, sDfn] = [sClause, sAnnex, sTable, sAlg, sNote] ++ [sDfn] from rfl, List.mem_append,
        List.mem_singleton]
    rw [hmem, not_or]
    by_cases h1 : nName d ∈ [sClause, sAnnex, sTable, sAlg, sNote]
    · rw [if_pos h1] at h
      have : nName d ≠ sDfn := by intro e; rw [e] at h1; exact sDfn_not h1
      injection h with h; subst h
      simp only [List.not_mem_nil, this, false_and, h1, not_true_eq_false, or_self]
    · rw [if_neg h1] at h
      by_cases h2 : nName d = sDfn
      · rw [if_pos h2] at h
        rw [dfnMsgs_some _ _ _ _ h]
        simp [h2]
      · rw [if_neg h2] at h
        injection h with h; subst h
        simp only [List.mem_singleton, h2, false_and, false_or, h1, not_false_eq_true, true_and]

theorem mem_unrefMsgs (refs : List Str) (d : List (Str × Node)) (m : Node × Say) : m ∈ unrefMsgs refs d ↔
    ∃ x n, (x, n) ∈ d ∧ x ∉ refs ∧ x ∉ cssIds ∧ nName n ∉ [sIntro, sClause, sAnnex, sFigure, sTable, sDfn, sEqn] ∧ m = (n, .unreferenced x) := by
  induction d with
  | nil => simp [unrefMsgs]
  | cons p d ih =>
    obtain ⟨y, q⟩ := p
    have hmem : nName q ∈ [sIntro, sClause, sAnnex, sFigure, sTable, sDfn, sEqn] ↔
        (nName q ∈ [sIntro, sClause, sAnnex] ∨ nName q ∈ [sFigure, sTable] ∨ nName q ∈ [sDfn, sEqn]) := by
      rw [show [sIntro, sClause, sAnnex, sFigure, sTable, sDfn, sEqn] = [sIntro, sClause, sAnnex] ++ ([sFigure, sTable] ++ [sDfn, sEqn]) from rfl,
        List.mem_append, List.mem_append]
    simp only [unrefMsgs]
    by_cases hc : y ∈ refs ∨ y ∈ cssIds ∨ nName q ∈ [sIntro, sClause, sAnnex] ∨ nName q ∈ [sFigure, sTable] ∨ nName q ∈ [sDfn, sEqn]
    · rw [if_pos hc, ih]
      rw [← hmem] at hc
      constructor
      · rintro ⟨x, n, h, h'⟩; exact ⟨x, n, by simp [h], h'⟩
      · rintro ⟨x, n, h, h1, h2, h3, h4⟩
        rcases List.mem_cons.1 h with h | h
        · injection h with e1 e2; subst e1; subst e2
          rcases hc with hc | hc | hc
          · exact absurd hc h1
          · exact absurd hc h2
          · exact absurd hc h3
        · exact ⟨x, n, h, h1, h2, h3, h4⟩
    · rw [if_neg hc, List.mem_cons, ih]
      rw [← hmem, not_or, not_or] at hc
      constructor
      · rintro (rfl | ⟨x, n, h, h'⟩)
        · exact ⟨y, q, by simp, hc.1, hc.2.1, hc.2.2, rfl⟩
        · exact ⟨x, n, by simp [h], h'⟩
      · rintro ⟨x, n, h, h1, h2, h3, h4⟩
        rcases List.mem_cons.1 h with h | h
        · injection h with e1 e2; subst e1; subst e2; exact .inl h4
        · exact .inr ⟨x, n, h, h1, h2, h3, h4⟩

/-! ## All together -/

theorem checkIds_none (doc : Node) : checkIds cfg doc = none ↔
    (∃ n, In doc n ∧ NodeBad cfg n) ∨ ¬ ((preorder doc).flatMap oldsAt).Nodup ∨
    (∃ n x, In doc n ∧ x ∈ oldsAt n ∧ x ∈ (decls cfg (preorder doc)).map (·.1)) ∨
    ∃ n, In doc n ∧ ref1 cfg (putAll [] (decls cfg (preorder doc))) n = none := by
  unfold checkIds
  have hg := gatherAll_spec (cfg := cfg) (preorder doc) ⟨[], [], []⟩ (by simp)
  simp only [List.nil_append] at hg
  have hin : ∀ (P : Node → Prop), (∃ n ∈ preorder doc, P n) ↔ ∃ n, In doc n ∧ P n := by
    intro P; simp only [mem_preorder]
  rw [hin] at hg
  cases he : gatherAll cfg (preorder doc) ⟨[], [], []⟩ with
  | none =>
    simp only [true_iff]
    rcases hg.1.1 he with h | h
    · exact .inl h
    · exact .inr (.inl h)
  | some st =>
    simp only
    have hnot : ¬ ((∃ n, In doc n ∧ NodeBad cfg n) ∨ ¬ ((preorder doc).flatMap oldsAt).Nodup) := by
      intro hx; have := hg.1.2 hx; rw [he] at this; cases this
    rw [← or_assoc, or_iff_right hnot]
    have hd := hg.2 st he
    have hkeys : ∀ x, x ∈ st.dict.map (·.1) ↔ x ∈ (decls cfg (preorder doc)).map (·.1) := by
      intro x; rw [hd.dict, keys_putAll]; simp
    have hold : (st.old.any (· ∈ st.dict.map (·.1)) = true) ↔
        (∃ n x, In doc n ∧ x ∈ oldsAt n ∧ x ∈ (decls cfg (preorder doc)).map (·.1)) := by
      rw [List.any_eq_true, hd.old]
      simp only [List.nil_append, decide_eq_true_eq, hkeys, List.mem_flatMap, mem_preorder]
      constructor
      · rintro ⟨x, ⟨n, h1, h2⟩, h3⟩; exact ⟨n, x, h1, h2, h3⟩
      · rintro ⟨n, x, h1, h2, h3⟩; exact ⟨x, ⟨n, h1, h2⟩, h3⟩
    by_cases ho : st.old.any (· ∈ st.dict.map (·.1)) = true
    · rw [if_pos ho]
      simp only [true_iff]
      exact .inl (hold.1 ho)
    · rw [if_neg ho, or_iff_right (fun h => ho (hold.2 h)), ← hin, ← refAll_none, hd.dict]
      cases refAll cfg (putAll [] (decls cfg (preorder doc))) (preorder doc) <;> simp

theorem checkIds_some (doc : Node) (dict : List (Str × Node)) (ids : List Str) (ms : List (Node × Say))
    (h : checkIds cfg doc = some (dict, ids, ms)) :
    dict = putAll [] (decls cfg (preorder doc)) ∧ ids = (preorder doc).flatMap oldsAt ++ dict.map (·.1) ∧
    ∀ m, m ∈ ms ↔ Dup [] (decls cfg (preorder doc)) m ∨ (∃ n, In doc n ∧ NodeSays cfg n m) ∨
      (∃ n x ks, In doc n ∧ Refers n x ∧ refMsgs cfg dict n x = some ks ∧ m ∈ ks) ∨
      (∃ x n, (x, n) ∈ dict ∧ (¬ ∃ r, In doc r ∧ Refers r x) ∧ x ∉ cssIds ∧
        nName n ∉ [sIntro, sClause, sAnnex, sFigure, sTable, sDfn, sEqn] ∧ m = (n, .unreferenced x)) := by
  unfold checkIds at h
  have hg := gatherAll_spec (cfg := cfg) (preorder doc) ⟨[], [], []⟩ (by simp)
  cases he : gatherAll cfg (preorder doc) ⟨[], [], []⟩ with
  | none => rw [he] at h; cases h
  | some st =>
    simp only [he] at h
    by_cases ho : st.old.any (· ∈ st.dict.map (·.1)) = true
    · rw [if_pos ho] at h; cases h
    · rw [if_neg ho] at h
      have hd := hg.2 st he
      cases hr : refAll cfg st.dict (preorder doc) with
      | none => rw [hr] at h; cases h
      | some r =>
        obtain ⟨refs, ks⟩ := r
        simp only [hr] at h
        injection h with h
        injection h with h1 h
        injection h with h2 h3
        subst h1; subst h2; subst h3
        have hra := refAll_some _ _ _ hr
        refine ⟨hd.dict, by rw [hd.old]; simp, ?_⟩
        intro m
        simp only [List.mem_append, hd.msgs m, hra.2 m, mem_unrefMsgs, hra.1, List.map_nil, List.not_mem_nil, false_or, mem_preorder,
          or_assoc]
        refine or_congr Iff.rfl (or_congr Iff.rfl (or_congr ?_ Iff.rfl))
        constructor
        · rintro ⟨n, h1, x, k, h2⟩; exact ⟨n, x, k, h1, h2⟩
        · rintro ⟨n, x, k, h1, h2⟩; exact ⟨n, h1, x, k, h2⟩

/-! ## Terms -/

theorem addTerms_spec (d : Node) (xs : List Str) (t : List (Str × Node)) (hn : (t.map (·.1)).Nodup) :
    (addTerms d xs t = none ↔ ¬ (t.map (·.1) ++ xs).Nodup) ∧
    ∀ t', addTerms d xs t = some t' → t' = t ++ xs.map (fun x => (x, d)) := by
  induction xs generalizing t with
  | nil => simp [addTerms, hn, eq_comm]
  | cons x xs ih =>
    simp only [addTerms]
    by_cases hx : x ∈ t.map (·.1)
    · rw [if_pos hx]
      constructor
      · simp only [true_iff]
        intro h
        rw [List.nodup_append] at h
        exact h.2.2 x hx x (by simp) rfl
      · intro t' h; cases h
    · rw [if_neg hx]
      have hn' : ((t ++ [(x, d)]).map (·.1)).Nodup := by
        rw [List.map_append, List.nodup_append]
        refine ⟨hn, by simp, ?_⟩
        intro a ha b hb hab
        simp only [List.map_cons, List.map_nil, List.mem_singleton] at hb
        subst hb; subst hab; exact hx ha
      have ih := ih _ hn'
      constructor
      · rw [ih.1]; simp
      · intro t' h; rw [ih.2 t' h]; simp

theorem dfnsLoop_spec (ds : List Node) (t : List (Str × Node)) (hn : (t.map (·.1)).Nodup) :
    (∀ t', dfnsLoop cfg ds t = some t' → (∀ d ∈ ds, termsOf cfg d ≠ none) ∧ (t'.map (·.1)).Nodup ∧
      t' = t ++ ds.flatMap (fun d => ((termsOf cfg d).getD []).map (fun x => (x, d)))) ∧
    ((∀ d ∈ ds, termsOf cfg d ≠ none) → (t.map (·.1) ++ ds.flatMap (fun d => (termsOf cfg d).getD [])).Nodup →
      dfnsLoop cfg ds t ≠ none) := by
  induction ds generalizing t with
  | nil =>
    constructor
    · intro t' h; injection h with h; subst h; simp [hn]
    · intro _ _ h; cases h
  | cons d ds ih =>
    simp only [dfnsLoop]
    cases ht : termsOf cfg d with
    | none =>
      constructor
      · intro t' h; cases h
      · intro h; exact absurd ht (h d (by simp))
    | some xs =>
      simp only
      have ha := addTerms_spec d xs t hn
      cases he : addTerms d xs t with
      | none =>
        constructor
        · intro t' h; cases h
        · intro _ h
          exfalso
          apply ha.1.1 he
          rw [List.flatMap_cons, ht, Option.getD_some, ← List.append_assoc] at h
          exact (List.nodup_append.1 h).1
      | some t1 =>
        simp only
        have h1 := ha.2 t1 he
        have hn1 : (t1.map (·.1)).Nodup := by
          refine Classical.byContradiction fun hc => ?_
          have : addTerms d xs t = none := by
            rw [ha.1]; rw [h1] at hc; simpa [Function.comp_def] using hc
          rw [he] at this; cases this
        have ih := ih t1 hn1
        constructor
        · intro t' h
          have := ih.1 t' h
          refine ⟨?_, this.2.1, ?_⟩
          · intro e he'
            rcases List.mem_cons.1 he' with rfl | he'
            · rw [ht]; simp
            · exact this.1 e he'
          · rw [this.2.2, h1, List.flatMap_cons, ht]; simp
        · intro h h'
          apply ih.2 (fun e he' => h e (by simp [he']))
          rw [h1]
          rw [List.flatMap_cons, ht] at h'
          simpa [Function.comp_def] using h'

end Verif.Ids
