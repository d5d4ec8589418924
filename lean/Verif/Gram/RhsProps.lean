import Verif.Gram.RhsSpec
/-! # C27 and C28: matching of right-hand sides, option bits -/
namespace Verif.Gram

theorem matchSym_iff (u d : Sym) : (∃ n, matchSym u d = some n) ↔ SameSym u d := by
  cases u <;> cases d <;> simp only [matchSym, SameSym]
  · next a p b q =>
    by_cases h : a = b
    · subst h
      simp only [ne_eq, not_true, if_false, iff_true]
      by_cases hq : q = []
      · simp [hq]
      · by_cases hp : p = [] <;> simp [hq, hp]
    · simp [h]
  · simp
  · simp
  · next k a l b =>
    by_cases h : k = l
    · subst h
      by_cases h2 : a = b
      · subst h2
        simp only [ne_eq, not_true, if_false, and_self, iff_true]
        split <;> exact ⟨_, rfl⟩
      · simp [h2]
    · simp [h]

theorem matchSym_optional {u d : Sym} {n : Notes} (h : matchSym u d = some n) : n.optional = [] := by
  cases u <;> cases d <;> simp only [matchSym] at h
  · split at h
    · cases h
    · split at h
      · split at h <;> (injection h with h; rw [← h])
      · injection h with h; rw [← h]
  · cases h
  · cases h
  · split at h
    · cases h
    · split at h
      · cases h
      · split at h <;> (injection h with h; rw [← h])

theorem needless_plain {s : Sym} : (∃ n, needless (.plain s) = some n) ↔ Annotation s := by
  cases s with
  | gnt a p => simp [needless, Annotation]
  | other k t => cases k <;> simp [needless, Annotation]

theorem needless_optional {s : Sym} {n : Notes} (h : needless (.plain s) = some n) : n.optional = [] := by
  cases s with
  | gnt a p => cases h
  | other k t => cases k <;> simp only [needless] at h <;> first | (injection h with h; rw [← h]) | cases h

theorem add_optional (a b : Notes) : (a.add b).optional = a.optional ++ b.optional := rfl

/-- What the notes on one item say. -/
theorem matchItem_inv {u d : Item} {n : Notes} (h : matchItem u d = some n) :
    (∃ us ds, u = .plain us ∧ d = .plain ds ∧ SameSym us ds ∧ n.optional = []) ∨
    (∃ us ds, u = .plain us ∧ d = .qm ds ∧ SameSym us ds ∧ n.optional = [(ds, .required)]) ∨
    (∃ us ds, u = .qm us ∧ d = .qm ds ∧ SameSym us ds ∧ n.optional = [(ds, .either)]) := by
  cases d with
  | plain ds =>
    cases u with
    | plain us =>
      exact Or.inl ⟨us, ds, rfl, rfl, (matchSym_iff _ _).mp ⟨n, h⟩, matchSym_optional h⟩
    | qm us => cases h
  | qm ds =>
    cases u with
    | plain us =>
      rw [matchItem] at h
      cases hm : matchSym us ds with
      | none => rw [hm] at h; cases h
      | some m =>
        rw [hm] at h
        injection h with h
        exact Or.inr (Or.inl ⟨us, ds, rfl, rfl, (matchSym_iff _ _).mp ⟨m, hm⟩, by rw [← h]⟩)
    | qm us =>
      rw [matchItem] at h
      cases hm : matchSym us ds with
      | none => rw [hm] at h; cases h
      | some m =>
        rw [hm] at h
        injection h with h
        exact Or.inr (Or.inr ⟨us, ds, rfl, rfl, (matchSym_iff _ _).mp ⟨m, hm⟩, by rw [← h]⟩)

theorem needless_use {d : Item} {n : Notes} (h : needless d = some n) {us ds : List Item} {os : List Optionality}
    (hu : Use us ds os) : Use us (d :: ds) (n.optional.map (·.2) ++ os) ∧
      n.optional.map (·.1) ++ optionals ds = optionals (d :: ds) := by
  cases d with
  | plain s =>
    rw [needless_optional h]
    exact ⟨.drop (needless_plain.mp ⟨n, h⟩) hu, rfl⟩
  | qm s =>
    injection h with h
    rw [← h]
    exact ⟨.omitted hu, rfl⟩

theorem matchLoop_sound : ∀ (ds us : List Item) (notes out : Notes), matchLoop us ds notes = some out →
    ∃ os, out.optional = notes.optional ++ os ∧ Use us ds (os.map (·.2)) ∧ os.map (·.1) = optionals ds
  | [], us, notes, out, h => by
    cases us with
    | nil => rw [matchLoop] at h; injection h with h; exact ⟨[], by rw [h, List.append_nil], .done, rfl⟩
    | cons u us => rw [matchLoop] at h; cases h
  | d :: ds, us, notes, out, h => by
    have step : ∀ n us', matchLoop us' ds (notes.add n) = some out →
        ∃ os, out.optional = notes.optional ++ (n.optional ++ os) ∧ Use us' ds (os.map (·.2)) ∧ os.map (·.1) = optionals ds := by
      intro n us' h
      obtain ⟨os, h1, h2, h3⟩ := matchLoop_sound ds us' _ out h
      exact ⟨os, by rw [h1, add_optional, List.append_assoc], h2, h3⟩
    have drop : ∀ n us', needless d = some n → matchLoop us' ds (notes.add n) = some out →
        ∃ os, out.optional = notes.optional ++ os ∧ Use us' (d :: ds) (os.map (·.2)) ∧ os.map (·.1) = optionals (d :: ds) := by
      intro n us' hn h
      obtain ⟨os, h1, h2, h3⟩ := step n us' h
      obtain ⟨k1, k2⟩ := needless_use hn h2
      exact ⟨n.optional ++ os, h1, by rw [List.map_append]; exact k1, by rw [List.map_append, h3]; exact k2⟩
    cases us with
    | nil =>
      rw [matchLoop] at h
      cases hn : needless d with
      | none => rw [hn] at h; cases h
      | some n => rw [hn] at h; exact drop n [] hn h
    | cons u us =>
      rw [matchLoop] at h
      cases hm : matchItem u d with
      | none =>
        rw [hm] at h
        cases hn : needless d with
        | none => rw [hn] at h; cases h
        | some n => rw [hn] at h; exact drop n (u :: us) hn h
      | some n =>
        rw [hm] at h
        obtain ⟨os, h1, h2, h3⟩ := step n us h
        refine ⟨n.optional ++ os, h1, ?_⟩
        rw [List.map_append, List.map_append]
        rcases matchItem_inv hm with ⟨a, b, rfl, rfl, hs, ho⟩ | ⟨a, b, rfl, rfl, hs, ho⟩ | ⟨a, b, rfl, rfl, hs, ho⟩ <;> rw [ho, h3]
        · exact ⟨.keep hs h2, rfl⟩
        · exact ⟨.required hs h2, rfl⟩
        · exact ⟨.either hs h2, rfl⟩

/-- C27.  If a right-hand side is accepted as matching a defining one, it is a legal use of it, and the notes list
the optional symbols of the definition, all of them, in order, as they are treated in that use. -/
theorem c27_sound {us ds : List Item} {notes : Notes} (h : matchRhs us ds = some notes) :
    Use us ds (notes.optional.map (·.2)) ∧ notes.optional.map (·.1) = optionals ds := by
  obtain ⟨os, h1, h2, h3⟩ := matchLoop_sound ds us {} notes h
  rw [show notes.optional = os from h1]
  exact ⟨h2, h3⟩

theorem SameSym.symm {a b : Sym} (h : SameSym a b) : SameSym b a := by
  cases a <;> cases b <;> simp only [SameSym] at h ⊢
  · exact h.symm
  · exact ⟨h.1.symm, h.2.symm⟩

theorem SameSym.trans {a b c : Sym} (h : SameSym a b) (h' : SameSym b c) : SameSym a c := by
  cases a <;> cases b <;> cases c <;> simp only [SameSym] at h h' ⊢
  · exact h.trans h'
  · exact ⟨h.1.trans h'.1, h.2.trans h'.2⟩

/-- Every item of a use is for an item of the definition. -/
theorem use_mem {us ds : List Item} {os : List Optionality} (h : Use us ds os) : ∀ u ∈ us, ∃ d ∈ ds, SameSym u.sym d.sym := by
  induction h with
  | done => intro u hu; cases hu
  | keep hs _ ih =>
    intro u hu
    rcases List.mem_cons.mp hu with rfl | hu
    · exact ⟨_, List.mem_cons_self .., hs⟩
    · obtain ⟨d, hd, h⟩ := ih u hu; exact ⟨d, List.mem_cons_of_mem _ hd, h⟩
  | drop _ _ ih => intro u hu; obtain ⟨d, hd, h⟩ := ih u hu; exact ⟨d, List.mem_cons_of_mem _ hd, h⟩
  | omitted _ ih => intro u hu; obtain ⟨d, hd, h⟩ := ih u hu; exact ⟨d, List.mem_cons_of_mem _ hd, h⟩
  | required hs _ ih =>
    intro u hu
    rcases List.mem_cons.mp hu with rfl | hu
    · exact ⟨_, List.mem_cons_self .., hs⟩
    · obtain ⟨d, hd, h⟩ := ih u hu; exact ⟨d, List.mem_cons_of_mem _ hd, h⟩
  | either hs _ ih =>
    intro u hu
    rcases List.mem_cons.mp hu with rfl | hu
    · exact ⟨_, List.mem_cons_self .., hs⟩
    · obtain ⟨d, hd, h⟩ := ih u hu; exact ⟨d, List.mem_cons_of_mem _ hd, h⟩

theorem matchItem_same {u d : Item} {n : Notes} (h : matchItem u d = some n) : SameSym u.sym d.sym := by
  rcases matchItem_inv h with ⟨a, b, rfl, rfl, hs, _⟩ | ⟨a, b, rfl, rfl, hs, _⟩ | ⟨a, b, rfl, rfl, hs, _⟩ <;> exact hs

/-- If the definition has no two items for the same symbol, the first item of a use cannot match an item of the
definition that is left out. -/
theorem skipped_not_matched {d : Item} {us ds : List Item} {os : List Optionality} (hd : Distinct (d :: ds))
    (h : Use us ds os) : ∀ u us', us = u :: us' → matchItem u d = none := by
  intro u us' he
  cases hm : matchItem u d with
  | none => rfl
  | some n =>
    subst he
    obtain ⟨d', hd', hs⟩ := use_mem h u (List.mem_cons_self ..)
    exact absurd ((matchItem_same hm).symm.trans hs) (List.rel_of_pairwise_cons hd hd')

theorem matchLoop_skip {d : Item} {ds us : List Item} {notes n : Notes} (hn : needless d = some n)
    (h : ∀ u us', us = u :: us' → matchItem u d = none) : matchLoop us (d :: ds) notes = matchLoop us ds (notes.add n) := by
  cases us with
  | nil => rw [matchLoop, hn]
  | cons u us => rw [matchLoop, h u us rfl, hn]

theorem matchLoop_complete {us ds : List Item} {os : List Optionality} (h : Use us ds os) : Distinct ds →
    ∀ notes : Notes, ∃ out, matchLoop us ds notes = some out ∧ out.optional = notes.optional ++ (optionals ds).zip os := by
  induction h with
  | done => intro _ notes; exact ⟨notes, rfl, by simp [optionals]⟩
  | @keep u d us ds os hs _ ih =>
    intro hd notes
    obtain ⟨n, hn⟩ := (matchSym_iff u d).mpr hs
    obtain ⟨out, h1, h2⟩ := ih hd.of_cons (notes.add n)
    refine ⟨out, ?_, ?_⟩
    · rw [matchLoop, matchItem, hn]; exact h1
    · rw [h2, add_optional, matchSym_optional hn, List.append_nil]; rfl
  | @drop d us ds os ha hu ih =>
    intro hd notes
    obtain ⟨n, hn⟩ := needless_plain.mpr ha
    obtain ⟨out, h1, h2⟩ := ih hd.of_cons (notes.add n)
    refine ⟨out, ?_, ?_⟩
    · rw [matchLoop_skip hn (skipped_not_matched hd hu)]; exact h1
    · rw [h2, add_optional, needless_optional hn, List.append_nil]; rfl
  | @omitted d us ds os hu ih =>
    intro hd notes
    obtain ⟨out, h1, h2⟩ := ih hd.of_cons (notes.add { optional := [(d, .omitted)] })
    refine ⟨out, ?_, ?_⟩
    · rw [matchLoop_skip rfl (skipped_not_matched hd hu)]; exact h1
    · rw [h2, add_optional, List.append_assoc]; rfl
  | @required u d us ds os hs _ ih =>
    intro hd notes
    obtain ⟨n, hn⟩ := (matchSym_iff u d).mpr hs
    obtain ⟨out, h1, h2⟩ := ih hd.of_cons (notes.add { n with optional := [(d, .required)] })
    refine ⟨out, ?_, ?_⟩
    · rw [matchLoop, matchItem, hn]; exact h1
    · rw [h2, add_optional, List.append_assoc]; rfl
  | @either u d us ds os hs _ ih =>
    intro hd notes
    obtain ⟨n, hn⟩ := (matchSym_iff u d).mpr hs
    obtain ⟨out, h1, h2⟩ := ih hd.of_cons (notes.add { n with optional := [(d, .either)] })
    refine ⟨out, ?_, ?_⟩
    · rw [matchLoop, matchItem, hn]; exact h1
    · rw [h2, add_optional, List.append_assoc]; rfl

/-- C27.  If no two items of the definition are for the same symbol, every legal use is accepted, and the notes
are for that use. -/
theorem c27_complete {us ds : List Item} {os : List Optionality} (hd : Distinct ds) (h : Use us ds os) :
    ∃ notes, matchRhs us ds = some notes ∧ notes.optional.map (·.2) = os ∧ notes.optional = (optionals ds).zip os := by
  obtain ⟨out, h1, h2⟩ := matchLoop_complete h hd {}
  have h3 : out.optional = (optionals ds).zip os := h2
  obtain ⟨k1, k2⟩ := c27_sound h1
  refine ⟨out, h1, ?_, h3⟩
  have hl : (optionals ds).length = os.length := by
    clear h1 h2 h3 k1 k2 hd
    induction h with
    | done => rfl
    | keep _ _ ih => exact ih
    | drop _ _ ih => exact ih
    | omitted _ ih => simp [optionals, ih]
    | required _ _ ih => simp [optionals, ih]
    | either _ _ ih => simp [optionals, ih]
  rw [h3, List.map_snd_zip]
  exact Nat.le_of_eq hl.symm

/-- C27.  In general, legal uses may be refused: `A` is a use of `A? A`, but the first item of the definition takes it. -/
theorem c27_greedy_witness :
    let A : Sym := .gnt ['A'] []
    Use [.plain A] [.qm A, .plain A] [.omitted] ∧ matchRhs [.plain A] [.qm A, .plain A] = none := by
  intro A
  exact ⟨.omitted (.keep rfl .done), rfl⟩

/-! ## The notes -/

/-- The notes other than those on optional symbols are what a pairing says. -/
structure Noted (n : Notes) (ps : List (Sym × Sym)) (ls : List Sym) : Prop where
  complaints : n.complaints = ps.countP wrongParams
  argsIntact : n.argsIntact = ps.filterMap keptParams
  argsSuppressed : n.argsSuppressed = ps.filterMap droppedParams
  annIntact : n.annIntact = ps.filterMap keptAnnotation
  annSuppressed : n.annSuppressed = ls.filterMap annotationText

theorem Noted.add {a b : Notes} {ps qs : List (Sym × Sym)} {ls ms : List Sym} (h : Noted a ps ls) (k : Noted b qs ms) :
    Noted (a.add b) (ps ++ qs) (ls ++ ms) where
  complaints := by rw [List.countP_append, ← h.complaints, ← k.complaints]; rfl
  argsIntact := by rw [List.filterMap_append, ← h.argsIntact, ← k.argsIntact]; rfl
  argsSuppressed := by rw [List.filterMap_append, ← h.argsSuppressed, ← k.argsSuppressed]; rfl
  annIntact := by rw [List.filterMap_append, ← h.annIntact, ← k.annIntact]; rfl
  annSuppressed := by rw [List.filterMap_append, ← h.annSuppressed, ← k.annSuppressed]; rfl

theorem matchSym_noted {u d : Sym} {n : Notes} (h : matchSym u d = some n) : Noted n [(u, d)] [] := by
  cases u with
  | gnt a p =>
    cases d with
    | other l b => simp [matchSym] at h
    | gnt b q =>
      simp only [matchSym] at h
      split at h
      · cases h
      · by_cases hq : q = []
        · by_cases hp : p = []
          · simp [hq, hp] at h; subst h
            exact ⟨by simp [wrongParams, hp], by simp [keptParams, hp], by simp [droppedParams, hq], rfl, rfl⟩
          · simp [hq, hp] at h; subst h
            exact ⟨by simp [wrongParams, hp, hq], by simp [keptParams, hq], by simp [droppedParams, hq], rfl, rfl⟩
        · by_cases hp : p = []
          · simp [hq, hp] at h; subst h
            exact ⟨by simp [wrongParams, hp], by simp [keptParams, hp], by simp [droppedParams, hq, hp], rfl, rfl⟩
          · by_cases hpq : p = q
            · simp [hq, hpq] at h; subst h
              exact ⟨by simp [wrongParams, hpq], by simp [keptParams, hq, hp], by simp [droppedParams, hp], rfl, rfl⟩
            · simp [hq, hp, hpq] at h; subst h
              exact ⟨by simp [wrongParams, hpq, hp], by simp [keptParams, hq, hp], by simp [droppedParams, hp], rfl, rfl⟩
  | other k a =>
    cases d with
    | gnt b q => simp [matchSym] at h
    | other l b =>
      simp only [matchSym] at h
      split at h
      · cases h
      · split at h
        · cases h
        · split at h
          · next hk =>
            injection h with h; subst h
            exact ⟨rfl, rfl, rfl, by simp [keptAnnotation, hk], rfl⟩
          · next hk =>
            injection h with h; subst h
            exact ⟨rfl, rfl, rfl, by simp [keptAnnotation, hk], rfl⟩

theorem matchItem_noted {u d : Item} {n : Notes} (h : matchItem u d = some n) : Noted n [(u.sym, d.sym)] [] := by
  cases d with
  | plain ds =>
    cases u with
    | plain us => exact matchSym_noted h
    | qm us => cases h
  | qm ds =>
    cases u with
    | plain us =>
      rw [matchItem] at h
      cases hm : matchSym us ds with
      | none => rw [hm] at h; cases h
      | some m =>
        rw [hm] at h; injection h with h; subst h
        have k := matchSym_noted hm
        exact ⟨k.1, k.2, k.3, k.4, k.5⟩
    | qm us =>
      rw [matchItem] at h
      cases hm : matchSym us ds with
      | none => rw [hm] at h; cases h
      | some m =>
        rw [hm] at h; injection h with h; subst h
        have k := matchSym_noted hm
        exact ⟨k.1, k.2, k.3, k.4, k.5⟩

theorem needless_noted {d : Item} {n : Notes} (h : needless d = some n) {us ds : List Item} {ps : List (Sym × Sym)} {ls : List Sym}
    (hp : Pairing us ds ps ls) : ∃ ms, Noted n [] ms ∧ Pairing us (d :: ds) ps (ms ++ ls) := by
  cases d with
  | plain s =>
    refine ⟨[s], ?_, .drop (needless_plain.mp ⟨n, h⟩) hp⟩
    cases s with
    | gnt a p => cases h
    | other k t =>
      cases k <;> simp only [needless] at h <;>
        first | (injection h with h; subst h; exact ⟨rfl, rfl, rfl, rfl, rfl⟩) | cases h
  | qm s =>
    injection h with h; subst h
    exact ⟨[], ⟨rfl, rfl, rfl, rfl, rfl⟩, .omitted hp⟩

theorem matchLoop_noted : ∀ (ds us : List Item) (notes out : Notes) (ps : List (Sym × Sym)) (ls : List Sym),
    Noted notes ps ls → matchLoop us ds notes = some out →
    ∃ qs ms, Pairing us ds qs ms ∧ Noted out (ps ++ qs) (ls ++ ms)
  | [], us, notes, out, ps, ls, hn, h => by
    cases us with
    | nil =>
      rw [matchLoop] at h; injection h with h
      exact ⟨[], [], .done, by rw [List.append_nil, List.append_nil, ← h]; exact hn⟩
    | cons u us => rw [matchLoop] at h; cases h
  | d :: ds, us, notes, out, ps, ls, hn, h => by
    have drop : ∀ n us', needless d = some n → matchLoop us' ds (notes.add n) = some out →
        ∃ qs ms, Pairing us' (d :: ds) qs ms ∧ Noted out (ps ++ qs) (ls ++ ms) := by
      intro n us' hd h
      obtain ⟨m0, k1, _⟩ := needless_noted hd (us := []) (ds := []) .done
      obtain ⟨qs, ms, h1, h2⟩ := matchLoop_noted ds us' _ out _ _ (hn.add k1) h
      obtain ⟨m1, k2, k3⟩ := needless_noted hd h1
      refine ⟨qs, m1 ++ ms, k3, ?_⟩
      rw [List.append_nil] at h2
      have hm : m0.filterMap annotationText = m1.filterMap annotationText := k1.5.symm.trans k2.5
      refine ⟨h2.1, h2.2, h2.3, h2.4, ?_⟩
      rw [h2.5]
      simp [List.filterMap_append, hm]
    cases us with
    | nil =>
      rw [matchLoop] at h
      cases hd : needless d with
      | none => rw [hd] at h; cases h
      | some n => rw [hd] at h; exact drop n [] hd h
    | cons u us =>
      rw [matchLoop] at h
      cases hm : matchItem u d with
      | none =>
        rw [hm] at h
        cases hd : needless d with
        | none => rw [hd] at h; cases h
        | some n => rw [hd] at h; exact drop n (u :: us) hd h
      | some n =>
        rw [hm] at h
        obtain ⟨qs, ms, h1, h2⟩ := matchLoop_noted ds us _ out _ _ (hn.add (matchItem_noted hm)) h
        refine ⟨(u.sym, d.sym) :: qs, ms, .pair ?_ h1, ?_⟩
        · rcases matchItem_inv hm with ⟨a, b, rfl, rfl, hs, _⟩ | ⟨a, b, rfl, rfl, hs, _⟩ | ⟨a, b, rfl, rfl, hs, _⟩ <;> exact hs
        · rw [List.append_nil, List.append_assoc] at h2
          exact h2

/-- C27.  The other notes are exact too: for some way of pairing the items, there is one complaint for each pair
of nonterminals of which the use gives other parameters than the definition; the nonterminals of which the parameters
are kept, and those of which they are left out, are listed; so are the texts of the restrictions that are kept, and
those of the annotations that are left out. -/
theorem c27_notes {us ds : List Item} {notes : Notes} (h : matchRhs us ds = some notes) :
    ∃ pairs dropped, Pairing us ds pairs dropped ∧
      notes.complaints = pairs.countP wrongParams ∧ notes.argsIntact = pairs.filterMap keptParams ∧
      notes.argsSuppressed = pairs.filterMap droppedParams ∧ notes.annIntact = pairs.filterMap keptAnnotation ∧
      notes.annSuppressed = dropped.filterMap annotationText := by
  obtain ⟨ps, ls, h1, h2⟩ := matchLoop_noted ds us {} notes [] [] ⟨rfl, rfl, rfl, rfl, rfl⟩ h
  exact ⟨ps, ls, h1, h2.1, h2.2, h2.3, h2.4, h2.5⟩

/-! ## Option bits -/

theorem optbits_mem : ∀ (os : List (Sym × Optionality)) (bs : List Char), bs ∈ optbits os ↔ BitsOk (os.map (·.2)) bs
  | [], bs => by
    rw [optbits, List.mem_singleton]
    constructor
    · rintro rfl; exact .nil
    · intro h; cases h; rfl
  | (s, o) :: os, bs => by
    rw [optbits, List.mem_append]
    constructor
    · rintro (h | h)
      · split at h
        · next ho =>
          obtain ⟨bs', hb, rfl⟩ := List.mem_map.mp h
          refine .cons ?_ ((optbits_mem os bs').mp hb)
          rcases ho with rfl | rfl
          · rfl
          · exact Or.inl rfl
        · cases h
      · split at h
        · next ho =>
          obtain ⟨bs', hb, rfl⟩ := List.mem_map.mp h
          refine .cons ?_ ((optbits_mem os bs').mp hb)
          rcases ho with rfl | rfl
          · rfl
          · exact Or.inr rfl
        · cases h
    · intro h
      cases h with
      | cons hb hbs =>
        have := (optbits_mem os _).mpr hbs
        cases o with
        | omitted => cases hb; exact Or.inl (by rw [if_pos (Or.inl rfl)]; exact List.mem_map.mpr ⟨_, this, rfl⟩)
        | required => cases hb; exact Or.inr (by rw [if_pos (Or.inl rfl)]; exact List.mem_map.mpr ⟨_, this, rfl⟩)
        | either =>
          rcases hb with rfl | rfl
          · exact Or.inl (by rw [if_pos (Or.inr rfl)]; exact List.mem_map.mpr ⟨_, this, rfl⟩)
          · exact Or.inr (by rw [if_pos (Or.inr rfl)]; exact List.mem_map.mpr ⟨_, this, rfl⟩)

/-- C28.  The strings listed for some optional symbols are those that agree with them, each listed once. -/
theorem c28_optbits (os : List (Sym × Optionality)) :
    (∀ bs, bs ∈ optbits os ↔ BitsOk (os.map (·.2)) bs) ∧ (optbits os).Nodup := by
  refine ⟨optbits_mem os, ?_⟩
  induction os with
  | nil => simp [optbits]
  | cons x os ih =>
    obtain ⟨s, o⟩ := x
    have hm : ∀ c : Char, ((optbits os).map (c :: ·)).Nodup := fun c =>
      List.pairwise_map.mpr (ih.imp (fun hne h => hne (by injection h)))
    rw [optbits, List.nodup_append]
    refine ⟨?_, ?_, ?_⟩
    · split
      · exact hm _
      · exact List.nodup_nil
    · split
      · exact hm _
      · exact List.nodup_nil
    · intro a ha b hb hab
      subst hab
      split at ha
      · split at hb
        · obtain ⟨x, _, rfl⟩ := List.mem_map.mp ha
          obtain ⟨y, _, hy⟩ := List.mem_map.mp hb
          injection hy with hy
          exact absurd hy (by decide)
        · cases hb
      · cases ha

/-- C28.  How many there are: two for each symbol that may be there or not. -/
theorem c28_count (os : List (Sym × Optionality)) :
    (optbits os).length = 2 ^ (os.filter (fun x => x.2 = .either)).length := by
  induction os with
  | nil => rfl
  | cons x os ih =>
    obtain ⟨s, o⟩ := x
    rw [optbits]
    cases o <;> simp [ih, Nat.pow_succ]
    omega

theorem SameSym.annotation {a b : Sym} (h : SameSym a b) : Annotation a ↔ Annotation b := by
  cases a <;> cases b <;> simp only [SameSym] at h <;> simp only [Annotation]
  rw [h.1]

/-- C27 with C28.  The option bits recorded for a match are those of the instances of the definition that the use
stands for: an instance of the definition with bits listed for the match is, up to annotations and parameters, an
instance of the use, and every instance of the use is one of the definition with such bits.  (Annotations do not
occur with `?`: the metagrammar does not allow it.) -/
theorem c27_bits {us ds : List Item} {notes : Notes} (hq : ∀ s ∈ optionals ds, ¬ Annotation s)
    (h : matchRhs us ds = some notes) :
    (∀ bs ∈ optbits notes.optional, ∃ xs bs' ys, Resolves ds bs xs ∧ Resolves us bs' ys ∧ SameSyms ys xs) ∧
    (∀ bs' ys, Resolves us bs' ys → ∃ bs ∈ optbits notes.optional, ∃ xs, Resolves ds bs xs ∧ SameSyms ys xs) := by
  have hu := (c27_sound h).1
  have hmem : ∀ bs, bs ∈ optbits notes.optional ↔ BitsOk (notes.optional.map (·.2)) bs := optbits_mem _
  simp only [hmem]
  generalize notes.optional.map (·.2) = os at hu
  clear hmem h
  induction hu with
  | done =>
    refine ⟨fun bs hb => ?_, fun bs' ys hr => ?_⟩
    · cases hb; exact ⟨[], [], [], .done, .done, .nil⟩
    · cases hr; exact ⟨[], .nil, [], .done, .nil⟩
  | @keep u d us ds os hs _ ih =>
    have ih := ih hq
    refine ⟨fun bs hb => ?_, fun bs' ys hr => ?_⟩
    · obtain ⟨xs, bs', ys, h1, h2, h3⟩ := ih.1 bs hb
      by_cases ha : Annotation d
      · exact ⟨xs, bs', ys, .annotation ha h1, .annotation (hs.annotation.mpr ha) h2, h3⟩
      · exact ⟨d :: xs, bs', u :: ys, .symbol ha h1, .symbol (fun h => ha (hs.annotation.mp h)) h2, .cons hs h3⟩
    · cases hr with
      | symbol ha hr =>
        obtain ⟨bs, hb, xs, h1, h2⟩ := ih.2 _ _ hr
        exact ⟨bs, hb, d :: xs, .symbol (fun h => ha (hs.annotation.mpr h)) h1, .cons hs h2⟩
      | annotation ha hr =>
        obtain ⟨bs, hb, xs, h1, h2⟩ := ih.2 _ _ hr
        exact ⟨bs, hb, xs, .annotation (hs.annotation.mp ha) h1, h2⟩
  | @drop d us ds os ha _ ih =>
    have ih := ih hq
    refine ⟨fun bs hb => ?_, fun bs' ys hr => ?_⟩
    · obtain ⟨xs, bs', ys, h1, h2, h3⟩ := ih.1 bs hb
      exact ⟨xs, bs', ys, .annotation ha h1, h2, h3⟩
    · obtain ⟨bs, hb, xs, h1, h2⟩ := ih.2 _ _ hr
      exact ⟨bs, hb, xs, .annotation ha h1, h2⟩
  | @omitted d us ds os _ ih =>
    have ih := ih (fun s hs => hq s (List.mem_cons_of_mem _ hs))
    refine ⟨fun bs hb => ?_, fun bs' ys hr => ?_⟩
    · cases hb with
      | cons hb hbs =>
        cases hb
        obtain ⟨xs, bs', ys, h1, h2, h3⟩ := ih.1 _ hbs
        exact ⟨xs, bs', ys, .left h1, h2, h3⟩
    · obtain ⟨bs, hb, xs, h1, h2⟩ := ih.2 _ _ hr
      exact ⟨'0' :: bs, .cons rfl hb, xs, .left h1, h2⟩
  | @required u d us ds os hs _ ih =>
    have ih := ih (fun s hs => hq s (List.mem_cons_of_mem _ hs))
    have hd : ¬ Annotation u := fun h => hq d (List.mem_cons_self ..) (hs.annotation.mp h)
    refine ⟨fun bs hb => ?_, fun bs' ys hr => ?_⟩
    · cases hb with
      | cons hb hbs =>
        cases hb
        obtain ⟨xs, bs', ys, h1, h2, h3⟩ := ih.1 _ hbs
        exact ⟨d :: xs, bs', u :: ys, .taken h1, .symbol hd h2, .cons hs h3⟩
    · cases hr with
      | symbol ha hr =>
        obtain ⟨bs, hb, xs, h1, h2⟩ := ih.2 _ _ hr
        exact ⟨'1' :: bs, .cons rfl hb, d :: xs, .taken h1, .cons hs h2⟩
      | annotation ha hr => exact absurd ha hd
  | @either u d us ds os hs _ ih =>
    have ih := ih (fun s hs => hq s (List.mem_cons_of_mem _ hs))
    refine ⟨fun bs hb => ?_, fun bs' ys hr => ?_⟩
    · cases hb with
      | cons hb hbs =>
        obtain ⟨xs, bs', ys, h1, h2, h3⟩ := ih.1 _ hbs
        rcases hb with rfl | rfl
        · exact ⟨xs, '0' :: bs', ys, .left h1, .left h2, h3⟩
        · exact ⟨d :: xs, '1' :: bs', u :: ys, .taken h1, .taken h2, .cons hs h3⟩
    · cases hr with
      | taken hr =>
        obtain ⟨bs, hb, xs, h1, h2⟩ := ih.2 _ _ hr
        exact ⟨'1' :: bs, .cons (Or.inr rfl) hb, d :: xs, .taken h1, .cons hs h2⟩
      | left hr =>
        obtain ⟨bs, hb, xs, h1, h2⟩ := ih.2 _ _ hr
        exact ⟨'0' :: bs, .cons (Or.inl rfl) hb, xs, .left h1, h2⟩

/-! ## Cases -/

/-- `A? [no LineTerminator here] B C?`, used as `A B C?`. -/
def exDef : List Item :=
  [.qm (.gnt ['A'] [['?', 'Y']]), .plain (.other .NLTH ['[', 'n', ']']), .plain (.gnt ['B'] []), .qm (.gnt ['C'] [])]

/-- A use of it. -/
def exUse : List Item := [.plain (.gnt ['A'] []), .plain (.gnt ['B'] []), .qm (.gnt ['C'] [])]

example : matchRhs exUse exDef = some
    { optional := [(.gnt ['A'] [['?', 'Y']], .required), (.gnt ['C'] [], .either)], argsSuppressed := [['A']],
      annSuppressed := [['[', 'n', ']']] } := rfl

example : Distinct exDef := by
  unfold Distinct exDef
  simp [SameSym, Item.sym]

example : ∀ s ∈ optionals exDef, ¬ Annotation s := by
  simp [exDef, optionals, Annotation]

example : optbits [(.gnt ['A'] [], .required), (.gnt ['C'] [], .either), (.gnt ['D'] [], .omitted)] =
    [['1', '0', '0'], ['1', '1', '0']] := rfl

end Verif.Gram
