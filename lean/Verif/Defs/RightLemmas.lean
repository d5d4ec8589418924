import Verif.Defs.PassLemmas
/-!
# Lemmas on the second pass
-/
namespace Verif.Defs
open Spec

variable {doc : List Block} {k : Nat} {t : Table}

theorem once_of_inv (hi : Inv (prodns doc) k t) {i j : Nat} {a : Arena} {n : Str} {p q : Prodn}
    (hp : Defines doc i a n p) (hq : Defines doc j a n q) : i = j ∧ p = q := by
  have hij : i = j := by
    rw [defines_at] at hp hq
    obtain ⟨s, hp⟩ := hp
    obtain ⟨s', hq⟩ := hq
    obtain ⟨info, hl⟩ := (hi.keys n).2 ⟨i, s, p, hp.1, hp.2.1⟩
    obtain ⟨rs, hr⟩ := hi.rs i s p hp.1
    obtain ⟨rs', hr'⟩ := hi.rs j s' q hq.1
    have h1 := (hi.occs n info hl a (mkD i s p rs)).2 ⟨i, s, p, rs, hp, hr, rfl⟩
    have h2 := (hi.occs n info hl a (mkD j s' q rs')).2 ⟨j, s', q, rs', hq, hr', rfl⟩
    rw [h1] at h2
    exact congrArg DProd.docI (Option.some.inj h2)
  refine ⟨hij, ?_⟩
  subst hij
  obtain ⟨s, h1, _⟩ := hp
  obtain ⟨s', h2, _⟩ := hq
  rw [h1] at h2
  exact (Prod.mk.inj (Option.some.inj h2)).2

theorem counts_unique (hi : Inv (prodns doc) k t) {i j : Nat} {a : Arena} {n : Str} {p q : Prodn}
    (hp : Counts doc a n i p) (hq : Counts doc a n j q) : i = j ∧ p = q := by
  rcases hp with hp | ⟨hp0, hp⟩
  · rcases hq with hq | ⟨hq0, hq⟩
    · exact once_of_inv hi hp hq
    · exact absurd ⟨i, p, hp⟩ hq0
  · rcases hq with hq | ⟨hq0, hq⟩
    · exact absurd ⟨j, q, hq⟩ hp0
    · exact once_of_inv hi hp hq

theorem defined_iff (hi : Inv (prodns doc) k t) (n : Str) : (∃ info, t.lookup n = some info) ↔ Defined doc n := by
  rw [hi.keys]
  constructor
  · rintro ⟨i, s, p, h1, h2⟩
    exact ⟨i, arenaOf s, p, s, h1, h2, (arenaOf_iff ..).1 rfl⟩
  · rintro ⟨i, a, p, s, h1, h2, _⟩
    exact ⟨i, s, p, h1, h2⟩

theorem occ_some (hi : Inv (prodns doc) k t) {n : Str} {info : Info} (hl : t.lookup n = some info) {a : Arena} {e : DProd}
    (h : info.occs.lookup a = some e) :
    ∃ s q rs, (prodns doc)[e.docI]? = some (s, q) ∧ Rs (prodns doc) k e.docI s q rs ∧ e = mkD e.docI s q rs ∧ Defines doc e.docI a n q := by
  obtain ⟨i, s, p, rs, h1, h2, h3⟩ := (hi.occs n info hl a e).1 h
  subst h3
  exact ⟨s, p, rs, h1.1, h2, rfl, (defines_at ..).2 ⟨s, h1⟩⟩

theorem occ_none (hi : Inv (prodns doc) k t) {n : Str} {info : Info} (hl : t.lookup n = some info) {a : Arena} :
    info.occs.lookup a = none ↔ ¬∃ i q, Defines doc i a n q := by
  constructor
  · rintro h ⟨i, q, hd⟩
    obtain ⟨s, hd⟩ := (defines_at ..).1 hd
    obtain ⟨rs, hr⟩ := hi.rs i s q hd.1
    rw [(hi.occs n info hl a _).2 ⟨i, s, q, rs, hd, hr, rfl⟩] at h
    cases h
  · intro h
    cases ho : info.occs.lookup a with
    | none => rfl
    | some e =>
      obtain ⟨s, q, rs, _, _, _, hd⟩ := occ_some hi hl ho
      exact absurd ⟨_, _, hd⟩ h

theorem appropriate_some (hi : Inv (prodns doc) k t) {n : Str} {info : Info} (hl : t.lookup n = some info) {a : Arena} {e : DProd}
    (h : appropriate info a = some e) :
    ∃ s q rs, (prodns doc)[e.docI]? = some (s, q) ∧ Rs (prodns doc) k e.docI s q rs ∧ e = mkD e.docI s q rs ∧ Counts doc a n e.docI q := by
  unfold appropriate at h
  cases ho : info.occs.lookup a with
  | some d =>
    simp only [ho, Option.some.injEq] at h
    subst h
    obtain ⟨s, q, rs, h1, h2, h3, h4⟩ := occ_some hi hl ho
    exact ⟨s, q, rs, h1, h2, h3, Or.inl h4⟩
  | none =>
    simp only [ho] at h
    obtain ⟨s, q, rs, h1, h2, h3, h4⟩ := occ_some hi hl h
    exact ⟨s, q, rs, h1, h2, h3, Or.inr ⟨(occ_none hi hl).1 ho, h4⟩⟩

theorem appropriate_none (hi : Inv (prodns doc) k t) {n : Str} {info : Info} (hl : t.lookup n = some info) {a : Arena} :
    appropriate info a = none ↔ ¬∃ i q, Counts doc a n i q := by
  unfold appropriate
  cases ho : info.occs.lookup a with
  | some d =>
    obtain ⟨s, q, rs, h1, h2, h3, h4⟩ := occ_some hi hl ho
    simp only [reduceCtorEq, false_iff, Classical.not_not]
    exact ⟨_, _, Or.inl h4⟩
  | none =>
    simp only []
    rw [occ_none hi hl]
    have h0 := (occ_none hi hl).1 ho
    constructor
    · rintro h ⟨i, q, hc | hc⟩
      · exact h0 ⟨i, q, hc⟩
      · exact h ⟨i, q, hc.2⟩
    · rintro h ⟨i, q, hc⟩
      exact h ⟨i, q, Or.inr ⟨h0, hc⟩⟩

/-! ## The messages -/

theorem exists_cons {α : Type} (P : α → Prop) (x : α) (l : List α) : (∃ y, y ∈ x :: l ∧ P y) ↔ P x ∨ ∃ y, y ∈ l ∧ P y := by
  simp

theorem gnt_none (hi : Inv (prodns doc) k t) (d : DProd) (guards : List (Sign × Str)) (g : Gnt) :
    gntMsgs t d guards g = none ↔ Defined doc g.name ∧ ¬∃ i q, Counts doc d.arena g.name i q := by
  unfold gntMsgs
  cases hl : t.lookup g.name with
  | none =>
    simp only [reduceCtorEq, false_iff]
    rintro ⟨h, _⟩
    obtain ⟨info, h⟩ := (defined_iff hi _).2 h
    rw [hl] at h; cases h
  | some info =>
    have hd := (defined_iff hi _).1 ⟨info, hl⟩
    rw [← appropriate_none hi hl]
    cases ha : appropriate info d.arena with
    | none => simp [hd, ha]
    | some e => simp [ha]

theorem mem_oddArg (p : Prodn) (guard : List Param) (x : Param) (m : Msg) :
    m ∈ oddArg p (guard.map (fun a => (a.sign, a.name))) x ↔
      (x.name ∈ p.lhs.args.map Param.name ∧ x.sign ≠ .query ∧ (∀ y ∈ guard, ¬(y.sign = x.sign ∧ y.name = x.name)) ∧
        m = ⟨x.pos, .expectQuery p.lhs.name x.name⟩) ∨
      (x.name ∉ p.lhs.args.map Param.name ∧ x.sign = .query ∧ m = ⟨p.pos, .notOnLhs x.name⟩) := by
  have hg : (x.sign, x.name) ∈ guard.map (fun a => (a.sign, a.name)) ↔ ¬∀ y ∈ guard, ¬(y.sign = x.sign ∧ y.name = x.name) := by
    rw [List.mem_map]
    constructor
    · rintro ⟨y, hy, he⟩ h
      exact h y hy ⟨(Prod.mk.inj he).1, (Prod.mk.inj he).2⟩
    · intro h
      simp only [not_and] at h
      rw [Classical.not_forall] at h
      obtain ⟨y, h⟩ := h
      rw [Classical.not_imp, Classical.not_imp, Classical.not_not] at h
      exact ⟨y, h.1, by rw [h.2.1, h.2.2]⟩
  unfold oddArg Prodn.params
  by_cases h1 : x.name ∈ p.lhs.args.map Param.name
  · rw [if_pos h1]
    by_cases h2 : x.sign = .query
    · rw [if_pos h2]
      simp [h1, h2]
    · rw [if_neg h2]
      by_cases h3 : (x.sign, x.name) ∈ guard.map (fun a => (a.sign, a.name))
      · rw [if_pos h3]
        have h3 := hg.1 h3
        constructor
        · intro h; cases h
        · rintro (h | h)
          · exact absurd h.2.2.1 h3
          · exact absurd h1 h.1
      · rw [if_neg h3, List.mem_singleton]
        rw [hg, Classical.not_not] at h3
        constructor
        · intro h; exact Or.inl ⟨h1, h2, h3, h⟩
        · rintro (h | h)
          · exact h.2.2.2
          · exact absurd h1 h.1
  · rw [if_neg h1]
    by_cases h2 : x.sign = .query
    · rw [if_pos h2, List.mem_singleton]
      constructor
      · intro h; exact Or.inr ⟨h1, h2, h⟩
      · rintro (h | h)
        · exact absurd h.1 h1
        · exact h.2.2
    · rw [if_neg h2]
      constructor
      · intro h; cases h
      · rintro (h | h)
        · exact absurd h.1 h1
        · exact absurd h.2.1 h2

theorem mem_signMsgs (args : List Param) (m : Msg) : m ∈ signMsgs args ↔ ∃ x ∈ args, x.sign = .bare ∧ m = ⟨x.pos, .noSign⟩ := by
  unfold signMsgs
  rw [List.mem_flatMap]
  constructor
  · rintro ⟨x, hx, h⟩
    split at h
    · rename_i hs
      exact ⟨x, hx, hs, List.mem_singleton.1 h⟩
    · cases h
  · rintro ⟨x, hx, hs, h⟩
    exact ⟨x, hx, by rw [if_pos hs, h]; exact List.mem_singleton.2 rfl⟩

theorem gnt_some (hi : Inv (prodns doc) k t) (d : DProd) (guard : List Param) (g : Gnt) (ms : List Msg)
    (h : gntMsgs t d (guard.map (fun a => (a.sign, a.name))) g = some ms) (m : Msg) :
    m ∈ ms ↔ FaultIn doc d.arena d.prod guard g m := by
  unfold gntMsgs at h
  cases hl : t.lookup g.name with
  | none =>
    have hnd : ¬Defined doc g.name := fun hd => by
      obtain ⟨info, h⟩ := (defined_iff hi _).2 hd
      rw [hl] at h; cases h
    have hnc : ∀ a i q, ¬Counts doc a g.name i q := by
      rintro a i q (hc | hc)
      · exact hnd ⟨_, _, _, hc⟩
      · exact hnd ⟨_, _, _, hc.2⟩
    simp only [hl, Option.some.injEq] at h
    subst h
    rw [List.mem_append, mem_signMsgs, List.mem_singleton]
    constructor
    · rintro (⟨x, hx, hs, he⟩ | he)
      · subst he; exact .noSign x hx hs
      · subst he; exact .undefinedNt hnd
    · intro hf
      cases hf with
      | noSign x hx hs => exact Or.inl ⟨x, hx, hs, rfl⟩
      | undefinedNt _ => exact Or.inr rfl
      | argOrder i q hc _ _ => exact absurd hc (hnc _ _ _)
      | argCount i q hc _ => exact absurd hc (hnc _ _ _)
      | expectQuery x hd _ _ _ _ => exact absurd hd hnd
      | notOnLhs x hd _ _ _ => exact absurd hd hnd
  | some info =>
    have hd := (defined_iff hi _).1 ⟨info, hl⟩
    simp only [hl] at h
    cases ha : appropriate info d.arena with
    | none => simp only [ha] at h; cases h
    | some e =>
      simp only [ha, Option.some.injEq] at h
      subst h
      obtain ⟨s, q, rs, _, _, he, hc⟩ := appropriate_some hi hl ha
      have hp : e.prod.params = q.lhs.args.map Param.name := by rw [he]; rfl
      have hshape : m ∈ shapeMsgs g e.prod.params ↔
          (g.args.length = q.lhs.args.length ∧ g.args.map Param.name ≠ q.lhs.args.map Param.name ∧
            m = ⟨g.argsPos, .argOrder (g.args.map Param.name) (q.lhs.args.map Param.name)⟩) ∨
          (g.args.length ≠ q.lhs.args.length ∧
            m = ⟨g.argsPos, .argCount g.name (q.lhs.args.map Param.name) (g.args.map Param.name)⟩) := by
        rw [hp]
        unfold shapeMsgs
        simp only [List.length_map]
        by_cases h1 : g.args.length = q.lhs.args.length
        · by_cases h2 : g.args.map Param.name = q.lhs.args.map Param.name
          · simp [h1, h2]
          · simp [h1, h2]
        · simp [h1]
      rw [List.mem_append, List.mem_append, mem_signMsgs, hshape, List.mem_flatMap]
      constructor
      · rintro ((⟨x, hx, hs, he⟩ | ⟨h1, h2, he⟩ | ⟨h1, he⟩) | ⟨x, hx, hm⟩)
        · subst he; exact .noSign x hx hs
        · subst he; exact .argOrder _ q hc h1 h2
        · subst he; exact .argCount _ q hc h1
        · rw [mem_oddArg] at hm
          rcases hm with ⟨h1, h2, h3, he⟩ | ⟨h1, h2, he⟩
          · subst he; exact .expectQuery x hd hx h1 h2 h3
          · subst he; exact .notOnLhs x hd hx h1 h2
      · intro hf
        cases hf with
        | noSign x hx hs => exact Or.inl (Or.inl ⟨x, hx, hs, rfl⟩)
        | undefinedNt h => exact absurd hd h
        | argOrder i q' hc' h1 h2 =>
          have := (counts_unique hi hc' hc).2
          subst this
          exact Or.inl (Or.inr (Or.inl ⟨h1, h2, rfl⟩))
        | argCount i q' hc' h1 =>
          have := (counts_unique hi hc' hc).2
          subst this
          exact Or.inl (Or.inr (Or.inr ⟨h1, rfl⟩))
        | expectQuery x _ hx h1 h2 h3 => exact Or.inr ⟨x, hx, (mem_oddArg ..).2 (Or.inl ⟨h1, h2, h3, rfl⟩)⟩
        | notOnLhs x _ hx h1 h2 => exact Or.inr ⟨x, hx, (mem_oddArg ..).2 (Or.inr ⟨h1, h2, rfl⟩)⟩

theorem gnt?_iff (i : Item) (g : Gnt) : i.gnt? = some g ↔ i = .plain (.gnt g) ∨ i = .qm (.gnt g) := by
  rcases i with (g' | _) | (g' | _) <;> simp [Item.gnt?]

theorem items_none (d : DProd) (guards : List (Sign × Str)) (is : List Item) :
    itemsMsgs t d guards is = none ↔ ∃ i ∈ is, ∃ g, i.gnt? = some g ∧ gntMsgs t d guards g = none := by
  induction is with
  | nil => simp [itemsMsgs]
  | cons i is ih =>
    rw [itemsMsgs]
    simp only [exists_cons]
    cases hg : i.gnt? with
    | none => simp [ih]
    | some g =>
      simp only [Option.some.injEq]
      cases hm : gntMsgs t d guards g with
      | none => simp [hm]
      | some ms =>
        simp only [Option.map_eq_none_iff, ih, exists_eq_left', hm, reduceCtorEq, false_or]

theorem items_some (d : DProd) (guards : List (Sign × Str)) (is : List Item) (ms : List Msg) (h : itemsMsgs t d guards is = some ms) (m : Msg) :
    m ∈ ms ↔ ∃ i ∈ is, ∃ g ms', i.gnt? = some g ∧ gntMsgs t d guards g = some ms' ∧ m ∈ ms' := by
  induction is generalizing ms with
  | nil => cases h; simp
  | cons i is ih =>
    rw [itemsMsgs] at h
    simp only [exists_cons]
    cases hg : i.gnt? with
    | none =>
      simp only [hg] at h
      rw [ih ms h]
      simp
    | some g =>
      simp only [hg] at h
      cases hm : gntMsgs t d guards g with
      | none => simp only [hm] at h; cases h
      | some ms1 =>
        simp only [hm] at h
        cases hr : itemsMsgs t d guards is with
        | none => rw [hr] at h; cases h
        | some ms2 =>
          rw [hr] at h
          simp only [Option.map_some, Option.some.injEq] at h
          subst h
          rw [List.mem_append, ih ms2 hr]
          simp [hm]

theorem guardOk_iff (p : Prodn) (x : Param) :
    guardOk p x = false ↔ (x.sign ≠ .plus ∧ x.sign ≠ .tilde) ∨ x.name ∉ p.lhs.args.map Param.name := by
  unfold guardOk Prodn.params
  rw [Bool.and_eq_false_iff, Bool.or_eq_false_iff, decide_eq_false_iff_not, decide_eq_false_iff_not, decide_eq_false_iff_not]

/-- Why the check of a right-hand side stops. -/
def RhsBad (t : Table) (d : DProd) (r : Rhs) : Prop :=
  (∃ is, r = .bare is) ∨
  (∃ guard body label, r = .line guard body label ∧ ∃ x ∈ guard, guardOk d.prod x = false) ∨
  ∃ guard g, Mentions r guard g ∧ gntMsgs t d (guard.map (fun a => (a.sign, a.name))) g = none

theorem line_bad (d : DProd) (guard : List Param) (body : Body) (label : Str) :
    (∃ guard' g, Mentions (.line guard body label) guard' g ∧ gntMsgs t d (guard'.map (fun a => (a.sign, a.name))) g = none) ↔
      bodyMsgs t d (guard.map (fun a => (a.sign, a.name))) body = none := by
  have hno : ∀ b, (∀ is, b ≠ .items is) → ¬∃ guard' g, Mentions (.line guard b label) guard' g ∧
      gntMsgs t d (guard'.map (fun a => (a.sign, a.name))) g = none := by
    rintro b hb ⟨_, _, ⟨is, _, h, _⟩, _⟩
    cases h
    exact hb is rfl
  cases body with
  | empty =>
    have := hno .empty (by intro is h; cases h)
    simp only [bodyMsgs, reduceCtorEq, iff_false]
    exact this
  | unicode text =>
    have := hno (.unicode text) (by intro is h; cases h)
    simp only [bodyMsgs, reduceCtorEq, iff_false]
    exact this
  | items is =>
    rw [bodyMsgs, items_none]
    constructor
    · rintro ⟨guard', g, ⟨is', label', he, hm⟩, hn⟩
      cases he
      rcases hm with hm | hm
      · exact ⟨_, hm, g, rfl, hn⟩
      · exact ⟨_, hm, g, rfl, hn⟩
    · rintro ⟨i, hi, g, hg, hn⟩
      rw [gnt?_iff] at hg
      refine ⟨guard, g, ⟨is, label, rfl, ?_⟩, hn⟩
      rcases hg with hg | hg
      · subst hg; exact Or.inl hi
      · subst hg; exact Or.inr hi

theorem line_some (d : DProd) (guard : List Param) (body : Body) (label : Str) (ms : List Msg)
    (h : bodyMsgs t d (guard.map (fun a => (a.sign, a.name))) body = some ms) (m : Msg) :
    m ∈ ms ↔ ∃ guard' g ms', Mentions (.line guard body label) guard' g ∧
      gntMsgs t d (guard'.map (fun a => (a.sign, a.name))) g = some ms' ∧ m ∈ ms' := by
  have hno : ∀ b, (∀ is, b ≠ .items is) → ∀ guard' g, ¬Mentions (.line guard b label) guard' g := by
    rintro b hb guard' g ⟨is, _, h, _⟩
    cases h
    exact hb is rfl
  cases body with
  | empty =>
    have := hno .empty (by intro is h; cases h)
    cases h
    simp [this]
  | unicode text =>
    have := hno (.unicode text) (by intro is h; cases h)
    cases h
    simp [this]
  | items is =>
    rw [bodyMsgs] at h
    rw [items_some d _ is ms h]
    constructor
    · rintro ⟨i, hi, g, ms', hg, h1, h2⟩
      refine ⟨guard, g, ms', ⟨is, label, rfl, ?_⟩, h1, h2⟩
      rcases (gnt?_iff _ _).1 hg with hg | hg
      · subst hg; exact Or.inl hi
      · subst hg; exact Or.inr hi
    · rintro ⟨guard', g, ms', ⟨is', label', he, hm'⟩, h1, h2⟩
      cases he
      rcases hm' with hm' | hm'
      · exact ⟨_, hm', g, ms', rfl, h1, h2⟩
      · exact ⟨_, hm', g, ms', rfl, h1, h2⟩

theorem all_false (p : Prodn) (guard : List Param) : guard.all (guardOk p) = false ↔ ∃ x ∈ guard, guardOk p x = false := by
  rw [List.all_eq_false]
  constructor
  · rintro ⟨x, hx, h⟩; exact ⟨x, hx, by simpa using h⟩
  · rintro ⟨x, hx, h⟩; exact ⟨x, hx, by simp [h]⟩

theorem rhss_none (d : DProd) (rs : List Rhs) : rhssMsgs t d rs = none ↔ ∃ r ∈ rs, RhsBad t d r := by
  induction rs with
  | nil => simp [rhssMsgs]
  | cons r rs ih =>
    simp only [exists_cons]
    cases r with
    | bare is =>
      rw [rhssMsgs]
      simp only [true_iff]
      exact Or.inl (Or.inl ⟨is, rfl⟩)
    | thing text =>
      rw [rhssMsgs, ih]
      have : ¬RhsBad t d (.thing text) := by
        rintro (⟨_, h⟩ | ⟨_, _, _, h, _⟩ | ⟨_, _, ⟨_, _, h, _⟩, _⟩)
        · cases h
        · cases h
        · cases h
      simp [this]
    | line guard body label =>
      rw [rhssMsgs]
      cases hg : guard.all (guardOk d.prod) with
      | false =>
        simp only [Bool.false_eq_true, ↓reduceIte, true_iff]
        exact Or.inl (Or.inr (Or.inl ⟨guard, body, label, rfl, (all_false _ _).1 hg⟩))
      | true =>
        simp only [↓reduceIte]
        have hnb : RhsBad t d (.line guard body label) ↔
            ∃ guard' g, Mentions (.line guard body label) guard' g ∧ gntMsgs t d (guard'.map (fun a => (a.sign, a.name))) g = none := by
          constructor
          · rintro (⟨_, h⟩ | ⟨_, _, _, h, hx⟩ | h)
            · cases h
            · cases h
              rw [← all_false, hg] at hx
              cases hx
            · exact h
          · intro h; exact Or.inr (Or.inr h)
        rw [hnb, line_bad]
        cases hm : bodyMsgs t d (guard.map (fun a => (a.sign, a.name))) body with
        | none => simp
        | some ms => simp [ih]

theorem rhss_some (d : DProd) (rs : List Rhs) (ms : List Msg) (h : rhssMsgs t d rs = some ms) (m : Msg) :
    m ∈ ms ↔ ∃ r ∈ rs, ∃ guard g ms', Mentions r guard g ∧ gntMsgs t d (guard.map (fun a => (a.sign, a.name))) g = some ms' ∧ m ∈ ms' := by
  induction rs generalizing ms with
  | nil => cases h; simp
  | cons r rs ih =>
    simp only [exists_cons]
    cases r with
    | bare is => rw [rhssMsgs] at h; cases h
    | thing text =>
      rw [rhssMsgs] at h
      rw [ih ms h]
      constructor
      · exact Or.inr
      · rintro (⟨_, _, _, ⟨_, _, h, _⟩, _⟩ | h)
        · cases h
        · exact h
    | line guard body label =>
      rw [rhssMsgs] at h
      split at h
      · cases hm : bodyMsgs t d (guard.map (fun a => (a.sign, a.name))) body with
        | none => simp only [hm] at h; cases h
        | some ms1 =>
          simp only [hm] at h
          cases hr : rhssMsgs t d rs with
          | none => rw [hr] at h; cases h
          | some ms2 =>
            rw [hr] at h
            simp only [Option.map_some, Option.some.injEq] at h
            subst h
            rw [List.mem_append, ih ms2 hr, line_some d guard body label ms1 hm]
      · cases h

/-- What the second pass says about a production. -/
def FaultOf (doc : List Block) (s : Sec) (p : Prodn) (m : Msg) : Prop :=
  ∃ r guard g, r ∈ p.rhss ∧ Mentions r guard g ∧ FaultIn doc (arenaOf s) p guard g m

theorem rhss_fault (hi : Inv (prodns doc) k t) (s : Sec) (i : Nat) (p : Prodn) (ms : List Msg)
    (h : rhssMsgs t (noted s i p) p.rhss = some ms) (m : Msg) : m ∈ ms ↔ FaultOf doc s p m := by
  rw [rhss_some _ _ _ h]
  constructor
  · rintro ⟨r, hr, guard, g, ms', h1, h2, h3⟩
    exact ⟨r, guard, g, hr, h1, (gnt_some hi _ _ _ _ h2 m).1 h3⟩
  · rintro ⟨r, guard, g, hr, h1, h2⟩
    cases hg : gntMsgs t (noted s i p) (guard.map (fun a => (a.sign, a.name))) g with
    | none =>
      have : rhssMsgs t (noted s i p) p.rhss = none := (rhss_none _ _).2 ⟨r, hr, Or.inr (Or.inr ⟨guard, g, h1, hg⟩)⟩
      rw [h] at this; cases this
    | some ms' => exact ⟨r, hr, guard, g, ms', h1, hg, (gnt_some hi _ _ _ _ hg m).2 h2⟩

end Verif.Defs
