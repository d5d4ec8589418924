import Verif.Defs.DictLemmas
/-!
# Lemmas on the two passes
-/
namespace Verif.Defs
open Spec

theorem arenaOf_iff (s : Sec) (a : Arena) : arenaOf s = a ↔ IsArena s a := by
  unfold arenaOf
  by_cases h1 : s.title = "Grammar Notation".toList
  · rw [if_pos h1]
    constructor
    · intro h; subst h; exact .examples h1
    · intro h
      cases h with
      | examples _ => rfl
      | annexB h _ => exact absurd h1 h
      | main h _ => exact absurd h1 h
  · rw [if_neg h1]
    have hb : s.num.head? = some 'B' ↔ ∃ r, s.num = 'B' :: r := by
      cases s.num with
      | nil => simp
      | cons c r => simp
    by_cases h2 : s.num.head? = some 'B'
    · rw [if_pos h2]
      constructor
      · intro h; subst h; exact .annexB h1 (hb.1 h2)
      · intro h
        cases h with
        | examples h => exact absurd h h1
        | annexB _ _ => rfl
        | main _ h => exact absurd (hb.1 h2) h
    · rw [if_neg h2]
      constructor
      · intro h; subst h; exact .main h1 (fun h => h2 (hb.2 h))
      · intro h
        cases h with
        | examples h => exact absurd h h1
        | annexB _ h => exact absurd (hb.2 h) h2
        | main _ _ => rfl

/-- Whether the productions of a section are augmenting. -/
def augB (s : Sec) : Bool := decide (arenaOf s = .B) && decide (s.title ∈ augmenting)

theorem augB_iff (s : Sec) : augB s = true ↔ Adds s := by
  unfold augB Adds augmenting
  rw [Bool.and_eq_true, decide_eq_true_iff, decide_eq_true_iff, arenaOf_iff]
  simp

theorem isUpper_iff (c : Char) : isUpper c = true ↔ Upper c := by simp [isUpper, Upper]
theorem isLower_iff (c : Char) : isLower c = true ↔ Lower c := by simp [isLower, Lower]
theorem isDigit_iff (c : Char) : isDigit c = true ↔ Digit c := by simp [isDigit, Digit]

theorem uriName_iff (n : Str) : uriName n = true ↔
    n = "uri".toList ∨ ∃ c w, n = "uri".toList ++ c :: w ∧ Upper c ∧ w ≠ [] ∧ ∀ x ∈ w, Lower x := by
  constructor
  · intro h
    unfold uriName at h
    split at h
    · exact Or.inl rfl
    · rename_i c d ds
      rw [Bool.and_eq_true, List.all_eq_true] at h
      exact Or.inr ⟨c, d :: ds, rfl, (isUpper_iff c).1 h.1, by simp, fun x hx => (isLower_iff x).1 (h.2 x hx)⟩
    · cases h
  · rintro (h | ⟨c, w, h, hc, hw, hl⟩)
    · subst h; rfl
    · subst h
      cases w with
      | nil => exact absurd rfl hw
      | cons d ds =>
        show (isUpper c && (d :: ds).all isLower) = true
        rw [Bool.and_eq_true, List.all_eq_true]
        exact ⟨(isUpper_iff c).2 hc, fun x hx => (isLower_iff x).2 (hl x hx)⟩

theorem plainName_iff (n : Str) : plainName n = true ↔
    ∃ c w, n = c :: w ∧ Upper c ∧ w ≠ [] ∧ ∀ x ∈ w, Lower x ∨ Upper x ∨ Digit x := by
  constructor
  · intro h
    unfold plainName at h
    split at h
    · rename_i c d ds
      rw [Bool.and_eq_true, List.all_eq_true] at h
      refine ⟨c, d :: ds, rfl, (isUpper_iff c).1 h.1, by simp, fun x hx => ?_⟩
      have := h.2 x hx
      rw [Bool.or_eq_true, Bool.or_eq_true, isLower_iff, isUpper_iff, isDigit_iff, or_assoc] at this
      exact this
    · cases h
  · rintro ⟨c, w, h, hc, hw, hl⟩
    subst h
    cases w with
    | nil => exact absurd rfl hw
    | cons d ds =>
      show (isUpper c && (d :: ds).all (fun x => isLower x || isUpper x || isDigit x)) = true
      rw [Bool.and_eq_true, List.all_eq_true]
      refine ⟨(isUpper_iff c).2 hc, fun x hx => ?_⟩
      rw [Bool.or_eq_true, Bool.or_eq_true, isLower_iff, isUpper_iff, isDigit_iff, or_assoc]
      exact hl x hx

theorem nameOk_iff (s : Sec) (n : Str) : nameOk s.title n = true ↔ GoodName s n := by
  unfold nameOk GoodName
  by_cases ht : s.title = "URI Syntax and Semantics".toList
  · rw [if_pos ht, uriName_iff]
    simp only [ht, true_and, not_true_eq_false, ne_eq, false_and, or_false]
  · rw [if_neg ht, plainName_iff]
    simp only [ht, false_and, ne_eq, not_false_eq_true, true_and, false_or]

/-- What is checked of a production alone in the first pass. -/
abbrev Loc (s : Sec) (p : Prodn) : Prop := leftOk s p = true

theorem loc_iff (s : Sec) (p : Prodn) : Loc s p ↔
    p.multi = true ∧ (s.element = "emu-clause".toList ∨ s.element = "emu-annex".toList) ∧ GoodName s p.lhs.name := by
  unfold Loc leftOk
  rw [Bool.and_eq_true, Bool.and_eq_true, Bool.or_eq_true, decide_eq_true_iff, decide_eq_true_iff, nameOk_iff, and_assoc]

/-- The production number `i` is `p` in the section `s`, and defines `n` in the arena `a`. -/
def At (xs : List (Sec × Prodn)) (i : Nat) (s : Sec) (p : Prodn) (n : Str) (a : Arena) : Prop :=
  xs[i]? = some (s, p) ∧ p.lhs.name = n ∧ arenaOf s = a

/-- The right-hand sides of the production number `i` when the second pass is at number `k`. -/
def Rs (xs : List (Sec × Prodn)) (k i : Nat) (s : Sec) (p : Prodn) (rs : List Rhs) : Prop :=
  (¬(i < k ∧ augB s = true) ∧ rs = p.rhss) ∨
  (i < k ∧ augB s = true ∧ ∃ j s' q, At xs j s' q p.lhs.name .A ∧ rs = q.rhss ++ p.rhss)

def mkD (i : Nat) (s : Sec) (p : Prodn) (rs : List Rhs) : DProd := ⟨i, arenaOf s, augB s, { p with rhss := rs }⟩

/-- The table after the first pass over `xs`, when the second pass is at number `k`. -/
structure Inv (xs : List (Sec × Prodn)) (k : Nat) (t : Table) : Prop where
  nodup : (t.map (·.1)).Nodup
  keys : ∀ n, (∃ info, t.lookup n = some info) ↔ ∃ (i : Nat) (s : Sec) (p : Prodn), xs[i]? = some (s, p) ∧ p.lhs.name = n
  colons : ∀ n info, t.lookup n = some info → ∀ (i : Nat) s p, xs[i]? = some (s, p) → p.lhs.name = n → p.colons = info.colons
  occs : ∀ n info, t.lookup n = some info → ∀ a d, info.occs.lookup a = some d ↔
    ∃ i s p rs, At xs i s p n a ∧ Rs xs k i s p rs ∧ d = mkD i s p rs
  rs : ∀ (i : Nat) s p, xs[i]? = some (s, p) → ∃ rs, Rs xs k i s p rs

theorem inv_nil : Inv [] 0 [] where
  rs := by simp
  nodup := List.nodup_nil
  keys := by simp
  colons := by simp
  occs := by simp

/-- What the first pass demands of a production after the productions `pre`. -/
def Step (pre : List (Sec × Prodn)) (s : Sec) (p : Prodn) : Prop :=
  Loc s p ∧ ∀ (j : Nat) s' q, pre[j]? = some (s', q) → q.lhs.name = p.lhs.name → p.colons = q.colons ∧ arenaOf s ≠ arenaOf s'

theorem get_snoc {α : Type} (xs : List α) (x y : α) (i : Nat) :
    (xs ++ [x])[i]? = some y ↔ xs[i]? = some y ∨ (i = xs.length ∧ y = x) := by
  rw [List.getElem?_append]
  split
  · rename_i h
    constructor
    · exact Or.inl
    · rintro (h' | h')
      · exact h'
      · omega
  · rename_i h
    have h0 : xs[i]? = none := List.getElem?_eq_none (by omega)
    rw [h0]
    constructor
    · intro h'
      have : i - xs.length = 0 := by
        have := (List.getElem?_eq_some_iff.1 h').1
        simp at this
        omega
      rw [this] at h'
      simp at h'
      exact Or.inr ⟨by omega, h'.symm⟩
    · rintro (h' | ⟨h1, h2⟩)
      · cases h'
      · subst h1; subst h2; simp

theorem rs0 (xs : List (Sec × Prodn)) (i : Nat) (s : Sec) (p : Prodn) (rs : List Rhs) : Rs xs 0 i s p rs ↔ rs = p.rhss := by
  unfold Rs
  simp

theorem checkLeft_iff {pre : List (Sec × Prodn)} {t : Table} (hi : Inv pre 0 t) (s : Sec) (p : Prodn) :
    (∃ t', checkLeft t s pre.length p = some t') ↔ Step pre s p := by
  unfold checkLeft Step
  by_cases hl : Loc s p
  · rw [if_pos hl]
    rw [and_iff_right hl]
    cases ht : t.lookup p.lhs.name with
    | none =>
      simp only [Option.some.injEq, exists_eq', true_iff]
      intro j s' q hq hn
      obtain ⟨info, h⟩ := (hi.keys p.lhs.name).2 ⟨j, s', q, hq, hn⟩
      rw [ht] at h; cases h
    | some info =>
      simp only []
      constructor
      · rintro ⟨t', h⟩
        split at h
        · rename_i hc
          intro j s' q hq hn
          refine ⟨hc.1.trans (hi.colons _ _ ht j s' q hq hn).symm, ?_⟩
          intro he
          have := (hi.occs _ _ ht (arenaOf s) (mkD j s' q q.rhss)).2 ⟨j, s', q, q.rhss, ⟨hq, hn, he.symm⟩, (rs0 ..).2 rfl, rfl⟩
          rw [hc.2] at this; cases this
        · cases h
      · intro h
        have hc : p.colons = info.colons ∧ info.occs.lookup (arenaOf s) = none := by
          obtain ⟨j, s', q, hq, hn⟩ := (hi.keys p.lhs.name).1 ⟨info, ht⟩
          refine ⟨(h j s' q hq hn).1.trans (hi.colons _ _ ht j s' q hq hn), ?_⟩
          cases ho : info.occs.lookup (arenaOf s) with
          | none => rfl
          | some d =>
            obtain ⟨i, s2, p2, rs, ⟨ha1, ha2, ha3⟩, _, _⟩ := (hi.occs _ _ ht _ _).1 ho
            exact absurd ha3.symm (h i s2 p2 ha1 ha2).2
        rw [if_pos hc]
        exact ⟨_, rfl⟩
  · rw [if_neg hl]
    constructor
    · rintro ⟨_, h⟩; cases h
    · intro h; exact absurd h.1 hl

theorem checkLeft_inv {pre : List (Sec × Prodn)} {t t' : Table} (hi : Inv pre 0 t) (s : Sec) (p : Prodn)
    (h : checkLeft t s pre.length p = some t') : Inv (pre ++ [(s, p)]) 0 t' := by
  have hstep := (checkLeft_iff hi s p).1 ⟨t', h⟩
  have hkey : ∀ n, (∃ (i : Nat) (s' : Sec) (q : Prodn), (pre ++ [(s, p)])[i]? = some (s', q) ∧ q.lhs.name = n) ↔
      n = p.lhs.name ∨ ∃ (i : Nat) (s' : Sec) (q : Prodn), pre[i]? = some (s', q) ∧ q.lhs.name = n := by
    intro n
    constructor
    · rintro ⟨i, s', q, hg, hn⟩
      rw [get_snoc] at hg
      rcases hg with hg | ⟨_, hg⟩
      · exact Or.inr ⟨i, s', q, hg, hn⟩
      · cases hg; exact Or.inl hn.symm
    · rintro (hn | ⟨i, s', q, hg, hn⟩)
      · exact ⟨pre.length, s, p, (get_snoc ..).2 (Or.inr ⟨rfl, rfl⟩), hn.symm⟩
      · exact ⟨i, s', q, (get_snoc ..).2 (Or.inl hg), hn⟩
  unfold checkLeft at h
  have hl : Loc s p := hstep.1
  rw [if_pos hl] at h
  -- the new entry
  have main : ∀ info' : Info, t' = put p.lhs.name info' t →
      info'.colons = p.colons →
      (∀ (i : Nat) s1 q, pre[i]? = some (s1, q) → q.lhs.name = p.lhs.name → q.colons = info'.colons) →
      (∀ a d, info'.occs.lookup a = some d ↔
        (a = arenaOf s ∧ d = mkD pre.length s p p.rhss) ∨
        ∃ (i : Nat) (s' : Sec) (q : Prodn), pre[i]? = some (s', q) ∧ q.lhs.name = p.lhs.name ∧ arenaOf s' = a ∧ d = mkD i s' q q.rhss) →
      Inv (pre ++ [(s, p)]) 0 t' := by
    intro info' ht' hc1 hc2 ho
    subst ht'
    refine ⟨nodup_put _ _ _ hi.nodup, ?_, ?_, ?_, fun i s' q _ => ⟨q.rhss, (rs0 ..).2 rfl⟩⟩
    · intro n
      rw [hkey, ← hi.keys, lookup_put]
      by_cases hn : n = p.lhs.name
      · simp [hn]
      · simp [hn]
    · intro n info hlk i s' q hg hn
      rw [lookup_put] at hlk
      by_cases hnn : n = p.lhs.name
      · rw [if_pos hnn] at hlk
        cases hlk
        rw [get_snoc] at hg
        rcases hg with hg | ⟨_, hg⟩
        · exact hc2 i s' q hg (hn.trans hnn)
        · cases hg; exact hc1.symm
      · rw [if_neg hnn] at hlk
        rw [get_snoc] at hg
        rcases hg with hg | ⟨_, hg⟩
        · exact hi.colons n info hlk i s' q hg hn
        · cases hg; exact absurd hn.symm hnn
    · intro n info hlk a d
      rw [lookup_put] at hlk
      by_cases hnn : n = p.lhs.name
      · rw [if_pos hnn] at hlk
        cases hlk
        rw [ho]
        constructor
        · rintro (⟨h1, h2⟩ | ⟨i, s', q, h1, h2, h3, h4⟩)
          · exact ⟨pre.length, s, p, p.rhss, ⟨(get_snoc ..).2 (Or.inr ⟨rfl, rfl⟩), hnn.symm, h1.symm⟩, (rs0 ..).2 rfl, h2⟩
          · exact ⟨i, s', q, q.rhss, ⟨(get_snoc ..).2 (Or.inl h1), h2.trans hnn.symm, h3⟩, (rs0 ..).2 rfl, h4⟩
        · rintro ⟨i, s', q, rs, ⟨h1, h2, h3⟩, h4, h5⟩
          rw [rs0] at h4
          subst h4
          rw [get_snoc] at h1
          rcases h1 with h1 | ⟨h0, h1⟩
          · exact Or.inr ⟨i, s', q, h1, h2.trans hnn, h3, h5⟩
          · cases h1; subst h0; exact Or.inl ⟨h3.symm, h5⟩
      · rw [if_neg hnn] at hlk
        rw [hi.occs n info hlk]
        constructor
        · rintro ⟨i, s', q, rs, ⟨h1, h2, h3⟩, h4, h5⟩
          exact ⟨i, s', q, rs, ⟨(get_snoc ..).2 (Or.inl h1), h2, h3⟩, (rs0 ..).2 ((rs0 ..).1 h4), h5⟩
        · rintro ⟨i, s', q, rs, ⟨h1, h2, h3⟩, h4, h5⟩
          rw [get_snoc] at h1
          rcases h1 with h1 | ⟨_, h1⟩
          · exact ⟨i, s', q, rs, ⟨h1, h2, h3⟩, (rs0 ..).2 ((rs0 ..).1 h4), h5⟩
          · cases h1; exact absurd h2.symm hnn
  have hd : noted s pre.length p = mkD pre.length s p p.rhss := rfl
  cases ht : t.lookup p.lhs.name with
  | none =>
    simp only [ht, Option.some.injEq, hd] at h
    refine main _ h.symm rfl ?_ ?_
    · intro i s' q hg hn
      exact absurd ((hi.keys p.lhs.name).2 ⟨i, s', q, hg, hn⟩) (by rw [ht]; simp)
    · intro a d
      rw [lookup_cons']
      constructor
      · intro h'
        split at h'
        · rename_i ha; cases h'; exact Or.inl ⟨ha, rfl⟩
        · cases h'
      · rintro (⟨h1, h2⟩ | ⟨i, s', q, h1, h2, _⟩)
        · rw [if_pos h1, h2]
        · exact absurd ((hi.keys p.lhs.name).2 ⟨i, s', q, h1, h2⟩) (by rw [ht]; simp)
  | some info =>
    simp only [ht, hd] at h
    split at h
    · rename_i hc
      simp only [Option.some.injEq] at h
      refine main _ h.symm hc.1.symm (fun i s' q hg hn => hi.colons _ _ ht i s' q hg hn) ?_
      intro a d
      rw [lookup_put]
      constructor
      · intro h'
        split at h'
        · rename_i ha; cases h'; exact Or.inl ⟨ha, rfl⟩
        · obtain ⟨i, s', q, rs, ⟨h1, h2, h3⟩, h4, h5⟩ := (hi.occs _ _ ht _ _).1 h'
          rw [rs0] at h4
          subst h4
          exact Or.inr ⟨i, s', q, h1, h2, h3, h5⟩
      · rintro (⟨h1, h2⟩ | ⟨i, s', q, h1, h2, h3, h4⟩)
        · rw [if_pos h1, h2]
        · have hne : ¬a = arenaOf s := fun e => (hstep.2 i s' q h1 h2).2 (e.symm.trans h3.symm)
          rw [if_neg hne]
          exact (hi.occs _ _ ht _ _).2 ⟨i, s', q, q.rhss, ⟨h1, h2, h3⟩, (rs0 ..).2 rfl, h4⟩
    · cases h

/-- The first pass on the productions one after the other. -/
def leftAll : List (Sec × Prodn) → Nat → Table → Option Table
  | [], _, t => some t
  | (s, p) :: xs, i, t => match checkLeft t s i p with
    | none => none
    | some t' => leftAll xs (i + 1) t'

theorem leftProds_eq (s : Sec) (ps : List Prodn) (i : Nat) (t : Table) :
    leftProds s ps i t = (leftAll (ps.map (fun p => (s, p))) i t).map (fun t' => (i + ps.length, t')) := by
  induction ps generalizing i t with
  | nil => rfl
  | cons p ps ih =>
    rw [leftProds, List.map_cons, leftAll]
    cases checkLeft t s i p with
    | none => rfl
    | some t' =>
      simp only [ih, List.length_cons]
      congr 1
      funext t''
      rw [Nat.add_assoc, Nat.add_comm 1]

theorem leftAll_append (xs ys : List (Sec × Prodn)) (i : Nat) (t : Table) :
    leftAll (xs ++ ys) i t = (leftAll xs i t).bind (leftAll ys (i + xs.length)) := by
  induction xs generalizing i t with
  | nil => rfl
  | cons x xs ih =>
    obtain ⟨s, p⟩ := x
    rw [List.cons_append, leftAll, leftAll]
    cases checkLeft t s i p with
    | none => rfl
    | some t' =>
      simp only [ih, List.length_cons]
      rw [Nat.add_assoc, Nat.add_comm 1]

theorem leftBlocks_eq (doc : List Block) (i : Nat) (t : Table) (h : ∀ b ∈ doc, b.isDef = true ∧ b.isBlock = true) :
    leftBlocks doc i t = (leftAll (prodns doc) i t).map (fun t' => (i + (prodns doc).length, t')) := by
  induction doc generalizing i t with
  | nil => rfl
  | cons b bs ih =>
    rw [leftBlocks, if_pos (h b (List.mem_cons_self ..)), leftProds_eq]
    have hp : prodns (b :: bs) = b.prods.map (fun p => (b.sec, p)) ++ prodns bs := rfl
    rw [hp, leftAll_append]
    cases leftAll (b.prods.map (fun p => (b.sec, p))) i t with
    | none => rfl
    | some t' =>
      simp only [Option.map_some, Option.bind_some, ih _ _ (fun b hb => h b (List.mem_cons_of_mem _ hb)), List.length_map, List.length_append]
      congr 1
      funext t''
      rw [Nat.add_assoc]

theorem leftBlocks_blocks (doc : List Block) (i : Nat) (t : Table) (r : Nat × Table) (h : leftBlocks doc i t = some r) :
    ∀ b ∈ doc, b.isDef = true ∧ b.isBlock = true := by
  induction doc generalizing i t with
  | nil => intro b hb; cases hb
  | cons c bs ih =>
    rw [leftBlocks] at h
    split at h
    · rename_i hc
      cases h1 : leftProds c.sec c.prods i t with
      | none => simp only [h1] at h; cases h
      | some q =>
        simp only [h1] at h
        intro b hb
        cases List.mem_cons.1 hb with
        | inl e => subst e; exact hc
        | inr e => exact ih _ _ h b e
    · cases h

theorem leftAll_inv {pre xs : List (Sec × Prodn)} {t t' : Table} (hi : Inv pre 0 t) (h : leftAll xs pre.length t = some t') :
    Inv (pre ++ xs) 0 t' := by
  induction xs generalizing pre t with
  | nil => cases h; rw [List.append_nil]; exact hi
  | cons x xs ih =>
    obtain ⟨s, p⟩ := x
    rw [leftAll] at h
    cases hc : checkLeft t s pre.length p with
    | none => simp only [hc] at h; cases h
    | some t1 =>
      simp only [hc] at h
      have := ih (checkLeft_inv hi s p hc) (by simpa using h)
      simpa using this

theorem leftAll_iff {pre : List (Sec × Prodn)} (xs : List (Sec × Prodn)) {t : Table} (hi : Inv pre 0 t) :
    (∃ t', leftAll xs pre.length t = some t') ↔ ∀ (k : Nat) s p, xs[k]? = some (s, p) → Step (pre ++ xs.take k) s p := by
  induction xs generalizing pre t with
  | nil => simp [leftAll]
  | cons x xs ih =>
    obtain ⟨s, p⟩ := x
    rw [leftAll]
    constructor
    · rintro ⟨t', h⟩
      cases hc : checkLeft t s pre.length p with
      | none => simp only [hc] at h; cases h
      | some t1 =>
        simp only [hc] at h
        have hs := (checkLeft_iff hi s p).1 ⟨t1, hc⟩
        have hr := (ih (checkLeft_inv hi s p hc)).1 ⟨t', by simpa using h⟩
        intro k s' q hk
        cases k with
        | zero =>
          simp at hk
          obtain ⟨rfl, rfl⟩ := hk
          simpa using hs
        | succ k =>
          have := hr k s' q (by simpa using hk)
          simpa using this
    · intro h
      have hs : Step pre s p := by simpa using h 0 s p rfl
      obtain ⟨t1, hc⟩ := (checkLeft_iff hi s p).2 hs
      simp only [hc]
      have := (ih (checkLeft_inv hi s p hc)).2 (by
        intro k s' q hk
        have := h (k + 1) s' q (by simpa using hk)
        simpa using this)
      simpa using this

theorem defines_at (doc : List Block) (i : Nat) (a : Arena) (n : Str) (p : Prodn) :
    Defines doc i a n p ↔ ∃ s, At (prodns doc) i s p n a := by
  unfold Defines At
  simp only [arenaOf_iff]

theorem left_iff (doc : List Block) : (∃ r, leftBlocks doc 0 [] = some r) ↔ LeftOk doc := by
  constructor
  · rintro ⟨r, h⟩
    have hb := leftBlocks_blocks doc 0 [] r h
    rw [leftBlocks_eq doc 0 [] hb] at h
    cases ha : leftAll (prodns doc) 0 [] with
    | none => rw [ha] at h; cases h
    | some t =>
      have hs := (leftAll_iff (pre := []) (prodns doc) inv_nil).1 ⟨t, ha⟩
      have hi : Inv (prodns doc) 0 t := by
        have := leftAll_inv (pre := []) inv_nil ha
        simpa using this
      refine ⟨hb, ?_, ?_, ?_⟩
      · intro s p hsp
        obtain ⟨k, hk⟩ := List.getElem?_of_mem hsp
        have := (hs k s p hk).1
        exact (loc_iff s p).1 this
      · intro i j a b n p q hp hq
        rw [defines_at] at hp hq
        obtain ⟨s, hp⟩ := hp
        obtain ⟨s', hq⟩ := hq
        obtain ⟨info, hl⟩ := (hi.keys n).2 ⟨i, s, p, hp.1, hp.2.1⟩
        rw [hi.colons n info hl i s p hp.1 hp.2.1, hi.colons n info hl j s' q hq.1 hq.2.1]
      · intro i j a n p q hp hq
        rw [defines_at] at hp hq
        obtain ⟨s, hp⟩ := hp
        obtain ⟨s', hq⟩ := hq
        obtain ⟨info, hl⟩ := (hi.keys n).2 ⟨i, s, p, hp.1, hp.2.1⟩
        have h1 := (hi.occs n info hl a (mkD i s p p.rhss)).2 ⟨i, s, p, p.rhss, hp, (rs0 ..).2 rfl, rfl⟩
        have h2 := (hi.occs n info hl a (mkD j s' q q.rhss)).2 ⟨j, s', q, q.rhss, hq, (rs0 ..).2 rfl, rfl⟩
        rw [h1] at h2
        have := Option.some.inj h2
        exact congrArg DProd.docI this
  · intro h
    rw [leftBlocks_eq doc 0 [] h.blocks]
    obtain ⟨t', ht⟩ := (leftAll_iff (pre := []) (prodns doc) inv_nil).2 (by
      intro k s p hk
      rw [List.nil_append]
      refine ⟨?_, ?_⟩
      · exact (loc_iff s p).2 (h.prodn s p (List.mem_of_getElem? hk))
      · intro j s' q hj hn
        rw [List.getElem?_take] at hj
        split at hj
        · rename_i hlt
          have hp : Defines doc k (arenaOf s) p.lhs.name p := (defines_at ..).2 ⟨s, hk, rfl, rfl⟩
          have hq : Defines doc j (arenaOf s') p.lhs.name q := (defines_at ..).2 ⟨s', hj, hn, rfl⟩
          refine ⟨h.colons _ _ _ _ _ _ _ hp hq, ?_⟩
          intro e
          rw [e] at hp
          have := h.once _ _ _ _ _ _ hp hq
          omega
        · cases hj)
    have ht' : leftAll (prodns doc) 0 [] = some t' := ht
    rw [ht']
    exact ⟨_, rfl⟩

theorem left_inv (doc : List Block) (i : Nat) (t : Table) (h : leftBlocks doc 0 [] = some (i, t)) : Inv (prodns doc) 0 t := by
  have hb := leftBlocks_blocks doc 0 [] _ h
  rw [leftBlocks_eq doc 0 [] hb] at h
  cases ha : leftAll (prodns doc) 0 [] with
  | none => rw [ha] at h; cases h
  | some t1 =>
    rw [ha] at h
    cases h
    have := leftAll_inv (pre := []) inv_nil ha
    simpa using this

end Verif.Defs
