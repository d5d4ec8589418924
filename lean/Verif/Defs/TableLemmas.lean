import Verif.Defs.RightLemmas
/-!
# Lemmas on the table after the second pass
-/
namespace Verif.Defs
open Spec

variable {doc : List Block} {k : Nat} {t : Table}

theorem rs_succ_other (xs : List (Sec × Prodn)) (i : Nat) (s : Sec) (p : Prodn) (rs : List Rhs) (h : i ≠ k ∨ augB s = false) :
    Rs xs (k + 1) i s p rs ↔ Rs xs k i s p rs := by
  unfold Rs
  have : i < k + 1 ∧ augB s = true ↔ i < k ∧ augB s = true := by
    constructor
    · rintro ⟨h1, h2⟩
      refine ⟨?_, h2⟩
      rcases h with h | h
      · omega
      · rw [h] at h2; cases h2
    · rintro ⟨h1, h2⟩
      exact ⟨by omega, h2⟩
  rw [this, ← and_assoc, this, and_assoc]

theorem inv_skip (hi : Inv (prodns doc) k t) {s : Sec} {p : Prodn} (hk : (prodns doc)[k]? = some (s, p)) (ha : augB s = false) :
    Inv (prodns doc) (k + 1) t := by
  have key : ∀ (i : Nat) s' q rs, (prodns doc)[i]? = some (s', q) → (Rs (prodns doc) (k + 1) i s' q rs ↔ Rs (prodns doc) k i s' q rs) := by
    intro i s' q rs h
    apply rs_succ_other
    by_cases hik : i = k
    · subst hik
      rw [hk] at h
      cases h
      exact Or.inr ha
    · exact Or.inl hik
  refine ⟨hi.nodup, hi.keys, hi.colons, ?_, ?_⟩
  · intro n info hl a d
    rw [hi.occs n info hl]
    constructor
    · rintro ⟨i, s', q, rs, h1, h2, h3⟩
      exact ⟨i, s', q, rs, h1, (key i s' q rs h1.1).2 h2, h3⟩
    · rintro ⟨i, s', q, rs, h1, h2, h3⟩
      exact ⟨i, s', q, rs, h1, (key i s' q rs h1.1).1 h2, h3⟩
  · intro i s' q h
    obtain ⟨rs, hr⟩ := hi.rs i s' q h
    exact ⟨rs, (key i s' q rs h).2 hr⟩

theorem augB_arena {s : Sec} (h : augB s = true) : arenaOf s = .B := by
  unfold augB at h
  rw [Bool.and_eq_true, decide_eq_true_iff] at h
  exact h.1

theorem rs_main {xs : List (Sec × Prodn)} {i : Nat} {s : Sec} {p : Prodn} {rs : List Rhs} (h : Rs xs k i s p rs) (ha : augB s = false ∨ ¬i < k) :
    rs = p.rhss := by
  rcases h with h | h
  · exact h.2
  · rcases ha with ha | ha
    · rw [ha] at h; cases h.2.1
    · exact absurd h.1 ha

theorem augment_eq (hi : Inv (prodns doc) k t) {s : Sec} {p : Prodn} (hk : (prodns doc)[k]? = some (s, p)) (ha : augB s = true) :
    ((∃ t', augment t p.lhs.name = some t') ↔ ∃ i q, Defines doc i .A p.lhs.name q) ∧
    ∀ t', augment t p.lhs.name = some t' → Inv (prodns doc) (k + 1) t' := by
  obtain ⟨info, hl⟩ := (hi.keys p.lhs.name).2 ⟨k, s, p, hk, rfl⟩
  have hB : info.occs.lookup .B = some (mkD k s p p.rhss) :=
    (hi.occs _ _ hl _ _).2 ⟨k, s, p, p.rhss, ⟨hk, rfl, augB_arena ha⟩, Or.inl ⟨by omega, rfl⟩, rfl⟩
  cases hA : info.occs.lookup .A with
  | none =>
    have h0 := (occ_none hi hl).1 hA
    have : augment t p.lhs.name = none := by
      unfold augment
      simp only [hl, hA]
    rw [this]
    refine ⟨?_, ?_⟩
    · simp only [reduceCtorEq, exists_false, false_iff]
      exact h0
    · intro t' h; cases h
  | some base =>
    obtain ⟨s', q, rs, h1, h2, h3, h4⟩ := occ_some hi hl hA
    have h4' := h4
    obtain ⟨s2, hA2⟩ := (defines_at ..).1 h4
    have hs2 : s2 = s' := by
      have := hA2.1
      rw [h1] at this
      exact (Prod.mk.inj (Option.some.inj this)).1.symm
    subst hs2
    have hnb : augB s2 = false := by
      cases hb : augB s2 with
      | false => rfl
      | true =>
        have := augB_arena hb
        rw [hA2.2.2] at this
        cases this
    have hrs : rs = q.rhss := rs_main h2 (Or.inl hnb)
    subst hrs
    have hbase : base.prod.rhss = q.rhss := by rw [h3]; rfl
    have hmk : ({ mkD k s p p.rhss with prod := { (mkD k s p p.rhss).prod with rhss := base.prod.rhss ++ (mkD k s p p.rhss).prod.rhss } } : DProd)
        = mkD k s p (q.rhss ++ p.rhss) := by rw [hbase]; rfl
    have haug : augment t p.lhs.name = some (put p.lhs.name ⟨info.colons, put .B (mkD k s p (q.rhss ++ p.rhss)) info.occs⟩ t) := by
      unfold augment
      simp only [hl, hA, hB]
      rw [hmk]
    rw [haug]
    refine ⟨⟨fun _ => ⟨_, _, h4⟩, fun _ => ⟨_, rfl⟩⟩, ?_⟩
    intro t' ht
    cases ht
    have hRk : Rs (prodns doc) (k + 1) k s p (q.rhss ++ p.rhss) := Or.inr ⟨by omega, ha, base.docI, s2, q, hA2, rfl⟩
    refine ⟨nodup_put _ _ _ hi.nodup, ?_, ?_, ?_, ?_⟩
    · intro n
      rw [← hi.keys, lookup_put]
      by_cases hn : n = p.lhs.name
      · rw [if_pos hn, hn]
        exact ⟨fun _ => ⟨info, hl⟩, fun _ => ⟨_, rfl⟩⟩
      · rw [if_neg hn]
    · intro n info' hlk i s' q' hg hn
      rw [lookup_put] at hlk
      by_cases hnn : n = p.lhs.name
      · rw [if_pos hnn] at hlk
        cases hlk
        exact hi.colons _ _ hl i s' q' hg (hn.trans hnn)
      · rw [if_neg hnn] at hlk
        exact hi.colons _ _ hlk i s' q' hg hn
    · intro n info' hlk a d
      rw [lookup_put] at hlk
      by_cases hnn : n = p.lhs.name
      · rw [if_pos hnn] at hlk
        cases hlk
        show List.lookup a (put .B (mkD k s p (q.rhss ++ p.rhss)) info.occs) = some d ↔ _
        rw [lookup_put]
        subst hnn
        by_cases hab : a = .B
        · rw [if_pos hab]
          constructor
          · intro h
            cases h
            exact ⟨k, s, p, _, ⟨hk, rfl, (augB_arena ha).trans hab.symm⟩, hRk, rfl⟩
          · rintro ⟨i, s', q', rs', ⟨g1, g2, g3⟩, g4, g5⟩
            have hd1 : Defines doc k .B p.lhs.name p := (defines_at ..).2 ⟨s, hk, rfl, augB_arena ha⟩
            have hd2 : Defines doc i .B p.lhs.name q' := (defines_at ..).2 ⟨s', g1, g2, g3.trans hab⟩
            obtain ⟨hik, hpq⟩ := once_of_inv hi hd1 hd2
            subst hik
            rw [hk] at g1
            cases g1
            subst g5
            congr 1
            rcases g4 with g4 | g4
            · exact absurd ⟨Nat.lt_succ_self k, ha⟩ g4.1
            · obtain ⟨_, _, j, sj, qj, gA, ge⟩ := g4
              have := (once_of_inv hi h4' ((defines_at ..).2 ⟨sj, gA⟩)).2
              subst this
              rw [ge]
        · rw [if_neg hab, hi.occs _ _ hl]
          constructor
          · rintro ⟨i, s', q', rs', g1, g2, g3⟩
            refine ⟨i, s', q', rs', g1, (rs_succ_other _ _ _ _ _ ?_).2 g2, g3⟩
            right
            cases hb : augB s' with
            | false => rfl
            | true => exact absurd (g1.2.2.symm.trans (augB_arena hb)) hab
          · rintro ⟨i, s', q', rs', g1, g2, g3⟩
            refine ⟨i, s', q', rs', g1, (rs_succ_other _ _ _ _ _ ?_).1 g2, g3⟩
            right
            cases hb : augB s' with
            | false => rfl
            | true => exact absurd (g1.2.2.symm.trans (augB_arena hb)) hab
      · rw [if_neg hnn] at hlk
        rw [hi.occs _ _ hlk]
        have hne : ∀ (i : Nat) s' q', At (prodns doc) i s' q' n a → i ≠ k := by
          rintro i s' q' ⟨g1, g2, _⟩ hik
          subst hik
          rw [hk] at g1
          cases g1
          exact hnn g2.symm
        constructor
        · rintro ⟨i, s', q', rs', g1, g2, g3⟩
          exact ⟨i, s', q', rs', g1, (rs_succ_other _ _ _ _ _ (Or.inl (hne i s' q' g1))).2 g2, g3⟩
        · rintro ⟨i, s', q', rs', g1, g2, g3⟩
          exact ⟨i, s', q', rs', g1, (rs_succ_other _ _ _ _ _ (Or.inl (hne i s' q' g1))).1 g2, g3⟩
    · intro i s' q' hg
      by_cases hik : i = k
      · subst hik
        rw [hk] at hg
        cases hg
        exact ⟨_, hRk⟩
      · obtain ⟨rs', hr⟩ := hi.rs i s' q' hg
        exact ⟨rs', (rs_succ_other _ _ _ _ _ (Or.inl hik)).2 hr⟩

/-- The second pass on the productions one after the other. -/
def rightAll : List (Sec × Prodn) → Nat → Table → Option (List Msg × Table)
  | [], _, t => some ([], t)
  | (s, p) :: xs, i, t => match right1 s t i p with
    | none => none
    | some (ms, t') => (rightAll xs (i + 1) t').map (fun r => (ms ++ r.1, r.2))

theorem rightProds_eq (s : Sec) (ps : List Prodn) (i : Nat) (t : Table) :
    rightProds s ps i t = (rightAll (ps.map (fun p => (s, p))) i t).map (fun r => (r.1, i + ps.length, r.2)) := by
  induction ps generalizing i t with
  | nil => rfl
  | cons p ps ih =>
    rw [rightProds, List.map_cons, rightAll]
    cases right1 s t i p with
    | none => rfl
    | some r =>
      simp only [ih, List.length_cons, Option.map_map]
      congr 1
      funext r'
      simp only [Function.comp]
      rw [Nat.add_assoc, Nat.add_comm 1]

theorem rightAll_append (xs ys : List (Sec × Prodn)) (i : Nat) (t : Table) :
    rightAll (xs ++ ys) i t = (rightAll xs i t).bind (fun r => (rightAll ys (i + xs.length) r.2).map (fun r' => (r.1 ++ r'.1, r'.2))) := by
  induction xs generalizing i t with
  | nil =>
    simp only [List.nil_append, rightAll, Option.bind_some, List.length_nil, Nat.add_zero]
    cases rightAll ys i t <;> rfl
  | cons x xs ih =>
    obtain ⟨s, p⟩ := x
    rw [List.cons_append, rightAll, rightAll]
    cases right1 s t i p with
    | none => rfl
    | some r =>
      obtain ⟨ms, t'⟩ := r
      simp only [ih, List.length_cons]
      cases rightAll xs (i + 1) t' with
      | none => rfl
      | some r1 =>
        have e : i + 1 + xs.length = i + (xs.length + 1) := by omega
        simp only [Option.bind_some, Option.map_some, Option.map_map, e]
        congr 1
        funext r2
        simp [Function.comp, List.append_assoc]

theorem rightBlocks_eq (doc : List Block) (i : Nat) (t : Table) :
    rightBlocks doc i t = (rightAll (prodns doc) i t).map (fun r => (r.1, i + (prodns doc).length, r.2)) := by
  induction doc generalizing i t with
  | nil => rfl
  | cons b bs ih =>
    rw [rightBlocks, rightProds_eq]
    have hp : prodns (b :: bs) = b.prods.map (fun p => (b.sec, p)) ++ prodns bs := rfl
    rw [hp, rightAll_append]
    cases rightAll (b.prods.map (fun p => (b.sec, p))) i t with
    | none => rfl
    | some r =>
      simp only [Option.map_some, Option.bind_some, ih, List.length_map, List.length_append, Option.map_map]
      congr 1
      funext r'
      simp only [Function.comp]
      rw [Nat.add_assoc]

theorem stops_iff (hi : Inv (prodns doc) k t) (s : Sec) (i : Nat) (p : Prodn) :
    RightStops doc s p ↔ rhssMsgs t (noted s i p) p.rhss = none ∨ (augB s = true ∧ ¬∃ i q, Defines doc i .A p.lhs.name q) := by
  rw [rhss_none]
  constructor
  · intro h
    cases h with
    | guard guard body label x h1 h2 h3 =>
      exact Or.inl ⟨_, h1, Or.inr (Or.inl ⟨guard, body, label, rfl, x, h2, (guardOk_iff _ _).2 h3⟩)⟩
    | bare is h => exact Or.inl ⟨_, h, Or.inl ⟨is, rfl⟩⟩
    | elsewhere r guard g a h1 h2 h3 h4 h5 =>
      refine Or.inl ⟨r, h1, Or.inr (Or.inr ⟨guard, g, h2, (gnt_none hi _ _ _).2 ⟨h4, ?_⟩⟩)⟩
      have : (noted s i p).arena = a := (arenaOf_iff ..).2 h3
      rw [this]
      exact h5
    | nothingToAddTo h1 h2 => exact Or.inr ⟨(augB_iff s).2 h1, h2⟩
  · rintro (⟨r, hr, (⟨is, h⟩ | ⟨guard, body, label, he, x, hx, hg⟩ | ⟨guard, g, hm, hn⟩)⟩ | ⟨h1, h2⟩)
    · subst h; exact .bare is hr
    · subst he; exact .guard guard body label x hr hx ((guardOk_iff _ _).1 hg)
    · rw [gnt_none hi] at hn
      exact .elsewhere r guard g (arenaOf s) hr hm ((arenaOf_iff ..).1 rfl) hn.1 hn.2
    · exact .nothingToAddTo ((augB_iff s).1 h1) h2

theorem rightAll_spec (ys : List (Sec × Prodn)) (k : Nat) (t : Table) (hy : (prodns doc).drop k = ys) (hi : Inv (prodns doc) k t) :
    (rightAll ys k t = none ↔ ∃ s p, (s, p) ∈ ys ∧ RightStops doc s p) ∧
    ∀ ms t', rightAll ys k t = some (ms, t') →
      Inv (prodns doc) (k + ys.length) t' ∧ ∀ m, m ∈ ms ↔ ∃ s p, (s, p) ∈ ys ∧ FaultOf doc s p m := by
  induction ys generalizing k t with
  | nil =>
    rw [rightAll]
    refine ⟨by simp, ?_⟩
    intro ms t' h
    cases h
    exact ⟨hi, by simp⟩
  | cons y ys ih =>
    obtain ⟨s, p⟩ := y
    have hk : (prodns doc)[k]? = some (s, p) := by
      have h0 : ((prodns doc).drop k)[0]? = some (s, p) := by rw [hy]; rfl
      rw [List.getElem?_drop] at h0
      exact h0
    have hy' : (prodns doc).drop (k + 1) = ys := by
      have := congrArg (List.drop 1) hy
      rw [List.drop_drop] at this
      exact this
    have hst := stops_iff hi s k p
    -- one step
    have hone : (right1 s t k p = none ↔ RightStops doc s p) ∧
        ∀ ms t', right1 s t k p = some (ms, t') → Inv (prodns doc) (k + 1) t' ∧ ∀ m, m ∈ ms ↔ FaultOf doc s p m := by
      unfold right1
      cases hr : rhssMsgs t (noted s k p) p.rhss with
      | none =>
        simp only [reduceCtorEq, false_implies, implies_true, and_true, true_iff]
        exact hst.2 (Or.inl hr)
      | some ms =>
        have haug : (noted s k p).augments = augB s := rfl
        simp only [haug]
        cases ha : augB s with
        | false =>
          simp only [Bool.false_eq_true, ↓reduceIte, reduceCtorEq, false_iff]
          refine ⟨?_, ?_⟩
          · rw [hst, hr, ha]
            simp
          · intro ms' t' h
            cases h
            exact ⟨inv_skip hi hk ha, rhss_fault hi s k p _ hr⟩
        | true =>
          simp only [↓reduceIte, Option.map_eq_none_iff]
          obtain ⟨h1, h2⟩ := augment_eq hi hk ha
          refine ⟨?_, ?_⟩
          · rw [hst, hr, ha, ← h1]
            cases augment t p.lhs.name <;> simp
          · intro ms' t' h
            rw [Option.map_eq_some_iff] at h
            obtain ⟨t1, ht, he⟩ := h
            cases he
            exact ⟨h2 _ ht, rhss_fault hi s k p _ hr⟩
    rw [rightAll]
    cases hr : right1 s t k p with
    | none =>
      simp only [reduceCtorEq, false_implies, implies_true, and_true, true_iff]
      exact ⟨s, p, List.mem_cons_self .., hone.1.1 hr⟩
    | some r =>
      obtain ⟨ms1, t1⟩ := r
      obtain ⟨hi1, hm1⟩ := hone.2 ms1 t1 hr
      obtain ⟨hn, hs⟩ := ih (k + 1) t1 hy' hi1
      have hns : ¬RightStops doc s p := fun h => by
        rw [hone.1.2 h] at hr; cases hr
      simp only [Option.map_eq_none_iff]
      refine ⟨?_, ?_⟩
      · rw [hn]
        constructor
        · rintro ⟨s', p', h1, h2⟩
          exact ⟨s', p', List.mem_cons_of_mem _ h1, h2⟩
        · rintro ⟨s', p', h1, h2⟩
          cases List.mem_cons.1 h1 with
          | inl e => cases e; exact absurd h2 hns
          | inr e => exact ⟨s', p', e, h2⟩
      · intro ms t' h
        rw [Option.map_eq_some_iff] at h
        obtain ⟨⟨ms2, t2⟩, h2, he⟩ := h
        cases he
        obtain ⟨hi2, hm2⟩ := hs ms2 t2 h2
        refine ⟨?_, ?_⟩
        · have e : k + ((s, p) :: ys).length = k + 1 + ys.length := by simp; omega
          rw [e]
          exact hi2
        · intro m
          rw [List.mem_append, hm1, hm2]
          constructor
          · rintro (h | ⟨s', p', h1, h2⟩)
            · exact ⟨s, p, List.mem_cons_self .., h⟩
            · exact ⟨s', p', List.mem_cons_of_mem _ h1, h2⟩
          · rintro ⟨s', p', h1, h2⟩
            cases List.mem_cons.1 h1 with
            | inl e => cases e; exact Or.inl h2
            | inr e => exact Or.inr ⟨s', p', e, h2⟩

theorem process_none (doc : List Block) : process doc = none ↔ ¬LeftOk doc ∨ ∃ s p, (s, p) ∈ prodns doc ∧ RightStops doc s p := by
  unfold process
  cases hl : leftBlocks doc 0 [] with
  | none =>
    simp only [true_iff]
    left
    rw [← left_iff, hl]
    simp
  | some r =>
    obtain ⟨i, t⟩ := r
    have hok := (left_iff doc).1 ⟨_, hl⟩
    have hi := left_inv doc i t hl
    simp only [Option.map_eq_none_iff, rightBlocks_eq]
    rw [(rightAll_spec (prodns doc) 0 t rfl hi).1]
    exact ⟨Or.inr, fun h => h.resolve_left (fun h => h hok)⟩

theorem process_some (doc : List Block) (ms : List Msg) (t : Table) (h : process doc = some (ms, t)) :
    Inv (prodns doc) (prodns doc).length t ∧ ∀ m, m ∈ ms ↔ ∃ s p, (s, p) ∈ prodns doc ∧ FaultOf doc s p m := by
  unfold process at h
  cases hl : leftBlocks doc 0 [] with
  | none => simp only [hl] at h; cases h
  | some r =>
    obtain ⟨i, t0⟩ := r
    have hi := left_inv doc i t0 hl
    simp only [hl, rightBlocks_eq, Option.map_map] at h
    rw [Option.map_eq_some_iff] at h
    obtain ⟨⟨ms', t'⟩, h1, h2⟩ := h
    simp only [Function.comp, Prod.mk.injEq] at h2
    obtain ⟨rfl, rfl⟩ := h2
    have := (rightAll_spec (prodns doc) 0 t0 rfl hi).2 _ _ h1
    simpa using this

end Verif.Defs
