import Verif.Checks.Spec
/-! # Lemmas for C84 -/
namespace Verif.Checks
open Spec

theorem less_iff {a b : Rhs} {v : Bool} : less b.key a.key = some v ↔ Comparable b a ∧ (v = true ↔ Before b a) := by
  unfold less
  by_cases h : b.doc = a.doc
  · have hk : b.key.1 = a.key.1 := by show (b.doc : Int) = a.doc; omega
    rw [if_pos hk]
    show (match b.di.map Int.ofNat, a.di.map Int.ofNat with
      | some x, some y => some (decide (x < y))
      | none, none => some false
      | _, _ => none) = some v ↔ _
    unfold Comparable Before
    cases a.di <;> cases b.di <;> cases v <;> simp [h]
  · have hk : ¬ b.key.1 = a.key.1 := by show ¬ (b.doc : Int) = a.doc; omega
    rw [if_neg hk]
    show some (decide ((b.doc : Int) < a.doc)) = some v ↔ _
    unfold Comparable Before
    cases v <;> simp [h]

theorem eachRhs_iff {a : Rhs} : ∀ {rs : List Rhs} {ms : List Msg} {q : Key}, eachRhs a.key rs = some (ms, q) ↔ Complaints (a :: rs) ms ∧ q = ((a :: rs).getLast (by simp)).key
  | [], ms, q => by
    rw [eachRhs]
    simp only [Option.some.injEq, Prod.mk.injEq, List.getLast_singleton]
    constructor
    · rintro ⟨rfl, rfl⟩; exact ⟨.one, rfl⟩
    · rintro ⟨h, rfl⟩; cases h; exact ⟨rfl, rfl⟩
  | b :: rs, ms, q => by
    rw [eachRhs]
    have ih := fun ms q => eachRhs_iff (a := b) (rs := rs) (ms := ms) (q := q)
    have hl : (a :: b :: rs).getLast (by simp) = (b :: rs).getLast (by simp) := by rw [List.getLast_cons]
    rw [hl]
    cases e : less b.key a.key with
    | none =>
      refine iff_of_false (by simp) ?_
      rintro ⟨h, _⟩
      cases h with
      | fine hc hb _ =>
        have := less_iff.mpr ⟨hc, show (false = true ↔ Before b a) from iff_of_false (by simp) hb⟩
        rw [e] at this; cases this
      | lhs hd _ =>
        have := less_iff (a := a) (b := b) (v := true) |>.mpr ⟨fun h => by omega, iff_of_true rfl (.inl hd)⟩
        rw [e] at this; cases this
      | rhs hd hx hy hlt _ =>
        have := less_iff (a := a) (b := b) (v := true) |>.mpr ⟨fun _ => by simp [hx, hy], iff_of_true rfl (.inr ⟨hd, _, _, hx, hy, hlt⟩)⟩
        rw [e] at this; cases this
    | some v =>
      obtain ⟨hc, hv⟩ := less_iff.mp e
      simp only [Option.map_eq_some_iff, Prod.mk.injEq]
      cases v with
      | false =>
        have hn : ¬ Before b a := fun h => by simpa using hv.mpr h
        simp only [Bool.false_eq_true, if_false, List.nil_append]
        constructor
        · rintro ⟨⟨ms', q'⟩, h, rfl, rfl⟩
          obtain ⟨h1, h2⟩ := (ih _ _).mp h
          exact ⟨.fine hc hn h1, h2⟩
        · rintro ⟨h, hq⟩
          cases h with
          | fine _ _ h => exact ⟨(ms, q), (ih _ _).mpr ⟨h, hq⟩, rfl, rfl⟩
          | lhs hd _ => exact absurd (.inl hd) hn
          | rhs hd hx hy hlt _ => exact absurd (.inr ⟨hd, _, _, hx, hy, hlt⟩) hn
      | true =>
        have hb : Before b a := hv.mp rfl
        simp only [if_true]
        rcases hb with hd | ⟨hd, x, y, hx, hy, hlt⟩
        · have hk : ¬ b.key.1 = a.key.1 := by simp only [Rhs.key]; omega
          rw [if_neg hk]
          constructor
          · rintro ⟨⟨ms', q'⟩, h, rfl, rfl⟩
            obtain ⟨h1, h2⟩ := (ih _ _).mp h
            exact ⟨.lhs hd h1, h2⟩
          · rintro ⟨h, hq⟩
            cases h with
            | fine _ hn _ => exact absurd (.inl hd) hn
            | lhs _ h => exact ⟨(_, q), (ih _ _).mpr ⟨h, hq⟩, rfl, rfl⟩
            | rhs hd' => omega
        · have hk : b.key.1 = a.key.1 := by simp only [Rhs.key, hd]
          rw [if_pos hk]
          have e1 : b.key.2 = some (x : Int) := by simp [Rhs.key, hx]
          have e2 : a.key.2 = some (y : Int) := by simp [Rhs.key, hy]
          rw [e1, e2]
          constructor
          · rintro ⟨⟨ms', q'⟩, h, rfl, rfl⟩
            obtain ⟨h1, h2⟩ := (ih _ _).mp h
            exact ⟨.rhs hd hx hy hlt h1, h2⟩
          · rintro ⟨h, hq⟩
            cases h with
            | fine _ hn _ => exact absurd (.inr ⟨hd, x, y, hx, hy, hlt⟩) hn
            | lhs hd' => omega
            | rhs _ hx' hy' _ h =>
              rw [hx] at hx'; rw [hy] at hy'
              cases hx'; cases hy'
              exact ⟨(_, q), (ih _ _).mpr ⟨h, hq⟩, rfl, rfl⟩

/-- The first key: nothing is less. -/
theorem eachRhs_first {rs : List Rhs} : eachRhs (-1, some (-1)) rs = match rs with
    | [] => some ([], (-1, some (-1)))
    | r :: rs => eachRhs r.key rs := by
  cases rs with
  | nil => rfl
  | cons r rs =>
    rw [eachRhs]
    have : less r.key (-1, some (-1)) = some false := by
      have h : ¬ ((r.doc : Int) = -1) := by omega
      have h2 : ¬ ((r.doc : Int) < -1) := by omega
      simp [less, Rhs.key, h, h2]
    rw [this]
    simp

/-- Two runs one after the other. -/
theorem eachRhs_append : ∀ (rs ss : List Rhs) (p : Key), eachRhs p (rs ++ ss) = (eachRhs p rs).bind (fun x => (eachRhs x.2 ss).map (fun y => (x.1 ++ y.1, y.2)))
  | [], ss, p => by
    simp only [List.nil_append, eachRhs, Option.bind_some]
    cases eachRhs p ss <;> rfl
  | r :: rs, ss, p => by
    rw [List.cons_append, eachRhs, eachRhs]
    cases less r.key p with
    | none => rfl
    | some b =>
      simp only
      rw [eachRhs_append rs ss r.key]
      cases eachRhs r.key rs with
      | none => rfl
      | some x =>
        simp only [Option.bind_some, Option.map_some]
        cases eachRhs x.2 ss with
        | none => rfl
        | some y => simp [List.append_assoc]

theorem counted_total : ∀ (gs : List Grammar), ∃ rs, Counted gs rs
  | [] => ⟨[], .nil⟩
  | g :: gs => by
    obtain ⟨rs, h⟩ := counted_total gs
    cases e : g.inAlg with
    | true => exact ⟨rs, .within e h⟩
    | false => exact ⟨_, .own e h⟩

theorem eachGrammar_eq {gs : List Grammar} {rs : List Rhs} (h : Counted gs rs) (ho : ∀ g ∈ gs, g.own = true) (p : Key) :
    eachGrammar p gs = (eachRhs p rs).map Prod.fst := by
  induction h generalizing p with
  | nil => rfl
  | @within g gs rs hg _ ih =>
    have h1 := ho g (by simp)
    rw [eachGrammar, if_neg (by simp [h1]), if_pos hg]
    exact ih (fun g hg => ho g (by simp [hg])) p
  | @own g gs rs hg _ ih =>
    have h1 := ho g (by simp)
    rw [eachGrammar, if_neg (by simp [h1]), if_neg (by simp [hg]), eachRhs_append]
    cases e : eachRhs p g.prods.flatten with
    | none => rfl
    | some x =>
      obtain ⟨ms, q⟩ := x
      simp only [Option.bind_some]
      rw [ih (fun g hg => ho g (by simp [hg])) q]
      cases eachRhs q rs <;> rfl

theorem eachGrammar_own : ∀ {gs : List Grammar} {p : Key} {ms : List Msg}, eachGrammar p gs = some ms → ∀ g ∈ gs, g.own = true
  | [], _, _, _ => by simp
  | g :: gs, p, ms, h => by
    rw [eachGrammar] at h
    by_cases ho : g.own = true
    · rw [if_neg (by simp [ho])] at h
      have : ∃ p' ms', eachGrammar p' gs = some ms' := by
        split at h
        · exact ⟨p, ms, h⟩
        · split at h
          · cases h
          · obtain ⟨ms', h, _⟩ := Option.map_eq_some_iff.mp h
            exact ⟨_, ms', h⟩
      obtain ⟨p', ms', h⟩ := this
      intro x hx
      rcases List.mem_cons.mp hx with rfl | hx
      · exact ho
      · exact eachGrammar_own h x hx
    · rw [if_pos (by simpa using ho)] at h; cases h

theorem section_iff {gs : List Grammar} {ms : List Msg} : eachGrammar (-1, some (-1)) gs = some ms ↔
    (∀ g ∈ gs, g.own = true) ∧ ∃ rs, Counted gs rs ∧ Complaints rs ms := by
  have hc : ∀ {rs : List Rhs}, (eachRhs (-1, some (-1)) rs).map Prod.fst = some ms ↔ Complaints rs ms := by
    intro rs
    rw [eachRhs_first]
    cases rs with
    | nil =>
      simp only [Option.map_some, Option.some.injEq]
      constructor
      · rintro rfl; exact .nil
      · intro h; cases h; rfl
    | cons r rs =>
      simp only [Option.map_eq_some_iff]
      constructor
      · rintro ⟨⟨_, q⟩, h, rfl⟩; exact (eachRhs_iff.mp h).1
      · intro h; exact ⟨(ms, _), eachRhs_iff.mpr ⟨h, rfl⟩, rfl⟩
  constructor
  · intro h
    have ho := eachGrammar_own h
    refine ⟨ho, ?_⟩
    obtain ⟨rs, hr⟩ := counted_total gs
    rw [eachGrammar_eq hr ho] at h
    exact ⟨rs, hr, hc.mp h⟩
  · rintro ⟨ho, rs, hr, h⟩
    rw [eachGrammar_eq hr ho]
    exact hc.mpr h

theorem order_iff : ∀ {ss : List Sec} {ms : List Msg}, checkOrder ss = some ms ↔ AllComplaints ss ms
  | [], ms => by
    rw [checkOrder]
    constructor
    · intro h; cases h; exact .nil
    · intro h; cases h; rfl
  | s :: ss, ms => by
    rw [checkOrder]
    by_cases hk : s.kind ≠ "syntax_directed_operation"
    · rw [if_pos hk, order_iff]
      constructor
      · exact .other hk
      · intro h
        cases h with
        | other _ h => exact h
        | sdo hk' => exact absurd hk' hk
    · rw [if_neg hk]
      have hk' : s.kind = "syntax_directed_operation" := by simpa using hk
      constructor
      · intro h
        cases e : eachGrammar (-1, some (-1)) s.grammars with
        | none => rw [e] at h; cases h
        | some xs =>
          rw [e] at h
          obtain ⟨ns, hn, rfl⟩ := Option.map_eq_some_iff.mp h
          obtain ⟨ho, rs, hr, hx⟩ := section_iff.mp e
          exact .sdo hk' ho hr hx (order_iff.mp hn)
      · intro h
        cases h with
        | other hn => exact absurd hk' hn
        | sdo _ ho hr hx hn =>
          rw [section_iff.mpr ⟨ho, _, hr, hx⟩]
          simp [order_iff.mpr hn]

/-- Each is numbered. -/
theorem quiet_iff : ∀ {rs : List Rhs}, (∀ r ∈ rs, r.di ≠ none) → (Complaints rs [] ↔ rs.Pairwise (fun a b => ¬ Before b a))
  | [], _ => ⟨fun _ => .nil, fun _ => .nil⟩
  | [a], _ => ⟨fun _ => by simp, fun _ => .one⟩
  | a :: b :: rs, h => by
    have ih := quiet_iff (rs := b :: rs) fun r hr => h r (List.mem_cons_of_mem _ hr)
    have htrans : ∀ c, c.di ≠ none → ¬ Before b a → ¬ Before c b → ¬ Before c a := by
      intro c hcn h1 h2 h3
      obtain ⟨x, hx⟩ := Option.ne_none_iff_exists'.mp (h a (by simp))
      obtain ⟨y, hy⟩ := Option.ne_none_iff_exists'.mp (h b (by simp))
      obtain ⟨z, hz⟩ := Option.ne_none_iff_exists'.mp hcn
      simp only [Before, hx, hy, hz, Option.some.injEq, exists_eq_left', exists_and_left, not_or] at h1 h2 h3
      rcases h3 with h3 | ⟨h3, h4⟩
      · omega
      · have : b.doc = a.doc := by omega
        have n1 := fun hlt => h1.2 ⟨this, hlt⟩
        have n2 := fun hlt => h2.2 ⟨by omega, hlt⟩
        omega
    constructor
    · intro hc
      cases hc with
      | fine _ hn hc =>
        have hp := ih.mp hc
        refine List.pairwise_cons.mpr ⟨?_, hp⟩
        intro c hcm
        rcases List.mem_cons.mp hcm with rfl | hcm
        · exact hn
        · exact htrans c (h c (by simp [hcm])) hn ((List.pairwise_cons.mp hp).1 c hcm)
    · intro hp
      obtain ⟨h1, h2⟩ := List.pairwise_cons.mp hp
      refine .fine ?_ (h1 b (by simp)) (ih.mpr h2)
      intro _
      exact iff_of_false (h b (by simp)) (h a (by simp))

end Verif.Checks
