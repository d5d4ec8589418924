import Verif.Unwrap.UnionLemmas
/-! # Splitting by Completion Records and by their kinds -/
namespace Verif.Unwrap
open Verif.Types Verif.Env Verif.Calls

variable {cfg : Cfg} {ord : List Ty → List Ty}

theorem mapM_get {α β} [Inhabited β] {f : α → Option β} {l : List α} (h : ∀ a ∈ l, ∃ r, f a = some r) :
    l.mapM f = some (l.map (fun a => (f a).getD default)) :=
  mapM_all (fun a ha => by obtain ⟨r, e⟩ := h a ha; rw [e]; rfl)

theorem splitRec_mem {B : Ty} {n : Nat} {as bs : List Ty} (P Q : Ty → Ty → Prop)
    (h : ∀ a ∈ as, ∃ r, splitOne cfg ord B (splitRec cfg ord B n) bs a = some r ∧ (∀ m, m ∈ r.1 ↔ P a m) ∧ (∀ m, m ∈ r.2 ↔ Q a m)) :
    ∃ i o, splitRec cfg ord B (n + 1) as bs = some (i, o) ∧ (∀ m, m ∈ i ↔ ∃ a ∈ as, P a m) ∧ (∀ m, m ∈ o ↔ ∃ a ∈ as, Q a m) := by
  rw [splitRec, mapM_get (fun a ha => by obtain ⟨r, e, _⟩ := h a ha; exact ⟨r, e⟩)]
  refine ⟨_, _, rfl, fun m => ?_, fun m => ?_⟩
  · simp only [List.mem_flatMap, List.mem_map]
    constructor
    · rintro ⟨x, ⟨a, ha, rfl⟩, hm⟩
      obtain ⟨r, e, h1, _⟩ := h a ha
      rw [e] at hm
      exact ⟨a, ha, (h1 m).1 hm⟩
    · rintro ⟨a, ha, hm⟩
      obtain ⟨r, e, h1, _⟩ := h a ha
      exact ⟨r, ⟨a, ha, by rw [e]; rfl⟩, (h1 m).2 hm⟩
  · simp only [List.mem_flatMap, List.mem_map]
    constructor
    · rintro ⟨x, ⟨a, ha, rfl⟩, hm⟩
      obtain ⟨r, e, _, h2⟩ := h a ha
      rw [e] at hm
      exact ⟨a, ha, (h2 m).1 hm⟩
    · rintro ⟨a, ha, hm⟩
      obtain ⟨r, e, _, h2⟩ := h a ha
      exact ⟨r, ⟨a, ha, by rw [e]; rfl⟩, (h2 m).2 hm⟩

theorem OperandTy.distinct {t : Ty} (h : OperandTy cfg t) {ms : List Ty} (hms : ∀ m ∈ ms, m ∈ members t ∧ IsComp m) : Distinct ms where
  each := fun m hm => (hms m hm).2
  one := fun k u u' h1 h2 => h.one k u u' (hms _ h1).1 (hms _ h2).1
  all := fun h1 k u h2 => h.all (hms _ h1).1 k u (hms _ h2).1

theorem apart_not_comp {m : Ty} (h : Apart cfg m) : ¬ IsComp m := by
  obtain ⟨n, _, rfl, _⟩ := h
  intro h
  obtain ⟨fs, e⟩ := isComp_record h
  cases e

/-- Splitting by `T_Completion_Record`. -/
theorem split_any (hr : Ready cfg) (ho : SetOrder ord) {t : Ty} (h : OperandTy cfg t) :
    ∃ cr non, splitBy cfg ord t TCR = some (cr, non) ∧ (∀ m, m ∈ members cr ↔ m ∈ members t ∧ IsComp m) ∧ Flat cfg non ∧
      (members non = [] ↔ ∀ n, .hier n ∉ members t) ∧
      ∀ I : Interp, Respects cfg I → Exhaustive cfg I → ∀ v : I.V, den cfg I non v ↔ ∃ n, .hier n ∈ members t ∧ I.named n v := by
  unfold splitBy
  by_cases he : members t ⊆ members TCR ∧ members TCR ⊆ members t
  · rw [if_pos he]
    have hm : ∀ m, m ∈ members t ↔ m = anyCompletion := fun m =>
      ⟨fun h => by simpa [members, TCR, anyCompletion, CRN] using he.1 h, fun h => by rw [h]; exact he.2 (by simp [members, TCR, anyCompletion, CRN])⟩
    refine ⟨t, T0, rfl, fun m => ?_, flat_T0, ?_, ?_⟩
    · rw [hm]
      exact ⟨fun e => ⟨e, .inl e⟩, And.left⟩
    · simp only [T0, members, true_iff]
      intro n hn
      have := (hm _).1 hn
      simp [anyCompletion] at this
    · intro I _ _ v
      constructor
      · intro hv; exact absurd hv den_T0
      · rintro ⟨n, hn, _⟩
        have := (hm _).1 hn
        simp [anyCompletion] at this
  · rw [if_neg he]
    have hone : ∀ a ∈ members t, ∃ r, splitOne cfg ord TCR (splitRec cfg ord TCR (names cfg.tree).length) (members TCR) a = some r ∧
        (∀ m, m ∈ r.1 ↔ (m = a ∧ IsComp a)) ∧ (∀ m, m ∈ r.2 ↔ (m = a ∧ ¬ IsComp a)) := by
      intro a ha
      rcases h.each a ha with hcmp | hap
      · refine ⟨([a], []), ?_, by simp [hcmp], by simp [hcmp]⟩
        obtain ⟨fs, e⟩ := isComp_record hcmp
        have h1 := sub_any hr hcmp
        subst e
        unfold splitOne
        dsimp only
        rw [if_neg (by simp), if_neg (by simp), h1]
      · refine ⟨([], [a]), ?_, by simp [apart_not_comp hap], by simp [apart_not_comp hap]⟩
        obtain ⟨n, hn, rfl, hor⟩ := hap
        unfold splitOne
        dsimp only
        have h0 : (if Ty.hier n = .tbd then Ty.hier Top else Ty.hier n) = .hier n := if_neg (by simp)
        rw [h0]
        by_cases hN : n = NormalN
        · rw [if_pos ⟨by rw [hN], rfl⟩]
        · rw [if_neg (fun h => hN (by simpa using h.1))]
          have h1 : sub cfg (.hier n) TCR = some false := hier_not_sub
          have h2 : sub cfg TCR (.hier n) = some false := any_sub_hier hr hn (hor.resolve_left hN) []
          rw [h1]
          have h3 : members TCR = [TCR] := rfl
          rw [h3]
          simp only [filterOpt, h2]
    obtain ⟨i, o, hs, hi, hoo⟩ := splitRec_mem (fun a m => m = a ∧ IsComp a) (fun a m => m = a ∧ ¬ IsComp a) hone
    rw [hs]
    have hi' : ∀ m, m ∈ i ↔ m ∈ members t ∧ IsComp m := by
      intro m; rw [hi]
      constructor
      · rintro ⟨a, ha, rfl, h⟩; exact ⟨ha, h⟩
      · rintro ⟨ha, h⟩; exact ⟨m, ha, rfl, h⟩
    have ho' : ∀ m, m ∈ o ↔ m ∈ members t ∧ ¬ IsComp m := by
      intro m; rw [hoo]
      constructor
      · rintro ⟨a, ha, rfl, h⟩; exact ⟨ha, h⟩
      · rintro ⟨ha, h⟩; exact ⟨m, ha, rfl, h⟩
    obtain ⟨cr, hcr, mcr, _⟩ := union_comps (cfg := cfg) ho (ts := i) (h.distinct (fun m hm => (hi' m).1 hm))
    have hof : ∀ x ∈ o, ∃ n ∈ names cfg.tree, x = .hier n := by
      intro x hx
      have h1 := (ho' x).1 hx
      obtain ⟨n, hn, e, _⟩ := (h.each x h1.1).resolve_left h1.2
      exact ⟨n, hn, e⟩
    obtain ⟨non, hnon, hfl, hden⟩ := union_flat hr.ok ho (ts := o) (fun x hx => by
      obtain ⟨n, hn, rfl⟩ := hof x hx; exact flat_hier hn)
    have hmem : ∀ n, .hier n ∈ o ↔ .hier n ∈ members t := by
      intro n; rw [ho']
      refine ⟨And.left, fun hn => ⟨hn, ?_⟩⟩
      intro hcm
      obtain ⟨fs, e⟩ := isComp_record hcm
      cases e
    dsimp only
    rw [hcr, hnon]
    refine ⟨cr, non, rfl, fun m => by rw [mcr, hi'], hfl, ?_, ?_⟩
    · constructor
      · intro e n hn
        refine union_nonempty hr.ok ho hnon ?_ hof e
        intro e'
        have := (hmem n).2 hn
        rw [e'] at this; simp at this
      · intro hno
        have : o = [] := by
          cases o with
          | nil => rfl
          | cons x xs =>
            obtain ⟨n, _, rfl⟩ := hof x (by simp)
            exact absurd ((hmem n).1 (by simp)) (hno n)
        subst this
        have : unionOf cfg ord [] = some T0 := by rw [unionOf_eq ho]; rfl
        rw [this] at hnon
        injection hnon with e
        rw [← e]; rfl
    · intro I hres hx v
      rw [hden I hres hx v]
      constructor
      · rintro ⟨x, hx, hv⟩
        obtain ⟨n, _, rfl⟩ := hof x hx
        exact ⟨n, (hmem n).1 hx, hv⟩
      · rintro ⟨n, hn, hv⟩
        exact ⟨_, (hmem n).2 hn, hv⟩

/-! ## Kinds -/

theorem any_kinds {f : Ty → Option Bool} {p : Ty → Bool} : ∀ {bs : List Ty}, (∀ b ∈ bs, f b = some (p b)) → anyOpt f bs = some (bs.any p) := by
  intro bs
  induction bs with
  | nil => intro _; rfl
  | cons b bs ih =>
    intro h
    rw [anyOpt, h b (by simp)]
    cases hp : p b with
    | true => simp [hp]
    | false => simp only [List.any_cons, hp, Bool.false_or]; exact ih (fun x hx => h x (by simp [hx]))

theorem filter_none {f : Ty → Option Bool} : ∀ {bs : List Ty}, (∀ b ∈ bs, f b = some false) → filterOpt f bs = some [] := by
  intro bs
  induction bs with
  | nil => intro _; rfl
  | cons b bs ih =>
    intro h
    rw [filterOpt, h b (by simp), ih (fun x hx => h x (by simp [hx]))]

theorem filter_all {f : Ty → Option Bool} : ∀ {bs : List Ty}, (∀ b ∈ bs, f b = some true) → filterOpt f bs = some bs := by
  intro bs
  induction bs with
  | nil => intro _; rfl
  | cons b bs ih =>
    intro h
    rw [filterOpt, h b (by simp), ih (fun x hx => h x (by simp [hx]))]

/-- `B` is the union of the completions of some kinds. -/
structure OfKinds (ks : List String) (B : Ty) : Prop where
  sub : ∀ k ∈ ks, k ∈ kinds
  ne : ks ≠ []
  mem : ∀ m, m ∈ members B ↔ ∃ k ∈ ks, m = completionType k

theorem OfKinds.noTop {ks : List String} {B : Ty} (h : OfKinds ks B) : B ≠ .hier Top ∧ .tbd ∉ members B := by
  constructor
  · rintro rfl
    obtain ⟨k, _, e⟩ := (h.mem (.hier Top)).1 (by simp [members])
    simp [completionType] at e
  · intro hm
    obtain ⟨k, _, e⟩ := (h.mem _).1 hm
    simp [completionType] at e

theorem rel_rec {s s' : String} {fs fs' : Fields} : (rel cfg (.record s fs)).1 (.record s' fs') = sub cfg (.record s fs) (.record s' fs') := by
  rw [sub_rec]; rfl

theorem sub_kinds (hr : Ready cfg) {ks : List String} {B : Ty} (h : OfKinds ks B) {k : String} (hk : k ∈ kinds) (u : Option Ty) :
    sub cfg (comp k u) B = some (decide (k ∈ ks)) := by
  have hs : sub cfg (comp k u) B = subWith (comp k u) B (anyOpt (rel cfg (comp k u)).1) := by cases u <;> rfl
  have hm : members (comp k u) = [comp k u] := by cases u <;> rfl
  rw [hs, subWith_gen h.noTop.1 (by rw [hm]; cases u <;> simp [comp]) h.noTop.2]
  by_cases hin : k ∈ ks
  · rw [decide_eq_true hin]
    split
    · rfl
    · rw [any_kinds (p := fun b => decide (b = completionType k))]
      · congr 1
        rw [List.any_eq_true]
        exact ⟨completionType k, (h.mem _).2 ⟨k, hin, rfl⟩, by simp⟩
      · intro b hb
        obtain ⟨k', hk', rfl⟩ := (h.mem b).1 hb
        have h1 := sub_comp hr hk (h.sub k' hk') u
        have h2 : (rel cfg (comp k u)).1 (completionType k') = sub cfg (comp k u) (completionType k') := by
          cases u <;> exact rel_rec
        rw [h2, h1]
        by_cases e : k = k' <;> simp [e, completionType, eq_comm]
  · rw [decide_eq_false hin, if_neg, any_kinds (p := fun _ => false)]
    · simp
    · intro b hb
      obtain ⟨k', hk', rfl⟩ := (h.mem b).1 hb
      have h1 := sub_comp hr hk (h.sub k' hk') u
      have h2 : (rel cfg (comp k u)).1 (completionType k') = sub cfg (comp k u) (completionType k') := by
        cases u <;> exact rel_rec
      rw [h2, h1]
      simp only [Option.some.injEq, decide_eq_false_iff_not]
      rintro rfl
      exact hin hk'
    · intro hsub
      obtain ⟨k', hk', e⟩ := (h.mem _).1 (hsub (by rw [hm]; simp : comp k u ∈ members (comp k u)))
      have := (comp_inj (u' := none) e).1
      subst this
      exact hin hk'

theorem split_one_comp (hr : Ready cfg) {ks : List String} {B : Ty} (h : OfKinds ks B) {k : String} (hk : k ∈ kinds) (u : Option Ty) {rec} :
    splitOne cfg ord B rec (members B) (comp k u) = some (if k ∈ ks then ([comp k u], []) else ([], [comp k u])) := by
  unfold splitOne
  dsimp only
  have h1 : (if comp k u = .tbd then Ty.hier Top else comp k u) = comp k u := by rw [if_neg]; cases u <;> simp [comp]
  rw [h1, if_neg (by cases u <;> simp [comp]), sub_kinds hr h hk]
  by_cases hin : k ∈ ks
  · rw [if_pos hin, decide_eq_true hin]
  · rw [if_neg hin, decide_eq_false hin]
    dsimp only
    rw [filter_none]
    intro b hb
    obtain ⟨k', hk', rfl⟩ := (h.mem b).1 hb
    cases u with
    | some w => exact not_sub_comp hr (h.sub k' hk') hk w
    | none =>
      have := sub_comp hr (h.sub k' hk') hk none
      have e : k' ≠ k := by rintro rfl; exact hin hk'
      rw [decide_eq_false e] at this
      exact this

theorem mem_tsInCR (m : Ty) : m ∈ tsInCR ↔ ∃ k ∈ kinds, m = completionType k := by
  unfold tsInCR
  rw [List.mem_map]
  constructor
  · rintro ⟨k, hk, rfl⟩; exact ⟨k, hk, rfl⟩
  · rintro ⟨k, hk, rfl⟩; exact ⟨k, hk, rfl⟩

theorem split_one_any (hr : Ready cfg) {ks : List String} {B : Ty} (h : OfKinds ks B) {rec} :
    splitOne cfg ord B rec (members B) anyCompletion =
      some (tsInCR.filter (fun t => decide (t ∈ members B)), tsInCR.filter (fun t => decide (t ∉ members B))) := by
  have e0 : anyCompletion = TCR := rfl
  unfold splitOne
  dsimp only
  rw [if_neg (by simp [anyCompletion]), if_neg (by simp [anyCompletion]), e0]
  have hs : sub cfg TCR B = subWith TCR B (anyOpt (rel cfg TCR).1) := rfl
  have hf : sub cfg TCR B = some false := by
    rw [hs, subWith_gen h.noTop.1 (by simp [members, TCR]) h.noTop.2, if_neg, any_kinds (p := fun _ => false)]
    · simp
    · intro b hb
      obtain ⟨k', hk', rfl⟩ := (h.mem b).1 hb
      have h2 : (rel cfg TCR).1 (completionType k') = sub cfg TCR (completionType k') := rel_rec
      rw [h2, any_not_sub hr]
    · intro hsub
      obtain ⟨k', _, e⟩ := (h.mem _).1 (hsub (by simp [members, TCR] : TCR ∈ members TCR))
      simp [TCR, completionType] at e
  rw [hf]
  dsimp only
  rw [filter_all (fun b hb => by
    obtain ⟨k', hk', rfl⟩ := (h.mem b).1 hb
    exact sub_any hr (.inr ⟨k', h.sub k' hk', none, rfl⟩))]
  have hne : members B ≠ [] := by
    obtain ⟨k, hk⟩ := List.exists_mem_of_ne_nil _ h.ne
    intro e
    have := (h.mem (completionType k)).2 ⟨k, hk, rfl⟩
    rw [e] at this; simp at this
  have hsub : members B ⊆ tsInCR := by
    intro m hm
    obtain ⟨k', hk', rfl⟩ := (h.mem m).1 hm
    exact (mem_tsInCR _).2 ⟨k', h.sub k' hk', rfl⟩
  match hB : members B, hne with
  | b :: bs, _ =>
    dsimp only
    rw [hB] at hsub
    show (if TCR = TCR ∧ b :: bs ⊆ tsInCR then _ else none) = _
    rw [if_pos ⟨rfl, hsub⟩]

/-- Splitting a union of completions by some kinds. -/
theorem split_kinds (hr : Ready cfg) (ho : SetOrder ord) {A B : Ty} (hA : Distinct (members A)) {ks : List String} (hB : OfKinds ks B) :
    ∃ i o, splitBy cfg ord A B = some (i, o) ∧
      (∀ m, m ∈ members i ↔ ∃ k ∈ ks, ∃ u, m = comp k u ∧ (comp k u ∈ members A ∨ u = none ∧ anyCompletion ∈ members A)) ∧
      (∀ m, m ∈ members o ↔ ∃ k ∈ kinds, k ∉ ks ∧ ∃ u, m = comp k u ∧ (comp k u ∈ members A ∨ u = none ∧ anyCompletion ∈ members A)) := by
  unfold splitBy
  by_cases he : members A ⊆ members B ∧ members B ⊆ members A
  · rw [if_pos he]
    have hm : ∀ m, m ∈ members A ↔ ∃ k ∈ ks, m = completionType k := fun m => ⟨fun h => (hB.mem m).1 (he.1 h), fun h => he.2 ((hB.mem m).2 h)⟩
    have hany : anyCompletion ∉ members A := by
      intro h
      obtain ⟨k, _, e⟩ := (hm _).1 h
      exact comp_ne_any k none e.symm
    refine ⟨A, T0, rfl, fun m => ?_, fun m => ?_⟩
    · constructor
      · intro h
        obtain ⟨k, hk, e⟩ := (hm m).1 h
        exact ⟨k, hk, none, e, .inl (by rw [show comp k none = completionType k from rfl, ← e]; exact h)⟩
      · rintro ⟨k, hk, u, rfl, h | ⟨_, h⟩⟩
        · exact h
        · exact absurd h hany
    · constructor
      · intro h; simp [T0, members] at h
      · rintro ⟨k, hk, hnk, u, rfl, h | ⟨_, h⟩⟩
        · obtain ⟨k', hk', e⟩ := (hm _).1 h
          have := (comp_inj (u' := none) e).1
          subst this
          exact absurd hk' hnk
        · exact absurd h hany
  · rw [if_neg he]
    obtain ⟨i, o, hs, hi, hoo⟩ := splitRec_mem (cfg := cfg) (ord := ord) (n := (names cfg.tree).length) (bs := members B)
      (fun a m => ∃ k ∈ ks, ∃ u, m = comp k u ∧ (comp k u = a ∨ u = none ∧ anyCompletion = a))
      (fun a m => ∃ k ∈ kinds, k ∉ ks ∧ ∃ u, m = comp k u ∧ (comp k u = a ∨ u = none ∧ anyCompletion = a)) (as := members A) (B := B) (by
        intro a ha
        rcases hA.each a ha with rfl | ⟨k, hk, u, rfl⟩
        · refine ⟨_, split_one_any hr hB, fun m => ?_, fun m => ?_⟩
          · simp only [List.mem_filter, mem_tsInCR, decide_eq_true_eq, hB.mem]
            constructor
            · rintro ⟨_, k, hk, rfl⟩
              exact ⟨k, hk, none, rfl, .inr (by simp)⟩
            · rintro ⟨k, hk, u, rfl, e | ⟨rfl, _⟩⟩
              · exact absurd e (comp_ne_any k u)
              · exact ⟨⟨k, hB.sub k hk, rfl⟩, k, hk, rfl⟩
          · simp only [List.mem_filter, mem_tsInCR, decide_eq_true_eq, hB.mem]
            constructor
            · rintro ⟨⟨k, hk, rfl⟩, hno⟩
              exact ⟨k, hk, fun h => hno ⟨k, h, rfl⟩, none, rfl, .inr (by simp)⟩
            · rintro ⟨k, hk, hnk, u, rfl, e | ⟨rfl, _⟩⟩
              · exact absurd e (comp_ne_any k u)
              · refine ⟨⟨k, hk, rfl⟩, ?_⟩
                rintro ⟨k', hk', e⟩
                have := (comp_inj (u := none) (u' := none) e).1
                subst this
                exact hnk hk'
        · refine ⟨_, split_one_comp hr hB hk u, fun m => ?_, fun m => ?_⟩
          · by_cases hin : k ∈ ks
            · rw [if_pos hin, List.mem_singleton]
              constructor
              · rintro rfl; exact ⟨k, hin, u, rfl, .inl rfl⟩
              · rintro ⟨k', _, u', rfl, e | ⟨_, e⟩⟩
                · exact e
                · exact absurd e.symm (comp_ne_any k u)
            · rw [if_neg hin]
              constructor
              · intro h; simp at h
              · rintro ⟨k', hk', u', rfl, e | ⟨_, e⟩⟩
                · have := (comp_inj e).1
                  subst this
                  exact absurd hk' hin
                · exact absurd e.symm (comp_ne_any k u)
          · by_cases hin : k ∈ ks
            · rw [if_pos hin]
              constructor
              · intro h; simp at h
              · rintro ⟨k', _, hk', u', rfl, e | ⟨_, e⟩⟩
                · have := (comp_inj e).1
                  subst this
                  exact absurd hin hk'
                · exact absurd e.symm (comp_ne_any k u)
            · rw [if_neg hin, List.mem_singleton]
              constructor
              · rintro rfl; exact ⟨k, hk, hin, u, rfl, .inl rfl⟩
              · rintro ⟨k', _, _, u', rfl, e | ⟨_, e⟩⟩
                · exact e
                · exact absurd e.symm (comp_ne_any k u))
    rw [hs]
    have hi' : ∀ m, m ∈ i ↔ ∃ k ∈ ks, ∃ u, m = comp k u ∧ (comp k u ∈ members A ∨ u = none ∧ anyCompletion ∈ members A) := by
      intro m; rw [hi]
      constructor
      · rintro ⟨a, ha, k, hk, u, rfl, rfl | ⟨rfl, rfl⟩⟩
        · exact ⟨k, hk, u, rfl, .inl ha⟩
        · exact ⟨k, hk, none, rfl, .inr ⟨rfl, ha⟩⟩
      · rintro ⟨k, hk, u, rfl, h | ⟨rfl, h⟩⟩
        · exact ⟨_, h, k, hk, u, rfl, .inl rfl⟩
        · exact ⟨_, h, k, hk, none, rfl, .inr ⟨rfl, rfl⟩⟩
    have ho' : ∀ m, m ∈ o ↔ ∃ k ∈ kinds, k ∉ ks ∧ ∃ u, m = comp k u ∧ (comp k u ∈ members A ∨ u = none ∧ anyCompletion ∈ members A) := by
      intro m; rw [hoo]
      constructor
      · rintro ⟨a, ha, k, hk, hnk, u, rfl, rfl | ⟨rfl, rfl⟩⟩
        · exact ⟨k, hk, hnk, u, rfl, .inl ha⟩
        · exact ⟨k, hk, hnk, none, rfl, .inr ⟨rfl, ha⟩⟩
      · rintro ⟨k, hk, hnk, u, rfl, h | ⟨rfl, h⟩⟩
        · exact ⟨_, h, k, hk, hnk, u, rfl, .inl rfl⟩
        · exact ⟨_, h, k, hk, hnk, none, rfl, .inr ⟨rfl, rfl⟩⟩
    have hdis : ∀ l : List Ty, (∀ m ∈ l, ∃ k ∈ kinds, ∃ u, m = comp k u ∧ (comp k u ∈ members A ∨ u = none ∧ anyCompletion ∈ members A)) → Distinct l := by
      intro l hl
      refine ⟨fun m hm => ?_, fun k u u' h1 h2 => ?_, fun h k u _ => ?_⟩
      · obtain ⟨k, hk, u, rfl, _⟩ := hl m hm
        exact comp_isComp hk u
      · obtain ⟨k1, hk1, u1, e1, g1⟩ := hl _ h1
        obtain ⟨k2, hk2, u2, e2, g2⟩ := hl _ h2
        obtain ⟨rfl, rfl⟩ := comp_inj e1
        obtain ⟨e, rfl⟩ := comp_inj e2
        subst e
        rcases g1 with g1 | ⟨rfl, g1⟩ <;> rcases g2 with g2 | ⟨rfl, g2⟩
        · exact hA.one _ _ _ g1 g2
        · exact absurd g1 (hA.all g2 _ _)
        · exact absurd g2 (hA.all g1 _ _)
        · rfl
      · obtain ⟨k1, _, u1, e1, _⟩ := hl _ h
        exact comp_ne_any k1 u1 e1.symm
    obtain ⟨ti, hti, mti, _⟩ := union_comps (cfg := cfg) ho (ts := i) (hdis i (fun m hm => by
      obtain ⟨k, hk, r⟩ := (hi' m).1 hm; exact ⟨k, hB.sub k hk, r⟩))
    obtain ⟨to, hto, mto, _⟩ := union_comps (cfg := cfg) ho (ts := o) (hdis o (fun m hm => by
      obtain ⟨k, hk, _, r⟩ := (ho' m).1 hm; exact ⟨k, hk, r⟩))
    dsimp only
    rw [hti, hto]
    exact ⟨ti, to, rfl, fun m => by rw [mti, hi'], fun m => by rw [mto, ho']⟩

end Verif.Unwrap
