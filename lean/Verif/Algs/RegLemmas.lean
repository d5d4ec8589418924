import Verif.Algs.HeadLemmas
/-!
# The registry
-/
namespace Verif.Algs
open Deps (Begins startsWith startsWith_iff)
open Style (Pairs)

/-- One mention, in one of the tables. -/
def enter (t : List (String × Alg)) (m : Mention) : Option (List (String × Alg)) := ensure m.species m.name m.header.toList t

/-- One mention, in the registry. -/
def put (reg : Reg) (m : Mention) : Option Reg := ensureAlg reg m.species m.name m.header.toList

theorem ensure_new (s n : String) (hs : List Header) : ∀ t : List (String × Alg), (∀ a, (n, a) ∉ t) → ensure s n hs t = some (t ++ [(n, ⟨s, hs⟩)])
  | [], _ => rfl
  | (n', a) :: t, h => by
    have hne : n' ≠ n := fun e => h a (by rw [e]; exact List.mem_cons_self ..)
    rw [ensure, if_neg hne, ensure_new s n hs t (fun a' ha => h a' (List.mem_cons_of_mem _ ha))]
    rfl

theorem ensure_old (s n : String) (hs : List Header) (a : Alg) (t2 : List (String × Alg)) : ∀ t1 : List (String × Alg), (∀ a', (n, a') ∉ t1) →
    ensure s n hs (t1 ++ (n, a) :: t2) = if a.species = s then some (t1 ++ (n, { a with headers := a.headers ++ hs }) :: t2) else none
  | [], _ => by simp [ensure]
  | (n', a') :: t1, h => by
    have hne : n' ≠ n := fun e => h a' (by rw [e]; exact List.mem_cons_self ..)
    rw [List.cons_append, ensure, if_neg hne, ensure_old s n hs a t2 t1 (fun a' ha => h a' (List.mem_cons_of_mem _ ha))]
    by_cases he : a.species = s
    · rw [if_pos he, if_pos he]; rfl
    · rw [if_neg he, if_neg he]; rfl

theorem split_first (n : String) : ∀ t : List (String × Alg), (∃ a, (n, a) ∈ t) → ∃ t1 a t2, t = t1 ++ (n, a) :: t2 ∧ ∀ a', (n, a') ∉ t1
  | (n', a) :: t, h => by
    by_cases e : n' = n
    · subst e; exact ⟨[], a, t, rfl, by simp⟩
    · obtain ⟨a', h⟩ := h
      rcases List.mem_cons.1 h with h | h
      · cases h; exact absurd rfl e
      · obtain ⟨t1, b, t2, rfl, h2⟩ := split_first n t ⟨a', h⟩
        refine ⟨(n', a) :: t1, b, t2, rfl, fun c hc => ?_⟩
        rcases List.mem_cons.1 hc with hc | hc
        · cases hc; exact e rfl
        · exact h2 c hc

theorem sooner_mono {ms : List Mention} {m : Mention} {x y : String} (h : Sooner ms x y) : Sooner (ms ++ [m]) x y := by
  obtain ⟨pre, m', post, rfl, h1, h2, h3⟩ := h
  exact ⟨pre, m', post ++ [m], by simp, h1, h2, h3⟩

theorem order_map {ms : List Mention} {t : List (String × Alg)} : t.Pairwise (fun x y => Sooner ms x.1 y.1) ↔ (t.map (·.1)).Pairwise (Sooner ms) := by
  rw [List.pairwise_map]

theorem table_unique {ms : List Mention} {t : List (String × Alg)} (h : Table ms t) {n : String} {a a' : Alg} (h1 : (n, a) ∈ t) (h2 : (n, a') ∈ t) : a = a' := by
  have key : ∀ t : List (String × Alg), t.Pairwise (fun x y => Sooner ms x.1 y.1) → (n, a) ∈ t → (n, a') ∈ t → a = a' := by
    intro t
    induction t with
    | nil => intro _ h; cases h
    | cons x t ih =>
      intro hp h1 h2
      rw [List.pairwise_cons] at hp
      have nope : ∀ b, (n, b) ∈ t → x.1 ≠ n := fun b hb => by
        obtain ⟨_, _, _, _, _, h, _⟩ := hp.1 _ hb
        exact h
      rcases List.mem_cons.1 h1 with e1 | g1 <;> rcases List.mem_cons.1 h2 with e2 | g2
      · rw [← e1] at e2; cases e2; rfl
      · exact absurd (by rw [← e1]) (nope _ g2)
      · exact absurd (by rw [← e2]) (nope _ g1)
      · exact ih hp.2 g1 g2
  exact key t h.order h1 h2

theorem table_step {ms : List Mention} {t t' : List (String × Alg)} {m : Mention} (h : Table ms t) (he : enter t m = some t') : Table (ms ++ [m]) t' := by
  unfold enter at he
  have filt : ∀ n, (ms ++ [m]).filterMap (fun m => if m.name = n then m.header else none) =
      ms.filterMap (fun m => if m.name = n then m.header else none) ++ (if m.name = n then m.header.toList else []) := by
    intro n
    rw [List.filterMap_append]
    congr 1
    by_cases hn : m.name = n
    · rw [if_pos hn]; cases hm : m.header <;> simp [hn, hm]
    · simp [hn]
  by_cases hin : ∃ a, (m.name, a) ∈ t
  · obtain ⟨t1, a, t2, rfl, h1⟩ := split_first m.name t hin
    rw [ensure_old _ _ _ _ _ _ h1] at he
    split at he
    · rename_i hs
      cases he
      have mem : ∀ n b, (n, b) ∈ t1 ++ (m.name, { a with headers := a.headers ++ m.header.toList }) :: t2 →
          (n = m.name ∧ b = { a with headers := a.headers ++ m.header.toList }) ∨ (n ≠ m.name ∧ (n, b) ∈ t1 ++ (m.name, a) :: t2) := by
        intro n b hb
        rcases List.mem_append.1 hb with hb | hb
        · exact Or.inr ⟨fun e => h1 b (e ▸ hb), List.mem_append_left _ hb⟩
        · rcases List.mem_cons.1 hb with hb | hb
          · cases hb; exact Or.inl ⟨rfl, rfl⟩
          · refine Or.inr ⟨fun e => ?_, List.mem_append_right _ (List.mem_cons_of_mem _ hb)⟩
            have := (List.pairwise_append.1 h.order).2.1
            rw [List.pairwise_cons] at this
            obtain ⟨_, _, _, _, _, h, _⟩ := this.1 _ hb
            exact h e.symm
      refine ⟨fun n => ?_, ?_, fun n b hb x hx hn => ?_, fun n b hb => ?_⟩
      · have := h.names n
        simp only [List.mem_append, List.mem_cons, List.mem_singleton, List.not_mem_nil, or_false] at this ⊢
        constructor
        · rintro ⟨b, hb⟩
          rcases mem n b (by simpa using hb) with ⟨e, _⟩ | ⟨_, g⟩
          · exact ⟨m, Or.inr rfl, e.symm⟩
          · obtain ⟨x, hx, hn⟩ := this.1 ⟨b, by simpa using g⟩
            exact ⟨x, Or.inl hx, hn⟩
        · rintro ⟨x, hx | rfl, hn⟩
          · obtain ⟨b, hb⟩ := this.2 ⟨x, hx, hn⟩
            rcases hb with hb | hb | hb
            · exact ⟨b, Or.inl hb⟩
            · exact ⟨_, Or.inr (Or.inl (by cases hb; rfl))⟩
            · exact ⟨b, Or.inr (Or.inr hb)⟩
          · exact ⟨_, Or.inr (Or.inl (by rw [hn]))⟩
      · have := order_map.1 h.order
        rw [order_map]
        simp only [List.map_append, List.map_cons] at this ⊢
        exact this.imp sooner_mono
      · rcases mem n b hb with ⟨rfl, rfl⟩ | ⟨hne, g⟩
        · rcases List.mem_append.1 hx with hx | hx
          · exact h.species _ _ (List.mem_append_right _ (List.mem_cons_self ..)) x hx hn
          · rw [List.mem_singleton] at hx; subst hx; exact hs.symm
        · rcases List.mem_append.1 hx with hx | hx
          · exact h.species _ _ g x hx hn
          · rw [List.mem_singleton] at hx; subst hx; exact absurd hn.symm hne
      · rw [filt]
        rcases mem n b hb with ⟨rfl, rfl⟩ | ⟨hne, g⟩
        · rw [if_pos rfl, ← h.headers _ _ (List.mem_append_right _ (List.mem_cons_self ..))]
        · rw [if_neg (Ne.symm hne), List.append_nil, ← h.headers _ _ g]
    · cases he
  · have hin : ∀ a, (m.name, a) ∉ t := fun a ha => hin ⟨a, ha⟩
    have hno : ∀ x ∈ ms, x.name ≠ m.name := fun x hx e => by
      obtain ⟨a, ha⟩ := (h.names m.name).2 ⟨x, hx, e⟩
      exact hin a ha
    rw [ensure_new _ _ _ _ hin] at he
    cases he
    refine ⟨fun n => ?_, ?_, fun n b hb x hx hn => ?_, fun n b hb => ?_⟩
    · have := h.names n
      constructor
      · rintro ⟨b, hb⟩
        rcases List.mem_append.1 hb with hb | hb
        · obtain ⟨x, hx, hn⟩ := this.1 ⟨b, hb⟩
          exact ⟨x, List.mem_append_left _ hx, hn⟩
        · rw [List.mem_singleton] at hb; cases hb
          exact ⟨m, by simp, rfl⟩
      · rintro ⟨x, hx, hn⟩
        rcases List.mem_append.1 hx with hx | hx
        · obtain ⟨b, hb⟩ := this.2 ⟨x, hx, hn⟩
          exact ⟨b, List.mem_append_left _ hb⟩
        · rw [List.mem_singleton] at hx; subst hx
          exact ⟨_, List.mem_append_right _ (by rw [hn]; exact List.mem_singleton.2 rfl)⟩
    · rw [List.pairwise_append]
      refine ⟨h.order.imp sooner_mono, List.pairwise_singleton _ _, ?_⟩
      rintro ⟨n, a⟩ hx y hy
      rw [List.mem_singleton] at hy; subst hy
      obtain ⟨x, hx', hn⟩ := (h.names n).1 ⟨a, hx⟩
      obtain ⟨pre, post, rfl⟩ := List.append_of_mem hx'
      refine ⟨pre, x, post ++ [m], by simp, hn, ?_, fun z hz => hno z (List.mem_append_left _ hz)⟩
      rintro rfl
      exact hin a hx
    · rcases List.mem_append.1 hb with hb | hb
      · rcases List.mem_append.1 hx with hx | hx
        · exact h.species _ _ hb x hx hn
        · rw [List.mem_singleton.1 hx] at hn; exact absurd (by rw [hn]; exact hb) (hin b)
      · rw [List.mem_singleton] at hb; cases hb
        rcases List.mem_append.1 hx with hx | hx
        · exact absurd hn (hno x hx)
        · rw [List.mem_singleton] at hx; subst hx; rfl
    · rw [filt]
      rcases List.mem_append.1 hb with hb | hb
      · rw [if_neg (fun e => hin b (by rw [e]; exact hb)), List.append_nil]
        exact h.headers _ _ hb
      · rw [List.mem_singleton] at hb; cases hb
        rw [if_pos rfl, List.filterMap_eq_nil_iff.2 (fun x hx => if_neg (hno x hx)), List.nil_append]

/-- The mentions of a name agree on the species. -/
def Agree1 (ms : List Mention) : Prop := ∀ m ∈ ms, ∀ m' ∈ ms, m.name = m'.name → m.species = m'.species

theorem enter_none {ms : List Mention} {t : List (String × Alg)} {m : Mention} (h : Table ms t) (ha : Agree1 ms) : enter t m = none ↔ ¬ Agree1 (ms ++ [m]) := by
  unfold enter
  by_cases hin : ∃ a, (m.name, a) ∈ t
  · obtain ⟨t1, a, t2, rfl, h1⟩ := split_first m.name t hin
    rw [ensure_old _ _ _ _ _ _ h1]
    have hm : (m.name, a) ∈ t1 ++ (m.name, a) :: t2 := List.mem_append_right _ (List.mem_cons_self ..)
    obtain ⟨x, hx, hn⟩ := (h.names m.name).1 ⟨a, hm⟩
    have hsx := h.species _ _ hm x hx hn
    by_cases hs : a.species = m.species
    · rw [if_pos hs]
      simp only [reduceCtorEq, false_iff, Classical.not_not]
      intro y hy z hz e
      have one : ∀ y ∈ ms, y.name = m.name → y.species = m.species := fun y hy e => by rw [h.species _ _ hm y hy e, hs]
      rcases List.mem_append.1 hy with gy | gy <;> rcases List.mem_append.1 hz with gz | gz
      · exact ha y gy z gz e
      · rw [List.mem_singleton.1 gz] at e ⊢; exact one y gy e
      · rw [List.mem_singleton.1 gy] at e ⊢; exact (one z gz e.symm).symm
      · rw [List.mem_singleton.1 gy, List.mem_singleton.1 gz]
    · rw [if_neg hs]
      simp only [true_iff]
      intro hA
      exact hs (hsx.symm.trans (hA x (List.mem_append_left _ hx) m (by simp) hn))
  · have hin : ∀ a, (m.name, a) ∉ t := fun a ha => hin ⟨a, ha⟩
    have hno : ∀ x ∈ ms, x.name ≠ m.name := fun x hx e => by
      obtain ⟨a, ha⟩ := (h.names m.name).2 ⟨x, hx, e⟩
      exact hin a ha
    rw [ensure_new _ _ _ _ hin]
    simp only [reduceCtorEq, false_iff, Classical.not_not]
    intro y hy z hz e
    rcases List.mem_append.1 hy with gy | gy <;> rcases List.mem_append.1 hz with gz | gz
    · exact ha y gy z gz e
    · rw [List.mem_singleton.1 gz] at e; exact absurd e (hno y gy)
    · rw [List.mem_singleton.1 gy] at e; exact absurd e.symm (hno z gz)
    · rw [List.mem_singleton.1 gy, List.mem_singleton.1 gz]

theorem enter_all : ∀ (ms ms0 : List Mention) (t : List (String × Alg)), Table ms0 t → Agree1 ms0 →
    (∀ t', ms.foldlM enter t = some t' → Table (ms0 ++ ms) t') ∧ (ms.foldlM enter t = none ↔ ¬ Agree1 (ms0 ++ ms))
  | [], ms0, t, h, ha => by
    rw [List.append_nil]
    refine ⟨fun t' ht => ?_, ?_⟩
    · cases ht; exact h
    · simp [ha]
  | m :: ms, ms0, t, h, ha => by
    rw [List.foldlM_cons]
    have e : ms0 ++ m :: ms = (ms0 ++ [m]) ++ ms := by simp
    rw [e]
    cases he : enter t m with
    | none =>
      refine ⟨fun t' ht => (by cases ht), ?_⟩
      have := (enter_none h ha).1 he
      refine ⟨fun _ hA => this (fun x hx y hy => hA x (List.mem_append_left _ hx) y (List.mem_append_left _ hy)), fun _ => rfl⟩
    | some t1 =>
      have hA : Agree1 (ms0 ++ [m]) := Classical.byContradiction fun g => by rw [(enter_none h ha).2 g] at he; cases he
      exact enter_all ms (ms0 ++ [m]) t1 (table_step h he) hA

theorem table_nil : Table [] [] := ⟨fun n => by simp, .nil, fun n a h => (by cases h), fun n a h => (by cases h)⟩

/-! ### Both tables -/

/-- Whether it is a built-in function. -/
def isBif (m : Mention) : Bool := startsWith "bif:" m.species

theorem put_all : ∀ (ms : List Mention) (o b : List (String × Alg)), ms.foldlM put ⟨o, b⟩ =
    (match (ms.filter (fun m => !isBif m)).foldlM enter o, (ms.filter isBif).foldlM enter b with
    | some o', some b' => some ⟨o', b'⟩
    | _, _ => none)
  | [], o, b => rfl
  | m :: ms, o, b => by
    rw [List.foldlM_cons]
    by_cases hb : isBif m = true
    · rw [List.filter_cons_of_neg (by simp [hb]), List.filter_cons_of_pos hb, List.foldlM_cons]
      have : put ⟨o, b⟩ m = (enter b m).map (fun t => ⟨o, t⟩) := by rw [put, ensureAlg, if_pos (show startsWith "bif:" m.species = true from hb)]; rfl
      rw [this]
      cases he : enter b m with
      | none =>
        simp only [Option.map_none, Option.bind_eq_bind, Option.bind_none]
        cases List.foldlM enter o (ms.filter (fun m => !isBif m)) <;> rfl
      | some b1 => exact put_all ms o b1
    · have hb' : isBif m = false := by simpa using hb
      rw [List.filter_cons_of_pos (by simp [hb']), List.filter_cons_of_neg hb, List.foldlM_cons]
      have : put ⟨o, b⟩ m = (enter o m).map (fun t => ⟨t, b⟩) := by rw [put, ensureAlg, if_neg (show ¬ startsWith "bif:" m.species = true from hb)]; rfl
      rw [this]
      cases he : enter o m with
      | none => rfl
      | some o1 => exact put_all ms o1 b

theorem parted_filter (ms : List Mention) : Parted ms (ms.filter isBif) (ms.filter (fun m => !isBif m)) := by
  refine ⟨⟨List.filter_sublist, fun m hm => ?_⟩, ⟨List.filter_sublist, fun m hm => ?_⟩, ?_⟩
  · exact (startsWith_iff _ _).1 (List.mem_filter.1 hm).2
  · intro hb
    have := (List.mem_filter.1 hm).2
    rw [isBif, (startsWith_iff _ _).2 hb] at this
    cases this
  · induction ms with
    | nil => rfl
    | cons m ms ih =>
      by_cases hb : isBif m = true
      · rw [List.filter_cons_of_pos hb, List.filter_cons_of_neg (by simp [hb])]
        simp only [List.length_cons]; omega
      · rw [List.filter_cons_of_neg hb, List.filter_cons_of_pos (by simpa using hb)]
        simp only [List.length_cons]; omega

theorem agree_iff (ms : List Mention) : Agree ms ↔ Agree1 (ms.filter isBif) ∧ Agree1 (ms.filter (fun m => !isBif m)) := by
  have hk : ∀ m : Mention, isBif m = true ↔ Begins "bif:" m.species := fun m => startsWith_iff _ _
  constructor
  · intro h
    refine ⟨fun m hm m' hm' e => ?_, fun m hm m' hm' e => ?_⟩
    · rw [List.mem_filter, hk] at hm hm'
      exact h m hm.1 m' hm'.1 e ⟨fun _ => hm'.2, fun _ => hm.2⟩
    · simp only [List.mem_filter, Bool.not_eq_true', ← Bool.not_eq_true, hk] at hm hm'
      exact h m hm.1 m' hm'.1 e ⟨fun g => absurd g hm.2, fun g => absurd g hm'.2⟩
  · rintro ⟨h1, h2⟩ m hm m' hm' e hb
    rw [← hk, ← hk] at hb
    by_cases g : isBif m = true
    · exact h1 m (List.mem_filter.2 ⟨hm, g⟩) m' (List.mem_filter.2 ⟨hm', hb.1 g⟩) e
    · have g' : ¬ isBif m' = true := fun x => g (hb.2 x)
      exact h2 m (List.mem_filter.2 ⟨hm, by simpa using g⟩) m' (List.mem_filter.2 ⟨hm', by simpa using g'⟩) e

/-- What the step of an event does. -/
theorem step_iff (reg reg' : Reg) (e : Event) : step reg e = some reg' ↔ ∃ m, Mentions e m ∧ put reg m = some reg' := by
  cases e with
  | ensure s n =>
    constructor
    · intro h; exact ⟨_, .plain, h⟩
    · rintro ⟨_, h1, h2⟩; cases h1; exact h2
  | header r =>
    rw [step]
    constructor
    · intro h
      cases hf : finish r with
      | none => rw [hf] at h; cases h
      | some x => rw [hf] at h; exact ⟨_, .header ((finish_iff r x).1 hf), h⟩
    · rintro ⟨_, h1, h2⟩
      cases h1 with
      | header h => rw [(finish_iff _ _).2 h]; exact h2

theorem run_from : ∀ (evs : List Event) (reg reg' : Reg), evs.foldlM step reg = some reg' ↔ ∃ ms, Pairs Mentions evs ms ∧ ms.foldlM put reg = some reg'
  | [], reg, reg' => by
    constructor
    · intro h; exact ⟨[], .nil, h⟩
    · rintro ⟨_, h1, h2⟩; cases h1; exact h2
  | e :: evs, reg, reg' => by
    rw [List.foldlM_cons]
    simp only [Option.bind_eq_bind, Option.bind_eq_some_iff, step_iff, run_from evs]
    constructor
    · rintro ⟨r1, ⟨m, h1, h2⟩, ms, h3, h4⟩
      exact ⟨m :: ms, .cons h1 h3, by rw [List.foldlM_cons]; simp only [Option.bind_eq_bind, Option.bind_eq_some_iff]; exact ⟨r1, h2, h4⟩⟩
    · rintro ⟨_, h1, h2⟩
      cases h1 with
      | @cons _ m _ ms h1 h3 =>
        rw [List.foldlM_cons] at h2
        simp only [Option.bind_eq_bind, Option.bind_eq_some_iff] at h2
        obtain ⟨r1, h2, h4⟩ := h2
        exact ⟨r1, ⟨m, h1, h2⟩, ms, h3, h4⟩

end Verif.Algs
