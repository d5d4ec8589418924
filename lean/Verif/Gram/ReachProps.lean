import Verif.Gram.ReachSpec
/-! # C29: reachability checks -/
namespace Verif.Gram
variable {S : Type} [DecidableEq S]

theorem itemTargets_spec {it : RItem S} : (∀ ss, itemTargets it = some ss → ∀ t, t ∈ ss ↔ Mentions it t) ∧
    (itemTargets it = none ↔ it = .other) := by
  refine ⟨fun ss h t => ?_, ?_⟩
  · cases it <;> simp only [itemTargets] at h <;> first | (injection h with h; subst h) | cases h
    all_goals simp [Mentions, eq_comm]
  · cases it <;> simp [itemTargets]

/-- The queue holds reached symbols. -/
theorem reach_mem (st : RState S) (s t : S) : t ∈ (reach st s).reached ↔ t = s ∨ t ∈ st.reached := by
  rw [reach]
  split
  · next h =>
    constructor
    · exact Or.inr
    · rintro (rfl | h')
      · exact h
      · exact h'
  · exact List.mem_cons

theorem reach_queue (st : RState S) (s t : S) : t ∈ (reach st s).queue ↔ t ∈ st.queue ∨ (t = s ∧ s ∉ st.reached) := by
  rw [reach]
  split
  · next h => simp [h]
  · next h =>
    dsimp only
    split
    · next hq =>
      constructor
      · exact Or.inl
      · rintro (h' | ⟨rfl, _⟩)
        · exact h'
        · exact hq
    · simp [h]

theorem reach_fold : ∀ (ss : List S) (st : RState S),
    (∀ t, t ∈ (ss.foldl reach st).reached ↔ t ∈ ss ∨ t ∈ st.reached) ∧
    (∀ t, t ∈ (ss.foldl reach st).queue ↔ t ∈ st.queue ∨ (t ∈ ss ∧ t ∉ st.reached))
  | [], st => by simp
  | s :: ss, st => by
    obtain ⟨h1, h2⟩ := reach_fold ss (reach st s)
    refine ⟨fun t => ?_, fun t => ?_⟩
    · rw [List.foldl_cons, h1, reach_mem, List.mem_cons]
      constructor
      · rintro (h | h | h)
        · exact Or.inl (Or.inr h)
        · exact Or.inl (Or.inl h)
        · exact Or.inr h
      · rintro ((h | h) | h)
        · exact Or.inr (Or.inl h)
        · exact Or.inl h
        · exact Or.inr (Or.inr h)
    · rw [List.foldl_cons, h2, reach_queue, reach_mem, List.mem_cons]
      constructor
      · rintro ((h | ⟨rfl, h⟩) | ⟨h, h'⟩)
        · exact Or.inl h
        · exact Or.inr ⟨Or.inl rfl, h⟩
        · exact Or.inr ⟨Or.inr h, fun hc => h' (Or.inr hc)⟩
      · rintro (h | ⟨rfl | h, h'⟩)
        · exact Or.inl (Or.inl h)
        · exact Or.inl (Or.inr ⟨rfl, h'⟩)
        · by_cases e : t = s
          · subst e; exact Or.inl (Or.inr ⟨rfl, h'⟩)
          · exact Or.inr ⟨h, fun hc => hc.elim e h'⟩

theorem reachItems_spec : ∀ (its : List (RItem S)) (st : RState S),
    (∀ st', reachItems st its = some st' →
      (∀ t, t ∈ st'.reached ↔ (∃ it ∈ its, Mentions it t) ∨ t ∈ st.reached) ∧
      (∀ t, t ∈ st'.queue ↔ t ∈ st.queue ∨ ((∃ it ∈ its, Mentions it t) ∧ t ∉ st.reached)) ∧ RItem.other ∉ its) ∧
    (reachItems st its = none → RItem.other ∈ its)
  | [], st => by
    refine ⟨fun st' h => ?_, fun h => by cases h⟩
    injection h with h; subst h
    simp
  | it :: its, st => by
    obtain ⟨t1, t2⟩ := itemTargets_spec (it := it)
    rw [reachItems]
    cases hi : itemTargets it with
    | none =>
      refine ⟨fun st' h => (by cases h), fun _ => ?_⟩
      rw [t2.mp hi]; exact List.mem_cons_self ..
    | some ss =>
      dsimp only
      obtain ⟨h1, h2⟩ := reachItems_spec its (ss.foldl reach st)
      obtain ⟨f1, f2⟩ := reach_fold ss st
      refine ⟨fun st' h => ?_, fun h => List.mem_cons_of_mem _ (h2 h)⟩
      obtain ⟨k1, k2, k3⟩ := h1 st' h
      refine ⟨fun t => ?_, fun t => ?_, ?_⟩
      · rw [k1, f1, t1 ss hi]
        simp only [List.mem_cons, exists_eq_or_imp]
        constructor
        · rintro (h | h | h)
          · exact Or.inl (Or.inr h)
          · exact Or.inl (Or.inl h)
          · exact Or.inr h
        · rintro ((h | h) | h)
          · exact Or.inr (Or.inl h)
          · exact Or.inl h
          · exact Or.inr (Or.inr h)
      · rw [k2, f2, f1, t1 ss hi]
        simp only [List.mem_cons, exists_eq_or_imp]
        constructor
        · rintro ((h | ⟨h, h'⟩) | ⟨h, h'⟩)
          · exact Or.inl h
          · exact Or.inr ⟨Or.inl h, h'⟩
          · exact Or.inr ⟨Or.inr h, fun hc => h' (Or.inr hc)⟩
        · rintro (h | ⟨h, h'⟩)
          · exact Or.inl (Or.inl h)
          · by_cases hm : Mentions it t
            · exact Or.inl (Or.inr ⟨hm, h'⟩)
            · exact Or.inr ⟨h.resolve_left hm, fun hc => hc.elim hm h'⟩
      · intro hm
        rcases List.mem_cons.mp hm with e | hm
        · rw [t2.mpr e.symm] at hi; cases hi
        · exact k3 hm

/-- The symbols that are not in the queue any more have been dealt with. -/
structure Inv (G : RGrammar S) (roots : List S) (st : RState S) : Prop where
  queued : ∀ s ∈ st.queue, s ∈ st.reached
  started : ∀ s ∈ roots, s ∈ st.reached
  sound : ∀ s ∈ st.reached, Reach (Uses G) roots s
  done : ∀ s ∈ st.reached, s ∉ st.queue → Readable G s ∧ ∀ t, Uses G s t → t ∈ st.reached

theorem uses_flatten {G : RGrammar S} {s t : S} {rhss : List (List (RItem S))} (h : G s = some rhss) :
    Uses G s t ↔ ∃ it ∈ rhss.flatten, Mentions it t := by
  constructor
  · rintro ⟨r, h1, rhs, h2, it, h3, h4⟩
    rw [h] at h1; injection h1 with h1; subst h1
    exact ⟨it, List.mem_flatten.mpr ⟨rhs, h2, h3⟩, h4⟩
  · rintro ⟨it, h1, h2⟩
    obtain ⟨rhs, h3, h4⟩ := List.mem_flatten.mp h1
    exact ⟨rhss, h, rhs, h3, it, h4, h2⟩

theorem readable_flatten {G : RGrammar S} {s : S} {rhss : List (List (RItem S))} (h : G s = some rhss) :
    Readable G s ↔ RItem.other ∉ rhss.flatten := by
  constructor
  · rintro ⟨r, h1, h2⟩ hm
    rw [h] at h1; injection h1 with h1; subst h1
    obtain ⟨rhs, h3, h4⟩ := List.mem_flatten.mp hm
    exact h2 rhs h3 h4
  · intro hn
    exact ⟨rhss, h, fun rhs h1 h2 => hn (List.mem_flatten.mpr ⟨rhs, h1, h2⟩)⟩

theorem reachLoop_spec {G : RGrammar S} {roots : List S} : ∀ (n : Nat) (st : RState S), Inv G roots st →
    (∀ st', reachLoop G n st = .ok st' → Inv G roots st' ∧ st'.queue = []) ∧
    (reachLoop G n st = .error .crash → ∃ s, Reach (Uses G) roots s ∧ ¬ Readable G s)
  | 0, st, _ => ⟨fun st' h => (by cases h), fun h => (by cases h)⟩
  | n + 1, st, hI => by
    rw [reachLoop]
    split
    · next hq =>
      refine ⟨fun st' h => ?_, fun h => by cases h⟩
      injection h with h; subst h
      exact ⟨hI, hq⟩
    · next s q hq =>
      have hs : s ∈ st.reached := hI.queued s (by rw [hq]; exact List.mem_cons_self ..)
      split
      · next hg =>
        refine ⟨fun st' h => (by cases h), fun _ => ⟨s, hI.sound s hs, ?_⟩⟩
        rintro ⟨r, h, _⟩
        rw [hg] at h; cases h
      · next rhss hg =>
        obtain ⟨k1, k2⟩ := reachItems_spec rhss.flatten { st with queue := q }
        split
        · next hr =>
          refine ⟨fun st' h => (by cases h), fun _ => ⟨s, hI.sound s hs, fun hread => ?_⟩⟩
          exact (readable_flatten hg).mp hread (k2 hr)
        · next st1 hr =>
          obtain ⟨m1, m2, m3⟩ := k1 st1 hr
          dsimp only at m1 m2
          refine reachLoop_spec n st1 ⟨?_, ?_, ?_, ?_⟩
          · intro t ht
            rcases (m2 t).mp ht with h | ⟨h, _⟩
            · exact (m1 t).mpr (Or.inr (hI.queued t (by rw [hq]; exact List.mem_cons_of_mem _ h)))
            · exact (m1 t).mpr (Or.inl h)
          · intro t ht
            exact (m1 t).mpr (Or.inr (hI.started t ht))
          · intro t ht
            rcases (m1 t).mp ht with h | h
            · exact .step (hI.sound s hs) ((uses_flatten hg).mpr h)
            · exact hI.sound t h
          · intro t ht hnq
            by_cases hts : t = s
            · subst hts
              exact ⟨(readable_flatten hg).mpr m3, fun u hu => (m1 u).mpr (Or.inl ((uses_flatten hg).mp hu))⟩
            · have hold : t ∈ st.reached := by
                rcases (m1 t).mp ht with h | h
                · apply Classical.byContradiction
                  intro hno
                  exact hnq ((m2 t).mpr (Or.inr ⟨h, hno⟩))
                · exact h
              have hnq' : t ∉ st.queue := by
                rw [hq]
                intro hc
                rcases List.mem_cons.mp hc with e | hc
                · exact hts e
                · exact hnq ((m2 t).mpr (Or.inl hc))
              obtain ⟨d1, d2⟩ := hI.done t hold hnq'
              exact ⟨d1, fun u hu => (m1 u).mpr (Or.inr (d2 u hu))⟩

theorem inv_start (G : RGrammar S) (roots : List S) : Inv G roots (roots.foldl reach ⟨[], []⟩) := by
  obtain ⟨h1, h2⟩ := reach_fold roots (⟨[], []⟩ : RState S)
  refine ⟨?_, ?_, ?_, ?_⟩
  · intro s hs
    rcases (h2 s).mp hs with h | ⟨h, _⟩
    · cases h
    · exact (h1 s).mpr (Or.inl h)
  · intro s hs
    exact (h1 s).mpr (Or.inl hs)
  · intro s hs
    rcases (h1 s).mp hs with h | h
    · exact .root h
    · cases h
  · intro s hs hn
    rcases (h1 s).mp hs with h | h
    · exact absurd ((h2 s).mpr (Or.inr ⟨h, by simp⟩)) hn
    · cases h

/-- C29.  If the worklist comes to an end, the symbols found are those that can be reached from the starting
symbols, no more and no less. -/
theorem c29_worklist {G : RGrammar S} {n : Nat} {roots found : List S} (h : lexicalSymbols G n roots = .ok found) (s : S) :
    s ∈ found ↔ Reach (Uses G) roots s := by
  rw [lexicalSymbols] at h
  split at h
  · cases h
  · next st hst =>
    injection h with h; subst h
    obtain ⟨hI, hq⟩ := (reachLoop_spec n _ (inv_start G roots)).1 st hst
    refine ⟨hI.sound s, fun hr => ?_⟩
    induction hr with
    | root h => exact hI.started _ h
    | step _ hn ih => exact (hI.done _ ih (by rw [hq]; simp)).2 _ hn

/-- C29.  The check fails only if a symbol that can be reached is not defined, or has an unexpected item in its
definition; and it does fail then. -/
theorem c29_worklist_fails {G : RGrammar S} {n : Nat} {roots : List S} :
    (lexicalSymbols G n roots = .error .crash → ∃ s, Reach (Uses G) roots s ∧ ¬ Readable G s) ∧
    (∀ found, lexicalSymbols G n roots = .ok found → ∀ s, Reach (Uses G) roots s → Readable G s) := by
  refine ⟨fun h => ?_, fun found h s hr => ?_⟩
  · rw [lexicalSymbols] at h
    split at h
    · next x hx =>
      injection h with h; subst h
      exact (reachLoop_spec n _ (inv_start G roots)).2 hx
    · cases h
  · have hs := (c29_worklist h s).mpr hr
    rw [lexicalSymbols] at h
    split at h
    · cases h
    · next st hst =>
      injection h with h; subst h
      obtain ⟨hI, hq⟩ := (reachLoop_spec n _ (inv_start G roots)).1 st hst
      exact (hI.done s hs (by rw [hq]; simp)).1

/-! ### Termination -/

theorem reach_nodup {st : RState S} (h : st.queue.Nodup) (s : S) : (reach st s).queue.Nodup := by
  rw [reach]
  split
  · exact h
  · dsimp only
    split
    · exact h
    · next hn =>
      rw [List.nodup_append]
      refine ⟨h, by simp, ?_⟩
      intro a ha b hb hab
      rw [List.mem_singleton] at hb
      subst hab hb
      exact hn ha

theorem reach_fold_nodup : ∀ (ss : List S) {st : RState S}, st.queue.Nodup → (ss.foldl reach st).queue.Nodup
  | [], _, h => h
  | s :: ss, _, h => reach_fold_nodup ss (reach_nodup h s)

theorem reachItems_nodup : ∀ (its : List (RItem S)) {st st' : RState S}, st.queue.Nodup → reachItems st its = some st' →
    st'.queue.Nodup
  | [], st, st', h, he => by injection he with he; subst he; exact h
  | it :: its, st, st', h, he => by
    rw [reachItems] at he
    split at he
    · cases he
    · exact reachItems_nodup its (reach_fold_nodup _ h) he

theorem reachLoop_terminates {G : RGrammar S} {U : List S} (hU : ∀ s t, s ∈ U → Uses G s t → t ∈ U) :
    ∀ (n : Nat) (st : RState S), st.queue.Nodup → (∀ s ∈ st.queue, s ∈ st.reached) → (∀ s ∈ st.reached, s ∈ U) →
      U.countP (fun s => decide (s ∈ st.queue ∨ s ∉ st.reached)) < n → reachLoop G n st ≠ .error .fuel
  | 0, _, _, _, _, h => absurd h (Nat.not_lt_zero _)
  | n + 1, st, hd, hq, hr, hc => by
    rw [reachLoop]
    split
    · intro h; cases h
    · next s q hsq =>
      split
      · intro h; cases h
      · next rhss hg =>
        obtain ⟨k1, _⟩ := reachItems_spec rhss.flatten { st with queue := q }
        split
        · intro h; cases h
        · next st1 hst =>
          obtain ⟨m1, m2, _⟩ := k1 st1 hst
          dsimp only at m1 m2
          rw [hsq] at hd
          have hs : s ∈ st.reached := hq s (by rw [hsq]; exact List.mem_cons_self ..)
          refine reachLoop_terminates hU n st1 (reachItems_nodup _ (List.nodup_cons.mp hd).2 hst) ?_ ?_ ?_
          · intro t ht
            rcases (m2 t).mp ht with h | ⟨h, _⟩
            · exact (m1 t).mpr (Or.inr (hq t (by rw [hsq]; exact List.mem_cons_of_mem _ h)))
            · exact (m1 t).mpr (Or.inl h)
          · intro t ht
            rcases (m1 t).mp ht with h | h
            · exact hU s t (hr s hs) ((uses_flatten hg).mpr h)
            · exact hr t h
          · refine Nat.lt_of_lt_of_le (countP_lt (v := s) ?_ (hr s hs) ?_ ?_) (Nat.le_of_lt_succ hc)
            · intro t _ ht
              simp only [decide_eq_true_eq] at ht ⊢
              rcases ht with ht | ht
              · rcases (m2 t).mp ht with h | ⟨_, h⟩
                · left; rw [hsq]; exact List.mem_cons_of_mem _ h
                · exact Or.inr h
              · exact Or.inr (fun h => ht ((m1 t).mpr (Or.inr h)))
            · simp only [decide_eq_false_iff_not]
              rintro (h | h)
              · rcases (m2 s).mp h with h | ⟨_, h⟩
                · exact (List.nodup_cons.mp hd).1 h
                · exact h hs
              · exact h ((m1 s).mpr (Or.inr hs))
            · simp only [decide_eq_true_eq]
              left; rw [hsq]; exact List.mem_cons_self ..

/-- C29.  The worklist comes to an end: if `U` is a list of symbols with all the starting symbols and all that they use, one
step for each of them is enough. -/
theorem c29_worklist_ends {G : RGrammar S} {U roots : List S} (hr : ∀ s ∈ roots, s ∈ U)
    (hU : ∀ s t, s ∈ U → Uses G s t → t ∈ U) {n : Nat} (hn : U.length < n) :
    lexicalSymbols G n roots ≠ .error .fuel := by
  have hI := inv_start G roots
  have h := reachLoop_terminates hU n (roots.foldl reach ⟨[], []⟩) (reach_fold_nodup _ List.nodup_nil) hI.queued (by
    intro s hs
    rcases ((reach_fold roots _).1 s).mp hs with h | h
    · exact hr s h
    · cases h) (Nat.lt_of_le_of_lt List.countP_le_length hn)
  rw [lexicalSymbols]
  split
  · next x hx =>
    intro he
    injection he with he
    rw [he] at hx
    exact h hx
  · intro he; cases he

/-- C29.  The symbols reported are the defined ones that have not one colon and cannot be reached. -/
theorem c29_report {G : RGrammar S} {n : Nat} {roots found : List S} (h : lexicalSymbols G n roots = .ok found)
    (nts : List (S × Nat)) (s : S) :
    s ∈ notReached found nts ↔ ∃ k, (s, k) ∈ nts ∧ k ≠ 1 ∧ ¬ Reach (Uses G) roots s := by
  rw [notReached]
  simp only [List.mem_map, List.mem_filter, Bool.and_eq_true, bne_iff_ne, ne_eq, Bool.not_eq_true',
    decide_eq_false_iff_not, Prod.exists, c29_worklist h]
  constructor
  · rintro ⟨a, k, ⟨h1, h2, h3⟩, rfl⟩; exact ⟨k, h1, h2, h3⟩
  · rintro ⟨k, h1, h2, h3⟩; exact ⟨s, k, ⟨h1, h2, h3⟩, rfl⟩

/-! ## The depth-first search -/

variable {callees : S → Option (List S)}

/-- The names that have been met. -/
def OState.met (st : OState S) (s : S) : Prop := s ∈ st.reached ∨ s ∈ st.unknown

/-- The marks are right: reached operations have an entry, the others do not. -/
def Marked (callees : S → Option (List S)) (st : OState S) : Prop :=
  (∀ s ∈ st.reached, callees s ≠ none) ∧ ∀ s ∈ st.unknown, callees s = none

/-- What a visit of `roots` does. -/
structure Visited (callees : S → Option (List S)) (roots : List S) (st st' : OState S) : Prop where
  marked : Marked callees st'
  grows : ∀ s, st.met s → st'.met s
  started : ∀ s ∈ roots, st'.met s
  sound : ∀ s, st'.met s → st.met s ∨ Reach (Calls callees) roots s
  closed : ∀ s t, st'.met s → Calls callees s t → st.met s ∨ st'.met t

theorem Reach.mono {next : S → S → Prop} {a b : List S} (h : ∀ s ∈ a, Reach next b s) {s : S} (hs : Reach next a s) :
    Reach next b s := by
  induction hs with
  | root hm => exact h _ hm
  | step _ hn ih => exact .step ih hn

theorem eachOp_visited {visit : OState S → S → Option (OState S)}
    (hv : ∀ st s st', Marked callees st → visit st s = some st' → Visited callees [s] st st') :
    ∀ (ss : List S) (st st' : OState S), Marked callees st → eachOp visit st ss = some st' → Visited callees ss st st'
  | [], st, st', hm, h => by
    injection h with h; subst h
    exact ⟨hm, fun _ h => h, (by simp), fun _ h => Or.inl h, fun _ _ h _ => Or.inl h⟩
  | s :: ss, st, st', hm, h => by
    rw [eachOp] at h
    split at h
    · cases h
    · next st1 h1 =>
      have v1 := hv st s st1 hm h1
      have v2 := eachOp_visited hv ss st1 st' v1.marked h
      refine ⟨v2.marked, fun t ht => v2.grows t (v1.grows t ht), ?_, ?_, ?_⟩
      · intro t ht
        rcases List.mem_cons.mp ht with rfl | ht
        · exact v2.grows t (v1.started t (List.mem_singleton.mpr rfl))
        · exact v2.started t ht
      · intro t ht
        rcases v2.sound t ht with h | h
        · rcases v1.sound t h with h | h
          · exact Or.inl h
          · refine Or.inr (Reach.mono ?_ h)
            intro x hx; rw [List.mem_singleton.mp hx]; exact .root (List.mem_cons_self ..)
        · exact Or.inr (Reach.mono (fun x hx => .root (List.mem_cons_of_mem _ hx)) h)
      · intro a b ha hab
        rcases v2.closed a b ha hab with h | h
        · rcases v1.closed a b h hab with h | h
          · exact Or.inl h
          · exact Or.inr (v2.grows b h)
        · exact Or.inr h

theorem reachOp_visited : ∀ (n : Nat) (st : OState S) (s : S) (st' : OState S), Marked callees st →
    reachOp callees n st s = some st' → Visited callees [s] st st'
  | 0, _, _, _, _, h => by cases h
  | n + 1, st, s, st', hm, h => by
    have same : st.met s → Visited callees [s] st st := fun hs =>
      ⟨hm, fun _ h => h, fun t ht => (by rw [List.mem_singleton.mp ht]; exact hs), fun _ h => Or.inl h, fun _ _ h _ => Or.inl h⟩
    rw [reachOp] at h
    split at h
    · next hu => injection h with h; subst h; exact same (Or.inr hu)
    · next hu =>
      split at h
      · next hc =>
        injection h with h; subst h
        refine ⟨⟨hm.1, fun t ht => ?_⟩, ?_, ?_, ?_, ?_⟩
        · rcases List.mem_cons.mp ht with rfl | ht
          · exact hc
          · exact hm.2 t ht
        · rintro t (h | h)
          · exact Or.inl h
          · exact Or.inr (List.mem_cons_of_mem _ h)
        · intro t ht; rw [List.mem_singleton.mp ht]; exact Or.inr (List.mem_cons_self ..)
        · rintro t (h | h)
          · exact Or.inl (Or.inl h)
          · rcases List.mem_cons.mp h with rfl | h
            · exact Or.inr (.root (List.mem_singleton.mpr rfl))
            · exact Or.inl (Or.inr h)
        · rintro a b (h | h) hab
          · exact Or.inl (Or.inl h)
          · rcases List.mem_cons.mp h with rfl | h
            · obtain ⟨cs, h1, _⟩ := hab
              rw [hc] at h1; cases h1
            · exact Or.inl (Or.inr h)
      · next cs hc =>
        split at h
        · next hr => injection h with h; subst h; exact same (Or.inl hr)
        · next hr =>
          have hm1 : Marked callees { st with reached := s :: st.reached } := by
            refine ⟨fun t ht => ?_, hm.2⟩
            rcases List.mem_cons.mp ht with rfl | ht
            · rw [hc]; nofun
            · exact hm.1 t ht
          have v := eachOp_visited (fun st s st' hm h => reachOp_visited n st s st' hm h) cs _ st' hm1 h
          have hs' : st'.met s := v.grows s (Or.inl (List.mem_cons_self ..))
          refine ⟨v.marked, ?_, ?_, ?_, ?_⟩
          · rintro t (h | h)
            · exact v.grows t (Or.inl (List.mem_cons_of_mem _ h))
            · exact v.grows t (Or.inr h)
          · intro t ht; rw [List.mem_singleton.mp ht]; exact hs'
          · intro t ht
            rcases v.sound t ht with (h | h) | h
            · rcases List.mem_cons.mp h with rfl | h
              · exact Or.inr (.root (List.mem_singleton.mpr rfl))
              · exact Or.inl (Or.inl h)
            · exact Or.inl (Or.inr h)
            · refine Or.inr (Reach.mono ?_ h)
              intro x hx
              exact .step (.root (List.mem_singleton.mpr rfl)) ⟨cs, hc, hx⟩
          · intro a b ha hab
            rcases v.closed a b ha hab with (h | h) | h
            · rcases List.mem_cons.mp h with rfl | h
              · obtain ⟨cs', h1, h2⟩ := hab
                rw [hc] at h1; injection h1 with h1; subst h1
                exact Or.inr (v.started b h2)
              · exact Or.inl (Or.inl h)
            · exact Or.inl (Or.inr h)
            · exact Or.inr h

/-- C29.  The depth-first search marks the operations that can be reached from the starting points and that have
an entry; those that can be reached and have no entry are recorded apart. -/
theorem c29_operations {n : Nat} {roots : List S} {st : OState S} (h : reachAll callees n roots = some st) (s : S) :
    (s ∈ st.reached ↔ Reach (Calls callees) roots s ∧ callees s ≠ none) ∧
    (s ∈ st.unknown ↔ Reach (Calls callees) roots s ∧ callees s = none) := by
  have v := eachOp_visited (fun st s st' hm h => reachOp_visited n st s st' hm h) roots ⟨[], []⟩ st
    ⟨(by simp), (by simp)⟩ h
  have hno : ∀ t, ¬ OState.met (⟨[], []⟩ : OState S) t := by rintro t (h | h) <;> cases h
  have hmet : st.met s ↔ Reach (Calls callees) roots s := by
    refine ⟨fun hs => (v.sound s hs).resolve_left (hno s), fun hr => ?_⟩
    induction hr with
    | root h => exact v.started _ h
    | step _ hn ih => exact (v.closed _ _ ih hn).resolve_left (hno _)
  refine ⟨⟨fun hs => ⟨hmet.mp (Or.inl hs), v.marked.1 s hs⟩, fun ⟨hr, hc⟩ => ?_⟩,
    ⟨fun hs => ⟨hmet.mp (Or.inr hs), v.marked.2 s hs⟩, fun ⟨hr, hc⟩ => ?_⟩⟩
  · rcases hmet.mpr hr with h | h
    · exact h
    · exact absurd (v.marked.2 s h) hc
  · rcases hmet.mpr hr with h | h
    · exact absurd hc (v.marked.1 s h)
    · exact h

/-- The operations not yet marked. -/
def unmarked (ops : List S) (st : OState S) : Nat := ops.countP (fun s => decide (s ∉ st.reached))

theorem unmarked_le (ops : List S) {st st' : OState S} (h : ∀ s ∈ st.reached, s ∈ st'.reached) :
    unmarked ops st' ≤ unmarked ops st := by
  apply List.countP_mono_left
  intro s _ hs
  simp only [decide_eq_true_eq] at hs ⊢
  exact fun hc => hs (h s hc)

theorem eachOp_ends {visit : OState S → S → Option (OState S)} {k : Nat} {ops : List S}
    (hv : ∀ st s, unmarked ops st ≤ k → ∃ st', visit st s = some st' ∧ ∀ t ∈ st.reached, t ∈ st'.reached) :
    ∀ (ss : List S) (st : OState S), unmarked ops st ≤ k →
      ∃ st', eachOp visit st ss = some st' ∧ ∀ t ∈ st.reached, t ∈ st'.reached
  | [], st, _ => ⟨st, rfl, fun _ h => h⟩
  | s :: ss, st, hk => by
    obtain ⟨st1, h1, h2⟩ := hv st s hk
    obtain ⟨st2, h3, h4⟩ := eachOp_ends hv ss st1 (Nat.le_trans (unmarked_le ops h2) hk)
    exact ⟨st2, (by rw [eachOp, h1]; exact h3), fun t ht => h4 t (h2 t ht)⟩

theorem reachOp_ends {ops : List S} (hops : ∀ s, callees s ≠ none → s ∈ ops) : ∀ (n : Nat) (st : OState S) (s : S),
    unmarked ops st < n → ∃ st', reachOp callees n st s = some st' ∧ ∀ t ∈ st.reached, t ∈ st'.reached
  | 0, _, _, h => absurd h (Nat.not_lt_zero _)
  | n + 1, st, s, h => by
    rw [reachOp]
    split
    · exact ⟨st, rfl, fun _ h => h⟩
    · split
      · exact ⟨_, rfl, fun _ h => h⟩
      · next cs hc =>
        split
        · exact ⟨st, rfl, fun _ h => h⟩
        · next hr =>
          have hlt : unmarked ops { st with reached := s :: st.reached } < n := by
            refine Nat.lt_of_lt_of_le (countP_lt (v := s) ?_ (hops s (by rw [hc]; nofun)) ?_ ?_) (Nat.le_of_lt_succ h)
            · intro t _ ht
              simp only [decide_eq_true_eq] at ht ⊢
              exact fun hc => ht (List.mem_cons_of_mem _ hc)
            · simp
            · simpa using hr
          cases n with
          | zero => omega
          | succ m =>
            obtain ⟨st', h1, h2⟩ := eachOp_ends (k := m) (ops := ops) (fun st s hk => reachOp_ends hops (m + 1) st s (by omega)) cs _ (Nat.le_of_lt_succ hlt)
            exact ⟨st', h1, fun t ht => h2 t (List.mem_cons_of_mem _ ht)⟩

/-- C29.  The search comes to an end, whatever the calls: its depth is at most the number of operations. -/
theorem c29_operations_end {ops : List S} (hops : ∀ s, callees s ≠ none → s ∈ ops) {n : Nat} (hn : ops.length < n)
    (roots : List S) : ∃ st, reachAll callees n roots = some st := by
  cases n with
  | zero => omega
  | succ m =>
    obtain ⟨st, h, _⟩ := eachOp_ends (k := m) (ops := ops) (fun st s hk => reachOp_ends hops (m + 1) st s (by omega)) roots ⟨[], []⟩
      (Nat.le_trans List.countP_le_length (by omega))
    exact ⟨st, h⟩

/-! ## Cases -/

/-- Symbol 0 uses 1 and looks ahead for 2; 1 uses itself and excludes 3; 4 is never used. -/
def exReach : RGrammar Nat
  | 0 => some [[.gnt 1, .quiet], [.lacSet (some 2)]]
  | 1 => some [[.qm (some 1), .butNot [none, some 3]]]
  | 2 => some [[.quiet]]
  | 3 => some []
  | 4 => some [[.gnt 0]]
  | _ => none

example : lexicalSymbols exReach 6 [0] = .ok [3, 2, 1, 0] := rfl
example : notReached [3, 2, 1, 0] [(0, 2), (1, 2), (2, 2), (3, 2), (4, 2), (4, 1)] = [4] := rfl
/-- A use of something that is not defined. -/
example : lexicalSymbols exReach 6 [0, 5] = .error .crash := rfl
/-- A cycle, and a call of an operation without an entry. -/
example : (reachAll (fun s : Nat => if s = 0 then some [1, 7] else if s = 1 then some [0] else if s = 2 then some [0] else none) 4 [0]) =
    some ⟨[1, 0], [7]⟩ := rfl

end Verif.Gram
