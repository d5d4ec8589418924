import Verif.Deps.AlgLemmas
import Verif.Gram.ReachProps
/-!
# Lemmas about the loops
-/
namespace Verif.Deps

/-- The asserts of the first loop. -/
def okAlg (a : Alg) : Bool := (a.name == earlyErrors || (algWalk a).all (fun e => okEmb e.2.2)) && !(decide (a.name = hostLoad ∧ a.defns ≠ []))

def callsOf (a : Alg) : List (String × String × Inv) := (algWalk a).flatMap (fun e => sectNamed e.2)

def calleeSet (a : Alg) : List String :=
  if a.name = hostLoad then add finishLoad (toSet ((callsOf a).map (·.2.1))) else toSet ((callsOf a).map (·.2.1))

def algPart (a : Alg) : Part := .alg a.name a.species a.defns.length (sortNames (calleeSet a))

def algMsgs (S : Spec) (a : Alg) : List Msg :=
  ((callsOf a).filter (fun c => !S.isOp c.2.1)).map (fun c => .noEntryIn c.2.1 a.name c.1)
    ++ ((S.enum (calleeSet a)).filter (fun c => !S.isOp c)).map (fun c => .noEntry c a.name)

/-- The state after a list of algorithms. -/
def after (S : Spec) (isOp : Bool) (as : List Alg) (st : St) : St where
  invs := st.invs ++ as.flatMap (fun a => ((callsOf a).map (·.2)).filter (fun p => S.isOp p.1))
  opCallees := if isOp then st.opCallees ++ as.map (fun a => (a.name, calleeSet a)) else st.opCallees
  bifCallees := if isOp then st.bifCallees else st.bifCallees ++ as.map (fun a => (a.name, calleeSet a))
  callers := st.callers ++ as.flatMap (fun a => ((S.enum (calleeSet a)).filter S.isOp).map (fun c => (c, a.name)))
  msgs := st.msgs ++ as.flatMap (algMsgs S)
  out := st.out ++ as.map algPart

theorem step_eq (S : Spec) (isOp : Bool) (a : Alg) (st : St) : step S isOp a st = if okAlg a then some (after S isOp [a] st) else none := by
  rw [step, algCalls_walk]
  unfold okAlg
  cases (a.name == earlyErrors || (algWalk a).all (fun e => okEmb e.2.2)) with
  | false => simp
  | true =>
    by_cases h : a.name = hostLoad ∧ a.defns ≠ []
    · simp [h]
    · simp only [if_true, Option.bind_eq_bind, Option.bind_some, if_neg h, Bool.true_and, decide_eq_false h, Bool.not_false]
      simp [after, calleeSet, callsOf, algPart, algMsgs]

theorem steps_eq (S : Spec) (isOp : Bool) : ∀ (as : List Alg) (st : St), steps S isOp as st = if as.all okAlg then some (after S isOp as st) else none
  | [], st => by cases isOp <;> simp [steps, after]
  | a :: as, st => by
    rw [steps, step_eq, List.all_cons]
    cases okAlg a with
    | false => simp
    | true =>
      simp only [if_true, Option.bind_eq_bind, Option.bind_some, Bool.true_and]
      rw [steps_eq S isOp as]
      cases isOp <;> simp [after, List.append_assoc]

/-- The state after the first loop. -/
def final (S : Spec) : St := after S false (sortAlgs S.bifs) (after S true (sortAlgs S.ops) ⟨[], [], [], [], [], []⟩)

theorem firstLoop_eq (S : Spec) : firstLoop S = if (S.ops ++ S.bifs).all okAlg then some (final S) else none := by
  have hp : ∀ l : List Alg, (sortAlgs l).all okAlg = l.all okAlg := by
    intro l
    rw [Bool.eq_iff_iff, List.all_eq_true, List.all_eq_true]
    exact ⟨fun h a ha => h a (mem_sortAlgs.2 ha), fun h a ha => h a (mem_sortAlgs.1 ha)⟩
  rw [firstLoop, steps_eq, hp, List.all_append]
  cases S.ops.all okAlg with
  | false => simp
  | true =>
    simp only [if_true, Option.bind_eq_bind, Option.bind_some, Bool.true_and]
    rw [steps_eq, hp]
    rfl

/-! ### What the state says -/

theorem mem_callsOf {a : Alg} {s o : String} {i : Inv} : (s, o, i) ∈ callsOf a ↔ ∃ p, InAlg a p i ∧ Sect a p s ∧ NodeCalls i.node o := by
  simp only [callsOf, List.mem_flatMap, sectNamed, named, List.mem_map]
  constructor
  · rintro ⟨e, he, x, ⟨n, hn, rfl⟩, h⟩
    cases h
    obtain ⟨h1, h2⟩ := ((algWalk_listing a).2 e.1 e.2).1 he
    refine ⟨e.1, h1, h2, ?_⟩
    cases hs : e.2.2.node.attr.names with
    | none => rw [hs] at hn; cases hn
    | some ns => exact ⟨ns, hs, by rw [hs] at hn; exact hn⟩
  · rintro ⟨p, h1, h2, ns, hs, hn⟩
    refine ⟨(p, (s, i)), ((algWalk_listing a).2 p (s, i)).2 ⟨h1, h2⟩, (o, i), ⟨o, ?_, rfl⟩, rfl⟩
    simp only [hs, Option.getD_some]; exact hn

theorem sect_of_inAlg {a : Alg} {p : List Nat} {i : Inv} (h : InAlg a p i) : ∃ s, Sect a p s := by
  cases h with
  | mk hn hm hk ht hp => exact ⟨_, _, _, _, rfl, hn, rfl⟩

theorem mem_calleeSet {a : Alg} {o : String} : o ∈ calleeSet a ↔ Calls a o := by
  have h0 : o ∈ toSet ((callsOf a).map (·.2.1)) ↔ ∃ p i, InAlg a p i ∧ NodeCalls i.node o := by
    rw [mem_toSet, List.mem_map]
    constructor
    · rintro ⟨⟨s, o', i⟩, h, rfl⟩
      obtain ⟨p, h1, _, h3⟩ := mem_callsOf.1 h
      exact ⟨p, i, h1, h3⟩
    · rintro ⟨p, i, h1, h3⟩
      obtain ⟨s, hs⟩ := sect_of_inAlg h1
      exact ⟨(s, o, i), mem_callsOf.2 ⟨p, h1, hs, h3⟩, rfl⟩
  unfold calleeSet Calls
  split
  · rename_i h
    rw [mem_add, h0]
    exact or_congr Iff.rfl ⟨fun h' => ⟨h, h'⟩, fun h' => h'.2⟩
  · rename_i h
    rw [h0]
    exact ⟨Or.inl, fun h' => h'.elim id (fun h'' => absurd h''.1 h)⟩

theorem nodup_calleeSet (a : Alg) : (calleeSet a).Nodup := by
  unfold calleeSet
  split
  · exact nodup_add (nodup_toSet _)
  · exact nodup_toSet _

theorem isOp_iff (S : Spec) (o : String) : S.isOp o = true ↔ Declared S o := by
  simp [Spec.isOp, Declared]

theorem lookup_map {β : Type} (f : Alg → β) : ∀ (l : List Alg), (l.map (·.name)).Nodup → ∀ (n : String) (b : β),
    (l.map (fun a => (a.name, f a))).lookup n = some b ↔ ∃ a ∈ l, a.name = n ∧ f a = b
  | [], _, n, b => by simp
  | a :: l, h, n, b => by
    rw [List.map_cons, List.nodup_cons] at h
    rw [List.map_cons, List.lookup_cons]
    by_cases hn : n = a.name
    · subst hn
      simp only [beq_self_eq_true, Option.some.injEq, List.mem_cons]
      constructor
      · rintro rfl; exact ⟨a, Or.inl rfl, rfl, rfl⟩
      · rintro ⟨a', h1 | h1, h2, h3⟩
        · rw [h1] at h3; exact h3
        · exact absurd (List.mem_map.2 ⟨a', h1, h2⟩) h.1
    · rw [show (n == a.name) = false by simp [hn]]
      rw [lookup_map f l h.2 n b]
      constructor
      · rintro ⟨a', h1, h2⟩; exact ⟨a', List.mem_cons_of_mem _ h1, h2⟩
      · rintro ⟨a', h1, h2, h3⟩
        rcases List.mem_cons.1 h1 with h1 | h1
        · subst h1; exact absurd h2.symm hn
        · exact ⟨a', h1, h2, h3⟩

theorem calleesOf_iff (S : Spec) (hS : Given S) (n : String) (cs : List String) :
    (final S).calleesOf n = some cs ↔ ∃ a ∈ S.ops, a.name = n ∧ cs = sortNames (calleeSet a) := by
  have h : (final S).opCallees = (sortAlgs S.ops).map (fun a => (a.name, calleeSet a)) := by simp [final, after]
  have hn : ((sortAlgs S.ops).map (·.name)).Nodup := ((perm_sortAlgs S.ops).map (·.name)).nodup_iff.2 hS.ops
  rw [St.calleesOf, h, Option.map_eq_some_iff]
  constructor
  · rintro ⟨l, h1, rfl⟩
    obtain ⟨a, ha, h2, rfl⟩ := (lookup_map calleeSet _ hn n l).1 h1
    exact ⟨a, mem_sortAlgs.1 ha, h2, rfl⟩
  · rintro ⟨a, ha, h2, rfl⟩
    exact ⟨calleeSet a, (lookup_map calleeSet _ hn n _).2 ⟨a, mem_sortAlgs.2 ha, h2, rfl⟩, rfl⟩

theorem calleesOf_none (S : Spec) (hS : Given S) (n : String) : (final S).calleesOf n = none ↔ ¬ Declared S n := by
  rw [Option.eq_none_iff_forall_ne_some]
  constructor
  · rintro h ⟨a, ha, rfl⟩
    exact h _ ((calleesOf_iff S hS _ _).2 ⟨a, ha, rfl, rfl⟩)
  · intro h cs hc
    obtain ⟨a, ha, hn, _⟩ := (calleesOf_iff S hS _ _).1 hc
    exact h ⟨a, ha, hn⟩

theorem calls_iff (S : Spec) (hS : Given S) (s t : String) : Gram.Calls (final S).calleesOf s t ↔ OpCalls S s t := by
  constructor
  · rintro ⟨cs, h1, h2⟩
    obtain ⟨a, ha, hn, rfl⟩ := (calleesOf_iff S hS _ _).1 h1
    exact ⟨a, ha, hn, mem_calleeSet.1 ((mem_sortNames _).1 h2)⟩
  · rintro ⟨a, ha, hn, hc⟩
    exact ⟨_, (calleesOf_iff S hS _ _).2 ⟨a, ha, hn, rfl⟩, (mem_sortNames _).2 (mem_calleeSet.2 hc)⟩

theorem reach_congr {next next' : String → String → Prop} {roots : List String} {start : String → Prop} (hn : ∀ s t, next s t ↔ next' s t)
    (hr : ∀ s, s ∈ roots ↔ start s) (s : String) : Gram.Reach next roots s ↔ Reaches next' start s := by
  constructor
  · intro h
    induction h with
    | root h => exact .start ((hr _).1 h)
    | step _ h ih => exact .step ih ((hn _ _).1 h)
  · intro h
    induction h with
    | start h => exact .root ((hr _).2 h)
    | step _ h ih => exact .step ih ((hn _ _).2 h)

theorem mem_allRoots (S : Spec) (s : String) : s ∈ (final S).allRoots ↔ Start S s := by
  have h : (final S).bifCallees = (sortAlgs S.bifs).map (fun a => (a.name, calleeSet a)) := by simp [final, after]
  rw [St.allRoots, h, List.mem_append, Start]
  refine or_congr Iff.rfl ?_
  simp only [List.flatMap_map, List.mem_flatMap]
  constructor
  · rintro ⟨b, hb, h⟩; exact ⟨b, mem_sortAlgs.1 hb, mem_calleeSet.1 ((mem_sortNames _).1 h)⟩
  · rintro ⟨b, hb, h⟩; exact ⟨b, mem_sortAlgs.2 hb, (mem_sortNames _).2 (mem_calleeSet.2 h)⟩

theorem ops_bound (S : Spec) (hS : Given S) : ∀ s, (final S).calleesOf s ≠ none → s ∈ S.ops.map (·.name) := by
  intro s h
  rw [Ne, calleesOf_none S hS, Classical.not_not] at h
  obtain ⟨a, ha, rfl⟩ := h
  exact List.mem_map.2 ⟨a, ha, rfl⟩

theorem reach_some (S : Spec) (hS : Given S) : ∃ r, Gram.reachAll (final S).calleesOf (S.ops.length + 1) (final S).allRoots = some r :=
  Gram.c29_operations_end (ops_bound S hS) (by simp) _

theorem reach_spec (S : Spec) (hS : Given S) {n : Nat} {r} (h : Gram.reachAll (final S).calleesOf n (final S).allRoots = some r) (o : String) :
    (o ∈ r.reached ↔ Reaches (OpCalls S) (Start S) o ∧ Declared S o) ∧ (o ∈ r.unknown ↔ Reaches (OpCalls S) (Start S) o ∧ ¬ Declared S o) := by
  have h1 := Gram.c29_operations h o
  rw [reach_congr (calls_iff S hS) (mem_allRoots S), Ne, calleesOf_none S hS, Classical.not_not] at h1
  exact h1

/-! ### Reachability for static semantics -/

/-- The calls that are followed. -/
def ssCallees (callees : String → Option (List String)) (s : String) : Option (List String) := (callees s).map (fun cs => cs.filter (fun c => !skipped s c))

theorem eachSs_sim {unknown : List String} {callees : String → Option (List String)} {n : Nat}
    (ih : ∀ (st : Gram.OState String) s, (∀ t, Gram.Reach (Gram.Calls (ssCallees callees)) [s] t → callees t = none → t ∈ unknown) → (∀ t ∈ st.unknown, t ∈ unknown) →
      ssReach unknown callees n st.reached s = (Gram.reachOp (ssCallees callees) n st s).map (·.reached) ∧
      ∀ st', Gram.reachOp (ssCallees callees) n st s = some st' → ∀ t ∈ st'.unknown, t ∈ unknown) :
    ∀ (cs : List String) (st : Gram.OState String), (∀ s ∈ cs, ∀ t, Gram.Reach (Gram.Calls (ssCallees callees)) [s] t → callees t = none → t ∈ unknown) →
      (∀ t ∈ st.unknown, t ∈ unknown) →
      eachSs (ssReach unknown callees n) st.reached cs = (Gram.eachOp (Gram.reachOp (ssCallees callees) n) st cs).map (·.reached) ∧
      ∀ st', Gram.eachOp (Gram.reachOp (ssCallees callees) n) st cs = some st' → ∀ t ∈ st'.unknown, t ∈ unknown
  | [], st, _, h2 => ⟨rfl, fun st' h => by cases h; exact h2⟩
  | c :: cs, st, h1, h2 => by
    obtain ⟨i1, i2⟩ := ih st c (h1 c (by simp)) h2
    simp only [eachSs, Gram.eachOp]
    rw [i1]
    cases hr : Gram.reachOp (ssCallees callees) n st c with
    | none => simp
    | some st' => exact eachSs_sim ih cs st' (fun s hs => h1 s (by simp [hs])) (i2 st' hr)

theorem ssReach_sim {unknown : List String} {callees : String → Option (List String)} (hu : ∀ t ∈ unknown, callees t = none) : ∀ (n : Nat) (st : Gram.OState String) (s : String),
    (∀ t, Gram.Reach (Gram.Calls (ssCallees callees)) [s] t → callees t = none → t ∈ unknown) → (∀ t ∈ st.unknown, t ∈ unknown) →
      ssReach unknown callees n st.reached s = (Gram.reachOp (ssCallees callees) n st s).map (·.reached) ∧
      ∀ st', Gram.reachOp (ssCallees callees) n st s = some st' → ∀ t ∈ st'.unknown, t ∈ unknown
  | 0, _, _, _, _ => ⟨rfl, fun _ h => by simp [Gram.reachOp] at h⟩
  | n + 1, st, s, h1, h2 => by
    have hself := h1 s (.root (by simp))
    by_cases hs : s ∈ unknown
    · have hc : ssCallees callees s = none := by simp [ssCallees, hu s hs]
      simp only [ssReach, if_pos hs, Gram.reachOp, hc]
      by_cases hs' : s ∈ st.unknown
      · simp only [if_pos hs']
        exact ⟨rfl, fun st' h => by cases h; exact h2⟩
      · simp only [if_neg hs']
        refine ⟨rfl, fun st' h => ?_⟩
        cases h
        intro t ht
        rcases List.mem_cons.1 ht with rfl | ht
        · exact hs
        · exact h2 t ht
    · have hs' : s ∉ st.unknown := fun h => hs (h2 s h)
      cases hc : callees s with
      | none => exact absurd (hself hc) hs
      | some cs =>
        have hc' : ssCallees callees s = some (cs.filter (fun c => !skipped s c)) := by simp [ssCallees, hc]
        simp only [ssReach, if_neg hs, Gram.reachOp, if_neg hs', hc', hc]
        by_cases hr : s ∈ st.reached
        · simp only [if_pos hr]
          exact ⟨rfl, fun st' h => by cases h; exact h2⟩
        · simp only [if_neg hr]
          refine eachSs_sim (fun st s => ssReach_sim hu n st s) _ { st with reached := s :: st.reached } ?_ h2
          intro c hc1 t ht
          apply h1
          have hstep : Gram.Reach (Gram.Calls (ssCallees callees)) [s] c := .step (.root (by simp)) ⟨_, hc', hc1⟩
          clear h2
          induction ht with
          | root h => simp at h; subst h; exact hstep
          | step _ h ih => exact .step ih h

theorem skipped_iff (s t : String) : skipped s t = true ↔ (s = "ToString" ∧ (t = "ToPrimitive" ∨ t = "ToString")) := by
  simp [skipped]

theorem ssCalls_iff (S : Spec) (hS : Given S) (s t : String) : Gram.Calls (ssCallees (final S).calleesOf) s t ↔ SsCalls S s t := by
  rw [SsCalls, ← calls_iff S hS, ← skipped_iff]
  constructor
  · rintro ⟨cs, h1, h2⟩
    simp only [ssCallees, Option.map_eq_some_iff] at h1
    obtain ⟨cs', h3, rfl⟩ := h1
    simp only [List.mem_filter, Bool.not_eq_true'] at h2
    exact ⟨⟨cs', h3, h2.1⟩, by simp [h2.2]⟩
  · rintro ⟨⟨cs, h1, h2⟩, h3⟩
    exact ⟨_, by rw [ssCallees, h1]; rfl, by simp [List.mem_filter, h2, h3]⟩

theorem ssRoots_sub : ∀ s ∈ ssRoots, s ∈ roots := by decide

theorem ss_spec (S : Spec) (hS : Given S) {m : Nat} {r} (h : Gram.reachAll (final S).calleesOf m (final S).allRoots = some r) :
    ∃ ss, eachSs (ssReach r.unknown (final S).calleesOf (S.ops.length + 1)) [] ssRoots = some ss ∧
      (∀ o, o ∈ ss ↔ Reaches (SsCalls S) SsStart o ∧ Declared S o) := by
  have hsub : ∀ o, Reaches (SsCalls S) SsStart o → Reaches (OpCalls S) (Start S) o := by
    intro o ho
    induction ho with
    | start h => exact .start (Or.inl (ssRoots_sub _ h))
    | step _ h ih => exact .step ih h.1
  have hu : ∀ t ∈ r.unknown, (final S).calleesOf t = none := fun t ht => (calleesOf_none S hS t).2 ((reach_spec S hS h t).2.1 ht).2
  have hpre : ∀ s ∈ ssRoots, ∀ t, Gram.Reach (Gram.Calls (ssCallees (final S).calleesOf)) [s] t → (final S).calleesOf t = none → t ∈ r.unknown := by
    intro s hs t ht hn
    refine (reach_spec S hS h t).2.2 ⟨hsub t ?_, (calleesOf_none S hS t).1 hn⟩
    have := (reach_congr (start := (· = s)) (ssCalls_iff S hS) (by simp) t).1 ht
    clear ht hn
    induction this with
    | start h => subst h; exact .start hs
    | step _ h ih => exact .step ih h
  obtain ⟨h1, _⟩ := eachSs_sim (fun st s => ssReach_sim hu (S.ops.length + 1) st s) ssRoots ⟨[], []⟩ hpre (by simp)
  have hb : ∀ s, ssCallees (final S).calleesOf s ≠ none → s ∈ S.ops.map (·.name) := by
    intro s hs
    apply ops_bound S hS
    intro h'
    exact hs (by simp [ssCallees, h'])
  obtain ⟨st, hst⟩ := Gram.c29_operations_end hb (n := S.ops.length + 1) (by simp) ssRoots
  have hst' : Gram.eachOp (Gram.reachOp (ssCallees (final S).calleesOf) (S.ops.length + 1)) ⟨[], []⟩ ssRoots = some st := hst
  rw [hst'] at h1
  refine ⟨st.reached, h1, fun o => ?_⟩
  have h2 := (Gram.c29_operations hst o).1
  rw [reach_congr (ssCalls_iff S hS) (fun _ => Iff.rfl)] at h2
  rw [h2]
  refine and_congr Iff.rfl ?_
  have : ssCallees (final S).calleesOf o = none ↔ (final S).calleesOf o = none := by simp [ssCallees]
  rw [Ne, this, calleesOf_none S hS, Classical.not_not]

end Verif.Deps
