import Verif.Sta.RunLemmas
import Verif.Sta.GraphLemmas
/-! # C53: the errors reported are those found against settled types -/
namespace Verif.Sta
variable {T E : Type}

theorem summarize_idem [DecidableEq T] (cfg : Cfg T E) (x y : Alg T) (h : summarize cfg x = some y) : summarize cfg y = some y :=
  (summarize_heads cfg x y h).2.2

theorem prepare_spec [DecidableEq T] (cfg : Cfg T E) (algs as : List (Alg T)) (h : prepare cfg algs = some as) :
    Fresh cfg as ∧ (∀ a i, headAt as a i = (headAt algs a i).map (noteTBD cfg)) := by
  unfold prepare at h
  rw [mapM_some_iff] at h
  have hget : ∀ (a : Nat), (as[a]?).map some = (algs[a]?).map (fun x => summarize cfg { x with heads := x.heads.map (noteTBD cfg) }) := by
    intro a
    have := congrArg (fun l => l[a]?) h
    simp only [List.getElem?_map, List.map_map, Function.comp_def] at this
    exact this.symm
  constructor
  · intro a x hx
    have := hget a
    rw [hx] at this
    cases hy : algs[a]? with
    | none => rw [hy] at this; cases this
    | some y =>
      rw [hy] at this
      simp only [Option.map_some] at this
      injection this with this
      exact summarize_idem cfg _ _ this.symm
  · intro a i
    unfold headAt
    have := hget a
    cases hy : algs[a]? with
    | none =>
      rw [hy] at this
      cases hx : as[a]? with
      | none => rfl
      | some x => rw [hx] at this; cases this
    | some y =>
      rw [hy] at this
      cases hx : as[a]? with
      | none => rw [hx] at this; cases this
      | some x =>
        rw [hx] at this
        simp only [Option.map_some] at this
        injection this with this
        obtain ⟨h1, _⟩ := summarize_heads cfg _ _ this.symm
        simp [h1]

theorem declared_noteTBD [DecidableEq T] (cfg : Cfg T E) (h : Head T) (n : Name) : declared (noteTBD cfg h) n = declared h n := rfl

theorem mem_noteTBD [DecidableEq T] (cfg : Cfg T E) (h : Head T) (hw : Wf h) (n : Name) :
    n ∈ (noteTBD cfg h).tbd ↔ declared h n = some cfg.tbd := by
  unfold noteTBD declared
  simp only [List.mem_append, List.mem_map, List.mem_filter, decide_eq_true_eq]
  by_cases hr : n = retName
  · subst hr
    rw [if_pos rfl]
    constructor
    · rintro (⟨p, ⟨hp, _⟩, he⟩ | h)
      · exact absurd (List.mem_map.2 ⟨p, hp, he⟩) hw.noRet
      · split at h
        · rename_i h'; rw [h']
        · cases h
    · intro h
      injection h with h
      right
      rw [if_pos h]
      simp
  · rw [if_neg hr]
    constructor
    · rintro (⟨p, ⟨hp, ht⟩, he⟩ | h)
      · obtain ⟨k, v⟩ := p
        simp only at ht he
        subst ht; subst he
        rw [List.lookup_eq_some_iff]
        obtain ⟨l1, l2, he⟩ := List.append_of_mem hp
        refine ⟨l1, l2, he, ?_⟩
        intro q hq
        rw [bne_iff_ne]
        intro e
        have := hw.nodup
        rw [he, List.map_append, List.nodup_append] at this
        exact this.2.2 q.1 (List.mem_map_of_mem hq) k (by simp) e.symm
      · split at h
        · simp at h; exact absurd h hr
        · cases h
    · intro h
      left
      obtain ⟨l1, l2, he, _⟩ := List.lookup_eq_some_iff.1 h
      exact ⟨(n, cfg.tbd), ⟨by rw [he]; simp, rfl⟩, rfl⟩

/-- The headers as written. -/
def Written (algs : List (Alg T)) : Prop := ∀ a i h, headAt algs a i = some h → Wf h

theorem prepare_good [DecidableEq T] (cfg : Cfg T E) (algs as : List (Alg T)) (h : prepare cfg algs = some as) (hw : Written algs) :
    AllGood as := by
  intro a i h' hh
  rw [(prepare_spec cfg algs as h).2 a i] at hh
  cases hx : headAt algs a i with
  | none => rw [hx] at hh; cases hh
  | some h0 =>
    rw [hx] at hh
    injection hh with hh
    subst hh
    have := hw a i h0 hx
    refine { nodup := this.nodup, noRet := this.noRet, tbdNames := ?_ }
    intro n hn
    rw [mem_noteTBD cfg h0 this] at hn
    exact (declared_some h0 n).1 ⟨_, hn⟩

/-- The state after the preparation and the clusters, in every outcome. -/
theorem sta_ext [DecidableEq T] (cfg : Cfg T E) (algs : List (Alg T)) (levels : List (List (List Nat))) (hw : Written algs) :
    (sta cfg algs levels = .stop .crash ⟨algs, [], []⟩) ∨
    ∃ as ds, prepare cfg algs = some as ∧ AllGood as ∧ sta cfg algs levels = runFlat cfg (flat 0 levels) ⟨as, [], []⟩ ∧
      Ext (fun b _ _ => maxPasses * (levels.flatten.flatten).count b) (· ∈ levels.flatten.flatten) (fun _ => True) ds
        ⟨as, [], []⟩ (sta cfg algs levels).st ∧
      (∀ s', sta cfg algs levels = .ok s' () → ∀ b i n, (changesOf b i n ds).length ≤ (maxPasses - 1) * (levels.flatten.flatten).count b) ∧
      (∀ s', sta cfg algs levels = .stop .gaveUp s' → ∃ c ∈ flat 0 levels, maxPasses ≤
        (ds.filter (fun e => e.isChange && decide (e.level = c.1) && decide (e.alg ∈ c.2))).length) := by
  unfold sta
  cases hp : prepare cfg algs with
  | none => exact .inl rfl
  | some as =>
    right
    have hg := prepare_good cfg algs as hp hw
    obtain ⟨ds, x, h1, h2⟩ := ext_run cfg (flat 0 levels) ⟨as, [], []⟩ hg
    have hm : members (flat 0 levels) = levels.flatten.flatten := by
      unfold members
      rw [List.flatMap_def, flat_members]
    rw [hm] at x h1
    simp only [levelLoop_flat]
    exact ⟨as, ds, rfl, hg, rfl, x, h1, h2⟩

/-! ## The theorems -/

/-- Whatever happens, a type stated by the author is never changed. -/
theorem c53_stated [DecidableEq T] (cfg : Cfg T E) (algs : List (Alg T)) (levels : List (List (List Nat))) (hw : Written algs)
    (a i : Nat) (h : Head T) (hh : headAt algs a i = some h) (n : Name) (t : T) (hd : declared h n = some t) (ht : t ≠ cfg.tbd) :
    ∃ h', headAt (sta cfg algs levels).st.algs a i = some h' ∧ declared h' n = some t := by
  rcases sta_ext cfg algs levels hw with he | ⟨as, ds, hp, hg, _, x, _⟩
  · rw [he]
    exact ⟨h, hh, hd⟩
  · have h1 : headAt as a i = some (noteTBD cfg h) := by rw [(prepare_spec cfg algs as hp).2, hh]; rfl
    obtain ⟨h', h2, hle⟩ := x.head h1
    refine ⟨h', h2, ?_⟩
    rw [hle.stated n, declared_noteTBD, hd]
    rw [mem_noteTBD cfg h (hw a i h hh), hd]
    intro e
    injection e with e
    exact ht e

/-- In every outcome, the reported changes of a declared type lead from the written type to the final one; there are none unless the
written type is TBD, at most five, and at most four if the analysis finishes. -/
theorem c53_changes [DecidableEq T] (cfg : Cfg T E) (algs : List (Alg T)) (levels : List (List (List Nat))) (hw : Written algs)
    (hn : levels.flatten.flatten.Nodup) (a i : Nat) (h h' : Head T) (hh : headAt algs a i = some h)
    (hh' : headAt (sta cfg algs levels).st.algs a i = some h') (n : Name) (t t' : T) (hd : declared h n = some t) (hd' : declared h' n = some t') :
    Chain t (changesOf a i n (sta cfg algs levels).st.log) t' ∧
    (t ≠ cfg.tbd → changesOf a i n (sta cfg algs levels).st.log = []) ∧
    (changesOf a i n (sta cfg algs levels).st.log).length ≤ 5 ∧
    (∀ s', sta cfg algs levels = .ok s' () → (changesOf a i n s'.log).length ≤ 4) := by
  rcases sta_ext cfg algs levels hw with he | ⟨as, ds, hp, hg, _, x, hx, _⟩
  · rw [he] at hh' ⊢
    simp only [Res.st] at hh' ⊢
    rw [hh] at hh'
    injection hh' with hh'
    subst hh'
    rw [hd] at hd'
    injection hd' with hd'
    subst hd'
    exact ⟨.nil _, fun _ => rfl, Nat.zero_le _, fun s' hs => by cases hs⟩
  · have h1 : headAt as a i = some (noteTBD cfg h) := by rw [(prepare_spec cfg algs as hp).2, hh]; rfl
    have hlog : (sta cfg algs levels).st.log = ds := by rw [x.log]; rfl
    have hc : (levels.flatten.flatten).count a ≤ 1 := List.nodup_iff_count.1 hn a
    rw [hlog]
    refine ⟨x.chain a i _ h' n t t' h1 hh' hd hd', ?_, ?_, ?_⟩
    · intro ht
      rw [List.eq_nil_iff_forall_not_mem]
      intro p hp'
      obtain ⟨h2, h3, h4⟩ := x.only a i n p hp'
      simp only at h3
      rw [h1] at h3
      injection h3 with h3
      subst h3
      rw [mem_noteTBD cfg h (hw a i h hh), hd] at h4
      injection h4 with h4
      exact ht h4
    · have := x.bound a i n
      simp only [maxPasses] at this
      omega
    · intro s' hs
      have := hx s' hs a i n
      rw [hs] at hlog
      simp only [Res.st] at hlog
      rw [hlog]
      simp only [maxPasses] at this
      omega

theorem inOrder_flat [DecidableEq T] (cfg : Cfg T E) (algs : List (Alg T)) (levels : List (List (List Nat))) : ∀ (L : Nat),
    (levels.zipIdx L).flatMap (fun l => l.1.flatMap (fun c => c.flatMap (ofAlg algs (repAt cfg algs) l.2))) =
    (flat L levels).flatMap (fun c => c.2.flatMap (algFinds cfg algs c.1)) := by
  induction levels with
  | nil => intro L; rfl
  | cons l ls ih =>
    intro L
    rw [List.zipIdx_cons, List.flatMap_cons, ih, flat, List.flatMap_append, List.flatMap_map]
    congr 1

/-- If the analysis finishes then, apart from the messages about changes, what is reported is exactly what is found against the final types,
for every header of every operation in the order of the clusters: nothing that was found against provisional types, nothing twice, and
nothing left out.  In particular, the final types have settled. -/
theorem c53_report [DecidableEq T] (cfg : Cfg T E) (algs : List (Alg T)) (levels : List (List (List Nat))) (hw : Written algs)
    (hn : levels.flatten.flatten.Nodup) (ho : Ordered cfg levels) (s : St T E) (hs : sta cfg algs levels = .ok s ()) :
    ∃ rep : Nat → Nat → List (Msg T E),
      (∀ a ∈ levels.flatten.flatten, ∀ x, s.algs[a]? = some x → x.builtIn = false → ∀ (i : Nat) h, x.heads[i]? = some h →
        Finds cfg (view s.algs) a i h (rep a i)) ∧
      s.log.filter (fun e => !e.isChange) = inOrder s.algs levels rep := by
  rcases sta_ext cfg algs levels hw with he | ⟨as, ds, hp, hg, hr, _⟩
  · rw [he] at hs; cases hs
  · rw [hr] at hs
    have hm : members (flat 0 levels) = levels.flatten.flatten := by
      unfold members
      rw [List.flatMap_def, flat_members]
    obtain ⟨_, h2, h3⟩ := run_ok cfg (flat 0 levels) ⟨as, [], []⟩ s hg (prepare_spec cfg algs as hp).1 (by rw [hm]; exact hn) (by
      intro pre c post he a ha v v' i e hv
      refine ho (pre.map Prod.snd) c.2 (post.map Prod.snd) ?_ a ha v v' i e ?_
      · rw [← flat_members levels 0, he]; simp
      · intro b hb
        refine hv b ?_
        rw [List.flatten_eq_flatMap, List.flatMap_map] at hb
        exact hb) hs
    refine ⟨repAt cfg s.algs, ?_, ?_⟩
    · intro a ha x hx hb i h hh
      have hat : headAt s.algs a i = some h := by simp [headAt, hx, hh]
      have := h3 a (by rw [hm]; exact ha) x hx hb i h hat
      rw [repAt_some cfg _ _ _ _ hat]
      exact this
    · unfold inOrder
      rw [inOrder_flat cfg s.algs levels 0]
      exact h2

/-- What is found is determined by the types. -/
theorem c53_unique [DecidableEq T] (cfg : Cfg T E) (v : Nat → Option (Summary T)) (a i : Nat) (h : Head T) (ms ms' : List (Msg T E))
    (h1 : Finds cfg v a i h ms) (h2 : Finds cfg v a i h ms') : ms = ms' := by
  cases h1 with
  | noDefn e =>
    cases h2 with
    | noDefn _ => rfl
    | rules e' => rw [e] at e'; cases e'
    | alg e' => rw [e] at e'; cases e'
  | rules e1 e2 e3 =>
    cases h2 with
    | noDefn e' => rw [e1] at e'; cases e'
    | rules _ _ e3' =>
      rw [e3] at e3'
      injection e3' with e3'
      injection e3' with e3' _
      rw [e3']
    | alg _ e2' => rw [e2] at e2'; cases e2'
  | alg e1 e2 e3 e4 e5 =>
    cases h2 with
    | noDefn e' => rw [e1] at e'; cases e'
    | rules _ e2' => rw [e2] at e2'; cases e2'
    | alg _ _ e3' _ e5' =>
      rw [e3] at e3'
      injection e3' with e3'
      injection e3' with e6 e7
      injection e7 with e7
      subst e6; subst e7
      rw [e5] at e5'
      injection e5' with e5'
      subst e5'
      rfl

theorem toSet_aux [DecidableEq T] (ts : List T) : ∀ (acc : List T), acc.Nodup →
    (ts.foldl (fun acc t => if t ∈ acc then acc else acc ++ [t]) acc).Nodup ∧
    ∀ t, t ∈ ts.foldl (fun acc t => if t ∈ acc then acc else acc ++ [t]) acc ↔ t ∈ acc ∨ t ∈ ts := by
  induction ts with
  | nil => intro acc h; simp [h]
  | cons u ts ih =>
    intro acc h
    rw [List.foldl_cons]
    by_cases hu : u ∈ acc
    · rw [if_pos hu]
      obtain ⟨h1, h2⟩ := ih acc h
      refine ⟨h1, ?_⟩
      intro t
      rw [h2, List.mem_cons]
      constructor
      · rintro (h | h)
        · exact .inl h
        · exact .inr (.inr h)
      · rintro (h | h | h)
        · exact .inl h
        · exact .inl (h ▸ hu)
        · exact .inr h
    · rw [if_neg hu]
      obtain ⟨h1, h2⟩ := ih (acc ++ [u]) (by
        rw [List.nodup_append]
        refine ⟨h, by simp, ?_⟩
        intro x hx y hy e
        simp at hy
        subst hy; subst e
        exact hu hx)
      refine ⟨h1, ?_⟩
      intro t
      rw [h2, List.mem_append, List.mem_cons]
      simp [or_assoc]

theorem toSet_spec [DecidableEq T] (ts : List T) : (toSet ts).Nodup ∧ ∀ t, t ∈ toSet ts ↔ t ∈ ts := by
  obtain ⟨h1, h2⟩ := toSet_aux ts [] List.nodup_nil
  exact ⟨h1, fun t => by unfold toSet; rw [h2]; simp⟩

theorem fresh_says [DecidableEq T] (cfg : Cfg T E) (x : Alg T) (h : summarize cfg x = some x) : SaysWhatHeadsSay cfg x := by
  obtain ⟨bi, di, mo, heads, sm⟩ := x
  match heads with
  | [] => exact .none rfl
  | [h0] =>
    unfold summarize at h
    simp only at h
    injection h with h
    injection h with _ _ _ _ h
    subst h
    exact .one rfl rfl
  | h0 :: h1 :: hs =>
    unfold summarize at h
    simp only at h
    split at h
    · injection h with h
      injection h with _ _ _ _ h
      subst h
      refine .many (rts := toSet ((h0 :: h1 :: hs).map Head.ret)) rfl rfl rfl (toSet_spec _).1 ?_ ?_ ?_
      · intro t
        rw [(toSet_spec _).2, List.mem_map]
      · simp [joined]
      · intro i p hp
        simp only [joined, List.getElem?_map] at hp
        obtain ⟨j, hj, rfl⟩ := Option.map_eq_some_iff.1 hp
        have : j = i := by
          obtain ⟨hlt, e⟩ := List.getElem?_eq_some_iff.1 hj
          simp at e
          exact e.symm
        subst this
        refine ⟨_, rfl, (toSet_spec _).1, ?_⟩
        intro t
        rw [(toSet_spec _).2, List.mem_filterMap]
    · cases h

/-- If the analysis finishes, what callers read of an operation is what its headers finally declare. -/
theorem c53_callers [DecidableEq T] (cfg : Cfg T E) (algs : List (Alg T)) (levels : List (List (List Nat))) (hw : Written algs)
    (hn : levels.flatten.flatten.Nodup) (ho : Ordered cfg levels) (s : St T E) (hs : sta cfg algs levels = .ok s ())
    (a : Nat) (x : Alg T) (hx : s.algs[a]? = some x) : SaysWhatHeadsSay cfg x := by
  rcases sta_ext cfg algs levels hw with he | ⟨as, ds, hp, hg, hr, _⟩
  · rw [he] at hs; cases hs
  · rw [hr] at hs
    have hm : members (flat 0 levels) = levels.flatten.flatten := by
      unfold members
      rw [List.flatMap_def, flat_members]
    obtain ⟨h1, _⟩ := run_ok cfg (flat 0 levels) ⟨as, [], []⟩ s hg (prepare_spec cfg algs as hp).1 (by rw [hm]; exact hn) (by
      intro pre c post he a ha v v' i e hv
      refine ho (pre.map Prod.snd) c.2 (post.map Prod.snd) ?_ a ha v v' i e ?_
      · rw [← flat_members levels 0, he]; simp
      · intro b hb
        refine hv b ?_
        rw [List.flatten_eq_flatMap, List.flatMap_map] at hb
        exact hb) hs
    exact fresh_says cfg x (h1 a x hx)

theorem mem_flat (ls : List (List (List Nat))) : ∀ (L : Nat) (p : Nat × List Nat), p ∈ flat L ls → ∃ l, ls[p.1 - L]? = some l ∧ p.2 ∈ l ∧ L ≤ p.1 := by
  induction ls with
  | nil => intro L p h; cases h
  | cons l ls ih =>
    intro L p h
    rw [flat, List.mem_append] at h
    rcases h with h | h
    · obtain ⟨c, hc, rfl⟩ := List.mem_map.1 h
      exact ⟨l, by simp, hc, Nat.le_refl _⟩
    · obtain ⟨l', h1, h2, h3⟩ := ih (L + 1) p h
      refine ⟨l', ?_, h2, by omega⟩
      have : p.1 - L = (p.1 - (L + 1)) + 1 := by omega
      rw [this]
      simpa using h1

/-- The analysis gives up only if in some cluster types were changed at least five times. -/
theorem c53_gives_up [DecidableEq T] (cfg : Cfg T E) (algs : List (Alg T)) (levels : List (List (List Nat))) (hw : Written algs)
    (s : St T E) (hs : sta cfg algs levels = .stop .gaveUp s) :
    ∃ (L : Nat) (l : List (List Nat)) (c : List Nat), levels[L]? = some l ∧ c ∈ l ∧
      5 ≤ (s.log.filter (fun e => e.isChange && decide (e.level = L) && decide (e.alg ∈ c))).length := by
  rcases sta_ext cfg algs levels hw with he | ⟨as, ds, hp, hg, hr, x, _, hx⟩
  · rw [he] at hs; cases hs
  · obtain ⟨c, hc, h⟩ := hx s hs
    obtain ⟨l, h1, h2, _⟩ := mem_flat levels 0 c hc
    have hlog : s.log = ds := by
      have := x.log
      rw [hs] at this
      exact this
    exact ⟨c.1, l, c.2, h1, h2, by rw [hlog]; exact h⟩

/-- If the author stated all types, the analysis does not give up, and reports no changes. -/
theorem c53_all_stated [DecidableEq T] (cfg : Cfg T E) (algs : List (Alg T)) (levels : List (List (List Nat))) (hw : Written algs)
    (hall : ∀ a i h n, headAt algs a i = some h → declared h n ≠ some cfg.tbd) :
    (∀ s, sta cfg algs levels ≠ .stop .gaveUp s) ∧ ∀ e ∈ (sta cfg algs levels).st.log, e.isChange = false := by
  have hno : ∀ e ∈ (sta cfg algs levels).st.log, e.isChange = false := by
    rcases sta_ext cfg algs levels hw with he | ⟨as, ds, hp, hg, hr, x, _, hx⟩
    · rw [he]; intro e h; cases h
    · intro e he
      rw [x.log] at he
      simp only [List.nil_append] at he
      cases hc : e.isChange with
      | false => rfl
      | true =>
        obtain ⟨L, a, i, m⟩ := e
        cases m with
        | change n old new =>
          have : (old, new) ∈ changesOf a i n ds := by
            unfold changesOf
            rw [List.mem_filterMap]
            exact ⟨_, he, by simp⟩
          obtain ⟨h', h1, h2⟩ := x.only a i n _ this
          simp only at h1
          rw [(prepare_spec cfg algs as hp).2] at h1
          obtain ⟨h0, h3, rfl⟩ := Option.map_eq_some_iff.1 h1
          rw [mem_noteTBD cfg h0 (hw a i h0 h3)] at h2
          exact absurd h2 (hall a i h0 n h3)
        | _ => cases hc
  refine ⟨?_, hno⟩
  intro s hs
  obtain ⟨L, l, c, _, _, h⟩ := c53_gives_up cfg algs levels hw s hs
  rw [hs] at hno
  have : s.log.filter (fun e => e.isChange && decide (e.level = L) && decide (e.alg ∈ c)) = [] := by
    rw [List.filter_eq_nil_iff]
    intro e he
    simp [hno e he]
  rw [this] at h
  simp at h

/-- With the levels that are computed from the graph of calls: if the analysis finishes, what is reported is what is found against the
final types.  The body of an operation may read the declared types of that operation and of those it calls. -/
theorem c53_by_calls [DecidableEq T] (cfg : Cfg T E) (ops : List (Graph.Op Nat)) (verts : List Nat) (succ : Nat → List Nat)
    (ho : Graph.IterationOrder (Graph.build ops) verts succ) (le : Nat → Nat → Bool)
    (total : ∀ a b, (le a b || le b a) = true) (trans : ∀ a b c, le a b = true → le b c = true → le a c = true)
    (reads : ∀ a, ∀ v v' : Nat → Option (Summary T), ∀ i e, v a = v' a → (∀ b, Graph.IsArc ops a b → v b = v' b) →
      cfg.body v a i e = cfg.body v' a i e) (algs : List (Alg T)) (hw : Written algs) :
    ∃ cs ls, Graph.computeDependencyLevels le verts succ = some (cs, ls) ∧
      ∀ s, sta cfg algs (levelsOf cs ls) = .ok s () → ∃ rep : Nat → Nat → List (Msg T E),
        (∀ a, Graph.IsVertex ops a → ∀ x, s.algs[a]? = some x → x.builtIn = false → ∀ (i : Nat) h, x.heads[i]? = some h →
          Finds cfg (view s.algs) a i h (rep a i)) ∧
        s.log.filter (fun e => !e.isChange) = inOrder s.algs (levelsOf cs ls) rep := by
  obtain ⟨cs, ls, h1, h2, h3, h4⟩ := levels_ordered cfg ops verts succ ho le total trans reads
  refine ⟨cs, ls, h1, ?_⟩
  intro s hs
  obtain ⟨rep, h5, h6⟩ := c53_report cfg algs (levelsOf cs ls) hw h2 h3 s hs
  exact ⟨rep, fun a ha => h5 a (h4 a ha), h6⟩

/-! ## Examples -/

/-- Types are numbers, 0 is TBD and a smaller number is a subtype.  Operation 0 calls itself and returns one more than it declares, but at
most 3; operation 1 returns what operation 0 declares; each body complains about the type it reads. -/
def exCfg : Cfg Nat Nat where
  tbd := 0
  sub := fun a b => decide (a ≤ b)
  join := fun l => l.foldl max 0
  kind := fun _ => .pure
  body := fun v a _ _ =>
    match if a ≤ 1 then (v 0).map Summary.ret else none with
    | none => none
    | some r =>
      if a = 0 then some ([100 + r], some [(retName, min (r + 1) 3)])
      else some ([200 + r], some [("_x_", 2), (retName, r)])

/-- A header. -/
def exHead (params : List (Name × Nat)) (ret : Nat) : Head Nat :=
  { early := false, isBif := false, forParam := none, params := params, ret := ret, tbd := [], defns := true, required := params.length }

def exAlgs : List (Alg Nat) :=
  [{ builtIn := false, discriminated := false, moduleRec := false, heads := [exHead [] 0], summary := none },
   { builtIn := false, discriminated := false, moduleRec := false, heads := [exHead [("_x_", 2)] 1], summary := none }]

/-- Three passes change the return type of operation 0; what they found is not reported. -/
example : (sta exCfg exAlgs [[[0]], [[1]]]).st.log =
    [⟨0, 0, 0, .change retName 0 1⟩, ⟨0, 0, 0, .change retName 1 2⟩, ⟨0, 0, 0, .change retName 2 3⟩, ⟨0, 0, 0, .body 103⟩,
     ⟨1, 1, 0, .body 203⟩, ⟨1, 1, 0, .suggest true retName 3⟩] := by decide +kernel

example : ∃ s, sta exCfg exAlgs [[[0]], [[1]]] = .ok s () := ⟨_, rfl⟩

example : Written exAlgs := by
  intro a i h hh
  match a with
  | 0 =>
    match i with
    | 0 => injection hh with hh; subst hh; exact ⟨by decide, by decide⟩
    | i + 1 => cases hh
  | 1 =>
    match i with
    | 0 => injection hh with hh; subst hh; exact ⟨by decide, by decide⟩
    | i + 1 => cases hh
  | a + 2 => cases hh

/-- What the operations read is in the graph of calls. -/
example : ∀ a, ∀ v v' : Nat → Option (Summary Nat), ∀ i e, v a = v' a →
    (∀ b, Graph.IsArc [Graph.Op.addVertex 0, .addArc 0 0, .addVertex 1, .addArc 1 0] a b → v b = v' b) →
    exCfg.body v a i e = exCfg.body v' a i e := by
  intro a v v' i e _ h2
  by_cases ha : a ≤ 1
  · have : v 0 = v' 0 := by
      apply h2
      unfold Graph.IsArc
      match a, ha with
      | 0, _ => simp
      | 1, _ => simp
    simp only [exCfg, this]
  · simp only [exCfg, ha, if_false]

example : Ordered exCfg [[[0]], [[1]]] := by
  intro pre c post h a ha v v' i e hv
  have h0 : v 0 = v' 0 := by
    apply hv
    intro hb
    match pre with
    | [] =>
      simp at h
      obtain ⟨rfl, rfl⟩ := h
      simp at hb
    | [p] =>
      simp at h
      obtain ⟨_, _, rfl⟩ := h
      simp at hb
    | p :: q :: pre => simp at h
  simp only [exCfg, h0]

/-- A type that never settles: the program gives up, having reported five changes. -/
def exBad : Cfg Nat Nat := { exCfg with body := fun v _ _ _ => (v 0).map (fun s => ([], some [(retName, s.ret + 1)])) }

example : ∃ s, sta exBad exAlgs [[[0]]] = .stop .gaveUp s := ⟨_, rfl⟩
example : changesOf 0 0 retName (sta exBad exAlgs [[[0]]]).st.log = [(0, 1), (1, 2), (2, 3), (3, 4), (4, 5)] := by decide +kernel

/-- A type that settles in the fifth pass is found. -/
def exFour : Cfg Nat Nat := { exCfg with body := fun v _ _ _ => (v 0).map (fun s => ([], some [(retName, min (s.ret + 1) 4)])) }

example : (∃ s, sta exFour exAlgs [[[0]]] = .ok s ()) ∧ (changesOf 0 0 retName (sta exFour exAlgs [[[0]]]).st.log).length = 4 :=
  ⟨⟨_, rfl⟩, by decide +kernel⟩

/-- An operation with two headers: a caller reads the union of what they declare. -/
def exTwo : List (Alg Nat) :=
  [{ builtIn := false, discriminated := true, moduleRec := false, heads := [exHead [("_x_", 1)] 2, exHead [("_y_", 4)] 3], summary := none }]

example : (prepare exCfg exTwo).map (fun as => view as 0) = some (some ⟨[("_x_|_y_", 4)], 3⟩) := by decide +kernel

/-- When an operation does not come after one that it reads, its report can be out of date: here operation 1 is analysed while operation 0
is still TBD, and what is reported about it (200) is not what is found against the final types (203).  `compute_dependency_levels` does
this on purpose for `ToNumber` and `ToString`, whose calls of `ToPrimitive` it leaves out of the graph (pseudocode_semantics.py:126). -/
theorem c53_cut_dependency_witness : ∃ (algs : List (Alg Nat)) (levels : List (List (List Nat))) (s : St Nat Nat) (h : Head Nat),
    Written algs ∧ levels.flatten.flatten.Nodup ∧ sta exCfg algs levels = .ok s () ∧ headAt s.algs 1 0 = some h ∧
    ∀ ms, Finds exCfg (view s.algs) 1 0 h ms → (s.log.filter (fun e => e.alg = 1)).map Entry.msg ≠ ms := by
  refine ⟨exAlgs, [[[1]], [[0]]], (sta exCfg exAlgs [[[1]], [[0]]]).st, noteTBD exCfg (exHead [("_x_", 2)] 1), ?_, by decide, rfl, by decide +kernel, ?_⟩
  · intro a i h hh
    match a with
    | 0 =>
      match i with
      | 0 => injection hh with hh; subst hh; exact ⟨by decide, by decide⟩
      | i + 1 => cases hh
    | 1 =>
      match i with
      | 0 => injection hh with hh; subst hh; exact ⟨by decide, by decide⟩
      | i + 1 => cases hh
    | a + 2 => cases hh
  · intro ms hf
    have h2 : Finds exCfg (view (sta exCfg exAlgs [[[1]], [[0]]]).st.algs) 1 0 (noteTBD exCfg (exHead [("_x_", 2)] 1))
        [.body 203, .suggest true retName 3] := by
      have := Finds.alg (cfg := exCfg) (v := view (sta exCfg exAlgs [[[1]], [[0]]]).st.algs) (a := 1) (i := 0)
        (h := noteTBD exCfg (exHead [("_x_", 2)] 1)) (errs := [203]) (fin := [("_x_", 2), (retName, 3)]) (r := 3) rfl rfl (by decide +kernel)
        (by intro n hn; cases hn) (by decide)
      exact this
    rw [c53_unique exCfg _ 1 0 _ ms _ hf h2]
    decide +kernel

end Verif.Sta
