import Verif.Util.Spec
import Verif.Common
/-! # Properties C09, C10, C11 -/
namespace Verif.Util

/-! ## C09: the registry -/
section
variable {K F : Type} [DecidableEq K]

theorem run_append (d : Dfd K F) (a b : List (DfdOp K F)) :
    d.run (a ++ b) = ((d.run a).1 ++ ((d.run a).2.run b).1, ((d.run a).2.run b).2) := by
  induction a generalizing d with
  | nil => simp [Dfd.run]
  | cons o a ih => simp [Dfd.run, ih]

theorem lookup_append_single (l : List (K × F)) (k k' : K) (f : F) :
    (l ++ [(k', f)]).lookup k = (l.lookup k).or (if k = k' then some f else none) := by
  induction l with
  | nil =>
    by_cases h : k = k'
    · simp [List.lookup, h]
    · simp [List.lookup, show (k == k') = false by simp [h], h]
  | cons p l ih =>
    obtain ⟨a, b⟩ := p
    simp only [List.cons_append, List.lookup]
    by_cases h : k = a
    · simp [h]
    · simp only [show (k == a) = false by simp [h]]; exact ih

theorem lookup_map_bump (l : List (K × Nat)) (k k' : K) :
    (l.map (fun (a, n) => if a = k' then (a, n + 1) else (a, n))).lookup k =
      (l.lookup k).map (fun n => if k = k' then n + 1 else n) := by
  induction l with
  | nil => simp
  | cons p l ih =>
    obtain ⟨a, b⟩ := p
    simp only [List.map_cons]
    by_cases h : k = a
    · subst h
      by_cases h2 : k = k'
      · subst h2; simp [List.lookup]
      · simp [h2, List.lookup]
    · by_cases h2 : a = k'
      · subst h2
        simp only [if_true, List.lookup]
        rw [show (k == a) = false by simp [h]]
        simpa [h] using ih
      · simp only [h2, if_false, List.lookup]
        rw [show (k == a) = false by simp [h]]
        exact ih

/-- The state after a history, in terms of the history. -/
theorem run_inv (ops : List (DfdOp K F)) : ∀ (d : Dfd K F),
    (d.funcs.map (·.1)) = d.counts.map (·.1) →
    let d' := (d.run ops).2
    d'.funcs.map (·.1) = d'.counts.map (·.1) ∧
    (∀ k, d'.funcs.lookup k = (d.funcs.lookup k).or (firstRegistered ops k)) ∧
    (∀ k, d'.counts.lookup k = match d.counts.lookup k with
      | some n => some (n + successfulLookups k ops true)
      | none => (firstRegistered ops k).map (fun _ => successfulLookups k ops false)) := by
  have hlk : ∀ (a : List (K × F)) (b : List (K × Nat)) k, a.map (·.1) = b.map (·.1) →
      (a.lookup k).isSome = (b.lookup k).isSome := by
    intro a
    induction a with
    | nil => intro b k h; cases b with
      | nil => rfl
      | cons _ _ => simp at h
    | cons p a ih => intro b k h; cases b with
      | nil => simp at h
      | cons q b =>
        obtain ⟨p1, p2⟩ := p
        obtain ⟨q1, q2⟩ := q
        simp only [List.map_cons, List.cons.injEq] at h
        obtain ⟨rfl, h⟩ := h
        simp only [List.lookup]
        by_cases hk : k = p1
        · simp [hk]
        · simp only [show (k == p1) = false by simp [hk]]; exact ih b k h
  induction ops with
  | nil =>
    intro d h
    refine ⟨h, fun k => by simp [Dfd.run, firstRegistered], fun k => ?_⟩
    simp only [Dfd.run, firstRegistered, successfulLookups]
    cases d.counts.lookup k <;> simp
  | cons op ops ih =>
    intro d h
    cases op with
    | set k0 f0 =>
      by_cases hin : (d.funcs.lookup k0).isSome = true
      · have hstep : d.step (.set k0 f0) = (.error, d) := by simp [Dfd.step, Dfd.set, hin]
        obtain ⟨h1, h2, h3⟩ := ih d h
        have hrun : (d.run (.set k0 f0 :: ops)).2 = (d.run ops).2 := by simp [Dfd.run, hstep]
        rw [hrun]
        refine ⟨h1, fun k => ?_, fun k => ?_⟩
        · rw [h2 k]
          by_cases hk : k0 = k
          · subst hk
            obtain ⟨v, hv⟩ := Option.isSome_iff_exists.1 hin
            simp [hv]
          · simp [firstRegistered, hk]
        · rw [h3 k]
          by_cases hk : k0 = k
          · subst hk
            rw [hlk _ _ _ h] at hin
            obtain ⟨v, hv⟩ := Option.isSome_iff_exists.1 hin
            simp [hv, successfulLookups]
          · simp [firstRegistered, successfulLookups, hk]
      · have hstep : d.step (.set k0 f0) = (.ok, ⟨d.funcs ++ [(k0, f0)], d.counts ++ [(k0, 0)]⟩) := by
          simp [Dfd.step, Dfd.set, hin]
        obtain ⟨h1, h2, h3⟩ := ih ⟨d.funcs ++ [(k0, f0)], d.counts ++ [(k0, 0)]⟩ (by simp [h])
        have hrun : (d.run (.set k0 f0 :: ops)).2
            = (Dfd.run ⟨d.funcs ++ [(k0, f0)], d.counts ++ [(k0, 0)]⟩ ops).2 := by simp [Dfd.run, hstep]
        rw [hrun]
        refine ⟨h1, fun k => ?_, fun k => ?_⟩
        · rw [h2 k]
          simp only [lookup_append_single]
          by_cases hk : k0 = k
          · subst hk
            simp at hin
            simp [hin, firstRegistered]
          · simp [firstRegistered, hk, Ne.symm hk]
        · rw [h3 k]
          simp only [lookup_append_single]
          by_cases hk : k0 = k
          · subst hk
            rw [hlk _ _ _ h, Bool.not_eq_true, Option.isSome_eq_false_iff, Option.isNone_iff_eq_none] at hin
            simp [hin, firstRegistered, successfulLookups]
          · simp only [Ne.symm hk, if_false, Option.or_none]
            cases d.counts.lookup k <;> simp [firstRegistered, successfulLookups, hk]
    | get k0 =>
      cases hl : d.funcs.lookup k0 with
      | none =>
        have hstep : d.step (.get k0) = (.error, d) := by simp [Dfd.step, Dfd.get, hl]
        obtain ⟨h1, h2, h3⟩ := ih d h
        have hrun : (d.run (.get k0 :: ops)).2 = (d.run ops).2 := by simp [Dfd.run, hstep]
        rw [hrun]
        refine ⟨h1, fun k => ?_, fun k => ?_⟩
        · rw [h2 k]; simp [firstRegistered]
        · rw [h3 k]
          have := hlk _ _ k0 h
          rw [hl] at this
          cases hc : d.counts.lookup k with
          | none => simp [firstRegistered, successfulLookups]
          | some n =>
            have hk : k0 ≠ k := by rintro rfl; rw [hc] at this; simp at this
            simp [successfulLookups, hk]
      | some f =>
        let d1 : Dfd K F := { d with counts := d.counts.map (fun (k', n) => if k' = k0 then (k', n + 1) else (k', n)) }
        have hstep : d.step (.get k0) = (.value f, d1) := by simp [Dfd.step, Dfd.get, hl, d1]
        have hkeys : d1.funcs.map (·.1) = d1.counts.map (·.1) := by
          simp only [d1, h, List.map_map]
          apply List.map_congr_left
          rintro ⟨a, n⟩ _
          dsimp only [Function.comp]
          split <;> rfl
        obtain ⟨h1, h2, h3⟩ := ih d1 hkeys
        have hrun : (d.run (.get k0 :: ops)).2 = (d1.run ops).2 := by simp [Dfd.run, hstep]
        rw [hrun]
        refine ⟨h1, fun k => ?_, fun k => ?_⟩
        · rw [h2 k]; simp [firstRegistered, d1]
        · rw [h3 k]
          have hc1 : d1.counts.lookup k = (d.counts.lookup k).map (fun n => if k = k0 then n + 1 else n) :=
            lookup_map_bump _ _ _
          rw [hc1]
          cases hc : d.counts.lookup k with
          | none => simp [firstRegistered, successfulLookups]
          | some n =>
            by_cases hk : k0 = k
            · subst hk; simp [successfulLookups]; omega
            · simp [successfulLookups, hk, Ne.symm hk]

/-- C09: after any history, a registration of `k` fails exactly when `k` was registered
before, and a failed call changes nothing. -/
theorem c09_duplicate_refused (ops : List (DfdOp K F)) (k : K) (f : F) :
    let d := (Dfd.run Dfd.init ops).2
    (d.step (.set k f)).1 = (if (firstRegistered ops k).isSome then .error else .ok) ∧
    ((d.step (.set k f)).1 = .error → (d.step (.set k f)).2 = d) := by
  intro d
  obtain ⟨_, h2, _⟩ := run_inv ops (Dfd.init : Dfd K F) rfl
  have h2 := h2 k
  simp only [Dfd.init, List.lookup_nil, Option.none_or] at h2
  have h2 : d.funcs.lookup k = firstRegistered ops k := h2
  by_cases h : (firstRegistered ops k).isSome = true
  · have : d.step (.set k f) = (.error, d) := by simp [Dfd.step, Dfd.set, h2, h]
    simp [this, h]
  · have : d.step (.set k f) = (.ok, ⟨d.funcs ++ [(k, f)], d.counts ++ [(k, 0)]⟩) := by
      simp [Dfd.step, Dfd.set, h2, h]
    simp [this, h]

/-- C09: after any history, looking up `k` returns the value first registered under it, and
fails exactly when there is none. -/
theorem c09_lookup_first (ops : List (DfdOp K F)) (k : K) :
    ((Dfd.run Dfd.init ops).2.step (.get k)).1 =
      match firstRegistered ops k with
      | some f => .value f
      | none => .error := by
  obtain ⟨_, h2, _⟩ := run_inv ops (Dfd.init : Dfd K F) rfl
  have h2 := h2 k
  simp only [Dfd.init, List.lookup_nil, Option.none_or] at h2
  simp only [Dfd.step, Dfd.get, Dfd.init, h2]
  cases firstRegistered ops k <;> rfl

/-- C09: membership test. -/
theorem c09_contains (ops : List (DfdOp K F)) (k : K) :
    (Dfd.run Dfd.init ops).2.contains k = (firstRegistered ops k).isSome := by
  obtain ⟨_, h2, _⟩ := run_inv ops (Dfd.init : Dfd K F) rfl
  have h2 := h2 k
  simp only [Dfd.init, List.lookup_nil, Option.none_or] at h2
  simp only [Dfd.contains, Dfd.init, h2]

/-- C09: after any history the reported access count of a registered key is the number of
successful lookups of it; other keys are not reported. -/
theorem c09_access_counts (ops : List (DfdOp K F)) (k : K) :
    (Dfd.run Dfd.init ops).2.counts.lookup k =
      (firstRegistered ops k).map (fun _ => successfulLookups k ops false) := by
  obtain ⟨_, _, h3⟩ := run_inv ops (Dfd.init : Dfd K F) rfl
  exact h3 k

example : (Dfd.run Dfd.init [DfdOp.set "a" 1, .get "a", .set "a" 2, .get "b", .get "a"]).1
    = [.ok, .value 1, .error, .error, .value 1] := by decide
example : (Dfd.run Dfd.init [DfdOp.set "a" 1, .get "a", .set "a" 2, .get "b", .get "a"]).2.counts
    = [("a", 2)] := by decide

end

/-! ## C10: the scanner -/
section
variable {T : Type}

theorem mem_tokMatches (specs : List (TokSpec T)) (line o) (m : Nat × Nat × TokSpec T) :
    m ∈ tokMatches specs line o ↔ specs[m.2.1]? = some m.2.2 ∧ m.2.2.reo line o = some m.1 := by
  obtain ⟨len, i, s⟩ := m
  unfold tokMatches
  rw [List.mem_filterMap]
  constructor
  · rintro ⟨⟨s', i'⟩, h1, h2⟩
    have hz := List.mem_zipIdx_iff_getElem?.1 h1
    dsimp only at h2 hz ⊢
    cases hr : s'.reo line o with
    | none => rw [hr] at h2; simp at h2
    | some n =>
      rw [hr] at h2
      simp at h2
      obtain ⟨rfl, rfl, rfl⟩ := h2
      exact ⟨hz, hr⟩
  · rintro ⟨h1, h2⟩
    exact ⟨(s, i), List.mem_zipIdx_iff_getElem?.2 h1, by dsimp only at h2 ⊢; rw [h2]; rfl⟩

theorem tokMatches_nodup (specs : List (TokSpec T)) (line o) :
    ((tokMatches specs line o).map (·.2.1)).Nodup := by
  unfold tokMatches
  have key : ∀ (l : List (TokSpec T)) (k : Nat),
      (((l.zipIdx k).filterMap (fun (s, i) => (s.reo line o).map (fun len => (len, i, s)))).map (·.2.1)).Nodup ∧
      ∀ x ∈ (((l.zipIdx k).filterMap (fun (s, i) => (s.reo line o).map (fun len => (len, i, s)))).map (·.2.1)), k ≤ x := by
    intro l
    induction l with
    | nil => intro k; simp
    | cons s l ih =>
      intro k
      obtain ⟨h1, h2⟩ := ih (k + 1)
      rw [List.zipIdx_cons, List.filterMap_cons]
      cases hr : s.reo line o with
      | none =>
        simp only [hr, Option.map_none]
        refine ⟨h1, fun x hx => ?_⟩
        have := h2 x hx; omega
      | some n =>
        simp only [hr, Option.map_some, List.map_cons, List.nodup_cons, List.mem_cons]
        refine ⟨⟨fun hm => ?_, h1⟩, ?_⟩
        · have := h2 k hm; omega
        · rintro x (rfl | hx)
          · exact Nat.le_refl _
          · have := h2 x hx; omega
  exact (key specs 0).1

/-- The choice is the unique longest match. -/
theorem tokChoose_spec (specs : List (TokSpec T)) (line : List Char) (o : Nat) (len i : Nat) (s : TokSpec T) :
    tokChoose (tokMatches specs line o) = some (len, i, s) ↔ LongestAt specs line o i len s := by
  have hmem := mem_tokMatches specs line o
  have hnd := tokMatches_nodup specs line o
  have hL : LongestAt specs line o i len s ↔ (len, i, s) ∈ tokMatches specs line o ∧
      ∀ m ∈ tokMatches specs line o, m.2.1 ≠ i → m.1 < len := by
    constructor
    · rintro ⟨h1, h2, h3⟩
      refine ⟨(hmem _).2 ⟨h1, h2⟩, ?_⟩
      intro m hm hne
      exact h3 m.2.1 m.2.2 m.1 ((hmem m).1 hm).1 ((hmem m).1 hm).2 hne
    · rintro ⟨h1, h2⟩
      refine ⟨((hmem _).1 h1).1, ((hmem _).1 h1).2, ?_⟩
      intro j s' len' h3 h4 h5
      exact h2 (len', j, s') ((hmem _).2 ⟨h3, h4⟩) h5
  have hinj : ∀ m ∈ tokMatches specs line o, ∀ m' ∈ tokMatches specs line o, m.2.1 = m'.2.1 → m = m' := by
    rintro ⟨a, b, c⟩ hm ⟨a', b', c'⟩ hm' (rfl : b = b')
    have e1 := (hmem _).1 hm
    have e2 := (hmem _).1 hm'
    dsimp only at e1 e2
    rw [e1.1] at e2
    obtain ⟨e3, e4⟩ := e2
    injection e3 with e3
    subst e3
    rw [e1.2] at e4; injection e4 with e4
    rw [e4]
  rw [hL]
  generalize tokMatches specs line o = ms at *
  match ms with
  | [] => simp [tokChoose]
  | [m] =>
    simp only [tokChoose, Option.some.injEq, List.mem_singleton]
    constructor
    · rintro rfl
      refine ⟨rfl, ?_⟩
      rintro m rfl h
      exact absurd rfl h
    · rintro ⟨h, _⟩; exact h.symm
  | m1 :: m2 :: ms' =>
    have hdef : tokChoose (m1 :: m2 :: ms') =
        match (m1 :: m2 :: ms').filter (fun m => m.1 = ((m1 :: m2 :: ms').map (·.1)).foldl max 0) with
        | [m] => some m
        | _ => none := rfl
    rw [hdef]
    generalize hms : m1 :: m2 :: ms' = ms at *
    obtain ⟨⟨_, hmax⟩, hin⟩ := foldl_max_spec (ms.map (·.1)) 0
    generalize (ms.map (·.1)).foldl max 0 = M at *
    constructor
    · intro h
      split at h
      · rename_i m hm
        injection h with h
        subst h
        have hmm : (len, i, s) ∈ ms.filter (fun m => m.1 = M) := by rw [hm]; simp
        rw [List.mem_filter] at hmm
        obtain ⟨h1, h2⟩ := hmm
        simp at h2
        refine ⟨h1, fun m' hm' hne => ?_⟩
        have hle := hmax m'.1 (List.mem_map.2 ⟨m', hm', rfl⟩)
        rcases Nat.lt_or_ge m'.1 len with hlt | hge
        · exact hlt
        · have : m' ∈ ms.filter (fun m => m.1 = M) := by
            rw [List.mem_filter]; exact ⟨hm', by simp; omega⟩
          rw [hm, List.mem_singleton] at this
          rw [this] at hne; exact absurd rfl hne
      · cases h
    · rintro ⟨h1, h2⟩
      have hlenM : len = M := by
        have hle := hmax len (List.mem_map.2 ⟨_, h1, rfl⟩)
        rcases hin with hin | hin
        · omega
        · obtain ⟨m', hm', hm'M⟩ := List.mem_map.1 hin
          by_cases hne : m'.2.1 = i
          · rw [← hm'M, hinj m' hm' _ h1 hne]
          · have := h2 m' hm' hne; omega
      have hfil : ms.filter (fun m => m.1 = M) = [(len, i, s)] := by
        have hall : ∀ m ∈ ms.filter (fun m => m.1 = M), m = (len, i, s) := by
          intro m hm
          rw [List.mem_filter] at hm
          obtain ⟨h3, h4⟩ := hm
          simp at h4
          by_cases hne : m.2.1 = i
          · exact hinj m h3 _ h1 hne
          · have := h2 m h3 hne; omega
        have hnd2 : (ms.filter (fun m => m.1 = M)).Nodup := by
          refine List.Nodup.sublist List.filter_sublist ?_
          have : ms.Pairwise (fun a b => a.2.1 ≠ b.2.1) := List.pairwise_map.1 hnd
          exact this.imp (fun h e => h (by rw [e]))
        have hmem1 : (len, i, s) ∈ ms.filter (fun m => m.1 = M) := by
          rw [List.mem_filter]; exact ⟨h1, by simp [hlenM]⟩
        match hl : ms.filter (fun m => m.1 = M) with
        | [] => rw [hl] at hmem1; cases hmem1
        | [m] => rw [hl] at hall; rw [← hall m (by simp)]; exact hl
        | a :: b :: r =>
          rw [hl] at hall hnd2
          rw [hall a (by simp), hall b (by simp)] at hnd2
          simp at hnd2
      rw [hfil]

theorem tokLoop_sound (specs : List (TokSpec T)) (line : List Char) :
    ∀ n o toks used ts us, tokLoop specs line n o toks used = .tokens ts us →
      ∃ ps ts', ts = toks ++ ts' ∧ us = used ++ ps ∧ Munch specs line o ps ts' := by
  intro n
  induction n with
  | zero => intro o toks used ts us h; simp [tokLoop] at h
  | succ n ih =>
    intro o toks used ts us h
    rw [tokLoop] at h
    split at h
    · rename_i hlt
      split at h
      · cases h
      · rename_i len i s hc
        have hL := (tokChoose_spec specs line o len i s).1 hc
        obtain ⟨ps, ts', h1, h2, h3⟩ := ih _ _ _ _ _ h
        cases hr : s.response with
        | none =>
          rw [hr] at h1
          exact ⟨(i, o, len) :: ps, ts', h1, by rw [h2]; simp, .skip hlt hL hr h3⟩
        | some f =>
          rw [hr] at h1
          exact ⟨(i, o, len) :: ps, f line o len :: ts', by rw [h1]; simp, by rw [h2]; simp, .token hlt hL hr h3⟩
    · rename_i hge
      injection h with h1 h2
      exact ⟨[], [], by simp [h1], by simp [h2], .done (by omega)⟩

theorem tokLoop_complete (specs : List (TokSpec T)) (line : List Char) {o ps ts}
    (h : Munch specs line o ps ts) : ∀ n toks used, ps.length < n →
      tokLoop specs line n o toks used = .tokens (toks ++ ts) (used ++ ps) := by
  induction h with
  | done hge =>
    intro n toks used hn
    cases n with
    | zero => omega
    | succ n => rw [tokLoop, if_neg (by omega)]; simp
  | skip hlt hL hr _ ih =>
    intro n toks used hn
    cases n with
    | zero => omega
    | succ n =>
      rw [tokLoop, if_pos hlt, (tokChoose_spec specs line _ _ _ _).2 hL]
      simp only [hr]
      simp only [List.length_cons] at hn
      rw [ih n _ _ (by omega)]
      simp
  | token hlt hL hr _ ih =>
    intro n toks used hn
    cases n with
    | zero => omega
    | succ n =>
      rw [tokLoop, if_pos hlt, (tokChoose_spec specs line _ _ _ _).2 hL]
      simp only [hr]
      simp only [List.length_cons] at hn
      rw [ih n _ _ (by omega)]
      simp

theorem longest_unique {specs : List (TokSpec T)} {line o i len s i' len' s'}
    (h : LongestAt specs line o i len s) (h' : LongestAt specs line o i' len' s') :
    i = i' ∧ len = len' ∧ s = s' := by
  have e1 := (tokChoose_spec specs line o len i s).2 h
  rw [(tokChoose_spec specs line o len' i' s').2 h'] at e1
  injection e1 with e1
  simp at e1
  exact ⟨e1.2.1.symm, e1.1.symm, e1.2.2.symm⟩

theorem tokLoop_error (specs : List (TokSpec T)) (line : List Char) :
    ∀ n o toks used e, tokLoop specs line n o toks used = .error e →
      Leads specs line o e ∧ e < line.length ∧ ¬ ∃ i len s, LongestAt specs line e i len s := by
  intro n
  induction n with
  | zero => intro o toks used e h; simp [tokLoop] at h
  | succ n ih =>
    intro o toks used e h
    rw [tokLoop] at h
    split at h
    · rename_i hlt
      split at h
      · rename_i hc
        injection h with h
        subst h
        refine ⟨.refl _, hlt, ?_⟩
        rintro ⟨i, len, s, hL⟩
        rw [(tokChoose_spec specs line _ _ _ _).2 hL] at hc; cases hc
      · rename_i len i s hc
        obtain ⟨h1, h2, h3⟩ := ih _ _ _ _ h
        exact ⟨.step hlt ((tokChoose_spec specs line o len i s).1 hc) h1, h2, h3⟩
    · cases h

/-- C10: if tokenizing succeeds, the matches tile the line from its start, each is the unique
longest at its place, and the tokens are those of the matches with a response; conversely any
such tiling is what the tokenizer produces, given enough steps. -/
theorem c10_maximal_munch (specs : List (TokSpec T)) (line : List Char) (ts : List T)
    (used : List (Nat × Nat × Nat)) :
    (∃ n, tokenize specs line n = .tokens ts used) ↔ Munch specs line 0 used ts := by
  constructor
  · rintro ⟨n, h⟩
    obtain ⟨ps, ts', h1, h2, h3⟩ := tokLoop_sound specs line n 0 [] [] ts used h
    simp at h1 h2
    subst h1; subst h2; exact h3
  · intro h
    exact ⟨used.length + 1, by
      have := tokLoop_complete specs line h (used.length + 1) [] [] (by omega)
      simpa [tokenize] using this⟩

theorem munch_concat (specs : List (TokSpec T)) (line : List Char)
    (hre : ∀ s ∈ specs, ∀ o len, s.reo line o = some len → o + len ≤ line.length) {o ps ts}
    (h : Munch specs line o ps ts) (ho : o ≤ line.length) :
    (ps.flatMap (pieceText line)) = line.drop o := by
  have step : ∀ o i len (s : TokSpec T) (ps : List (Nat × Nat × Nat)), LongestAt specs line o i len s →
      (o + len ≤ line.length → ps.flatMap (pieceText line) = line.drop (o + len)) →
      ((i, o, len) :: ps).flatMap (pieceText line) = line.drop o := by
    intro o i len s ps hL ih
    have hle := hre s (List.mem_of_getElem? hL.1) o len hL.2.1
    rw [List.flatMap_cons, ih hle]
    simp only [pieceText]
    rw [← List.drop_drop, List.take_append_drop]
  induction h with
  | done hge => simp; exact hge
  | skip _ hL _ _ ih => exact step _ _ _ _ _ hL ih
  | token _ hL _ _ ih => exact step _ _ _ _ _ hL ih

/-- C10: no input is lost or duplicated: the matched pieces concatenate to the line. -/
theorem c10_no_loss (specs : List (TokSpec T)) (line : List Char) (n : Nat) (ts : List T)
    (used : List (Nat × Nat × Nat))
    (hre : ∀ s ∈ specs, ∀ o len, s.reo line o = some len → o + len ≤ line.length)
    (h : tokenize specs line n = .tokens ts used) : used.flatMap (pieceText line) = line := by
  have := munch_concat specs line hre ((c10_maximal_munch specs line ts used).1 ⟨n, h⟩) (Nat.zero_le _)
  simpa using this

/-- C10: tokenizing fails exactly when longest matches lead to a position inside the line with
no unique longest match, and that position is the one reported. -/
theorem c10_error_exact (specs : List (TokSpec T)) (line : List Char) (e : Nat) :
    (∃ n, tokenize specs line n = .error e) ↔
      Leads specs line 0 e ∧ e < line.length ∧ ¬ ∃ i len s, LongestAt specs line e i len s := by
  constructor
  · rintro ⟨n, h⟩; exact tokLoop_error specs line n 0 [] [] e h
  · rintro ⟨h1, h2, h3⟩
    have key : ∀ o, Leads specs line o e → ∃ n, ∀ toks used, tokLoop specs line n o toks used = .error e := by
      intro o h
      clear h1
      induction h with
      | refl o =>
        refine ⟨1, fun toks used => ?_⟩
        rw [tokLoop, if_pos h2]
        cases hc : tokChoose (tokMatches specs line o) with
        | none => rfl
        | some m =>
          obtain ⟨len, i, s⟩ := m
          exact absurd ⟨i, len, s, (tokChoose_spec specs line _ _ _ _).1 hc⟩ h3
      | step hlt hL _ ih =>
        obtain ⟨n, hn⟩ := ih h2 h3
        refine ⟨n + 1, fun toks used => ?_⟩
        rw [tokLoop, if_pos hlt, (tokChoose_spec specs line _ _ _ _).2 hL]
        exact hn _ _
    obtain ⟨n, hn⟩ := key 0 h1
    exact ⟨n, hn [] []⟩

/-- C10: if every match is at least one character long, tokenizing a line always ends, within
as many steps as there are characters. -/
theorem c10_terminates (specs : List (TokSpec T)) (line : List Char)
    (hpos : ∀ s ∈ specs, ∀ o len, s.reo line o = some len → 1 ≤ len) :
    ∀ n, line.length < n → tokenize specs line n ≠ .diverges := by
  have key : ∀ n o toks used, line.length < n + o → 0 < n → tokLoop specs line n o toks used ≠ .diverges := by
    intro n
    induction n with
    | zero => intro o toks used _ h; omega
    | succ n ih =>
      intro o toks used h _
      rw [tokLoop]
      split
      · split
        · simp
        · rename_i len i s hc
          have hL := (tokChoose_spec specs line o len i s).1 hc
          have := hpos s (List.mem_of_getElem? hL.1) o len hL.2.1
          exact ih _ _ _ (by omega) (by omega)
      · simp
  intro n hn
  exact key n 0 [] [] (by omega) (by omega)

/-- A zero-length longest match makes the tokenizer loop forever: the termination hypothesis of
`c10_terminates` cannot be dropped. -/
theorem c10_zero_length_diverges (specs : List (TokSpec T)) (line : List Char) (o i : Nat) (s : TokSpec T)
    (ho : o < line.length) (hL : LongestAt specs line o i 0 s) (hlead : Leads specs line 0 o) (n : Nat) :
    tokenize specs line n = .diverges := by
  have loop : ∀ n toks used, tokLoop specs line n o toks used = .diverges := by
    intro n
    induction n with
    | zero => intro _ _; rfl
    | succ n ih =>
      intro toks used
      rw [tokLoop, if_pos ho, (tokChoose_spec specs line _ _ _ _).2 hL]
      exact ih _ _
  have key : ∀ a, Leads specs line a o → ∀ n toks used, tokLoop specs line n a toks used = .diverges := by
    intro a h
    clear hlead
    induction h with
    | refl => exact loop
    | step hlt hL' _ ih =>
      intro n toks used
      cases n with
      | zero => rfl
      | succ n =>
        rw [tokLoop, if_pos hlt, (tokChoose_spec specs line _ _ _ _).2 hL']
        exact ih ho hL loop n _ _
  exact key 0 hlead n [] []

/-- C10: the patterns listed as unused are exactly those that took part in no match, except that
nothing is listed when no pattern was used at all. -/
theorem c10_unused (nSpecs : Nat) (used : List (Nat × Nat × Nat)) (hu : ∃ u ∈ used, u.1 < nSpecs) (i : Nat) :
    i ∈ unusedPatterns nSpecs used ↔ i < nSpecs ∧ ∀ u ∈ used, u.1 ≠ i := by
  unfold unusedPatterns
  obtain ⟨u, hu1, hu2⟩ := hu
  have hmem : ∀ i, i ∈ (List.range nSpecs).filter (fun i => (used.filter (fun u => u.1 = i)).length = 0) ↔
      i < nSpecs ∧ ∀ u ∈ used, u.1 ≠ i := by
    intro i
    simp [List.mem_filter]
  have hne : ((List.range nSpecs).filter (fun i => (used.filter (fun u => u.1 = i)).length = 0)).length ≠ nSpecs := by
    intro h
    have hs : ((List.range nSpecs).filter (fun i => (used.filter (fun u => u.1 = i)).length = 0)) = List.range nSpecs :=
      List.Sublist.eq_of_length List.filter_sublist (by rw [h]; simp)
    have : u.1 ∈ (List.range nSpecs).filter (fun i => (used.filter (fun u => u.1 = i)).length = 0) := by
      rw [hs]; simpa using hu2
    exact ((hmem _).1 this).2 u hu1 rfl
  dsimp only
  rw [if_neg hne]
  exact hmem i

/-- Non-vacuity: runs of `a` against single letters. -/
def exSpecs : List (TokSpec (Nat × Nat)) :=
  [⟨fun l o => let n := ((l.drop o).takeWhile (· = 'a')).length; if n = 0 then none else some n,
    some (fun _ o n => (o, n))⟩,
   ⟨fun l o => if (l[o]?).isSome then some 1 else none, none⟩]

example : tokenize exSpecs ['a', 'a', 'b', 'a', 'a', 'a'] 10
    = .tokens [(0, 2), (3, 3)] [(0, 0, 2), (1, 2, 1), (0, 3, 3)] := rfl
example : tokenize exSpecs ['b', 'a', 'b'] 10 = .error 1 := rfl

end

/-! ## C11: scanning a section -/
section
variable {R : Type}

theorem patternMatches_iff (as : List Atom) : ∀ (ns : List HNode),
    PatternMatches as ns ↔ as.length = ns.length ∧ (ns.zip as).all (fun p => nodeMatchesAtom p.1 p.2) = true := by
  induction as with
  | nil =>
    intro ns
    constructor
    · intro h; cases h; simp
    · rintro ⟨h, _⟩
      cases ns with
      | nil => exact .nil
      | cons _ _ => simp at h
  | cons a as ih =>
    intro ns
    cases ns with
    | nil =>
      constructor
      · intro h; cases h
      · rintro ⟨h, _⟩; simp at h
    | cons n ns =>
      have := ih ns
      cases a with
      | name s =>
        constructor
        · intro h
          cases h with
          | name h1 h2 =>
            obtain ⟨h3, h4⟩ := this.1 h2
            simp [nodeMatchesAtom, h1, h3] at h4 ⊢
            exact h4
        · rintro ⟨h1, h2⟩
          simp [nodeMatchesAtom] at h1 h2
          exact .name h2.1 (this.2 ⟨h1, by simp; exact h2.2⟩)
      | content s re =>
        constructor
        · intro h
          cases h with
          | content h1 h1' h2 =>
            obtain ⟨h3, h4⟩ := this.1 h2
            simp [nodeMatchesAtom, h1, h1', h3] at h4 ⊢
            exact h4
        · rintro ⟨h1, h2⟩
          simp [nodeMatchesAtom] at h1 h2
          exact .content h2.1.1 h2.1.2 (this.2 ⟨h1, by simp; exact h2.2⟩)

theorem zip_take_right (ns : List HNode) (as : List Atom) : ns.zip as = (ns.take as.length).zip as := by
  induction as generalizing ns with
  | nil => simp
  | cons a as ih =>
    cases ns with
    | nil => simp
    | cons n ns => simp [ih ns]

theorem unitMatches_iff (u : NUnit R) (nodes : List HNode) :
    unitMatches u nodes = true ↔ u.pattern.length ≤ nodes.length ∧
      PatternMatches u.pattern (nodes.take u.pattern.length) := by
  unfold unitMatches
  split
  · constructor
    · intro h; cases h
    · rintro ⟨h, _⟩; omega
  · rw [patternMatches_iff, ← zip_take_right]
    constructor
    · intro h; exact ⟨by omega, by rw [List.length_take]; omega, h⟩
    · rintro ⟨_, _, h⟩; exact h

theorem unitMatches_iff' (u : NUnit R) (nodes : List HNode) :
    unitMatches u nodes = true ↔ ∃ m rest, nodes = m ++ rest ∧ PatternMatches u.pattern m := by
  rw [unitMatches_iff]
  constructor
  · rintro ⟨h1, h2⟩
    exact ⟨_, nodes.drop u.pattern.length, by rw [List.take_append_drop], h2⟩
  · rintro ⟨m, rest, rfl, h⟩
    have := ((patternMatches_iff _ _).1 h).1
    rw [this]
    simp [h]

theorem find_first (units : List (NUnit R)) (nodes : List HNode) (u : NUnit R) (i : Nat) :
    units.zipIdx.find? (fun (u, _) => unitMatches u nodes) = some (u, i) ↔
      FirstMatch units nodes i u (nodes.take u.pattern.length) (nodes.drop u.pattern.length) := by
  rw [List.find?_eq_some_iff_getElem]
  constructor
  · rintro ⟨h1, j, hj, h2, h3⟩
    simp only [List.getElem_zipIdx, Nat.zero_add, Prod.mk.injEq] at h2
    obtain ⟨h4, rfl⟩ := h2
    simp only [List.length_zipIdx] at hj
    refine ⟨by rw [List.getElem?_eq_getElem hj, h4], by rw [List.take_append_drop],
      ((unitMatches_iff u nodes).1 h1).2, ?_⟩
    intro k u' hk hu' m' rest' he hp
    obtain ⟨hk2, rfl⟩ := List.getElem?_eq_some_iff.1 hu'
    have := h3 k hk
    simp only [List.getElem_zipIdx] at this
    rw [(unitMatches_iff' _ nodes).2 ⟨m', rest', he, hp⟩] at this
    simp at this
  · rintro ⟨h1, _, h3, h4⟩
    obtain ⟨hi, rfl⟩ := List.getElem?_eq_some_iff.1 h1
    have hm : unitMatches units[i] nodes = true :=
      (unitMatches_iff' _ nodes).2 ⟨_, nodes.drop units[i].pattern.length, by rw [List.take_append_drop], h3⟩
    refine ⟨hm, i, by simpa using hi, by simp, ?_⟩
    intro j hj
    simp only [List.getElem_zipIdx]
    have hj2 : j < units.length := by omega
    cases hu : unitMatches units[j] nodes with
    | false => rfl
    | true =>
      obtain ⟨m, rest, he, hp⟩ := (unitMatches_iff' _ nodes).1 hu
      exact absurd hp (h4 j _ hj (List.getElem?_eq_getElem hj2) m rest he)

theorem find_none (units : List (NUnit R)) (nodes : List HNode) :
    units.zipIdx.find? (fun (u, _) => unitMatches u nodes) = none ↔
      ∀ u ∈ units, ∀ m rest, nodes = m ++ rest → ¬ PatternMatches u.pattern m := by
  rw [List.find?_eq_none]
  constructor
  · intro h u hu m rest he hp
    obtain ⟨i, hi⟩ := List.mem_iff_getElem?.1 hu
    exact h (u, i) (List.mem_zipIdx_iff_getElem?.2 hi) ((unitMatches_iff' u nodes).2 ⟨m, rest, he, hp⟩)
  · rintro h ⟨u, i⟩ hm hu
    have := List.mem_of_getElem? (List.mem_zipIdx_iff_getElem?.1 hm)
    obtain ⟨m, rest, he, hp⟩ := (unitMatches_iff' u nodes).1 hu
    exact h u this m rest he hp

theorem scanLoop_sound (units : List (NUnit R)) : ∀ n nodes results used r,
    scanLoop units n nodes results used = some r →
    ∃ us rs rest, Chopped units nodes us rs rest ∧ r.used = used ++ us ∧
      ((rest = [] ∧ r.results = results ++ rs ∧ r.msg = none) ∨
       (∃ x xs, rest = x :: xs ∧ r.results = [] ∧ r.msg = some x.startPosn ∧
          ∀ u ∈ units, ∀ m rest', rest = m ++ rest' → ¬ PatternMatches u.pattern m)) := by
  intro n
  induction n with
  | zero =>
    intro nodes results used r h
    cases nodes with
    | nil =>
      simp only [scanLoop, Option.some.injEq] at h
      subst h
      exact ⟨[], [], [], .nil _, by simp, .inl ⟨rfl, by simp, rfl⟩⟩
    | cons x xs => simp [scanLoop] at h
  | succ n ih =>
    intro nodes results used r h
    cases nodes with
    | nil =>
      simp only [scanLoop, Option.some.injEq] at h
      subst h
      exact ⟨[], [], [], .nil _, by simp, .inl ⟨rfl, by simp, rfl⟩⟩
    | cons x xs =>
      rw [scanLoop] at h
      split at h
      · rename_i hf
        injection h with h
        subst h
        exact ⟨[], [], x :: xs, .nil _, by simp, .inr ⟨x, xs, rfl, rfl, rfl, (find_none units _).1 hf⟩⟩
      · rename_i u i hf
        have hF := (find_first units _ u i).1 hf
        obtain ⟨us, rs, rest, h1, h2, h3⟩ := ih _ _ _ _ h
        refine ⟨(i, (x :: xs).take u.pattern.length) :: us, u.processor ((x :: xs).take u.pattern.length) ++ rs,
          rest, .cons (by simp) hF h1, by rw [h2]; simp, ?_⟩
        rcases h3 with ⟨h4, h5, h6⟩ | h3
        · exact .inl ⟨h4, by rw [h5]; simp, h6⟩
        · exact .inr h3

theorem chopped_concat {units : List (NUnit R)} {nodes us rs rest} (h : Chopped units nodes us rs rest) :
    nodes = us.flatMap Prod.snd ++ rest := by
  induction h with
  | nil => simp
  | cons _ hF _ ih =>
    rw [hF.2.1, ih]; simp

/-- C11: a scan that reports nothing has split the whole child sequence into consecutive
stretches, each taken by the first unit that matches there, and returns their results in
order. -/
theorem c11_scan_complete (units : List (NUnit R)) (nodes : List HNode) (n : Nat) (r : ScanResult R)
    (h : scanSection units nodes n = some r) (hm : r.msg = none) :
    Chopped units nodes r.used r.results [] ∧ nodes = r.used.flatMap Prod.snd := by
  obtain ⟨us, rs, rest, h1, h2, h3⟩ := scanLoop_sound units n nodes [] [] r h
  rcases h3 with ⟨rfl, h4, _⟩ | ⟨x, xs, _, _, h4, _⟩
  · simp at h2 h4
    rw [h2, h4]
    exact ⟨h1, by simpa using chopped_concat h1⟩
  · rw [hm] at h4; cases h4

/-- C11: a scan that reports returns nothing, and the position reported is that of the first
child at which no unit matches, everything before it having been taken. -/
theorem c11_scan_reports (units : List (NUnit R)) (nodes : List HNode) (n : Nat) (r : ScanResult R)
    (p : Nat) (h : scanSection units nodes n = some r) (hm : r.msg = some p) :
    r.results = [] ∧ ∃ rs x xs, Chopped units nodes r.used rs (x :: xs) ∧ p = x.startPosn ∧
      nodes = r.used.flatMap Prod.snd ++ x :: xs ∧
      ∀ u ∈ units, ∀ m rest, x :: xs = m ++ rest → ¬ PatternMatches u.pattern m := by
  obtain ⟨us, rs, rest, h1, h2, h3⟩ := scanLoop_sound units n nodes [] [] r h
  rcases h3 with ⟨_, _, h4⟩ | ⟨x, xs, rfl, h5, h4, h6⟩
  · rw [hm] at h4; cases h4
  · simp at h2
    rw [hm] at h4; injection h4 with h4
    rw [h2]
    exact ⟨h5, rs, x, xs, h1, h4, chopped_concat h1, h6⟩

/-- C11: with non-empty patterns a scan always ends, within one step per child. -/
theorem c11_scan_terminates (units : List (NUnit R)) (hne : ∀ u ∈ units, u.pattern ≠ [])
    (nodes : List HNode) (n : Nat) (hn : nodes.length ≤ n) : ∃ r, scanSection units nodes n = some r := by
  have key : ∀ n nodes results used, nodes.length ≤ n → ∃ r, scanLoop units n nodes results used = some r := by
    intro n
    induction n with
    | zero =>
      intro nodes results used h
      cases nodes with
      | nil => exact ⟨_, rfl⟩
      | cons _ _ => simp at h
    | succ n ih =>
      intro nodes results used h
      cases nodes with
      | nil => exact ⟨_, rfl⟩
      | cons x xs =>
        rw [scanLoop]
        split
        · exact ⟨_, rfl⟩
        · rename_i u i hf
          have hF := (find_first units _ u i).1 hf
          have hp := hne u (List.mem_of_getElem? hF.1)
          have : 0 < u.pattern.length := List.length_pos_iff.2 hp
          refine ih _ _ _ ?_
          simp only [List.length_drop, List.length_cons] at h ⊢
          omega
  exact key n nodes [] [] hn

/-- With an empty pattern reached first, the scan never ends. -/
theorem c11_empty_pattern_diverges (u : NUnit R) (us : List (NUnit R)) (hu : u.pattern = [])
    (x : HNode) (xs : List HNode) (n : Nat) : scanSection (u :: us) (x :: xs) n = none := by
  have key : ∀ n results used, scanLoop (u :: us) n (x :: xs) results used = none := by
    intro n
    induction n with
    | zero => intro _ _; rfl
    | succ n ih =>
      intro results used
      rw [scanLoop]
      have : (u :: us).zipIdx.find? (fun (u, _) => unitMatches u (x :: xs)) = some (u, 0) := by
        rw [find_first]
        refine ⟨rfl, by simp, by rw [hu]; simp; exact .nil, ?_⟩
        intro j _ hj; omega
      rw [this]
      simp only [hu, List.length_nil, List.drop_zero]
      exact ih _ _
  exact key n [] []

/-- C11: the units listed as unused after any number of scans are exactly those that took no
stretch in any of them. -/
theorem c11_unused (units : List (NUnit R)) (useds : List (List (Nat × List HNode))) (i : Nat) :
    i ∈ unusedUnits units useds ↔ i < units.length ∧ ∀ used ∈ useds, ∀ m, (i, m) ∉ used := by
  unfold unusedUnits
  simp only [List.mem_filter, List.mem_range, decide_eq_true_eq, List.length_eq_zero_iff,
    List.filter_eq_nil_iff, List.mem_flatten]
  constructor
  · rintro ⟨h1, h2⟩
    exact ⟨h1, fun used hu m hm => h2 (i, m) ⟨used, hu, hm⟩ rfl⟩
  · rintro ⟨h1, h2⟩
    refine ⟨h1, ?_⟩
    rintro ⟨j, m⟩ ⟨used, hu, hm⟩ (rfl : j = i)
    exact h2 used hu m hm

/-- The grammar of the examples. -/
def exUnits : List (NUnit String) :=
  [⟨[.name "p", .name "ul"], fun _ => ["p-ul"]⟩, ⟨[.content "p" (fun t => t = ['x'])], fun _ => ["px"]⟩]

example : (scanSection exUnits [⟨"p", ['x'], 0⟩, ⟨"p", [], 5⟩, ⟨"ul", [], 9⟩] 5).map (fun r => (r.results, r.msg))
    = some (["px", "p-ul"], none) := by decide
example : (scanSection exUnits [⟨"p", ['x'], 0⟩, ⟨"p", [], 5⟩, ⟨"ol", [], 9⟩] 5).map (fun r => (r.results, r.msg))
    = some ([], some 5) := by decide

end
end Verif.Util
