import Verif.DFA.BuildLemmas
/-! # Property C08: the automaton -/
set_option linter.unusedSectionVars false
namespace Verif.DFA

variable {I S : Type} [DecidableEq I] [DecidableEq S]
variable (leI : I → I → Bool) (leS : S → S → Bool) (trans : I → List (Option S × I))
  (shouldClose : List I → Bool) (item0 : I)

theorem build_inv {cfuel fuel : Nat} {a : Aut I S}
    (h : build leI leS trans shouldClose item0 cfuel fuel = .ok a) :
    Inv leI trans shouldClose item0 a a.states.length := by
  obtain ⟨a0, e1, e2, _⟩ := inv_init (S := S) leI trans shouldClose item0
  rw [build, e1] at h
  exact mainLoop_inv leI leS trans shouldClose item0 fuel e2 h

theorem reached_nil (i : I) : Reached trans item0 ([] : List S) i ↔ Eps trans [item0] i := by
  constructor
  · intro h
    generalize hw : ([] : List S) = w at h
    induction h with
    | start => exact .base (by simp)
    | eps _ hj ih => exact .step (ih hw) hj
    | sym _ _ _ => simp at hw
  · intro h
    induction h with
    | base h => simp at h; subst h; exact .start
    | step _ hj ih => exact .eps ih hj

theorem reached_snoc (w : List S) (s : S) (K : List I)
    (hK : ∀ j, j ∈ K ↔ ∃ i, Reached trans item0 w i ∧ (some s, j) ∈ trans i) (i : I) :
    Reached trans item0 (w ++ [s]) i ↔ Eps trans K i := by
  constructor
  · intro h
    generalize hw : w ++ [s] = w' at h
    induction h with
    | start => simp at hw
    | eps _ hj ih => exact .step (ih hw) hj
    | sym hr hj _ =>
      have := List.append_inj' hw rfl
      obtain ⟨rfl, hs⟩ := this
      simp at hs; subst hs
      exact .base ((hK _).2 ⟨_, hr, hj⟩)
  · intro h
    induction h with
    | base h => obtain ⟨i, h1, h2⟩ := (hK _).1 h; exact .sym h1 h2
    | step _ hj ih => exact .eps ih hj

theorem closed_of_info {a : Aut I S} (h : Inv leI trans shouldClose item0 a a.states.length) {n : Nat} {st c}
    (hst : a.states[n]? = some st) (hc : st.info = some c) : ClosedOk leI trans a.states st c := by
  cases hs : shouldClose st.kernel with
  | false => rw [h.notclosed n st hst hs] at hc; cases hc
  | true =>
    obtain ⟨c', e1, e2⟩ := h.closed n st (List.getElem?_eq_some_iff.1 hst).1 hst hs
    rw [hc] at e1; injection e1 with e1; subst e1; exact e2

theorem kernels_nodup {a : Aut I S} (h : Basic a) : (a.states.map (·.kernel)).Nodup := by
  apply nodup_of_getElem?
  intro i j x hi hj
  rw [List.getElem?_map, Option.map_eq_some_iff] at hi hj
  obtain ⟨si, e1, e2⟩ := hi
  obtain ⟨sj, f1, f2⟩ := hj
  exact h.distinct i j si sj e1 f1 (by rw [e2, f2])

theorem path_kernel {a : Aut I S} (h : Inv leI trans shouldClose item0 a a.states.length) {w n}
    (hp : Path a w n) : ∃ st, a.states[n]? = some st ∧ (∀ i, Eps trans st.kernel i ↔ Reached trans item0 w i) ∧
      st.accessor.length ≤ w.length := by
  induction hp with
  | start =>
    obtain ⟨st, e1, e2, e3⟩ := h.zero
    exact ⟨st, e1, fun i => by rw [e2, reached_nil], by simp [e3]⟩
  | step hp hst hc hm ih =>
    rename_i w n st c s m
    obtain ⟨st', e1, e2, e3⟩ := ih
    rw [hst] at e1; injection e1 with e1; subst e1
    have hok := closed_of_info leI trans shouldClose item0 h hst hc
    obtain ⟨_, stm, f1, f2, f3⟩ := hok.sound s m hm
    refine ⟨stm, f1, fun i => ?_, by simp; omega⟩
    rw [reached_snoc trans item0 w s stm.kernel ?_ i]
    intro j
    rw [f2, mem_sorted, mem_nextsOf]
    constructor
    · rintro ⟨i, hi, hj⟩; exact ⟨i, (e2 i).1 ((hok.items i).1 hi), hj⟩
    · rintro ⟨i, hi, hj⟩; exact ⟨i, (hok.items i).2 ((e2 i).2 hi), hj⟩

/-- C08: after reading `w` the automaton is in a state whose items (if the state was closed) are
exactly those that can be reached by reading `w`, without repetition. -/
theorem c08_items_exact {cfuel fuel : Nat} {a : Aut I S}
    (h : build leI leS trans shouldClose item0 cfuel fuel = .ok a) {w : List S} {n : Nat} (hp : Path a w n) :
    ∃ st, a.states[n]? = some st ∧ (st.info.isSome = shouldClose st.kernel) ∧
      ∀ c, st.info = some c → c.items.Nodup ∧ (∀ i, i ∈ c.items ↔ Reached trans item0 w i) ∧
        c.finals = c.items.filter (fun i => (trans i).isEmpty) := by
  have hi := build_inv leI leS trans shouldClose item0 h
  obtain ⟨st, e1, e2, _⟩ := path_kernel leI trans shouldClose item0 hi hp
  refine ⟨st, e1, ?_, ?_⟩
  · cases hs : shouldClose st.kernel with
    | false => rw [hi.notclosed n st e1 hs]; rfl
    | true =>
      obtain ⟨c, f1, _⟩ := hi.closed n st (List.getElem?_eq_some_iff.1 e1).1 e1 hs
      rw [f1]; rfl
  · intro c hc
    have hok := closed_of_info leI trans shouldClose item0 hi e1 hc
    exact ⟨hok.nodup, fun i => by rw [hok.items i, e2 i], hok.finals⟩

/-- C08: the transition from the state reached by `w` on `s` exists exactly when some item can
advance over `s`, and there is at most one. -/
theorem c08_transitions_exact {cfuel fuel : Nat} {a : Aut I S}
    (h : build leI leS trans shouldClose item0 cfuel fuel = .ok a) {w : List S} {n : Nat} (hp : Path a w n)
    {st c} (hst : a.states[n]? = some st) (hc : st.info = some c) (s : S) :
    ((∃ m, (s, m) ∈ c.transitions) ↔ ∃ i j, Reached trans item0 w i ∧ (some s, j) ∈ trans i) ∧
    (∀ m m', (s, m) ∈ c.transitions → (s, m') ∈ c.transitions → m = m') := by
  have hi := build_inv leI leS trans shouldClose item0 h
  have hok := closed_of_info leI trans shouldClose item0 hi hst hc
  obtain ⟨st', e1, e2, _⟩ := path_kernel leI trans shouldClose item0 hi hp
  rw [hst] at e1; injection e1 with e1; subst e1
  have hmem : (∃ i j, Reached trans item0 w i ∧ (some s, j) ∈ trans i) ↔ nextsOf trans c.items s ≠ [] := by
    constructor
    · rintro ⟨i, j, h1, h2⟩ h0
      have : j ∈ nextsOf trans c.items s := (mem_nextsOf trans _ _ _).2 ⟨i, (hok.items i).2 ((e2 i).2 h1), h2⟩
      rw [h0] at this; cases this
    · intro h0
      obtain ⟨j, hj⟩ := List.exists_mem_of_ne_nil _ h0
      obtain ⟨i, h1, h2⟩ := (mem_nextsOf trans _ _ _).1 hj
      exact ⟨i, j, (e2 i).1 ((hok.items i).1 h1), h2⟩
  refine ⟨?_, ?_⟩
  · rw [hmem]
    exact ⟨fun ⟨m, hm⟩ => (hok.sound s m hm).1, hok.exist s⟩
  · intro m m' h1 h2
    exact keys_inj hok.keys h1 h2

/-- C08: when every state is closed (the default), the automaton has a state for `w` exactly when
some item can be reached by reading `w`; and it is one state. -/
theorem c08_defined_iff {cfuel fuel : Nat} {a : Aut I S}
    (h : build leI leS trans (fun _ => true) item0 cfuel fuel = .ok a) (w : List S) :
    ((∃ n, Path a w n) ↔ ∃ i, Reached trans item0 w i) ∧ (∀ n n', Path a w n → Path a w n' → n = n') := by
  have hi := build_inv leI leS trans _ item0 h
  have hclosed : ∀ {n : Nat} {st}, a.states[n]? = some st → ∃ c, st.info = some c := by
    intro n st hst
    obtain ⟨c, e, _⟩ := hi.closed n st (List.getElem?_eq_some_iff.1 hst).1 hst rfl
    exact ⟨c, e⟩
  refine ⟨⟨?_, ?_⟩, ?_⟩
  · rintro ⟨n, hp⟩
    cases hp with
    | start => exact ⟨_, .start⟩
    | step hp hst hc hm =>
      obtain ⟨i, j, h1, h2⟩ := (c08_transitions_exact leI leS trans _ item0 h hp hst hc _).1.1 ⟨_, hm⟩
      exact ⟨j, .sym h1 h2⟩
  · rintro ⟨i, hr⟩
    induction hr with
    | start => exact ⟨0, .start⟩
    | eps _ _ ih => exact ih
    | sym hr hj ih =>
      obtain ⟨n, hp⟩ := ih
      obtain ⟨st, e1, _⟩ := path_kernel leI trans _ item0 hi hp
      obtain ⟨c, hc⟩ := hclosed e1
      obtain ⟨m, hm⟩ := (c08_transitions_exact leI leS trans _ item0 h hp e1 hc _).1.2 ⟨_, _, hr, hj⟩
      exact ⟨m, .step hp e1 hc hm⟩
  · intro n n' hp
    induction hp generalizing n' with
    | start =>
      intro hp'
      generalize hw : ([] : List S) = w' at hp'
      cases hp' with
      | start => rfl
      | step _ _ _ _ => simp at hw
    | step hp hst hc hm ih =>
      rename_i w n st c s m
      intro hp'
      generalize hw : w ++ [s] = w' at hp'
      cases hp' with
      | start => simp at hw
      | step hp2 hst2 hc2 hm2 =>
        obtain ⟨rfl, hs⟩ := List.append_inj' hw rfl
        simp at hs; subst hs
        have := ih _ hp2
        subst this
        rw [hst] at hst2; injection hst2 with e; subst e
        rw [hc] at hc2; injection hc2 with e; subst e
        exact (c08_transitions_exact leI leS trans _ item0 h hp hst hc _).2 _ _ hm hm2

/-- C08: states are numbered 0, 1, 2, … and no two states have the same kernel. -/
theorem c08_states_distinct {cfuel fuel : Nat} {a : Aut I S}
    (h : build leI leS trans shouldClose item0 cfuel fuel = .ok a) :
    a.states.map (·.number) = List.range a.states.length ∧ (a.states.map (·.kernel)).Nodup := by
  have hi := build_inv leI leS trans shouldClose item0 h
  refine ⟨?_, ?_⟩
  · apply List.ext_getElem?
    intro k
    rw [List.getElem?_map]
    by_cases hk : k < a.states.length
    · rw [List.getElem?_range hk, List.getElem?_eq_getElem hk]
      simp only [Option.map_some]
      rw [hi.basic.number k _ (List.getElem?_eq_getElem hk)]
    · rw [List.getElem?_eq_none (by omega), List.getElem?_eq_none (by simp; omega)]; rfl
  · exact kernels_nodup hi.basic

/-- A total order, as Python's comparison of items is assumed to be. -/
structure TotalOrder (le : I → I → Bool) : Prop where
  total : ∀ x y, le x y = true ∨ le y x = true
  trans : ∀ x y z, le x y = true → le y z = true → le x z = true
  antisymm : ∀ x y, le x y = true → le y x = true → x = y

theorem insertSorted_comm {le : I → I → Bool} (h : TotalOrder le) (x y : I) (l : List I) :
    insertSorted le x (insertSorted le y l) = insertSorted le y (insertSorted le x l) := by
  have ht := h.total
  have htr := h.trans
  have ha := h.antisymm
  induction l with
  | nil =>
    simp only [insertSorted]
    by_cases h1 : le x y = true <;> by_cases h2 : le y x = true
    · rw [ha x y h1 h2]
    · simp [h1, h2]
    · simp [h1, h2]
    · rcases ht x y with h | h <;> contradiction
  | cons z l ih =>
    by_cases hx : le x z = true <;> by_cases hy : le y z = true
    · simp only [insertSorted, hx, hy, if_true]
      by_cases h1 : le x y = true <;> by_cases h2 : le y x = true
      · rw [ha x y h1 h2]
      · simp [h1, h2, hy]
      · simp [h1, h2, hx]
      · rcases ht x y with h | h <;> contradiction
    · have hxy : ¬ le y x = true := fun h => hy (htr _ _ _ h hx)
      simp [insertSorted, hx, hy, hxy]
    · have hxy : ¬ le x y = true := fun h => hx (htr _ _ _ h hy)
      simp [insertSorted, hx, hy, hxy]
    · simp [insertSorted, hx, hy, ih]

theorem sorted_perm {le : I → I → Bool} (h : TotalOrder le) {l l' : List I} (hp : l.Perm l') :
    sorted le l = sorted le l' := by
  induction hp with
  | nil => rfl
  | cons x _ ih => simp only [sorted, ih]
  | swap x y l => simp only [sorted]; exact insertSorted_comm h _ _ _
  | trans _ _ ih1 ih2 => exact ih1.trans ih2

/-- C08: kernels are compared as multisets: no two states have kernels that are rearrangements of
each other. -/
theorem c08_kernels_not_rearranged (hle : TotalOrder leI) {cfuel fuel : Nat} {a : Aut I S}
    (h : build leI leS trans shouldClose item0 cfuel fuel = .ok a) {j k : Nat} {st st'}
    (hj : a.states[j]? = some st) (hk : a.states[k]? = some st') (hp : st.kernel.Perm st'.kernel) : j = k := by
  have hi := build_inv leI leS trans shouldClose item0 h
  have key : ∀ (n : Nat) st, a.states[n]? = some st → ∃ l, st.kernel = sorted leI l := by
    intro n st hst
    by_cases hn : n = 0
    · subst hn
      obtain ⟨s0, e1, e2, _⟩ := hi.zero
      rw [hst] at e1; injection e1 with e1; subst e1
      exact ⟨[item0], by rw [e2, sorted_single]⟩
    · obtain ⟨m, stm, c, s, _, g1, g2, g3, g4, g5⟩ := hi.acc n st (by omega) hst
      obtain ⟨_, st', f1, f2, _⟩ := (closed_of_info leI trans shouldClose item0 hi g2 g3).sound s n g4
      rw [hst] at f1; injection f1 with f1; subst f1
      exact ⟨_, f2⟩
  obtain ⟨l, hl⟩ := key j st hj
  obtain ⟨l', hl'⟩ := key k st' hk
  refine hi.basic.distinct j k st st' hj hk ?_
  rw [hl, hl'] at hp ⊢
  exact sorted_perm hle (((perm_sorted leI l).symm.trans hp).trans (perm_sorted leI l'))

/-- C08: every state is reached by its example accessor, and by no shorter sequence. -/
theorem c08_accessor_shortest {cfuel fuel : Nat} {a : Aut I S}
    (h : build leI leS trans shouldClose item0 cfuel fuel = .ok a) {n : Nat} {st} (hst : a.states[n]? = some st) :
    Path a st.accessor n ∧ ∀ w, Path a w n → st.accessor.length ≤ w.length := by
  have hi := build_inv leI leS trans shouldClose item0 h
  refine ⟨?_, ?_⟩
  · induction n using Nat.strongRecOn generalizing st with
    | ind n ih =>
      by_cases hn : n = 0
      · subst hn
        obtain ⟨s0, e1, _, e3⟩ := hi.zero
        rw [hst] at e1; injection e1 with e1; subst e1; rw [e3]; exact .start
      · obtain ⟨m, stm, c, s, _, g1, g2, g3, g4, g5⟩ := hi.acc n st (by omega) hst
        rw [g5]
        exact .step (ih m g1 g2) g2 g3 g4
  · intro w hp
    obtain ⟨st', e1, _, e3⟩ := path_kernel leI trans shouldClose item0 hi hp
    rw [hst] at e1; injection e1 with e1; subst e1; exact e3

/-- C08: the construction's own assertion never fails. -/
theorem c08_no_assertion (cfuel fuel : Nat) :
    build leI leS trans shouldClose item0 cfuel fuel ≠ .error .assertion := by
  obtain ⟨a0, e1, e2, _⟩ := inv_init (S := S) leI trans shouldClose item0
  rw [build, e1]
  exact mainLoop_no_assert leI leS trans shouldClose item0 fuel e2

/-! ### Termination -/

/-- All lists over `univ` of length at most `n`. -/
def listsUpTo (univ : List I) : Nat → List (List I)
  | 0 => [[]]
  | n + 1 => [] :: univ.flatMap (fun x => (listsUpTo univ n).map (x :: ·))

theorem mem_listsUpTo (univ : List I) : ∀ n (l : List I), (∀ x ∈ l, x ∈ univ) → l.length ≤ n → l ∈ listsUpTo univ n := by
  intro n
  induction n with
  | zero => intro l _ h; simp [listsUpTo]; exact List.eq_nil_of_length_eq_zero (by omega)
  | succ n ih =>
    intro l h1 h2
    cases l with
    | nil => simp [listsUpTo]
    | cons x l =>
      rw [listsUpTo]
      refine List.mem_cons_of_mem _ (List.mem_flatMap.2 ⟨x, h1 x (by simp), List.mem_map.2 ⟨l, ?_, rfl⟩⟩)
      exact ih l (fun y hy => h1 y (List.mem_cons_of_mem _ hy)) (by simpa using h2)

theorem sum_le_of_nodup (f : I → Nat) : ∀ {l univ : List I}, l.Nodup → (∀ x ∈ l, x ∈ univ) →
    (l.map f).sum ≤ (univ.map f).sum := by
  intro l
  induction l with
  | nil => intro univ _ _; simp
  | cons x l ih =>
    intro univ hn hs
    rw [List.nodup_cons] at hn
    have hx := hs x List.mem_cons_self
    have := ih (univ := univ.erase x) hn.2 (by
      intro y hy
      have hne : y ≠ x := by rintro rfl; exact hn.1 hy
      exact (List.mem_erase_of_ne hne).2 (hs y (List.mem_cons_of_mem _ hy)))
    have hp := ((List.perm_cons_erase hx).map f).sum_nat
    simp only [List.map_cons, List.sum_cons] at hp ⊢
    omega

/-- A bound on the length of kernels. -/
def kbound (univ : List I) : Nat := 1 + (univ.map (fun i => (trans i).length)).sum

theorem inv_kernels {univ : List I} (hu : FiniteItems trans item0 univ) {a : Aut I S} {p : Nat}
    (h : Inv leI trans shouldClose item0 a p) : ∀ (n : Nat) st, a.states[n]? = some st →
      st.kernel ∈ listsUpTo univ (kbound trans univ) := by
  have key : ∀ (n : Nat) st, a.states[n]? = some st →
      (∀ x ∈ st.kernel, x ∈ univ) ∧ st.kernel.length ≤ kbound trans univ := by
    intro n
    induction n using Nat.strongRecOn with
    | ind n ih =>
      intro st hst
      by_cases hn : n = 0
      · subst hn
        obtain ⟨s0, e1, e2, _⟩ := h.zero
        rw [hst] at e1; injection e1 with e1; subst e1
        rw [e2]
        refine ⟨?_, by simp [kbound]⟩
        intro x hx; simp at hx; subst hx; exact hu.1
      · obtain ⟨m, stm, c, s, g0, g1, g2, g3, g4, g5⟩ := h.acc n st (by omega) hst
        have hsc : shouldClose stm.kernel = true := by
          cases hs : shouldClose stm.kernel with
          | true => rfl
          | false => rw [h.notclosed m stm g2 hs] at g3; cases g3
        obtain ⟨c', e1, hok⟩ := h.closed m stm g0 g2 hsc
        rw [g3] at e1; injection e1 with e1; subst e1
        obtain ⟨_, st', f1, f2, _⟩ := hok.sound s n g4
        rw [hst] at f1; injection f1 with f1; subst f1
        have hin : ∀ x ∈ c.items, x ∈ univ := by
          intro x hx
          have := (hok.items x).1 hx
          clear hx
          induction this with
          | base h => exact (ih m g1 stm g2).1 _ h
          | step _ hj ih => exact hu.2 _ ih _ _ hj
        rw [f2]
        refine ⟨?_, ?_⟩
        · intro x hx
          rw [mem_sorted, mem_nextsOf] at hx
          obtain ⟨i, hi, hj⟩ := hx
          exact hu.2 i (hin i hi) _ _ hj
        · rw [(perm_sorted leI _).length_eq]
          have h1 : (nextsOf trans c.items s).length ≤ (c.items.map (fun i => (trans i).length)).sum := by
            unfold nextsOf
            generalize c.items = l
            induction l with
            | nil => simp
            | cons x l ih =>
              simp only [List.flatMap_cons, List.length_append, List.map_cons, List.sum_cons]
              have := length_nexts s (trans x)
              omega
          have h2 := sum_le_of_nodup (fun i => (trans i).length) hok.nodup hin
          unfold kbound
          omega
  intro n st hst
  exact mem_listsUpTo univ _ _ (key n st hst).1 (key n st hst).2

theorem inv_count {univ : List I} (hu : FiniteItems trans item0 univ) {a : Aut I S} {p : Nat}
    (h : Inv leI trans shouldClose item0 a p) : a.states.length ≤ (listsUpTo univ (kbound trans univ)).length := by
  have hnd : (a.states.map (·.kernel)).Nodup := by
    exact kernels_nodup h.basic
  have := nodup_length_le hnd (b := listsUpTo univ (kbound trans univ)) (by
    intro x hx
    obtain ⟨st, hs, rfl⟩ := List.mem_map.1 hx
    obtain ⟨k, hk⟩ := List.mem_iff_getElem?.1 hs
    exact inv_kernels leI trans shouldClose item0 hu h k st hk)
  simpa using this

/-- C08: if the items stay within a finite set, the construction ends with an automaton. -/
theorem c08_terminates {univ : List I} (hu : FiniteItems trans item0 univ) :
    ∃ cfuel fuel, ∃ a : Aut I S, build leI leS trans shouldClose item0 cfuel fuel = .ok a := by
  have key : ∀ fuel (a : Aut I S) p, Inv leI trans shouldClose item0 a p →
      (listsUpTo univ (kbound trans univ)).length ≤ fuel + p →
      ∃ a', mainLoop leI leS trans shouldClose univ.length fuel a = .ok a' := by
    intro fuel
    induction fuel with
    | zero =>
      intro a p h hle
      have h1 := inv_count leI trans shouldClose item0 hu h
      have : a.opens = [] := by rw [h.opens, show a.states.length - p = 0 by omega]; rfl
      rw [mainLoop.eq_def]
      dsimp only
      rw [this]
      exact ⟨_, rfl⟩
    | succ fuel ih =>
      intro a p h hle
      rw [mainLoop.eq_def]
      dsimp only
      split
      · exact ⟨_, rfl⟩
      · rename_i n rest ho
        obtain ⟨rfl, st, hst⟩ := inv_head leI trans shouldClose item0 h ho
        rw [hst]
        dsimp only
        split
        · rename_i hsc
          have hk : ∀ i ∈ st.kernel, i ∈ univ := by
            have := inv_kernels leI trans shouldClose item0 hu h n st hst
            have aux : ∀ m (l : List I), l ∈ listsUpTo univ m → ∀ x ∈ l, x ∈ univ := by
              intro m
              induction m with
              | zero => intro l hl x hx; simp [listsUpTo] at hl; subst hl; cases hx
              | succ m ih =>
                intro l hl x hx
                simp only [listsUpTo, List.mem_cons, List.mem_flatMap, List.mem_map] at hl
                rcases hl with rfl | ⟨y, hy, l', hl', rfl⟩
                · cases hx
                · rcases List.mem_cons.1 hx with rfl | hx
                  · exact hy
                  · exact ih l' hl' x hx
            exact aux _ _ this
          obtain ⟨c, hc⟩ := cloLoop_terminates (trans := trans) hu.2 hk univ.length (clo_init trans st.kernel) (by simp)
          obtain ⟨a1, e1, e2⟩ := close_step leI leS trans shouldClose item0 h ho hst hsc hc
          rw [e1]
          exact ih a1 _ e2 (by omega)
        · rename_i hsc
          exact ih _ _ (skip_step leI trans shouldClose item0 h ho hst (by simpa using hsc)) (by omega)
  obtain ⟨a0, e1, e2, _⟩ := inv_init (S := S) leI trans shouldClose item0
  refine ⟨univ.length, (listsUpTo univ (kbound trans univ)).length, ?_⟩
  obtain ⟨a', e⟩ := key (listsUpTo univ (kbound trans univ)).length a0 0 e2 (by omega)
  exact ⟨a', by rw [build, e1]; exact e⟩

/-- Example: items 0..3, with an epsilon move and a non-deterministic choice. -/
def exTrans : Nat → List (Option Char × Nat)
  | 0 => [(none, 1), (some 'a', 2)]
  | 1 => [(some 'a', 3), (some 'b', 1)]
  | 2 => [(some 'a', 3), (some 'a', 3)]
  | _ => []

def exAut : Except Err (Aut Nat Char) := build Nat.ble (fun a b => a.toNat ≤ b.toNat) exTrans (fun _ => true) 0 10 10

example : FiniteItems exTrans 0 [0, 1, 2, 3] := ⟨by decide, by
  intro i hi s j hj
  simp at hi
  rcases hi with rfl | rfl | rfl | rfl <;> simp [exTrans] at hj <;> grind⟩

example : exAut.toOption.map (fun a => a.states.map (fun st => (st.kernel, st.accessor, (st.info.map (·.transitions)).getD [])))
    = some [([0], [], [('a', 1), ('b', 2)]), ([2, 3], ['a'], [('a', 3)]), ([1], ['b'], [('a', 4), ('b', 2)]),
        ([3, 3], ['a', 'a'], []), ([3], ['b', 'a'], [])] := by decide

/-- The kernels of distinct states can be the same set of items: kernels are not freed of
repetitions (here states 3 and 4 both hold just item 3). -/
theorem c08_same_set_two_states : ∃ (a : Aut Nat Char), exAut = .ok a ∧ ∃ s t cs ct, a.states[3]? = some s ∧
    a.states[4]? = some t ∧ s.info = some cs ∧ t.info = some ct ∧ cs.items = ct.items := by
  refine ⟨_, rfl, _, _, _, _, rfl, rfl, rfl, rfl, rfl⟩

end Verif.DFA
