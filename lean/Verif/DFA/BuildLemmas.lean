import Verif.DFA.CloLemmas
/-! # Invariants of the construction -/
set_option linter.unusedSectionVars false
namespace Verif.DFA

variable {I S : Type} [DecidableEq I] [DecidableEq S]

/-- Numbers are indices and kernels are distinct. -/
structure Basic (a : Aut I S) : Prop where
  number : ∀ (k : Nat) st, a.states[k]? = some st → st.number = k
  distinct : ∀ (j k : Nat) st st', a.states[j]? = some st → a.states[k]? = some st' →
    st.kernel = st'.kernel → j = k

theorem ensure_cases {leI : I → I → Bool} {a : Aut I S} {K acc} (hb : Basic a)
    (hlen : ∀ (k : Nat) st, a.states[k]? = some st → st.accessor.length ≤ acc.length) :
    (∃ n st, ensure leI a K acc = .ok (a, n) ∧ a.states[n]? = some st ∧ st.kernel = sorted leI K) ∨
    (ensure leI a K acc = .ok (⟨a.states ++ [⟨sorted leI K, acc, a.states.length, none⟩],
        a.opens ++ [a.states.length]⟩, a.states.length) ∧
      ∀ (k : Nat) st, a.states[k]? = some st → st.kernel ≠ sorted leI K) := by
  unfold ensure
  dsimp only
  cases hf : a.states.find? (fun st => st.kernel = sorted leI K) with
  | some st =>
    left
    have hk := List.find?_some hf
    simp at hk
    obtain ⟨k, hk2⟩ := List.mem_iff_getElem?.1 (List.mem_of_find?_eq_some hf)
    have hn := hb.number k st hk2
    refine ⟨k, st, ?_, hk2, hk⟩
    simp only
    rw [if_pos (hlen k st hk2), hn]
  | none =>
    right
    refine ⟨rfl, ?_⟩
    intro k st hk he
    have := List.find?_eq_none.1 hf st (List.mem_of_getElem? hk)
    simp [he] at this

theorem basic_push {a : Aut I S} (hb : Basic a) {K : List I} {acc ops}
    (hne : ∀ (k : Nat) st, a.states[k]? = some st → st.kernel ≠ K) :
    Basic ⟨a.states ++ [⟨K, acc, a.states.length, none⟩], ops⟩ := by
  have hg : ∀ (k : Nat) st, (a.states ++ [(⟨K, acc, a.states.length, none⟩ : State I S)])[k]? = some st →
      a.states[k]? = some st ∨ (k = a.states.length ∧ st = ⟨K, acc, a.states.length, none⟩) := by
    intro k st h
    rw [List.getElem?_append] at h
    split at h
    · exact .inl h
    · rename_i hk
      have : k - a.states.length = 0 := by
        obtain ⟨h1, _⟩ := List.getElem?_eq_some_iff.1 h
        simp at h1; omega
      rw [this] at h
      simp at h
      exact .inr ⟨by omega, h.symm⟩
  refine ⟨?_, ?_⟩
  · intro k st h
    rcases hg k st h with h | ⟨rfl, rfl⟩
    · exact hb.number k st h
    · rfl
  · intro j k st st' h h' he
    rcases hg j st h with h | ⟨rfl, rfl⟩ <;> rcases hg k st' h' with h' | ⟨rfl, rfl⟩
    · exact hb.distinct j k st st' h h' he
    · exact absurd he (hne j st h)
    · exact absurd he.symm (hne k st' h')
    · rfl

/-- State of the loop that fills the transitions of a state with accessor `acc`, starting from
`a0`, after the entries `L`. -/
structure Fill (leI : I → I → Bool) (a0 : Aut I S) (acc : List S) (a : Aut I S) (trs : List (S × Nat))
    (L : List (S × List I)) : Prop where
  basic : Basic a
  ext : ∃ ext, a.states = a0.states ++ ext ∧ a.opens = a0.opens ++ List.range' a0.states.length ext.length
  new : ∀ (k : Nat) st, a.states[k]? = some st → a0.states.length ≤ k →
    st.info = none ∧ ∃ s, (s, k) ∈ trs ∧ st.accessor = acc ++ [s]
  keys : trs.map (·.1) = L.map (·.1)
  sound : ∀ s m, (s, m) ∈ trs → ∃ is stm, (s, is) ∈ L ∧ a.states[m]? = some stm ∧ stm.kernel = sorted leI is
  len : ∀ (k : Nat) st, a.states[k]? = some st → st.accessor.length ≤ acc.length + 1

theorem fill_all {leI : I → I → Bool} {a0 : Aut I S} {acc : List S} : ∀ (L : List (S × List I)) {a trs L0},
    Fill leI a0 acc a trs L0 → ∃ a' trs', fillTrans leI acc L a trs = .ok (a', trs') ∧
      Fill leI a0 acc a' trs' (L0 ++ L) := by
  intro L
  induction L with
  | nil => intro a trs L0 h; exact ⟨a, trs, rfl, by simpa using h⟩
  | cons p L ih =>
    intro a trs L0 h
    obtain ⟨s, is⟩ := p
    rw [fillTrans]
    have hlen : ∀ (k : Nat) st, a.states[k]? = some st → st.accessor.length ≤ (acc ++ [s]).length := by
      intro k st hk; have := h.len k st hk; simpa using this
    rcases ensure_cases (leI := leI) (K := is) h.basic hlen with ⟨n, st, h1, h2, h3⟩ | ⟨h1, h2⟩
    · rw [h1]
      have hnew : Fill leI a0 acc a (trs ++ [(s, n)]) (L0 ++ [(s, is)]) := by
        refine ⟨h.basic, h.ext, ?_, by simp [h.keys], ?_, h.len⟩
        · intro k st' hk hle
          obtain ⟨e1, s', e2, e3⟩ := h.new k st' hk hle
          exact ⟨e1, s', List.mem_append_left _ e2, e3⟩
        · intro s' m hm
          rcases List.mem_append.1 hm with hm | hm
          · obtain ⟨is', stm, e1, e2, e3⟩ := h.sound s' m hm
            exact ⟨is', stm, List.mem_append_left _ e1, e2, e3⟩
          · simp at hm; obtain ⟨rfl, rfl⟩ := hm
            exact ⟨is, st, by simp, h2, h3⟩
      obtain ⟨a', trs', e1, e2⟩ := ih hnew
      exact ⟨a', trs', e1, by simpa using e2⟩
    · rw [h1]
      obtain ⟨ext, x1, x2⟩ := h.ext
      have hg : ∀ (k : Nat) st, (a.states ++ [(⟨sorted leI is, acc ++ [s], a.states.length, none⟩ : State I S)])[k]? = some st →
          a.states[k]? = some st ∨ (k = a.states.length ∧ st = ⟨sorted leI is, acc ++ [s], a.states.length, none⟩) := by
        intro k st hk
        rw [List.getElem?_append] at hk
        split at hk
        · exact .inl hk
        · rename_i hlt
          have : k - a.states.length = 0 := by
            obtain ⟨h1, _⟩ := List.getElem?_eq_some_iff.1 hk
            simp at h1; omega
          rw [this] at hk
          simp at hk
          exact .inr ⟨by omega, hk.symm⟩
      have hold : ∀ (k : Nat) st, a.states[k]? = some st →
          (a.states ++ [(⟨sorted leI is, acc ++ [s], a.states.length, none⟩ : State I S)])[k]? = some st := by
        intro k st hk
        obtain ⟨hlt, _⟩ := List.getElem?_eq_some_iff.1 hk
        rw [List.getElem?_append_left hlt, hk]
      have hnew : Fill leI a0 acc ⟨a.states ++ [⟨sorted leI is, acc ++ [s], a.states.length, none⟩],
        a.opens ++ [a.states.length]⟩ (trs ++ [(s, a.states.length)]) (L0 ++ [(s, is)]) := by
        refine ⟨basic_push h.basic h2, ?_, ?_, by simp [h.keys], ?_, ?_⟩
        · refine ⟨ext ++ [⟨sorted leI is, acc ++ [s], a.states.length, none⟩], by rw [x1]; simp, ?_⟩
          dsimp only
          rw [x2, List.length_append, List.length_singleton, List.range'_concat, x1]
          simp
        · intro k st' hk hle
          rcases hg k st' hk with hk | ⟨rfl, rfl⟩
          · obtain ⟨e1, s', e2, e3⟩ := h.new k st' hk hle
            exact ⟨e1, s', List.mem_append_left _ e2, e3⟩
          · exact ⟨rfl, s, by simp, rfl⟩
        · intro s' m hm
          rcases List.mem_append.1 hm with hm | hm
          · obtain ⟨is', stm, e1, e2, e3⟩ := h.sound s' m hm
            exact ⟨is', stm, List.mem_append_left _ e1, hold _ _ e2, e3⟩
          · simp at hm; obtain ⟨rfl, rfl⟩ := hm
            exact ⟨is, _, by simp, by simp; rfl, rfl⟩
        · intro k st' hk
          rcases hg k st' hk with hk | ⟨rfl, rfl⟩
          · exact h.len k st' hk
          · simp
      obtain ⟨a', trs', e1, e2⟩ := ih hnew
      exact ⟨a', trs', e1, by simpa using e2⟩

variable (leI : I → I → Bool) (leS : S → S → Bool) (trans : I → List (Option S × I))
  (shouldClose : List I → Bool) (item0 : I)

/-- The items that a set of items leads to over `s`. -/
def nextsOf (items : List I) (s : S) : List I := items.flatMap (fun i => nexts s (trans i))

theorem mem_nextsOf (items : List I) (s : S) (j : I) :
    j ∈ nextsOf trans items s ↔ ∃ i ∈ items, (some s, j) ∈ trans i := by
  simp [nextsOf, List.mem_flatMap, mem_nexts]

/-- A closed state is right, with respect to the list of states. -/
structure ClosedOk (states : List (State I S)) (st : State I S) (c : Closed I S) : Prop where
  items : ∀ i, i ∈ c.items ↔ Eps trans st.kernel i
  nodup : c.items.Nodup
  finals : c.finals = c.items.filter (fun i => (trans i).isEmpty)
  keys : (c.transitions.map (·.1)).Nodup
  sound : ∀ s m, (s, m) ∈ c.transitions → nextsOf trans c.items s ≠ [] ∧
    ∃ stm, states[m]? = some stm ∧ stm.kernel = sorted leI (nextsOf trans c.items s) ∧
      stm.accessor.length ≤ st.accessor.length + 1
  exist : ∀ s, nextsOf trans c.items s ≠ [] → ∃ m, (s, m) ∈ c.transitions

/-- The invariant of the main loop; `p` is the number of the first open state. -/
structure Inv (a : Aut I S) (p : Nat) : Prop where
  basic : Basic a
  ple : p ≤ a.states.length
  opens : a.opens = List.range' p (a.states.length - p)
  zero : ∃ st, a.states[0]? = some st ∧ st.kernel = [item0] ∧ st.accessor = []
  unclosed : ∀ (k : Nat) st, p ≤ k → a.states[k]? = some st → st.info = none
  notclosed : ∀ (k : Nat) st, a.states[k]? = some st → shouldClose st.kernel = false → st.info = none
  closed : ∀ (k : Nat) st, k < p → a.states[k]? = some st → shouldClose st.kernel = true →
    ∃ c, st.info = some c ∧ ClosedOk leI trans a.states st c
  mono : ∀ (j k : Nat) st st', j ≤ k → a.states[j]? = some st → a.states[k]? = some st' →
    st.accessor.length ≤ st'.accessor.length
  bound : ∀ (k : Nat) st stp, a.states[p]? = some stp → a.states[k]? = some st →
    st.accessor.length ≤ stp.accessor.length + 1
  acc : ∀ (k : Nat) st, 0 < k → a.states[k]? = some st →
    ∃ n stn c s, n < p ∧ n < k ∧ a.states[n]? = some stn ∧ stn.info = some c ∧ (s, k) ∈ c.transitions ∧
      st.accessor = stn.accessor ++ [s]

theorem sorted_single {α} (le : α → α → Bool) (x : α) : sorted le [x] = [x] := rfl

theorem inv_init : ∃ a, ensure leI ⟨[], []⟩ [item0] [] = .ok (a, 0) ∧
    Inv (S := S) leI trans shouldClose item0 a 0 ∧ a.states.length = 1 := by
  refine ⟨⟨[⟨[item0], [], 0, none⟩], [0]⟩, by simp [ensure, sorted_single], ?_, rfl⟩
  have hg : ∀ (k : Nat) (st : State I S), ([⟨[item0], [], 0, none⟩] : List (State I S))[k]? = some st →
      k = 0 ∧ st = ⟨[item0], [], 0, none⟩ := by
    intro k st h
    cases k with
    | zero => simp at h; exact ⟨rfl, h.symm⟩
    | succ k => simp at h
  refine ⟨⟨?_, ?_⟩, by simp, by simp, ⟨_, rfl, rfl, rfl⟩, ?_, ?_, ?_, ?_, ?_, ?_⟩
  · intro k st h; obtain ⟨rfl, rfl⟩ := hg k st h; rfl
  · intro j k st st' h h' _; rw [(hg j st h).1, (hg k st' h').1]
  · intro k st _ h; obtain ⟨rfl, rfl⟩ := hg k st h; rfl
  · intro k st h _; obtain ⟨rfl, rfl⟩ := hg k st h; rfl
  · intro k st hk; omega
  · intro j k st st' _ h h'; rw [(hg j st h).2, (hg k st' h').2]; exact Nat.le_refl _
  · intro k st stp h h'; rw [(hg _ stp h).2, (hg k st h').2]; exact Nat.le_succ _
  · intro k st hk h; have := (hg k st h).1; omega

theorem nodup_perm_keys {L L' : List (S × List I)} (h : L'.Perm L) (hn : (L.map (·.1)).Nodup) :
    (L'.map (·.1)).Nodup := ((h.map _).nodup_iff).2 hn

/-- One round of the main loop on a state that is to be closed. -/
theorem close_step {a : Aut I S} {p : Nat} {rest : List Nat} {st : State I S} {cfuel : Nat} {c : Clo I S}
    (h : Inv leI trans shouldClose item0 a p) (ho : a.opens = p :: rest) (hst : a.states[p]? = some st)
    (hsc : shouldClose st.kernel = true)
    (hc : cloLoop trans cfuel (st.kernel.foldl includeItem ⟨[], [], [], []⟩) = some c) :
    ∃ a', closeState leI leS trans cfuel { a with opens := rest } st = .ok a' ∧
      Inv leI trans shouldClose item0 a' (p + 1) := by
  obtain ⟨c1, c2, c3, c4, c5⟩ := clo_spec hc
  have hplt : p < a.states.length := (List.getElem?_eq_some_iff.1 hst).1
  have hnum := h.basic.number p st hst
  have hfill0 : Fill leI { a with opens := rest } st.accessor { a with opens := rest } [] [] := by
    refine ⟨⟨h.basic.number, h.basic.distinct⟩, ⟨[], by simp, by simp⟩, ?_, rfl, by simp, ?_⟩
    · intro k st' hk hle
      have hk' : a.states[k]? = some st' := hk
      have := (List.getElem?_eq_some_iff.1 hk').1
      have hle' : a.states.length ≤ k := hle
      omega
    · intro k st' hk; exact h.bound k st' st hst hk
  obtain ⟨a1, trs, hft, hF⟩ := fill_all (sorted (fun x y => leS x.1 y.1) c.titems) hfill0
  rw [List.nil_append] at hF
  obtain ⟨ext, x1, x2⟩ := hF.ext
  have x1 : a1.states = a.states ++ ext := x1
  have x2 : a1.opens = rest ++ List.range' a.states.length ext.length := x2
  have hperm := perm_sorted (fun (x y : S × List I) => leS x.1 y.1) c.titems
  let upd : State I S → State I S := fun st => { st with info := some ⟨c.items, c.finals, trs⟩ }
  refine ⟨{ a1 with states := a1.states.modify st.number upd }, ?_, ?_⟩
  · unfold closeState; rw [hc]; dsimp only; rw [hft]
  rw [hnum]
  -- looking up in the final list of states
  have hlook : ∀ (k : Nat) st', (a1.states.modify p upd)[k]? = some st' →
      ∃ st1, a1.states[k]? = some st1 ∧ st' = (if p = k then upd st1 else st1) ∧ st'.kernel = st1.kernel ∧
        st'.accessor = st1.accessor ∧ st'.number = st1.number := by
    intro k st' hk
    rw [List.getElem?_modify] at hk
    cases hk1 : a1.states[k]? with
    | none => rw [hk1] at hk; simp at hk
    | some st1 =>
      rw [hk1] at hk
      simp at hk
      refine ⟨st1, rfl, hk.symm, ?_⟩
      rw [← hk]
      split <;> simp [upd]
  have hlook' : ∀ (k : Nat) st1, a1.states[k]? = some st1 →
      (a1.states.modify p upd)[k]? = some (if p = k then upd st1 else st1) := by
    intro k st1 hk
    rw [List.getElem?_modify, hk]; simp
  have hold : ∀ (k : Nat) st1, a1.states[k]? = some st1 → k < a.states.length → a.states[k]? = some st1 := by
    intro k st1 hk hlt
    rw [x1, List.getElem?_append_left hlt] at hk; exact hk
  have hold' : ∀ (k : Nat) st1, a.states[k]? = some st1 → a1.states[k]? = some st1 := by
    intro k st1 hk
    have hlt := (List.getElem?_eq_some_iff.1 hk).1
    rw [x1, List.getElem?_append_left hlt]; exact hk
  have hlen1 : a1.states.length = a.states.length + ext.length := by rw [x1, List.length_append]
  have hfinalOk : ∀ st0 cl, ClosedOk leI trans a1.states st0 cl → ClosedOk leI trans (a1.states.modify p upd) st0 cl := by
    intro st0 cl hk
    refine ⟨hk.items, hk.nodup, hk.finals, hk.keys, ?_, hk.exist⟩
    intro s m hm
    obtain ⟨e1, stm, e2, e3, e4⟩ := hk.sound s m hm
    refine ⟨e1, _, hlook' m stm e2, ?_⟩
    split <;> exact ⟨e3, e4⟩
  have htgetmem : ∀ s is, (s, is) ∈ sorted (fun (x y : S × List I) => leS x.1 y.1) c.titems →
      is = nextsOf trans c.items s ∧ nextsOf trans c.items s ≠ [] := by
    intro s is hm
    have hm2 := hperm.mem_iff.1 hm
    have e := tget_mem c3 hm2
    rw [c4 s] at e
    refine ⟨e.symm, ?_⟩
    have hne := c3.2 _ hm2
    intro h0; exact hne (e.symm.trans h0)
  have hokp : ClosedOk leI trans a1.states st ⟨c.items, c.finals, trs⟩ := by
    refine ⟨c1, c2, c5, ?_, ?_, ?_⟩
    · show (trs.map (·.1)).Nodup
      rw [hF.keys]; exact nodup_perm_keys hperm c3.1
    · intro s m hm
      obtain ⟨is, stm, e1, e2, e3⟩ := hF.sound s m hm
      obtain ⟨rfl, hne⟩ := htgetmem s is e1
      exact ⟨hne, stm, e2, e3, hF.len m stm e2⟩
    · intro s hne
      have hne' : nextsOf trans c.items s ≠ [] := hne
      have e := c4 s
      have hmem := mem_of_tget (t := c.titems) (s := s) (by rw [e]; exact hne')
      have : s ∈ (sorted (fun (x y : S × List I) => leS x.1 y.1) c.titems).map (·.1) :=
        List.mem_map.2 ⟨_, hperm.mem_iff.2 hmem, rfl⟩
      rw [← hF.keys] at this
      obtain ⟨⟨s', m⟩, hm, rfl⟩ := List.mem_map.1 this
      exact ⟨m, hm⟩
  have hmono1 : ∀ (j k : Nat) sj sk, j ≤ k → a1.states[j]? = some sj → a1.states[k]? = some sk →
      sj.accessor.length ≤ sk.accessor.length := by
    intro j k sj sk hjk hj hk
    by_cases hklt : k < a.states.length
    · exact h.mono j k sj sk hjk (hold j sj hj (by omega)) (hold k sk hk hklt)
    · obtain ⟨_, s, _, e⟩ := hF.new k sk hk (by show a.states.length ≤ k; omega)
      rw [e]
      have := hF.len j sj hj
      simpa using this
  refine ⟨⟨?_, ?_⟩, ?_, ?_, ?_, ?_, ?_, ?_, ?_, ?_, ?_⟩
  · intro k st' hk
    obtain ⟨st1, e1, _, _, _, e2⟩ := hlook k st' hk
    rw [e2]; exact hF.basic.number k st1 e1
  · intro j k sj sk hj hk he
    obtain ⟨s1, e1, _, e2, _⟩ := hlook j sj hj
    obtain ⟨s2, f1, _, f2, _⟩ := hlook k sk hk
    exact hF.basic.distinct j k s1 s2 e1 f1 (by rw [← e2, ← f2]; exact he)
  · show p + 1 ≤ (a1.states.modify p upd).length
    rw [List.length_modify, hlen1]; omega
  · show a1.opens = List.range' (p + 1) ((a1.states.modify p upd).length - (p + 1))
    have hrest : rest = List.range' (p + 1) (a.states.length - (p + 1)) := by
      have := h.opens
      rw [ho] at this
      rw [show a.states.length - p = (a.states.length - (p + 1)) + 1 by omega, List.range'_succ] at this
      injection this
    rw [x2, hrest, List.length_modify, hlen1,
      show a.states.length + ext.length - (p + 1) = (a.states.length - (p + 1)) + ext.length by omega,
      ← List.range'_append]
    congr 2
    omega
  · obtain ⟨s0, e1, e2, e3⟩ := h.zero
    refine ⟨_, hlook' 0 s0 (hold' 0 s0 e1), ?_⟩
    split <;> exact ⟨e2, e3⟩
  · intro k st' hle hk
    obtain ⟨st1, e1, e2, _⟩ := hlook k st' hk
    rw [if_neg (by omega)] at e2
    subst e2
    by_cases hklt : k < a.states.length
    · exact h.unclosed k _ (by omega) (hold k _ e1 hklt)
    · exact (hF.new k _ e1 (by show a.states.length ≤ k; omega)).1
  · intro k st' hk hns
    obtain ⟨st1, e1, e2, e3, _⟩ := hlook k st' hk
    by_cases hpk : p = k
    · subst hpk
      rw [hold' p st hst] at e1
      injection e1 with e1
      rw [e3, ← e1, hsc] at hns
      cases hns
    · rw [if_neg hpk] at e2
      subst e2
      by_cases hklt : k < a.states.length
      · exact h.notclosed k _ (hold k _ e1 hklt) hns
      · exact (hF.new k _ e1 (by show a.states.length ≤ k; omega)).1
  · intro k st' hkp hk hs
    obtain ⟨st1, e1, e2, e3, e4, _⟩ := hlook k st' hk
    by_cases hpk : p = k
    · subst hpk
      rw [hold' p st hst] at e1
      injection e1 with e1
      subst e1
      rw [if_pos rfl] at e2
      subst e2
      refine ⟨⟨c.items, c.finals, trs⟩, rfl, ?_⟩
      have := hfinalOk st _ hokp
      exact ⟨this.items, this.nodup, this.finals, this.keys, this.sound, this.exist⟩
    · rw [if_neg hpk] at e2
      subst e2
      have ha := hold k _ e1 (by omega)
      obtain ⟨cl, g1, g2⟩ := h.closed k _ (by omega) ha hs
      refine ⟨cl, g1, hfinalOk _ _ ⟨g2.items, g2.nodup, g2.finals, g2.keys, ?_, g2.exist⟩⟩
      intro s m hm
      obtain ⟨i1, stm, i2, i3⟩ := g2.sound s m hm
      exact ⟨i1, stm, hold' m stm i2, i3⟩
  · intro j k sj sk hjk hj hk
    obtain ⟨s1, e1, _, _, e2, _⟩ := hlook j sj hj
    obtain ⟨s2, f1, _, _, f2, _⟩ := hlook k sk hk
    rw [e2, f2]; exact hmono1 j k s1 s2 hjk e1 f1
  · intro k sk sp hp hk
    obtain ⟨s1, e1, _, _, e2, _⟩ := hlook (p + 1) sp hp
    obtain ⟨s2, f1, _, _, f2, _⟩ := hlook k sk hk
    rw [e2, f2]
    have h1 := hmono1 p (p + 1) st s1 (by omega) (hold' p st hst) e1
    have h2 := hF.len k s2 f1
    omega
  · intro k sk hk0 hk
    obtain ⟨s2, f1, _, _, f2, _⟩ := hlook k sk hk
    rw [f2]
    by_cases hklt : k < a.states.length
    · obtain ⟨n, stn, cn, s, g1, g1', g2, g3, g4, g5⟩ := h.acc k s2 hk0 (hold k s2 f1 hklt)
      refine ⟨n, stn, cn, s, by omega, g1', ?_, g3, g4, g5⟩
      rw [hlook' n stn (hold' n stn g2), if_neg (by omega)]
    · obtain ⟨_, s, g1, g2⟩ := hF.new k s2 f1 (by show a.states.length ≤ k; omega)
      refine ⟨p, upd st, _, s, by omega, by omega, ?_, rfl, g1, g2⟩
      rw [hlook' p st (hold' p st hst), if_pos rfl]

theorem skip_step {a : Aut I S} {p : Nat} {rest : List Nat} {st : State I S}
    (h : Inv leI trans shouldClose item0 a p) (ho : a.opens = p :: rest) (hst : a.states[p]? = some st)
    (hsc : shouldClose st.kernel = false) :
    Inv leI trans shouldClose item0 { a with opens := rest } (p + 1) := by
  have hplt : p < a.states.length := (List.getElem?_eq_some_iff.1 hst).1
  refine ⟨⟨h.basic.number, h.basic.distinct⟩, hplt, ?_, h.zero, ?_, h.notclosed, ?_, h.mono, ?_, ?_⟩
  · have := h.opens
    rw [ho] at this
    rw [show a.states.length - p = (a.states.length - (p + 1)) + 1 by omega, List.range'_succ] at this
    injection this
  · intro k st' hk hs; exact h.unclosed k st' (by omega) hs
  · intro k st' hk hs hsc'
    by_cases hpk : k = p
    · subst hpk
      have hs : a.states[k]? = some st' := hs
      rw [hst] at hs; injection hs with hs; subst hs; rw [hsc] at hsc'; cases hsc'
    · exact h.closed k st' (by omega) hs hsc'
  · intro k st' stp hp hk
    have h1 := h.mono p (p + 1) st stp (by omega) hst hp
    have h2 := h.bound k st' st hst hk
    omega
  · intro k st' hk hs
    obtain ⟨n, stn, c, s, g1, g⟩ := h.acc k st' hk hs
    exact ⟨n, stn, c, s, by omega, g⟩

/-- The first open state is state `p`. -/
theorem inv_head {a : Aut I S} {p n : Nat} {rest : List Nat} (h : Inv leI trans shouldClose item0 a p)
    (ho : a.opens = n :: rest) : n = p ∧ ∃ st, a.states[p]? = some st := by
  have := h.opens
  rw [ho] at this
  cases hl : a.states.length - p with
  | zero => rw [hl] at this; simp at this
  | succ m =>
    rw [hl, List.range'_succ] at this
    injection this with h1 _
    exact ⟨h1, _, List.getElem?_eq_getElem (by omega)⟩

theorem inv_done {a : Aut I S} {p : Nat} (h : Inv leI trans shouldClose item0 a p)
    (ho : a.opens = []) : p = a.states.length := by
  have := h.opens
  rw [ho] at this
  have := congrArg List.length this
  rw [List.length_range'] at this
  have := h.ple
  simp at *
  omega

theorem mainLoop_inv {cfuel : Nat} : ∀ fuel {a a' : Aut I S} {p : Nat},
    Inv leI trans shouldClose item0 a p → mainLoop leI leS trans shouldClose cfuel fuel a = .ok a' →
    Inv leI trans shouldClose item0 a' a'.states.length := by
  intro fuel
  induction fuel with
  | zero =>
    intro a a' p h hm
    rw [mainLoop.eq_def] at hm
    dsimp only at hm
    split at hm
    · rename_i ho; injection hm with hm; subst hm
      have := inv_done leI trans shouldClose item0 h ho
      rw [← this]; exact h
    · cases hm
  | succ fuel ih =>
    intro a a' p h hm
    rw [mainLoop.eq_def] at hm
    dsimp only at hm
    split at hm
    · rename_i ho; injection hm with hm; subst hm
      have := inv_done leI trans shouldClose item0 h ho
      rw [← this]; exact h
    · rename_i n rest ho
      obtain ⟨rfl, st, hst⟩ := inv_head leI trans shouldClose item0 h ho
      rw [hst] at hm
      dsimp only at hm
      split at hm
      · rename_i hsc
        cases hc : cloLoop trans cfuel (st.kernel.foldl includeItem ⟨[], [], [], []⟩) with
        | none => simp only [closeState, hc] at hm; cases hm
        | some c =>
          obtain ⟨a1, e1, e2⟩ := close_step leI leS trans shouldClose item0 h ho hst hsc hc
          rw [e1] at hm
          exact ih e2 hm
      · rename_i hsc
        exact ih (skip_step leI trans shouldClose item0 h ho hst (by simpa using hsc)) hm

theorem mainLoop_no_assert {cfuel : Nat} : ∀ fuel {a : Aut I S} {p : Nat},
    Inv leI trans shouldClose item0 a p → mainLoop leI leS trans shouldClose cfuel fuel a ≠ .error .assertion := by
  intro fuel
  induction fuel with
  | zero =>
    intro a p h
    rw [mainLoop.eq_def]
    dsimp only
    split <;> simp
  | succ fuel ih =>
    intro a p h
    rw [mainLoop.eq_def]
    dsimp only
    split
    · simp
    · rename_i n rest ho
      obtain ⟨rfl, st, hst⟩ := inv_head leI trans shouldClose item0 h ho
      rw [hst]
      dsimp only
      split
      · rename_i hsc
        cases hc : cloLoop trans cfuel (st.kernel.foldl includeItem ⟨[], [], [], []⟩) with
        | none => simp [closeState, hc]
        | some c =>
          obtain ⟨a1, e1, e2⟩ := close_step leI leS trans shouldClose item0 h ho hst hsc hc
          rw [e1]
          exact ih e2
      · rename_i hsc
        exact ih (skip_step leI trans shouldClose item0 h ho hst (by simpa using hsc))

end Verif.DFA
