import Verif.Earley.SynComplete
/-! # The tree that the syntactic parser returns, in terms of tokens -/
namespace Verif.Earley

/-- A derivation carries over to a world that has what it uses. -/
theorem Derives.carry {L} {G : Grammar} {W W' : World L} (h1 : W.first = W'.first) (h2 : W.last = W'.last) {N : Nat}
    (hs : ∀ k t l, k < N → W.scan k t l → W'.scan k t l) (hh : ∀ k prev con, k ≤ N → W.holds k prev con → W'.holds k prev con)
    (ha : ∀ k p, k ≤ N → W.at k p → W'.at k p) {rhs prev i j cs} (h : Derives G W rhs prev i j cs) :
    j ≤ N → Derives G W' rhs prev i j cs := by
  induction h with
  | nil => intro _; exact .nil _ _
  | con hc hd ih =>
    intro hj
    have := hd.le
    exact .con (hh _ _ _ (by omega) hc) (ih hj)
  | term hc hd ih =>
    intro hj
    have := hd.le
    exact .term (hs _ _ _ (by omega) hc) (ih hj)
  | nt g1 g2 hd1 hat hn hd2 ih1 ih2 =>
    intro hj
    have := hd2.le
    refine .nt g1 g2 (ih1 (by omega)) (ha _ _ (by omega) hat) ?_ (ih2 hj)
    have e1 : W.startOf = W'.startOf := by
      funext n; cases n <;> simp [World.startOf, h1]
    have e2 : W.endOf = W'.endOf := by
      funext n; cases n <;> simp [World.endOf, h2]
    unfold IsNode at hn ⊢
    rw [← e1, ← e2]; exact hn

theorem posAfter_take {es es' : List Elem} {n k : Nat} (h : (tokensOf es).take n = (tokensOf es').take n) (hk : k ≤ n) :
    posAfter es k = posAfter es' k := by
  cases k with
  | zero => rfl
  | succ k =>
    have : (tokensOf es)[k]? = (tokensOf es')[k]? := by
      rw [← List.getElem?_take_of_lt (show k < n by omega), h, List.getElem?_take_of_lt (by omega)]
    simp [posAfter, this]

theorem step_became {S rs st pos e kl rats pos'} {st' : Syn} (h : SInv S rs st pos)
    (hs : Step S rs.length pos e kl st.elems st'.elems rats pos') :
    Became rs.length st.elems st'.elems ∧ pos' = posAfter st'.elems (rs.length + 1) := by
  have gapNil : ∀ {gap : List Elem}, (∀ g ∈ gap, IsGap g) → tokensOf gap = [] := by
    intro gap hg
    unfold tokensOf
    rw [List.filter_eq_nil_iff]; intro x hx
    simp [isGap_iff.2 (hg x hx)]
  cases hs with
  | token before gap tok after more eq at_ eq' end_ some_ rats_ =>
    refine ⟨⟨?_, ?_, fun x hx => (h.ahead x hx).1⟩, ?_⟩
    · rw [eq', ← eq, tokensOf_append, List.take_append_of_le_length h.enough]
    · rw [eq', ← eq, realOf_append]; exact List.prefix_append _ _
    · have : (tokensOf st'.elems)[rs.length]? = some tok := by
        rw [eq', tokensOf_append, tokensOf_append, gapNil at_.gaps, List.append_nil,
          List.getElem?_append_right (Nat.le_of_eq at_.count), at_.count]
        simp [tokensOf, not_gap at_.isTok]
      simp [posAfter, this, end_]
  | semi before gap tok after more eq at_ offending rule wanted noEmpty fresh eq' end_ rats_ =>
    have hb : (tokensOf st.elems).take rs.length = tokensOf before := by
      rw [← List.take_append_of_le_length (l₂ := tokensOf more) h.enough, ← tokensOf_append, eq, tokensOf_append, tokensOf_append,
        gapNil at_.gaps, List.append_nil, List.take_left' at_.count]
    refine ⟨⟨?_, ?_, fun x hx => (h.ahead x hx).1⟩, ?_⟩
    · rw [hb, eq', tokensOf_append, tokensOf_append, gapNil at_.gaps, List.append_nil, List.take_left' at_.count]
    · have : realOf st'.elems = realOf st.elems ++ realOf more := by
        rw [← realOf_append, eq, eq']; simp [realOf, List.filter_append, List.filter_cons, Elem.isReal]
      rw [this]; exact List.prefix_append _ _
    · have : (tokensOf st'.elems)[rs.length]? = some (.semi pos) := by
        rw [eq', tokensOf_append, tokensOf_append, gapNil at_.gaps, List.append_nil,
          List.getElem?_append_right (Nat.le_of_eq at_.count), at_.count]
        simp [tokensOf, Elem.isGap]
      simp [posAfter, this, end_, Elem.extent]

theorem Became.trans {k k' es es' es''} (h : Became k es es') (h' : Became k' es' es'') (hk : k ≤ k') : Became k es es'' where
  first := by
    have : (tokensOf es').take k = (tokensOf es'').take k := by
      have := congrArg (List.take k) h'.first
      rwa [List.take_take, List.take_take, Nat.min_eq_left hk] at this
    rw [h.first, this]
  text := h.text.trans h'.text
  rest := h.rest

/-- What a state in the history has to do with the last one. -/
structure Past (S : SynEnv) (k : Nat) (s : Syn × Nat) (st : Syn) : Prop where
  core : Core S s.1
  seen : s.1.seen = k
  pos : s.2 = posAfter st.elems k
  became : Became k s.1.elems st.elems

theorem hist_past {S : SynEnv} {st0 : Syn} {H : Hist Syn SynLeaf} (h0 : synInit S = .ok st0)
    (h : H.Real (synTip S) st0 0) : ∀ n, n ≤ H.rats.length →
      ∃ st pos, Calls S (H.rats.take n) st pos ∧ (H.sts[n]? = some (st, pos) ∨ H.sts.length = n) ∧
        ∀ k s, k ≤ n → H.sts[k]? = some s → Past S k s st := by
  intro n
  induction n with
  | zero =>
    intro _
    have hi := synInit_inv h0
    refine ⟨st0, 0, .start h0, .inl h.1, ?_⟩
    intro k s hk hs
    obtain rfl : k = 0 := by omega
    rw [h.1] at hs; injection hs with hs; subst hs
    exact ⟨hi.core, hi.seen, rfl, ⟨rfl, List.prefix_refl _, fun x hx => (hi.ahead x hx).1⟩⟩
  | succ n ih =>
    intro hn
    obtain ⟨st, pos, hc, hs, hp⟩ := ih (by omega)
    have hr : H.rats[n]? = some H.rats[n] := List.getElem?_eq_getElem (by omega)
    obtain ⟨s, s', e, kl, h1, h2, h3⟩ := h.2 n _ hr
    have hs : (st, pos) = s := by
      rcases hs with hs | hs
      · rw [hs] at h1; injection h1
      · have := (List.getElem?_eq_some_iff.1 h1).1; omega
    subst hs
    have hi := calls_inv hc
    obtain ⟨hi', hstep, _⟩ := synNext_step hi h2
    have hlen : (H.rats.take n).length = n := by rw [List.length_take]; omega
    obtain ⟨hb, hpos⟩ := step_became hi hstep
    rw [hlen] at hb hpos
    refine ⟨s'.1, s'.2, ?_, h3, ?_⟩
    · rw [List.take_succ_eq_append_getElem (by omega)]
      exact .next hc h2
    intro k s hk hs
    rcases Nat.lt_or_ge n k with hlt | hge
    · obtain rfl : k = n + 1 := by omega
      have hss : s = s' := by
        rcases h3 with h3 | h3
        · rw [h3] at hs; injection hs with hs; exact hs.symm
        · have := (List.getElem?_eq_some_iff.1 hs).1; omega
      subst hss
      have hsn := hi'.seen
      have hah := hi'.ahead
      rw [List.length_append, hlen] at hsn hah
      exact ⟨hi'.core, hsn, hpos, ⟨rfl, List.prefix_refl _, fun x hx => (hah x hx).1⟩⟩
    · obtain ⟨a1, a2, a3, a4⟩ := hp k s hge hs
      exact ⟨a1, a2, by rw [a3]; exact posAfter_take hb.first hge, a4.trans hb hge⟩

/-- A tree that the syntactic parser returns is a derivation from the tokens of the whole text, with
the inserted semicolons; each constraint in it is satisfied by the input as it was when the parser got
there. -/
theorem synParse_sound {S G goal fuel node} (hf : Filed G) (hnf : NoFinal G)
    (h : synParse S G goal fuel = .ok node) :
    ∃ ns es toks view, Lexed S ns S.text.length ∧ realOf es = ns.map .node ++ [.eoi S.text.length] ∧
      tokensOf es = toks ++ [.eoi S.text.length] ∧ (semisOf es).Pairwise (· < ·) ∧
      (∀ k, k ≤ toks.length → Became k (view k) es) ∧
      IsTree G (tokenWorld S es view) goal 0 toks.length node := by
  unfold synParse at h
  split at h
  · cases h
  rename_i st0 h0
  obtain ⟨H, k, hreal, htree, hend⟩ := run_sound (c := synCfg S G goal) hf hnf syn_eoi h
  obtain ⟨l, hl, hrk⟩ := hend rfl
  have hlt := (List.getElem?_eq_some_iff.1 hrk).1
  obtain ⟨p, rfl⟩ : ∃ p, l = .eoi p := by
    cases l with
    | eoi p => exact ⟨p, rfl⟩
    | lit => cases hl
    | named => cases hl
  obtain ⟨st, pos, hc, _, hpast⟩ := hist_past h0 hreal (k + 1) (by omega)
  have hi := calls_inv hc
  have hlen : (H.rats.take (k + 1)).length = k + 1 := by rw [List.length_take]; omega
  obtain ⟨rfl, hd, hsc, htk⟩ := eoi_last (p := p) hi hlen (by rw [List.getElem?_take_of_lt (by omega)]; exact hrk) (by simp)
  obtain ⟨ns, hlx, hr⟩ := hi.core.lexed
  have htl : ((tokensOf st.elems).take k).length = k := by
    rw [List.length_take]
    have := hi.enough
    omega
  refine ⟨ns, st.elems, (tokensOf st.elems).take k, fun i => ((H.sts[i]?).map (fun s => s.1.elems)).getD [],
    by rw [← hsc]; exact hlx, by rw [hr, hd]; rfl, htk, hi.incr, ?_, ?_⟩
  · intro i hik
    rw [htl] at hik
    have hri : H.rats[i]? = some H.rats[i] := List.getElem?_eq_getElem (by omega)
    obtain ⟨s, _, _, _, hs, _⟩ := hreal.2 i _ hri
    dsimp only
    rw [hs]
    exact (hpast i s (by omega) hs).became
  · rw [htl]
    unfold IsTree at htree ⊢
    refine Derives.carry (W := Hist.world (synTip S) H)
      (W' := tokenWorld S st.elems (fun i => ((H.sts[i]?).map (fun s => s.1.elems)).getD [])) rfl rfl (N := k) ?_ ?_ ?_ htree (Nat.le_refl _)
    · rintro i t l hik ⟨r, h1, h2⟩
      obtain ⟨_, tok, h3, h4⟩ := hi.inst i r (by rw [List.getElem?_take_of_lt (by omega)]; exact h1)
      exact ⟨tok, h3, h4 _ h2⟩
    · rintro i prev con hik ⟨s, h1, h2⟩
      have hp := hpast i s (by omega) h1
      have := (synCheck_spec hp.core (show synCheck S s.1 prev con = .ok true from h2)).1 rfl
      rw [hp.seen] at this
      show TokHolds S (((H.sts[i]?).map (fun s => s.1.elems)).getD []) i prev con
      rw [h1]; exact this
    · rintro i p hik ⟨s, h1, rfl⟩
      exact (hpast i s (by omega) h1).pos

end Verif.Earley
