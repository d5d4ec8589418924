import Verif.Earley.SynLemmas
/-! # The token provider over a history of requests -/
namespace Verif.Earley

/-- The stream is sound. -/
structure Core (S : SynEnv) (st : Syn) : Prop where
  lexed : ∃ ns, Lexed S ns st.scout ∧
    realOf st.elems = ns.map .node ++ (if st.done then [.eoi S.text.length] else [])
  scout : st.scout ≤ S.text.length
  fin : st.done = true → st.scout = S.text.length
  toks : st.toks = toksOf 0 st.elems

/-- What is still ahead of the scouting position, plus all tokens. -/
def total (S : SynEnv) (st : Syn) : Nat :=
  st.toks.length + (S.text.length - st.scout) + (if st.done then 0 else 1)

/-- `st'` is `st` with more input elements read. -/
structure Grow (S : SynEnv) (st st' : Syn) : Prop where
  more : ∃ more, st'.elems = st.elems ++ more ∧ ∀ x ∈ more, x.isReal = true ∧ st.scout ≤ x.extent.1
  seen : st'.seen = st.seen
  latest : st'.latest = st.latest
  scout : st.scout ≤ st'.scout
  total : total S st' ≤ total S st

theorem Grow.refl (S st) : Grow S st st := ⟨⟨[], by simp⟩, rfl, rfl, Nat.le_refl _, Nat.le_refl _⟩

theorem Grow.trans {S st st' st''} (h : Grow S st st') (h' : Grow S st' st'') : Grow S st st'' := by
  obtain ⟨m, h1, h2⟩ := h.more
  obtain ⟨m', h1', h2'⟩ := h'.more
  refine ⟨⟨m ++ m', by rw [h1', h1, List.append_assoc], ?_⟩, by rw [h'.seen, h.seen],
    by rw [h'.latest, h.latest], Nat.le_trans h.scout h'.scout, Nat.le_trans h'.total h.total⟩
  intro x hx
  rcases List.mem_append.1 hx with hx | hx
  · exact h2 x hx
  · exact ⟨(h2' x hx).1, Nat.le_trans h.scout (h2' x hx).2⟩

theorem install_toks {st : Syn} {x} (h : st.toks = toksOf 0 st.elems) :
    (st.install x).toks = toksOf 0 (st.install x).elems := by
  simp only [Syn.install, toksOf_append, Nat.zero_add, toksOf, h]
  split <;> simp

theorem realOf_append (a b : List Elem) : realOf (a ++ b) = realOf a ++ realOf b := by simp [realOf]

theorem common_goal : "InputElement_common" ∈ lexGoals := by decide

theorem goalSymbol_mem {e g} (h : goalSymbol e = .ok g) : g ∈ lexGoals := by
  unfold goalSymbol at h
  dsimp only at h
  split at h
  · cases h
  split at h
  · injection h with h; subst h; decide
  split at h
  · injection h with h; subst h; decide
  split at h
  · injection h with h; subst h; decide
  · injection h with h; subst h; decide

theorem getOne_core {S goal st b st'} (hgoal : goal ∈ lexGoals) (hc : Core S st) (h : getOne S goal st = .ok (b, st')) :
    Core S st' ∧ Grow S st st' := by
  unfold getOne at h
  split at h
  · injection h with h; injection h with h1 h2; subst h1 h2
    exact ⟨hc, .refl S st⟩
  rename_i hd
  obtain ⟨ns, hl, hr⟩ := hc.lexed
  simp only [hd] at hr
  split at h
  · rename_i hs
    injection h with h; injection h with h1 h2; subst h1 h2
    refine ⟨⟨⟨ns, hl, ?_⟩, hc.scout, fun _ => hs, install_toks hc.toks⟩, ⟨⟨[.eoi st.scout], rfl, ?_⟩, rfl, rfl,
      Nat.le_refl _, ?_⟩⟩
    · show realOf (st.elems ++ [.eoi st.scout]) = _
      rw [realOf_append, hr, hs]; simp [realOf, Elem.isReal, Syn.install]
    · intro x hx; rw [List.mem_singleton.1 hx]; exact ⟨rfl, Nat.le_refl _⟩
    · simp only [total, Syn.install, hd]
      split <;> simp <;> omega
  · rename_i hs
    split at h
    · cases h
    rename_i n hn
    split at h
    · rename_i hx
      injection h with h; injection h with h1 h2; subst h1 h2
      refine ⟨⟨⟨ns ++ [n], .snoc hl hgoal hn (by rw [← hx.1]; rfl) (by rw [← hx.1]; exact hx.2.1) hx.2.2, ?_⟩, hx.2.2, ?_,
        install_toks hc.toks⟩, ⟨⟨[.node n], rfl, ?_⟩, rfl, rfl, ?_, ?_⟩⟩
      · show realOf (st.elems ++ [.node n]) = _
        rw [realOf_append, hr]; simp [realOf, Elem.isReal, Syn.install, hd]
      · intro h; simp [Syn.install, hd] at h
      · intro x hx'; rw [List.mem_singleton.1 hx']; exact ⟨rfl, by rw [Elem.extent]; omega⟩
      · show st.scout ≤ (lexExtent n).2; omega
      · simp only [total, Syn.install, hd]
        split <;> simp <;> omega
    · cases h

theorem scoutLoop_core {S} : ∀ {f st st'}, Core S st → scoutLoop S f st = .ok st' → Core S st' ∧ Grow S st st' := by
  intro f
  induction f with
  | zero => intro st st' _ h; cases h
  | succ f ih =>
    intro st st' hc h
    simp only [scoutLoop] at h
    split at h
    · injection h with h; subst h; exact ⟨hc, .refl S _⟩
    · cases h
    · rename_i hg
      injection h with h; subst h
      exact ⟨(getOne_core common_goal hc hg).1, (getOne_core common_goal hc hg).2⟩
    · rename_i hg
      obtain ⟨g1, g2⟩ := getOne_core common_goal hc hg
      obtain ⟨g3, g4⟩ := ih g1 h
      exact ⟨g3, g2.trans g4⟩

/-- Rounds that the scouting loop may still need. -/
def left (S : SynEnv) (st : Syn) : Nat := (S.text.length - st.scout) + (if st.done then 0 else 1)

theorem getOne_left {S goal st st'} (h : getOne S goal st = .ok (true, st')) : left S st' < left S st := by
  unfold getOne at h
  split at h
  · injection h with h; injection h with h1 _; cases h1
  rename_i hd
  split at h
  · injection h with h; injection h with _ h2; subst h2
    simp [left, Syn.install, hd]
  · split at h
    · cases h
    split at h
    · rename_i hx
      injection h with h; injection h with _ h2; subst h2
      simp only [left, Syn.install]
      have := hx.2.1; have := hx.2.2; have := hx.1
      split <;> omega
    · cases h

theorem getOne_fuel {S : SynEnv} {goal st} (hl : ∀ goal p, S.lex goal p ≠ .error .fuel) : getOne S goal st ≠ .error .fuel := by
  intro hg
  unfold getOne at hg
  split at hg
  · cases hg
  split at hg
  · cases hg
  split at hg
  · rename_i h'; injection hg with hg; subst hg; exact hl _ _ h'
  split at hg <;> cases hg

/-- The scouting loop has enough fuel. -/
theorem scoutLoop_fuel {S : SynEnv} (hl : ∀ goal p, S.lex goal p ≠ .error .fuel) : ∀ {f st},
    left S st + 1 ≤ f → scoutLoop S f st ≠ .error .fuel := by
  intro f
  induction f with
  | zero => intro st h; omega
  | succ f ih =>
    intro st hf h
    simp only [scoutLoop] at h
    split at h
    · cases h
    · rename_i e he hg
      injection h with h
      subst h
      exact getOne_fuel hl hg
    · cases h
    · rename_i hg
      have := getOne_left hg
      exact ih (by omega) h

theorem scoutAhead_fuel {S : SynEnv} (hl : ∀ goal p, S.lex goal p ≠ .error .fuel) (st) :
    scoutAhead S st ≠ .error .fuel := by
  apply scoutLoop_fuel hl
  unfold left
  split <;> omega

theorem scoutAhead_core {S st st'} (hc : Core S st) (h : scoutAhead S st = .ok st') : Core S st' ∧ Grow S st st' :=
  scoutLoop_core hc h

theorem core_init (S) : Core S ⟨[], [], 0, 0, false, none⟩ :=
  ⟨⟨[], .nil, rfl⟩, Nat.zero_le _, by simp, rfl⟩

theorem core_seen {S st} (k : Nat) (hc : Core S st) : Core S { st with seen := k } :=
  ⟨hc.lexed, hc.scout, hc.fin, hc.toks⟩

theorem advance_core {S goal st tok st'} (hgoal : goal ∈ lexGoals) (hc : Core S st) (h : advance S goal st = .ok (tok, st')) :
    Core S st' ∧ Grow S { st with seen := st.seen + 1 } st' ∧ ∃ j, st'.toks[st.seen]? = some (tok, j) := by
  unfold advance at h
  dsimp only at h
  have hc1 := core_seen (st.seen + 1) hc
  split at h
  · split at h
    · rename_i t ht
      injection h with h; injection h with h1 h2; subst h1 h2
      exact ⟨hc1, .refl S _, t.2, ht⟩
    · cases h
  split at h
  · split at h
    · cases h
    · cases h
    rename_i st1 hg
    obtain ⟨g1, g2⟩ := getOne_core hgoal hc1 hg
    split at h
    · split at h
      · cases h
      rename_i st2 hs
      obtain ⟨g3, g4⟩ := scoutAhead_core g1 hs
      split at h
      · rename_i t ht
        injection h with h; injection h with h1 h2; subst h1 h2
        exact ⟨g3, g2.trans g4, t.2, ht⟩
      · cases h
    · cases h
  · cases h

/-! ## Order of positions -/

theorem lexed_order {S ns p} (h : Lexed S ns p) : (ns.map Elem.node).Pairwise (fun a b => a.extent.2 ≤ b.extent.1) ∧
    ∀ x ∈ ns.map Elem.node, x.extent.2 ≤ p ∧ x.extent.1 ≤ x.extent.2 := by
  induction h with
  | nil => simp
  | @snoc ns p n q goal _ _ hlex hx hpq hq ih =>
    have hn : (Elem.node n).extent = (p, q) := hx
    rw [List.map_append, List.pairwise_append]
    refine ⟨⟨ih.1, by simp, ?_⟩, ?_⟩
    · intro a ha b hb
      simp at hb; subst hb
      rw [hn]; exact (ih.2 a ha).1
    · intro x hx'
      rcases List.mem_append.1 hx' with hx' | hx'
      · have := ih.2 x hx'; omega
      · simp at hx'; subst hx'; rw [hn]; simp; omega

theorem core_order {S st} (hc : Core S st) :
    (realOf st.elems).Pairwise (fun a b => a.extent.2 ≤ b.extent.1) ∧
    ∀ x ∈ realOf st.elems, x.extent.2 ≤ st.scout ∧ x.extent.1 ≤ x.extent.2 := by
  obtain ⟨ns, hl, hr⟩ := hc.lexed
  have ho := lexed_order hl
  rw [hr]
  cases hd : st.done with
  | false => simpa using ho
  | true =>
    have hf := hc.fin hd
    simp only [if_true]
    rw [List.pairwise_append]
    refine ⟨⟨ho.1, by simp, ?_⟩, ?_⟩
    · intro a ha b hb
      simp at hb; subst hb
      have := ho.2 a ha
      show a.extent.2 ≤ S.text.length
      omega
    · intro x hx
      rcases List.mem_append.1 hx with hx | hx
      · exact ho.2 x hx
      · simp at hx; subst hx; simp [Elem.extent, hf]

theorem semisOf_append (a b : List Elem) : semisOf (a ++ b) = semisOf a ++ semisOf b := by
  induction a with
  | nil => rfl
  | cons x r ih => cases x <;> simp [semisOf, ih]

theorem mem_semisOf {es : List Elem} {p} : p ∈ semisOf es ↔ .semi p ∈ es := by
  induction es with
  | nil => simp [semisOf]
  | cons x r ih => cases x <;> simp [semisOf, ih]

theorem semisOf_real {es : List Elem} (h : ∀ x ∈ es, x.isReal = true) : semisOf es = [] := by
  rw [List.eq_nil_iff_forall_not_mem]
  intro p hp
  have := h _ (mem_semisOf.1 hp)
  simp [Elem.isReal] at this

/-! ## The invariant -/

/-- What holds after any number of requests. -/
structure SInv (S : SynEnv) (rs : List (List (Term × SynLeaf))) (st : Syn) (pos : Nat) : Prop where
  core : Core S st
  seen : st.seen = rs.length
  enough : rs.length ≤ (tokensOf st.elems).length
  inst : ∀ (k : Nat) r, rs[k]? = some r → r ≠ [] ∧ ∃ tok, (tokensOf st.elems)[k]? = some tok ∧
    ∀ q ∈ r, Instance S tok q.1 q.2
  ahead : ∀ x ∈ (tokensOf st.elems).drop rs.length, x.isReal = true ∧ pos ≤ x.extent.1
  here : pos ≤ st.scout
  incr : (semisOf st.elems).Pairwise (· < ·)
  upto : ∀ p ∈ semisOf st.elems, p ≤ pos
  latest : st.latest = (semisOf st.elems).getLast?

theorem core_tokens {S st} (hc : Core S st) : st.toks.map (·.1) = tokensOf st.elems := by
  rw [hc.toks, toksOf_fst]

theorem tokensOf_append (a b : List Elem) : tokensOf (a ++ b) = tokensOf a ++ tokensOf b := by simp [tokensOf]

theorem mem_of_drop {α} {l : List α} {n : Nat} {x} (h : x ∈ l.drop n) : x ∈ l := (List.drop_sublist n l).subset h

/-- Reading further keeps the invariant, but for the number of tokens seen. -/
theorem sinv_grow {S rs st pos st'} (h : SInv S rs st pos) (hc : Core S st')
    (hg : Grow S { st with seen := st.seen + 1 } st') :
    SInv S rs { st' with seen := st.seen } pos := by
  obtain ⟨more, h1, h2⟩ := hg.more
  have h1 : st'.elems = st.elems ++ more := h1
  have h2 : ∀ x ∈ more, x.isReal = true ∧ st.scout ≤ x.extent.1 := h2
  have hsem : semisOf st'.elems = semisOf st.elems := by
    rw [h1, semisOf_append, semisOf_real (fun x hx => (h2 x hx).1), List.append_nil]
  have hlat : st'.latest = st.latest := hg.latest
  have hsc : st.scout ≤ st'.scout := hg.scout
  constructor
  · exact core_seen _ hc
  · exact h.seen
  · show rs.length ≤ (tokensOf st'.elems).length
    rw [h1, tokensOf_append, List.length_append]; have := h.enough; omega
  · intro k r hr
    obtain ⟨a, tok, b, c⟩ := h.inst k r hr
    refine ⟨a, tok, ?_, c⟩
    show (tokensOf st'.elems)[k]? = some tok
    rw [h1, tokensOf_append, List.getElem?_append_left (List.getElem?_eq_some_iff.1 b).1, b]
  · intro x hx
    have hx : x ∈ (tokensOf st'.elems).drop rs.length := hx
    rw [h1, tokensOf_append, List.drop_append_of_le_length h.enough] at hx
    rcases List.mem_append.1 hx with hx | hx
    · exact h.ahead x hx
    · have := h2 x (List.mem_filter.1 hx).1
      exact ⟨this.1, Nat.le_trans h.here this.2⟩
  · exact Nat.le_trans h.here hsc
  · show (semisOf st'.elems).Pairwise _; rw [hsem]; exact h.incr
  · show ∀ p ∈ semisOf st'.elems, _; rw [hsem]; exact h.upto
  · show st'.latest = (semisOf st'.elems).getLast?; rw [hsem, hlat]; exact h.latest

theorem tokensOf_cons_tok {x : Elem} {r} (h : ¬ IsGap x) : tokensOf (x :: r) = x :: tokensOf r := by
  simp [tokensOf, isGap_false.2 h]

theorem tokensOf_gaps {g : List Elem} (h : ∀ x ∈ g, IsGap x) : tokensOf g = [] := by
  simp only [tokensOf, List.filter_eq_nil_iff]
  intro x hx; simp [isGap_iff.2 (h x hx)]

theorem TokenAt.tokens {k before gap tok after} (h : TokenAt k before gap tok) :
    tokensOf (before ++ gap ++ tok :: after) = tokensOf before ++ tok :: tokensOf after := by
  rw [tokensOf_append, tokensOf_append, tokensOf_gaps h.gaps, tokensOf_cons_tok h.isTok, List.append_nil]

theorem TokenAt.drop {k before gap tok after} (h : TokenAt k before gap tok) :
    (tokensOf (before ++ gap ++ tok :: after)).drop k = tok :: tokensOf after ∧
    (tokensOf (before ++ gap ++ tok :: after))[k]? = some tok := by
  rw [h.tokens, ← h.count]
  simp

theorem pairwise_after {a b : List Elem} {x : Elem} (h : (a ++ x :: b).Pairwise (fun u v => u.extent.2 ≤ v.extent.1)) :
    ∀ y ∈ b, x.extent.2 ≤ y.extent.1 := by
  rw [List.pairwise_append] at h
  exact (List.pairwise_cons.1 h.2.1).1

theorem nosemi_gap {x : Elem} (h : IsGap x) : x.isReal = true := by
  obtain ⟨_, _, _, _, _, _, _, _, _, rfl, _⟩ := h; rfl

theorem synNext_step {S rs st pos e kl rats pos' st'} (h : SInv S rs st pos)
    (hn : synNext S st pos e kl = .ok (some (rats, pos'), st')) :
    SInv S (rs ++ [rats]) st' pos' ∧ Step S rs.length pos e kl st.elems st'.elems rats pos' ∧ pos ≤ pos' ∧
    ((total S st' - st'.seen < total S st - st.seen) ∨
      (total S st' - st'.seen ≤ total S st - st.seen ∧ st.latest ≠ some pos ∧ st'.latest = some pos ∧ pos' = pos)) := by
  unfold synNext at hn
  split at hn
  · cases hn
  rename_i goal hgs
  split at hn
  · cases hn
  rename_i tok st1 hadv
  split at hn
  · cases hn
  rename_i named hnamed
  split at hn
  · cases hn
  rename_i ms hms
  obtain ⟨hc1, hgrow, j, hj⟩ := advance_core (goalSymbol_mem hgs) h.core hadv
  have hinv := sinv_grow h hc1 hgrow
  have hseen1 : st1.seen = st.seen + 1 := hgrow.seen
  have hlat1 : st1.latest = st.latest := hgrow.latest
  obtain ⟨more, hmore, _⟩ := hgrow.more
  have hmore : st1.elems = st.elems ++ more := hmore
  have hj0 : (toksOf 0 st1.elems)[rs.length]? = some (tok, j) := by rw [← hc1.toks, ← h.seen]; exact hj
  obtain ⟨before, gap, after, hes, hat, hjl, htk, hdr, hbl⟩ := token_at hj0
  have hms' := matchAll_spec hnamed hms
  have hdrop : (tokensOf st1.elems).drop rs.length = tok :: tokensOf after ∧ (tokensOf st1.elems)[rs.length]? = some tok := by
    rw [hes]; exact hat.drop
  have hlen : rs.length < (tokensOf st1.elems).length := (List.getElem?_eq_some_iff.1 hdrop.2).1
  have hah := hinv.ahead
  have hah : ∀ x ∈ (tokensOf st1.elems).drop rs.length, x.isReal = true ∧ pos ≤ x.extent.1 := hah
  rw [hdrop.1] at hah
  have htokR := hah tok List.mem_cons_self
  have htotal : total S st1 ≤ total S st := by
    have := hgrow.total; exact this
  have hbig : st1.toks.length ≤ total S st1 := by unfold total; omega
  have htl : st1.toks.length = (tokensOf st1.elems).length := by rw [← core_tokens hc1, List.length_map]
  have hafterR : ∀ x ∈ after, x.isReal = true := by
    intro x hx
    by_cases hg : IsGap x
    · exact nosemi_gap hg
    · exact (hah x (List.mem_cons_of_mem _ (by simp [tokensOf, hx, isGap_false.2 hg]))).1
  have hreal : realOf st1.elems = realOf (before ++ gap) ++ tok :: after := by
    rw [hes, realOf_append]
    congr 1
    simp only [realOf, List.filter_eq_self]
    intro x hx
    rcases List.mem_cons.1 hx with rfl | hx
    · exact htokR.1
    · exact hafterR x hx
  obtain ⟨hord, hext⟩ := core_order hc1
  have htokin : tok ∈ realOf st1.elems := by rw [hreal]; simp
  unfold synDecide at hn
  split at hn
  · -- the token is expected
    rename_i hne
    injection hn with hn; injection hn with hn hst; injection hn with hn; injection hn with h1 h2
    subst h1 h2 hst
    refine ⟨?_, .token before gap tok after more (by rw [← hmore, hes]) hat hes rfl hne hms', ?_, ?_⟩
    · refine ⟨hc1, by rw [hseen1, h.seen]; simp, by simp; omega, ?_, ?_, (hext tok htokin).1, hinv.incr, ?_, hinv.latest⟩
      · intro k r hr
        rcases Nat.lt_or_ge k rs.length with hk | hk
        · rw [List.getElem?_append_left hk] at hr
          exact hinv.inst k r hr
        · rw [List.getElem?_append_right hk] at hr
          have hk0 : k = rs.length := by
            have := (List.getElem?_eq_some_iff.1 hr).1; simp at this; omega
          subst hk0
          simp at hr; subst hr
          exact ⟨hne, tok, hdrop.2, fun q hq => ((hms' q.1 q.2).1 hq).2⟩
      · intro x hx
        have hd2 : (tokensOf st1.elems).drop (rs ++ [ms]).length = tokensOf after := by
          rw [List.length_append, ← List.drop_drop, hdrop.1]; simp
        rw [hd2] at hx
        refine ⟨(hah x (List.mem_cons_of_mem _ hx)).1, ?_⟩
        rw [hreal] at hord
        exact pairwise_after hord x (List.mem_filter.1 hx).1
      · intro p hp
        have := hinv.upto p hp
        have := (hext tok htokin).2
        omega
    · have := (hext tok htokin).2; omega
    · left
      have := h.enough
      have : st.toks.length = (tokensOf st.elems).length := by rw [← core_tokens h.core, List.length_map]
      rw [hseen1]
      have := h.seen
      have hh : total S st ≥ st.toks.length := by unfold total; omega
      omega
  · rename_i hne
    have hne : ms = [] := by simpa using hne
    have hoff : ∀ t l, t ∈ e → ¬ Instance S tok t l := by
      intro t l ht hi
      have := (hms' t l).2 ⟨ht, hi⟩
      rw [hne] at this; cases this
    split at hn
    · cases hn
    · injection hn with hn; injection hn with hn _; cases hn
    rename_i hallow
    have hrule : (∃ p, tok = .eoi p) ∨ (∃ g ∈ gap, IsLineBreak g) ∨ tok.text S.text = ['}'] ∨ kl = some .doWhile := by
      unfold asiAllowed at hallow
      split at hallow
      · exact .inl ⟨_, rfl⟩
      · split at hallow
        · cases hallow
        · rename_i b hb
          injection hallow with hallow
          simp only [Bool.or_eq_true, decide_eq_true_eq] at hallow
          rcases hallow with (hb' | h2) | h3
          · refine .inr (.inl ?_)
            subst hb'
            unfold gapHasLT at hb
            split at hb
            · cases hb
            split at hb
            · cases hb
            dsimp only at hb
            have hsub : st1.seen - 1 = rs.length := by rw [hseen1, h.seen]; omega
            rw [hsub] at hb
            have hgap : gap = (st1.elems.take j).drop (gapStart st1.toks rs.length) := by
              rw [hc1.toks, ← hbl, hes, hjl, List.take_left' rfl, List.drop_left' rfl]
            have : st1.toks[rs.length]? = some (tok, j) := by rw [hc1.toks]; exact hj0
            rw [this] at hb
            dsimp only at hb
            rw [← hgap] at hb
            exact (ltOccurs_spec hat.gaps hb).1 rfl
          · exact .inr (.inr (.inl h2))
          · exact .inr (.inr (.inr h3))
    unfold asiInsert at hn
    split at hn
    · injection hn with hn; injection hn with hn _; cases hn
    rename_i hlate
    dsimp only at hn
    split at hn
    · injection hn with hn; injection hn with hn _; cases hn
    rename_i hsl
    split at hn
    · cases hn
    split at hn
    · injection hn with hn; injection hn with hn _; cases hn
    rename_i hkl
    split at hn
    · cases hn
    rename_i st2 hins
    injection hn with hn; injection hn with hn hst; injection hn with hn; injection hn with h1 h2
    subst h1 h2 hst
    have hwant : Term.lit ";" ∈ e := by
      have : (e.filter (fun t => decide (t = Term.lit ";"))) ≠ [] := by intro hh; rw [hh] at hsl; exact hsl rfl
      obtain ⟨t, ht⟩ := List.exists_mem_of_ne_nil _ this
      have h1 := (List.mem_filter.1 ht).1
      have h2 := of_decide_eq_true ((List.mem_filter.1 ht).2)
      rw [← h2]; exact h1
    have hfresh : ∀ p ∈ semisOf st.elems, p < pos := by
      intro p hp
      have hle := h.upto p hp
      rcases Nat.lt_or_ge p pos with hlt | hge
      · exact hlt
      · exfalso
        have hpe : p = pos := by omega
        subst hpe
        apply hlate
        rw [hlat1, h.latest]
        obtain ⟨a, b, hab⟩ := List.append_of_mem hp
        have hinc := h.incr
        rw [hab] at hinc ⊢
        rw [List.pairwise_append] at hinc
        cases b with
        | nil => simp
        | cons y b =>
          exfalso
          have h1 := (List.pairwise_cons.1 hinc.2.1).1 y List.mem_cons_self
          have h2 := h.upto y (by rw [hab]; simp)
          omega
    -- the insertion
    unfold insertBefore at hins
    have hsub : st1.seen - 1 = rs.length := by rw [hseen1, h.seen]; omega
    dsimp only at hins
    rw [hsub] at hins
    have htj : st1.toks[rs.length]? = some (tok, j) := by rw [hc1.toks]; exact hj0
    rw [htj] at hins
    dsimp only at hins
    split at hins
    · injection hins with hins
      have he2 : st2.elems = before ++ gap ++ .semi pos :: tok :: after := by
        rw [← hins]
        show st1.elems.take j ++ _ :: st1.elems.drop j = _
        rw [hes, hjl, List.take_left' rfl, List.drop_left' rfl]
      have hsemi : ¬ IsGap (.semi pos) := by rintro ⟨_, _, _, _, _, _, _, _, _, hh, _⟩; cases hh
      have ht2 : st2.toks = toksOf 0 st2.elems := by
        rw [he2, toksOf_append, ← hins]
        show st1.toks.take rs.length ++ (_, j) :: (st1.toks.drop rs.length).map _ = _
        rw [hc1.toks, htk, Nat.zero_add, ← hjl]
        congr 1
        simp only [toksOf, isGap_false.2 hsemi, isGap_false.2 hat.isTok, Bool.false_eq_true, if_false]
        rw [toksOf_shift, hdr]
        have : (toksOf 0 st1.elems).drop rs.length = (tok, j) :: (toksOf 0 st1.elems).drop (rs.length + 1) := by
          have hk := (List.getElem?_eq_some_iff.1 hj0).1
          rw [List.drop_eq_getElem_cons hk, (List.getElem?_eq_some_iff.1 hj0).2]
        rw [this]; rfl
      have hsem1 : semisOf st1.elems = semisOf st.elems := by
        obtain ⟨more', hm1, hm2⟩ := hgrow.more
        have hm1 : st1.elems = st.elems ++ more' := hm1
        rw [hm1, semisOf_append, semisOf_real (fun x hx => (hm2 x hx).1), List.append_nil]
      have htasem : semisOf (tok :: after) = [] := by
        apply semisOf_real
        intro x hx
        rcases List.mem_cons.1 hx with rfl | hx
        · exact htokR.1
        · exact hafterR x hx
      have hsem2 : semisOf st2.elems = semisOf st.elems ++ [pos] := by
        have hA : semisOf (before ++ gap) = semisOf st.elems := by
          rw [← hsem1, hes, semisOf_append (before ++ gap), htasem, List.append_nil]
        rw [he2, semisOf_append, hA]
        show _ ++ pos :: semisOf (tok :: after) = _
        rw [htasem]
      have hreal2 : realOf st2.elems = realOf st1.elems := by
        rw [he2, hes, realOf_append (before ++ gap), realOf_append (before ++ gap)]
        rfl
      have hscout2 : st2.scout = st1.scout := by rw [← hins]
      have hdone2 : st2.done = st1.done := by rw [← hins]
      have htoks2 : tokensOf st2.elems = tokensOf before ++ .semi pos :: tok :: tokensOf after := by
        rw [he2, tokensOf_append, tokensOf_append, tokensOf_gaps hat.gaps, tokensOf_cons_tok hsemi,
          tokensOf_cons_tok hat.isTok, List.append_nil]
      have htoks1 : tokensOf st1.elems = tokensOf before ++ tok :: tokensOf after := by rw [hes]; exact hat.tokens
      refine ⟨⟨⟨?_, by rw [hscout2]; exact hc1.scout, by rw [hscout2, hdone2]; exact hc1.fin, ht2⟩, ?_, ?_, ?_, ?_, ?_, ?_, ?_, ?_⟩,
        .semi before gap tok after more (by rw [← hmore, hes]) hat hoff hrule hwant hkl hfresh he2 rfl rfl, Nat.le_refl _, ?_⟩
      · rw [hscout2, hdone2, hreal2]; exact hc1.lexed
      · rw [← hins]; simp [hseen1, h.seen]
      · rw [htoks2]; simp [hat.count]
      · intro k r hr
        rcases Nat.lt_or_ge k rs.length with hk | hk
        · rw [List.getElem?_append_left hk] at hr
          obtain ⟨a, tk, b, c⟩ := hinv.inst k r hr
          refine ⟨a, tk, ?_, c⟩
          have b : (tokensOf st1.elems)[k]? = some tk := b
          rw [htoks1, List.getElem?_append_left (by rw [hat.count]; exact hk)] at b
          rw [htoks2, List.getElem?_append_left (by rw [hat.count]; exact hk), b]
        · rw [List.getElem?_append_right hk] at hr
          have hk0 : k = rs.length := by
            have := (List.getElem?_eq_some_iff.1 hr).1; simp at this; omega
          subst hk0
          simp at hr; subst hr
          refine ⟨by simp, .semi pos, ?_, ?_⟩
          · rw [htoks2, List.getElem?_append_right (by rw [hat.count]; exact Nat.le_refl _), hat.count]; simp
          · intro q hq; rw [List.mem_singleton.1 hq]; exact ⟨rfl, rfl⟩
      · intro x hx
        have hd2 : (tokensOf st2.elems).drop (rs ++ [[(Term.lit ";", SynLeaf.lit [';'] pos pos)]]).length = tok :: tokensOf after := by
          rw [htoks2, List.length_append, ← List.drop_drop, ← hat.count]; simp
        rw [hd2] at hx
        exact hah x hx
      · rw [hscout2]; exact hinv.here
      · rw [hsem2, List.pairwise_append]
        refine ⟨h.incr, by simp, ?_⟩
        intro a ha b hb
        simp at hb; subst hb
        exact hfresh a ha
      · intro p hp
        rw [hsem2] at hp
        rcases List.mem_append.1 hp with hp | hp
        · exact h.upto p hp
        · simp at hp; omega
      · rw [hsem2, ← hins]; simp
      · right
        have hseen2 : st2.seen = st.seen + 1 := by rw [← hins]; exact hseen1
        have hlen2 : st2.toks.length = st1.toks.length + 1 := by
          rw [← hins]
          simp
          have := (List.getElem?_eq_some_iff.1 htj).1
          omega
        refine ⟨?_, by rw [← hlat1]; exact hlate, by rw [← hins], rfl⟩
        have : total S st2 = total S st1 + 1 := by
          unfold total; rw [hscout2, hdone2, hlen2]; omega
        rw [this, hseen2]; omega
    · cases hins

/-- When the provider refuses, the next token is not expected and the rules allow no semicolon. -/
theorem synNext_refuses {S rs st pos e kl st'} (h : SInv S rs st pos)
    (hn : synNext S st pos e kl = .ok (none, st')) : Refused S rs.length pos e kl st.elems := by
  unfold synNext at hn
  split at hn
  · cases hn
  rename_i goal hgs
  split at hn
  · cases hn
  rename_i tok st1 hadv
  split at hn
  · cases hn
  rename_i named hnamed
  split at hn
  · cases hn
  rename_i ms hms
  obtain ⟨hc1, hgrow, j, hj⟩ := advance_core (goalSymbol_mem hgs) h.core hadv
  have hinv := sinv_grow h hc1 hgrow
  have hseen1 : st1.seen = st.seen + 1 := hgrow.seen
  have hlat1 : st1.latest = st.latest := hgrow.latest
  obtain ⟨more, hmore, _⟩ := hgrow.more
  have hmore : st1.elems = st.elems ++ more := hmore
  have hj0 : (toksOf 0 st1.elems)[rs.length]? = some (tok, j) := by rw [← hc1.toks, ← h.seen]; exact hj
  obtain ⟨before, gap, after, hes, hat, hjl, htk, hdr, hbl⟩ := token_at hj0
  have hms' := matchAll_spec hnamed hms
  unfold synDecide at hn
  split at hn
  · injection hn with hn; injection hn with hn _; cases hn
  rename_i hne
  have hne : ms = [] := by simpa using hne
  have hoff : ∀ t l, t ∈ e → ¬ Instance S tok t l := by
    intro t l ht hi
    have := (hms' t l).2 ⟨ht, hi⟩
    rw [hne] at this; cases this
  refine ⟨before, gap, tok, after, more, by rw [← hmore, hes], hat, hoff, ?_⟩
  rintro ⟨hrule, hwant, hnoe, hfresh⟩
  split at hn
  · cases hn
  · rename_i hallow
    unfold asiAllowed at hallow
    split at hallow
    · cases hallow
    · rename_i hnoeoi
      split at hallow
      · cases hallow
      · rename_i b hb
        injection hallow with hallow
        simp only [Bool.or_eq_false_iff, decide_eq_false_iff_not] at hallow
        obtain ⟨⟨hb', h2⟩, h3⟩ := hallow
        rcases hrule with ⟨p, hp⟩ | hl | hbr | hk
        · exact hnoeoi p hp
        · subst hb'
          unfold gapHasLT at hb
          split at hb
          · cases hb
          split at hb
          · cases hb
          dsimp only at hb
          have hsub : st1.seen - 1 = rs.length := by rw [hseen1, h.seen]; omega
          rw [hsub] at hb
          have hgap : gap = (st1.elems.take j).drop (gapStart st1.toks rs.length) := by
            rw [hc1.toks, ← hbl, hes, hjl, List.take_left' rfl, List.drop_left' rfl]
          have : st1.toks[rs.length]? = some (tok, j) := by rw [hc1.toks]; exact hj0
          rw [this] at hb
          dsimp only at hb
          rw [← hgap] at hb
          have := (ltOccurs_spec hat.gaps hb).2 hl
          cases this
        · exact h2 hbr
        · exact h3 hk
  · unfold asiInsert at hn
    split at hn
    · rename_i hlate
      rw [hlat1, h.latest] at hlate
      have := hfresh pos (List.mem_of_getLast? hlate)
      omega
    dsimp only at hn
    split at hn
    · rename_i hsl
      have : Term.lit ";" ∈ e.filter (fun t => decide (t = Term.lit ";")) := List.mem_filter.2 ⟨hwant, by simp⟩
      rw [List.length_eq_zero_iff.1 hsl] at this; cases this
    split at hn
    · cases hn
    split at hn
    · cases hn
    · injection hn with hn; injection hn with hn _; cases hn

theorem synInit_inv {S st} (h : synInit S = .ok st) : SInv S [] st 0 := by
  obtain ⟨hc, hg⟩ := scoutAhead_core (core_init S) h
  obtain ⟨more, h1, h2⟩ := hg.more
  have h1 : st.elems = more := h1
  have hs : semisOf st.elems = [] := by rw [h1]; exact semisOf_real (fun x hx => (h2 x hx).1)
  refine ⟨hc, hg.seen, Nat.zero_le _, by simp, ?_, Nat.zero_le _, by rw [hs]; exact .nil, by rw [hs]; simp, ?_⟩
  · intro x hx
    simp only [List.length_nil, List.drop_zero] at hx
    have := (List.mem_filter.1 hx).1
    rw [h1] at this
    exact ⟨(h2 x this).1, Nat.zero_le _⟩
  · rw [hs]; exact hg.latest

theorem calls_inv {S rs st pos} (h : Calls S rs st pos) : SInv S rs st pos := by
  induction h with
  | start h => exact synInit_inv h
  | next _ hn ih => exact (synNext_step ih hn).1

end Verif.Earley
