import Verif.Earley.SynRun
import Verif.Earley.RunSound
import Verif.Earley.Terminate
/-! # Parsing a source text -/
namespace Verif.Earley

/-! ## Leaves of a derivation -/

/-- The leaves of a derivation from place `i` to place `j` are one instance per place, in order. -/
theorem derives_leaves {L} {G : Grammar} {W : World L} {rhs prev i j cs} (h : Derives G W rhs prev i j cs) :
    i + (leaves.leavesList cs).length = j ∧
    ∀ (m : Nat) l, (leaves.leavesList cs)[m]? = some l → ∃ t, W.scan (i + m) t l := by
  induction h with
  | nil => simp [leaves.leavesList]
  | con _ _ ih => exact ih
  | @term t l rest prev i j cs hs hd ih =>
    simp only [leaves.leavesList, leaves, List.singleton_append, List.length_cons]
    refine ⟨by omega, ?_⟩
    intro m l' hl'
    cases m with
    | zero => simp at hl'; subst hl'; exact ⟨t, hs⟩
    | succ m =>
      rw [List.getElem?_cons_succ] at hl'
      obtain ⟨t', h'⟩ := ih.2 m l' hl'
      exact ⟨t', by rw [show i + (m + 1) = i + 1 + m by omega]; exact h'⟩
  | @nt n ps p ds pos node rest prev i m j cs h1 h2 hd1 hat hnode hd2 ih1 ih2 =>
    have hl : leaves node = leaves.leavesList ds := by unfold IsNode at hnode; rw [hnode]; rfl
    simp only [leaves.leavesList, hl, List.length_append]
    refine ⟨by omega, ?_⟩
    intro k l' hl'
    rcases Nat.lt_or_ge k (leaves.leavesList ds).length with hk | hk
    · rw [List.getElem?_append_left hk] at hl'
      exact ih1.2 k l' hl'
    · rw [List.getElem?_append_right hk] at hl'
      obtain ⟨t, ht⟩ := ih2.2 _ l' hl'
      exact ⟨t, by rw [show i + k = m + (k - (leaves.leavesList ds).length) by omega]; exact ht⟩

theorem tree_leaves {L} {G : Grammar} {W : World L} {n i j t} (h : IsTree G W n i j t) :
    i + (leaves t).length = j ∧ ∀ (m : Nat) l, (leaves t)[m]? = some l → ∃ s, W.scan (i + m) s l := by
  have := derives_leaves h
  simpa [leaves.leavesList] using this

/-! ## From a run to a history of requests -/

theorem hist_calls {S : SynEnv} {st0 : Syn} {H : Hist Syn SynLeaf} (h0 : synInit S = .ok st0)
    (h : H.Real (synTip S) st0 0) : ∀ k, k ≤ H.rats.length →
      ∃ st pos, Calls S (H.rats.take k) st pos ∧ (H.sts[k]? = some (st, pos) ∨ H.sts.length = k) := by
  intro k
  induction k with
  | zero => intro _; exact ⟨st0, 0, .start h0, .inl h.1⟩
  | succ k ih =>
    intro hk
    obtain ⟨st, pos, hc, hs⟩ := ih (by omega)
    have hr : H.rats[k]? = some H.rats[k] := List.getElem?_eq_getElem (by omega)
    obtain ⟨s, s', e, kl, h1, h2, h3⟩ := h.2 k _ hr
    have hs : (st, pos) = s := by
      rcases hs with hs | hs
      · rw [hs] at h1; injection h1
      · have := (List.getElem?_eq_some_iff.1 h1).1; omega
    subst hs
    refine ⟨s'.1, s'.2, ?_, h3⟩
    rw [List.take_succ_eq_append_getElem (by omega)]
    exact .next hc h2

theorem synNext_inst {S st pos e kl rats pos' st'} (h : synNext S st pos e kl = .ok (some (rats, pos'), st')) :
    ∀ r ∈ rats, ∃ tok, Instance S tok r.1 r.2 := by
  unfold synNext at h
  split at h
  · cases h
  split at h
  · cases h
  rename_i tok st1 _
  split at h
  · cases h
  rename_i named hnamed
  split at h
  · cases h
  rename_i ms hms
  unfold synDecide at h
  split at h
  · injection h with h; injection h with h _; injection h with h; injection h with h _
    subst h
    intro r hr
    exact ⟨tok, ((matchAll_spec hnamed hms r.1 r.2).1 hr).2⟩
  split at h
  · cases h
  · injection h with h; injection h with h _; cases h
  unfold asiInsert at h
  split at h
  · injection h with h; injection h with h _; cases h
  dsimp only at h
  split at h
  · injection h with h; injection h with h _; cases h
  split at h
  · cases h
  split at h
  · injection h with h; injection h with h _; cases h
  split at h
  · cases h
  · injection h with h; injection h with h _; injection h with h; injection h with h _
    subst h
    intro r hr
    rw [List.mem_singleton.1 hr]
    exact ⟨.semi pos, rfl, rfl⟩

theorem instance_eoi {S tok t p} (h : Instance S tok t (.eoi p)) : tok = .eoi p ∧ t = endOfInput := by
  cases tok with
  | semi q => exact absurd h.2 (by simp)
  | eoi q =>
    rcases h with ⟨h1, h2⟩ | ⟨_, h2⟩
    · injection h2 with h2; exact ⟨by rw [h2], h1⟩
    · cases h2
  | node n =>
    rcases h with ⟨_, _, _, h2⟩ | ⟨_, _, _, _, _, _, _, _, _, h2⟩ <;> cases h2

theorem syn_eoi {S : SynEnv} : EoiOk (synTip S) := by
  intro st pos e kl rats pos' st' h r hr he
  obtain ⟨tok, hi⟩ := synNext_inst h r hr
  obtain ⟨t, l⟩ := r
  cases l with
  | eoi p => exact (instance_eoi hi).2
  | lit => cases he
  | named => cases he

theorem tail_of_eq {α} {A B C : List α} {x : α} (h : A ++ x :: B = C ++ [x]) (hx : x ∉ C) : B = [] := by
  rcases List.eq_nil_or_concat B with rfl | ⟨B', y, rfl⟩
  · rfl
  · exfalso
    rw [List.concat_eq_append, ← List.cons_append, ← List.append_assoc] at h
    have := (List.append_inj' h rfl).1
    apply hx
    rw [← this]; simp

theorem real_tokens (es : List Elem) : realOf (tokensOf es) = tokensOf (realOf es) := by
  simp only [realOf, tokensOf, List.filter_filter]
  congr 1
  funext x
  exact Bool.and_comm _ _

/-- After the end of the input has been handed out, the whole text has been read and nothing is left. -/
theorem eoi_last {S rs st pos k p r} (h : SInv S rs st pos) (hk : rs.length = k + 1) (hr : rs[k]? = some r)
    (he : (endOfInput, SynLeaf.eoi p) ∈ r) : p = S.text.length ∧ st.done = true ∧ st.scout = S.text.length ∧
      tokensOf st.elems = (tokensOf st.elems).take k ++ [.eoi p] := by
  obtain ⟨_, tok, h1, h2⟩ := h.inst k r hr
  obtain ⟨rfl, _⟩ := instance_eoi (h2 _ he)
  obtain ⟨ns, hl, hreal⟩ := h.core.lexed
  have hmem : Elem.eoi p ∈ realOf st.elems := by
    rw [realOf, List.mem_filter]
    refine ⟨(List.mem_filter.1 (List.mem_of_getElem? h1)).1, rfl⟩
  have hd : st.done = true ∧ p = S.text.length := by
    rw [hreal] at hmem
    rcases List.mem_append.1 hmem with hm | hm
    · simp at hm
    · cases hd : st.done with
      | false => simp [hd] at hm
      | true => simp [hd] at hm; exact ⟨rfl, hm⟩
  obtain ⟨hd, rfl⟩ := hd
  refine ⟨rfl, hd, h.core.fin hd, ?_⟩
  have hlt := (List.getElem?_eq_some_iff.1 h1).1
  have hsp : tokensOf st.elems = (tokensOf st.elems).take k ++ .eoi S.text.length :: (tokensOf st.elems).drop (k + 1) := by
    have h3 : (tokensOf st.elems).drop k = .eoi S.text.length :: (tokensOf st.elems).drop (k + 1) := by
      rw [List.drop_eq_getElem_cons hlt, (List.getElem?_eq_some_iff.1 h1).2]
    rw [← h3, List.take_append_drop]
  have hB : (tokensOf st.elems).drop (k + 1) = [] := by
    have hah := h.ahead
    rw [hk] at hah
    have hrB : realOf ((tokensOf st.elems).drop (k + 1)) = (tokensOf st.elems).drop (k + 1) := by
      rw [realOf, List.filter_eq_self]; exact fun x hx => (hah x hx).1
    have h4 : realOf (tokensOf st.elems) = tokensOf (ns.map .node) ++ [.eoi S.text.length] := by
      rw [real_tokens, hreal, hd, tokensOf_append]; rfl
    rw [hsp, realOf_append] at h4
    have h5 : realOf (.eoi S.text.length :: (tokensOf st.elems).drop (k + 1)) =
        .eoi S.text.length :: (tokensOf st.elems).drop (k + 1) := by
      show .eoi S.text.length :: realOf _ = _
      rw [hrB]
    rw [h5] at h4
    refine tail_of_eq h4 ?_
    intro hm
    have := (List.mem_filter.1 hm).1
    simp at this
  rw [hB] at hsp
  exact hsp

/-- A parse tree's leaves are the tokens of the whole text, in order, with the inserted semicolons. -/
theorem synParse_tokens {S G goal fuel node} (hf : Filed G) (hnf : NoFinal G)
    (h : synParse S G goal fuel = .ok node) :
    ∃ ns es toks, Lexed S ns S.text.length ∧ realOf es = ns.map .node ++ [.eoi S.text.length] ∧
      tokensOf es = toks ++ [.eoi S.text.length] ∧ (semisOf es).Pairwise (· < ·) ∧
      (leaves node).length = toks.length ∧
      ∀ (m : Nat) l tok, (leaves node)[m]? = some l → toks[m]? = some tok → ∃ t, Instance S tok t l := by
  unfold synParse at h
  split at h
  · cases h
  rename_i st0 h0
  obtain ⟨H, k, hreal, htree, hend⟩ := run_sound (c := synCfg S G goal) hf hnf syn_eoi h
  obtain ⟨l, hl, hrk⟩ := hend rfl
  have hlt := (List.getElem?_eq_some_iff.1 hrk).1
  obtain ⟨p, rfl⟩ : ∃ p, l = .eoi p := by
    cases l with
    | eoi p => exact ⟨p, rfl⟩
    | lit => cases hl
    | named => cases hl
  obtain ⟨st, pos, hc, _⟩ := hist_calls h0 hreal (k + 1) (by omega)
  have hi := calls_inv hc
  have hlen : (H.rats.take (k + 1)).length = k + 1 := by rw [List.length_take]; omega
  obtain ⟨rfl, hd, hsc, htk⟩ := eoi_last (p := p) hi hlen (by rw [List.getElem?_take_of_lt (by omega)]; exact hrk) (by simp)
  obtain ⟨ns, hlx, hr⟩ := hi.core.lexed
  obtain ⟨g1, g2⟩ := tree_leaves htree
  rw [Nat.zero_add] at g1
  have htl : ((tokensOf st.elems).take k).length = k := by
    rw [List.length_take]
    have := hi.enough
    omega
  refine ⟨ns, st.elems, (tokensOf st.elems).take k, by rw [← hsc]; exact hlx, by rw [hr, hd]; rfl, htk, hi.incr,
    by rw [g1, htl], ?_⟩
  intro m l tok hm ht
  obtain ⟨t, r, hr1, hr2⟩ := g2 m l hm
  rw [Nat.zero_add] at hr1
  have hmk : m < k := by
    have := (List.getElem?_eq_some_iff.1 hm).1; omega
  obtain ⟨_, tok', h3, h4⟩ := hi.inst m r (by rw [List.getElem?_take_of_lt (by omega)]; exact hr1)
  rw [List.getElem?_take_of_lt hmk, h3] at ht
  injection ht with ht
  subst ht
  exact ⟨t, h4 _ hr2⟩

/-! ## Halting -/

theorem namedBy_unique {n m m'} (h : NamedBy n m) (h' : NamedBy n m') : m = m' := by
  have a := namedNode_of h
  rw [namedNode_of h'] at a
  injection a with a; injection a with a; exact a.symm

theorem instance_unique {S tok t l l'} (h : Instance S tok t l) (h' : Instance S tok t l') : l = l' := by
  cases tok with
  | semi p => rw [h.2, h'.2]
  | eoi p =>
    rcases h with ⟨h1, h2⟩ | ⟨h1, h2⟩ <;> rcases h' with ⟨h1', h2'⟩ | ⟨h1', h2'⟩
    · rw [h2, h2']
    · rw [h1] at h1'; cases h1'
    · rw [h1] at h1'; cases h1'
    · rw [h2, h2']
  | node n =>
    rcases h with ⟨c, h1, h2, h3⟩ | ⟨name, p, b, s, e, cs, h1, h2, h3, h4⟩ <;>
      rcases h' with ⟨c', h1', h2', h3'⟩ | ⟨name', p', b', s', e', cs', h1', h2', h3', h4'⟩
    · rw [h3, h3', h2, h2']
    · rw [h1] at h1'; cases h1'
    · rw [h1] at h1'; cases h1'
    · rw [h4, h4', namedBy_unique h2 h2']

/-- Everything that can be in the stream. -/
def pool (S : SynEnv) : List Elem :=
  (List.range (S.text.length + 1)).flatMap (fun p =>
    .semi p :: .eoi p :: lexGoals.filterMap (fun g => match S.lex g p with
      | .ok n => some (.node n)
      | .error _ => none))

theorem mem_pool_pos {S : SynEnv} {p : Nat} (h : p ≤ S.text.length) : .semi p ∈ pool S ∧ .eoi p ∈ pool S := by
  constructor <;> (simp only [pool, List.mem_flatMap, List.mem_range]; exact ⟨p, by omega, by simp⟩)

theorem lexed_pool {S ns p} (h : Lexed S ns p) : p ≤ S.text.length ∧ ∀ n ∈ ns, .node n ∈ pool S := by
  induction h with
  | nil => simp
  | @snoc ns p n q goal _ hg hlex hx hpq hq ih =>
    refine ⟨hq, ?_⟩
    intro m hm
    rcases List.mem_append.1 hm with hm | hm
    · exact ih.2 m hm
    · simp at hm; subst hm
      simp only [pool, List.mem_flatMap, List.mem_range]
      refine ⟨p, by omega, ?_⟩
      refine List.mem_cons_of_mem _ (List.mem_cons_of_mem _ (List.mem_filterMap.2 ⟨goal, hg, ?_⟩))
      rw [hlex]

theorem sinv_pos {S rs st pos} (h : SInv S rs st pos) : pos ≤ S.text.length :=
  Nat.le_trans h.here h.core.scout

theorem sinv_pool {S rs st pos} (h : SInv S rs st pos) : ∀ x ∈ st.elems, x ∈ pool S := by
  intro x hx
  by_cases hr : x.isReal = true
  · obtain ⟨ns, hl, heq⟩ := h.core.lexed
    have : x ∈ realOf st.elems := List.mem_filter.2 ⟨hx, hr⟩
    rw [heq] at this
    rcases List.mem_append.1 this with hm | hm
    · obtain ⟨n, hn, rfl⟩ := List.mem_map.1 hm
      exact (lexed_pool hl).2 n hn
    · split at hm
      · simp at hm; subst hm; exact (mem_pool_pos (Nat.le_refl _)).2
      · cases hm
  · cases x with
    | semi p =>
      have := h.upto p (mem_semisOf.2 hx)
      exact (mem_pool_pos (Nat.le_trans this (sinv_pos h))).1
    | node => exact absurd rfl hr
    | eoi => exact absurd rfl hr

/-- A world that has room for everything that the provider may ever hand out. -/
def synWorld (S : SynEnv) : World SynLeaf where
  scan _ t l := ∃ tok ∈ pool S, Instance S tok t l
  holds _ _ _ := True
  «at» _ p := p ≤ S.text.length
  first l := l.extent.1
  last l := l.extent.2

theorem few_bex {α β : Type} {P : α → β → Prop} (hu : ∀ a b b', P a b → P a b' → b = b') (as : List α) :
    Few (fun b => ∃ a ∈ as, P a b) := by
  induction as with
  | nil => exact ⟨[], by simp⟩
  | cons a as ih =>
    obtain ⟨l, hl⟩ := ih
    by_cases h : ∃ b, P a b
    · obtain ⟨b, hb⟩ := h
      refine ⟨b :: l, ?_⟩
      rintro b' ⟨a', ha', hp⟩
      rcases List.mem_cons.1 ha' with rfl | ha'
      · rw [hu _ _ _ hp hb]; simp
      · exact List.mem_cons_of_mem _ (hl b' ⟨a', ha', hp⟩)
    · refine ⟨l, ?_⟩
      rintro b' ⟨a', ha', hp⟩
      rcases List.mem_cons.1 ha' with rfl | ha'
      · exact absurd ⟨b', hp⟩ h
      · exact hl b' ⟨a', ha', hp⟩

theorem syn_few (S : SynEnv) : FewWorld (synWorld S) where
  scan k t := few_bex (P := fun tok l => Instance S tok t l) (fun tok l l' h h' => instance_unique h h') (pool S)
  «at» k := ⟨List.range (S.text.length + 1), fun p hp => List.mem_range.2 (by have : p ≤ S.text.length := hp; omega)⟩

theorem ltOccurs_fuel : ∀ es, ltOccurs es ≠ .error .fuel := by
  intro es
  induction es with
  | nil => intro h; cases h
  | cons x r ih =>
    intro h
    unfold ltOccurs at h
    split at h
    · cases h
    · rename_i heq
      injection heq with _ heq; subst heq
      split at h
      · cases h
      split at h
      · cases h
      split at h
      · cases h
      split at h
      · cases h
      · exact ih h
    · cases h

theorem gapHasLT_fuel (st k) : gapHasLT st k ≠ .error .fuel := by
  intro h
  unfold gapHasLT at h
  split at h
  · cases h
  split at h
  · cases h
  exact ltOccurs_fuel _ h

theorem lookMatches_fuel (S st ts) : lookMatches S st ts ≠ .error .fuel := by
  intro h
  unfold lookMatches at h
  split at h
  · cases h
  · cases h
  · split at h
    · split at h
      · rename_i hg; injection h with h; subst h; exact gapHasLT_fuel _ _ hg
      · cases h
      · cases h
    · cases h
  · cases h

theorem anyLook_fuel (S st) : ∀ tss, anyLook S st tss ≠ .error .fuel := by
  intro tss
  induction tss with
  | nil => intro h; cases h
  | cons ts r ih =>
    intro h
    simp only [anyLook] at h
    split at h
    · rename_i hg; injection h with h; subst h; exact lookMatches_fuel _ _ _ hg
    · cases h
    · exact ih h

theorem synCheck_fuel (S st prev con) : synCheck S st prev con ≠ .error .fuel := by
  intro h
  unfold synCheck at h
  split at h
  · split at h
    · rename_i hg; injection h with h; subst h; exact anyLook_fuel _ _ _ hg
    · cases h
  · split at h
    · rename_i hg; injection h with h; subst h; exact gapHasLT_fuel _ _ hg
    · cases h
  · split at h
    · split at h <;> cases h
    · cases h
  · cases h

theorem namedNode_fuel : ∀ (n : Node LexLeaf), namedNode n ≠ .error .fuel
  | .leaf l => by
    intro h; simp only [namedNode] at h
    split at h <;> cases h
  | .nt p b s e [] => by
    intro h
    simp only [namedNode, namedNode.onlyChild] at h
    split at h
    · cases h
    split at h
    · cases h
    split at h <;> cases h
  | .nt p b s e [c] => by
    have ih := namedNode_fuel c
    intro h
    simp only [namedNode, namedNode.onlyChild] at h
    split at h
    · exact ih h
    split at h
    · cases h
    split at h <;> cases h
  | .nt p b s e (c :: d :: r) => by
    intro h
    simp only [namedNode, namedNode.onlyChild] at h
    split at h
    · cases h
    split at h
    · cases h
    split at h <;> cases h

theorem namedToken_fuel (x : Elem) : namedToken x ≠ .error .fuel := by
  cases x with
  | node n => exact namedNode_fuel n
  | semi => intro h; cases h
  | eoi => intro h; cases h

theorem matchOne_fuel (tok named txt t) : matchOne tok named txt t ≠ .error .fuel := by
  intro hg
  unfold matchOne at hg
  split at hg
  · cases hg
  · split at hg
    · cases hg
    · split at hg <;> cases hg
  · cases hg

theorem matchAll_fuel (tok named txt) : ∀ e, matchAll tok named txt e ≠ .error .fuel := by
  intro e
  induction e with
  | nil => intro h; cases h
  | cons t r ih =>
    intro h
    simp only [matchAll] at h
    cases h1 : matchOne tok named txt t with
    | error e1 =>
      rw [h1] at h
      dsimp only at h
      injection h with h; subst h
      exact matchOne_fuel _ _ _ _ h1
    | ok o =>
      cases h2 : matchAll tok named txt r with
      | error e2 =>
        rw [h1, h2] at h
        cases o <;> (dsimp only at h; injection h with h; subst h; exact ih h2)
      | ok ms => rw [h1, h2] at h; cases o <;> cases h

theorem synNext_fuel {S : SynEnv} (hl : ∀ goal p, S.lex goal p ≠ .error .fuel) (st pos e kl) :
    synNext S st pos e kl ≠ .error .fuel := by
  intro h
  unfold synNext at h
  split at h
  · rename_i hg
    injection h with h; subst h
    unfold goalSymbol at hg
    dsimp only at hg
    split at hg
    · cases hg
    split at hg
    · cases hg
    split at hg
    · cases hg
    split at hg <;> cases hg
  split at h
  · rename_i hg
    injection h with h; subst h
    unfold advance at hg
    dsimp only at hg
    split at hg
    · split at hg <;> cases hg
    split at hg
    · split at hg
      · rename_i hg'
        injection hg with hg; subst hg
        exact getOne_fuel hl hg'
      · cases hg
      split at hg
      · split at hg
        · rename_i hg'
          injection hg with hg; subst hg
          exact scoutAhead_fuel hl _ hg'
        split at hg <;> cases hg
      · cases hg
    · cases hg
  split at h
  · rename_i hg
    injection h with h; subst h
    exact namedToken_fuel _ hg
  split at h
  · rename_i hg
    injection h with h; subst h
    exact matchAll_fuel _ _ _ _ hg
  unfold synDecide at h
  split at h
  · cases h
  split at h
  · rename_i hg
    injection h with h; subst h
    unfold asiAllowed at hg
    split at hg
    · cases hg
    split at hg
    · rename_i hg'
      injection hg with hg; subst hg
      exact gapHasLT_fuel _ _ hg'
    · cases hg
  · cases h
  unfold asiInsert at h
  split at h
  · cases h
  dsimp only at h
  split at h
  · cases h
  split at h
  · cases h
  split at h
  · cases h
  split at h
  · rename_i hg
    injection h with h; subst h
    unfold insertBefore at hg
    split at hg
    · cases hg
    split at hg <;> cases hg
  · cases h

/-- How much there is left to do. -/
def synMeasure (S : SynEnv) (st : Syn) (pos : Nat) : Nat :=
  2 * (total S st - st.seen) + (if st.latest = some pos then 0 else 1)

/-- The syntactic parse of any source text comes to an end. -/
theorem synParse_halts {S G goal} (hl : ∀ goal p, S.lex goal p ≠ .error .fuel) (hf : Filed G)
    (hfin : FiniteGrammar G) (hac : Acyclic G) :
    ∃ F r, r ≠ .error .fuel ∧ ∀ f, F ≤ f → synParse S G goal f = r := by
  unfold synParse
  cases h0 : synInit S with
  | error e =>
    refine ⟨0, .error e, ?_, fun _ _ => rfl⟩
    intro h; injection h with h; subst h
    exact scoutAhead_fuel hl _ h0
  | ok st0 =>
    dsimp only
    have hk : ∀ x ∈ [(⟨none, (synCfg S G goal).startProd, []⟩ : Item SynLeaf)],
        ItemOk G (synCfg S G goal).startProd (synWorld S) x 0 := by
      intro x hx
      rw [List.mem_singleton.1 hx]
      exact ⟨[], _, rfl, .inl ⟨rfl, rfl, .nil⟩⟩
    exact loop_halts (c := synCfg S G goal) (W := synWorld S) hf
      (fun st prev pos k => synCheck_fuel S st prev k) (synNext_fuel hl) (syn_few S) hfin hac
      (fun _ st pos => ∃ rs, SInv S rs st pos)
      (fun k st pos ⟨rs, h⟩ => ⟨sinv_pos h, fun _ _ _ => trivial, rfl, rfl⟩) (synMeasure S)
      (fun k st pos e kl rats pos' st' ⟨rs, hi⟩ hn => by
        obtain ⟨h1, _, _, h4⟩ := synNext_step hi hn
        refine ⟨⟨_, h1⟩, ?_, ?_⟩
        · intro r hr
          obtain ⟨_, tok, h5, h6⟩ := h1.inst rs.length rats (by simp)
          exact ⟨tok, sinv_pool h1 tok (List.mem_filter.1 (List.mem_of_getElem? h5)).1, h6 r hr⟩
        · intro _
          unfold synMeasure
          rcases h4 with h4 | ⟨h4, h5, h6, h7⟩
          · split <;> split <;> omega
          · rw [if_neg h5, h7, if_pos h6]; omega)
      (synMeasure S st0 0) [] st0 0 [⟨none, (synCfg S G goal).startProd, []⟩] none (Nat.le_refl _)
      ⟨[], synInit_inv h0⟩ (by simp) hk

end Verif.Earley
