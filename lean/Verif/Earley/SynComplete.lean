import Verif.Earley.SynParse
import Verif.Earley.RunComplete
/-! # Completeness of the syntactic parser on texts of common input elements -/
namespace Verif.Earley

/-! ## Checks never report a syntax error -/

theorem ltOccurs_quiet : ∀ es, ltOccurs es ≠ .error .parse := by
  intro es
  induction es with
  | nil => intro h; cases h
  | cons x r ih =>
    intro h
    unfold ltOccurs at h
    split at h
    · cases h
    · rename_i heq
      injection heq with _ heq; subst heq
      split at h
      · cases h
      split at h
      · cases h
      split at h
      · cases h
      split at h
      · cases h
      · exact ih h
    · cases h

theorem gapHasLT_quiet (st k) : gapHasLT st k ≠ .error .parse := by
  intro h
  unfold gapHasLT at h
  split at h
  · cases h
  split at h
  · cases h
  exact ltOccurs_quiet _ h

theorem lookMatches_quiet (S st ts) : lookMatches S st ts ≠ .error .parse := by
  intro h
  unfold lookMatches at h
  split at h
  · cases h
  · cases h
  · split at h
    · split at h
      · rename_i hg; injection h with h; subst h; exact gapHasLT_quiet _ _ hg
      · cases h
      · cases h
    · cases h
  · cases h

theorem anyLook_quiet (S st) : ∀ tss, anyLook S st tss ≠ .error .parse := by
  intro tss
  induction tss with
  | nil => intro h; cases h
  | cons ts r ih =>
    intro h
    simp only [anyLook] at h
    split at h
    · rename_i hg; injection h with h; subst h; exact lookMatches_quiet _ _ _ hg
    · cases h
    · exact ih h

theorem synCheck_quiet (S st prev con) : synCheck S st prev con ≠ .error .parse := by
  intro h
  unfold synCheck at h
  split at h
  · split at h
    · rename_i hg; injection h with h; subst h; exact anyLook_quiet _ _ _ hg
    · cases h
  · split at h
    · rename_i hg; injection h with h; subst h; exact gapHasLT_quiet _ _ hg
    · cases h
  · split at h
    · split at h <;> cases h
    · cases h
  · cases h

/-! ## What a successful check means -/

theorem ends_eq {a b c d : List Elem} (ha : a = [] ∨ ∃ x y, a = x ++ [y] ∧ ¬ IsGap y)
    (hb : b = [] ∨ ∃ x y, b = x ++ [y] ∧ ¬ IsGap y) (hk : (tokensOf a).length = (tokensOf b).length)
    (h : a ++ c = b ++ d) : a = b := by
  have key : ∀ {a m : List Elem}, (a ++ m = [] ∨ ∃ x y, a ++ m = x ++ [y] ∧ ¬ IsGap y) →
      (tokensOf (a ++ m)).length = (tokensOf a).length → m = [] := by
    intro a m h1 h2
    rcases List.eq_nil_or_concat m with rfl | ⟨m', z, rfl⟩
    · rfl
    · exfalso
      rcases h1 with h1 | ⟨x, y, h1, h3⟩
      · simp at h1
      · rw [List.concat_eq_append, ← List.append_assoc] at h1
        have := (List.append_inj_right' h1 rfl)
        injection this with this _
        subst this
        have hz : z.isGap = false := by
          cases hz : z.isGap with
          | false => rfl
          | true => exact absurd (isGap_iff.1 hz) h3
        simp [tokensOf, List.filter_append, hz] at h2
  rcases List.append_eq_append_iff.1 h with ⟨m, h1, _⟩ | ⟨m, h1, _⟩
  · subst h1
    rw [key hb hk.symm]; simp
  · subst h1
    rw [key ha hk]; simp

theorem spelled_iff {S st} (hc : Core S st) {i a} : tokIs S st i a = true ↔ Spelled S st.elems i a := by
  unfold tokIs Spelled
  rw [← core_tokens hc, List.getElem?_map]
  cases st.toks[i]? with
  | none => simp
  | some x => simp

theorem not_gap {x : Elem} (h : ¬ IsGap x) : x.isGap = false := by
  cases hz : x.isGap with
  | false => rfl
  | true => exact absurd (isGap_iff.1 hz) h

theorem break_iff {es before gap rest : List Elem} {k : Nat} (hes : es = before ++ gap ++ rest)
    (hb : before = [] ∨ ∃ x y, before = x ++ [y] ∧ ¬ IsGap y) (hk : (tokensOf before).length = k)
    (hg : ∀ g ∈ gap, IsGap g) (hr : ∀ x ∈ rest.head?, ¬ IsGap x) :
    BreakBefore es k ↔ ∃ g ∈ gap, IsLineBreak g := by
  constructor
  · rintro ⟨before', gap', after', hes', hb', hk', hg', x, hx, hl⟩
    rw [List.append_assoc] at hes hes'
    have := ends_eq hb' hb (hk'.trans hk.symm) (hes'.symm.trans hes)
    subst this
    have he := List.append_cancel_left (hes'.symm.trans hes)
    rcases List.append_eq_append_iff.1 he with ⟨m, h1, _⟩ | ⟨m, h1, h2⟩
    · exact ⟨x, by rw [h1]; exact List.mem_append_left _ hx, hl⟩
    · cases m with
      | nil => rw [List.append_nil] at h1; exact ⟨x, by rw [← h1]; exact hx, hl⟩
      | cons y m =>
        exfalso
        refine hr y (by rw [h2]; rfl) (hg' y (by rw [h1]; simp))
  · intro hx
    exact ⟨before, gap, rest, hes, hb, hk, hg, hx⟩

theorem gap_break {S st b k} (hc : Core S st) (h : gapHasLT st k = .ok b) : b = true ↔ BreakBefore st.elems k := by
  unfold gapHasLT at h
  split at h
  · cases h
  split at h
  · cases h
  rename_i hk
  dsimp only at h
  rw [hc.toks] at h hk
  cases hj : (toksOf 0 st.elems)[k]? with
  | some q =>
    obtain ⟨tok, j⟩ := q
    obtain ⟨before, gap, after, hes, hat, hjl, htk, hdr, hbl⟩ := token_at hj
    rw [hj] at h
    dsimp only at h
    have hgap : gap = (st.elems.take j).drop (gapStart (toksOf 0 st.elems) k) := by
      rw [← hbl]
      conv => rhs; rw [hes, hjl, List.take_left' rfl, List.drop_left' rfl]
    rw [← hgap] at h
    rw [ltOccurs_spec hat.gaps h, break_iff hes hat.prev hat.count hat.gaps]
    intro x hx
    simp at hx; subst hx; exact hat.isTok
  | none =>
    rw [hj] at h
    dsimp only at h
    rw [List.take_of_length_le (Nat.le_refl _)] at h
    have hlen := List.getElem?_eq_none_iff.1 hj
    cases k with
    | zero =>
      have hn : toksOf 0 st.elems = [] := by
        cases ht : toksOf 0 st.elems with
        | nil => rfl
        | cons _ _ => rw [ht] at hlen; simp at hlen
      have hg := toksOf_nil hn
      simp only [gapStart, List.drop_zero] at h
      rw [ltOccurs_spec hg h, break_iff (es := st.elems) (k := 0) (before := []) (gap := st.elems) (rest := []) (by simp) (.inl rfl) rfl hg (by simp)]
    | succ k =>
      obtain ⟨⟨tok, j⟩, hj'⟩ : ∃ q, (toksOf 0 st.elems)[k]? = some q := ⟨_, List.getElem?_eq_getElem (by omega)⟩
      obtain ⟨before, gap, after, hes, hat, hjl, htk, hdr, hbl⟩ := token_at hj'
      rw [List.drop_of_length_le hlen] at hdr
      have hg := toksOf_nil hdr
      have hgap : after = st.elems.drop (gapStart (toksOf 0 st.elems) (k + 1)) := by
        simp only [gapStart, hj']
        rw [hjl]
        conv => rhs; rw [hes, show before ++ gap ++ tok :: after = (before ++ gap ++ [tok]) ++ after by simp]
        rw [List.drop_left' (by simp; omega)]
      rw [← hgap] at h
      rw [ltOccurs_spec hg h, break_iff (before := before ++ gap ++ [tok]) (gap := after) (rest := []) (by rw [hes]; simp)
        (.inr ⟨_, _, rfl, hat.isTok⟩) ?_ hg (by simp)]
      have : tokensOf gap = [] := by
        unfold tokensOf
        rw [List.filter_eq_nil_iff]; intro x hx
        simp [isGap_iff.2 (hat.gaps x hx)]
      rw [tokensOf_append, tokensOf_append, this, List.append_nil, List.length_append, hat.count]
      simp [tokensOf, not_gap hat.isTok]

theorem lookMatches_spec {S st ts b} (hc : Core S st) (h : lookMatches S st ts = .ok b) :
    b = true ↔ Ahead S st.elems st.seen ts := by
  unfold lookMatches at h
  split at h
  · injection h with h; subst h; exact spelled_iff hc
  · injection h with h; subst h
    simp only [Bool.and_eq_true, Ahead, spelled_iff hc]
  · rename_i a b'
    split at h
    · rename_i ha
      split at h
      · cases h
      · rename_i hg
        injection h with h; subst h
        simp [Ahead, (gap_break hc hg).1 rfl]
      · rename_i hg
        injection h with h; subst h
        have hnb : ¬ BreakBefore st.elems (st.seen + 1) := fun hb => by have := (gap_break hc hg).2 hb; cases this
        simp [Ahead, spelled_iff hc, (spelled_iff hc).1 ha, hnb]
    · rename_i ha
      injection h with h; subst h
      simp only [Bool.false_eq_true, false_iff, Ahead]
      rintro ⟨h1, _⟩
      exact ha ((spelled_iff hc).2 h1)
  · cases h

theorem anyLook_spec {S st b} (hc : Core S st) : ∀ {tss}, anyLook S st tss = .ok b →
    (b = true ↔ ∃ ts ∈ tss, Ahead S st.elems st.seen ts) := by
  intro tss
  induction tss with
  | nil => intro h; simp [anyLook] at h; subst h; simp
  | cons ts r ih =>
    intro h
    simp only [anyLook] at h
    split at h
    · cases h
    · rename_i hl
      injection h with h; subst h
      have := (lookMatches_spec hc hl).1 rfl
      simp [this]
    · rename_i hl
      have h1 := lookMatches_spec hc hl
      rw [ih h]
      constructor
      · rintro ⟨x, hx, hx'⟩; exact ⟨x, List.mem_cons_of_mem _ hx, hx'⟩
      · rintro ⟨x, hx, hx'⟩
        rcases List.mem_cons.1 hx with rfl | hx
        · have := h1.2 hx'; cases this
        · exact ⟨x, hx, hx'⟩

/-- A check that gives an answer gives the right one. -/
theorem synCheck_spec {S st prev con b} (hc : Core S st)
    (h : synCheck S st prev con = .ok b) : b = true ↔ TokHolds S st.elems st.seen prev con := by
  cases con with
  | lookahead m tss =>
    simp only [synCheck] at h
    split at h
    · cases h
    · rename_i b' hl
      have := anyLook_spec hc hl
      injection h with h; subst h
      cases m with
      | true => simp only [if_true, TokHolds]; exact this
      | false =>
        simp only [Bool.false_eq_true, if_false, TokHolds]
        constructor
        · intro hb ts hts ha
          have := this.2 ⟨ts, hts, ha⟩
          rw [this] at hb; cases hb
        · intro hn
          cases b' with
          | false => rfl
          | true =>
            obtain ⟨ts, h1, h2⟩ := this.1 rfl
            exact absurd h2 (hn ts h1)
  | noLT =>
    simp only [synCheck] at h
    split at h
    · cases h
    · rename_i b' hg
      have := gap_break hc hg
      injection h with h; subst h
      simp only [TokHolds]
      cases b' with
      | true => simp [this.1 rfl]
      | false =>
        simp only [Bool.not_false, true_iff]
        intro hb
        have := this.2 hb; cases this
  | butNot b' =>
    simp only [synCheck] at h
    split at h
    · rename_i n
      split at h
      · rename_i hx
        injection h with h; subst h
        simp only [TokHolds, Bool.not_eq_true', decide_eq_false_iff_not]
        constructor
        · intro hn; exact ⟨n, rfl, hx.2, hn⟩
        · rintro ⟨m, hm, _, hn⟩
          injection hm with hm; injection hm with hm; injection hm with hm
          rw [hm]; exact hn
      · cases h
    · cases h
  | butOnlyIf c => simp [synCheck] at h

/-! ## Scouting over common input elements -/

theorem scout_common {S : SynEnv} : ∀ {f ns} {st : Syn}, Common S st.scout ns → st.done = false → ns.length + 2 ≤ f →
    ∃ st', scoutLoop S f st = .ok st' ∧ st'.elems = st.elems ++ ns.map .node ++ [.eoi S.text.length] ∧
      st'.done = true ∧ st'.seen = st.seen ∧ st'.latest = st.latest := by
  intro f
  induction f with
  | zero => intro ns st _ _ h; omega
  | succ f ih =>
    intro ns st h hd hf
    generalize hp : st.scout = p at h
    cases h with
    | nil =>
      have hg : getOne S "InputElement_common" st = .ok (true, Syn.install { st with done := true } (.eoi st.scout)) := by
        unfold getOne
        rw [if_neg (by simp [hd]), if_pos hp]
      simp only [scoutLoop, hg]
      cases f with
      | zero => omega
      | succ f =>
        have hg2 : getOne S "InputElement_common" (Syn.install { st with done := true } (.eoi st.scout)) =
            .ok (false, Syn.install { st with done := true } (.eoi st.scout)) := by
          unfold getOne
          rw [if_pos (by simp [Syn.install])]
        simp only [scoutLoop, hg2]
        refine ⟨_, rfl, ?_, rfl, rfl, rfl⟩
        simp [Syn.install, hp]
    | @cons p n q ns h1 h2 h3 h4 h5 h6 =>
      have hg : getOne S "InputElement_common" st = .ok (true, Syn.install { st with scout := q } (.node n)) := by
        unfold getOne
        rw [if_neg (by simp [hd]), if_neg (by omega), hp, h2]
        dsimp only
        rw [h3]
        rw [if_pos ⟨rfl, h4, h5⟩]
      simp only [scoutLoop, hg]
      obtain ⟨st', a1, a2, a3, a4, a5⟩ := ih (st := Syn.install { st with scout := q } (.node n)) h6 hd (by simp at hf; omega)
      refine ⟨st', a1, ?_, a3, a4, a5⟩
      rw [a2]; simp [Syn.install]

theorem common_length {S p ns} (h : Common S p ns) : ns.length + p ≤ S.text.length := by
  induction h with
  | nil => simp
  | cons _ _ _ h4 _ _ ih => simp; omega

theorem init_common {S ns} (h : Common S 0 ns) : ∃ st, synInit S = .ok st ∧ st.elems = commonElems S ns ∧ st.done = true ∧
    st.seen = 0 ∧ st.latest = none := by
  have hl := common_length h
  obtain ⟨st, a1, a2, a3, a4, a5⟩ := scout_common (f := S.text.length - 0 + 2) (st := ⟨[], [], 0, 0, false, none⟩) h rfl (by omega)
  exact ⟨st, a1, by rw [a2]; rfl, a3, a4, a5⟩

/-! ## The provider presents the tokens -/

theorem matchAll_sublist {tok named txt} : ∀ {e ms}, matchAll tok named txt e = .ok ms → (ms.map (·.1)).Sublist e := by
  intro e
  induction e with
  | nil => intro ms h; simp [matchAll] at h; subst h; exact .slnil
  | cons t r ih =>
    intro ms h
    simp only [matchAll] at h
    split at h
    · cases h
    · cases h
    · rename_i ms' hm
      injection h with h; subst h
      exact .cons _ (ih hm)
    · rename_i l ms' _ hm
      injection h with h; subst h
      exact .cons_cons _ (ih hm)

theorem goalSymbol_err {e x} (h : goalSymbol e = .error x) : x = .crash := by
  unfold goalSymbol at h
  dsimp only at h
  split at h
  · injection h with h; exact h.symm
  split at h
  · cases h
  split at h
  · cases h
  split at h <;> cases h

mutual
theorem namedNode_err : ∀ (n : Node LexLeaf) {x}, namedNode n = .error x → x = .crash
  | .leaf l, x => by
    intro h
    simp only [namedNode] at h
    split at h
    · cases h
    · injection h with h; exact h.symm
  | .nt p b s e cs, x => by
    intro h
    simp only [namedNode] at h
    split at h
    · exact onlyChild_err cs h
    split at h
    · cases h
    split at h
    · cases h
    · injection h with h; exact h.symm
theorem onlyChild_err : ∀ (cs : List (Node LexLeaf)) {x}, namedNode.onlyChild cs = .error x → x = .crash
  | [], x => by intro h; simp only [namedNode.onlyChild] at h; injection h with h; exact h.symm
  | [c], x => by intro h; simp only [namedNode.onlyChild] at h; exact namedNode_err c h
  | _ :: _ :: _, x => by intro h; simp only [namedNode.onlyChild] at h; injection h with h; exact h.symm
end

theorem namedToken_err {tok x} (h : namedToken tok = .error x) : x = .crash := by
  cases tok with
  | node n => exact namedNode_err n h
  | eoi => cases h
  | semi => cases h

theorem matchOne_err {tok named txt t x} (h : matchOne tok named txt t = .error x) : x = .crash := by
  unfold matchOne at h
  split at h
  · cases h
  · split at h
    · cases h
    · split at h <;> cases h
  · injection h with h; exact h.symm

theorem matchAll_err {tok named txt x} : ∀ {e}, matchAll tok named txt e = .error x → x = .crash := by
  intro e
  induction e with
  | nil => intro h; cases h
  | cons t r ih =>
    intro h
    simp only [matchAll] at h
    split at h
    · rename_i hm; injection h with h; subst h; exact matchOne_err hm
    · rename_i hm _; injection h with h; subst h; exact ih hm
    · cases h
    · cases h

/-- What happens when the next token has been read already and is expected. -/
theorem synNext_ready {S : SynEnv} {st : Syn} {pos e kl tok j} (ht : st.toks[st.seen]? = some (tok, j))
    (hx : ∃ t l, t ∈ e ∧ Instance S tok t l) :
    synNext S st pos e kl = .error .crash ∨ ∃ rats,
      synNext S st pos e kl = .ok (some (rats, tok.extent.2), { st with seen := st.seen + 1 }) ∧
      (∀ t l, (t, l) ∈ rats ↔ t ∈ e ∧ Instance S tok t l) ∧ (rats.map (·.1)).Sublist e := by
  unfold synNext
  cases hg : goalSymbol e with
  | error x => left; rw [goalSymbol_err hg]
  | ok goal =>
    dsimp only
    have hadv : advance S goal st = .ok (tok, { st with seen := st.seen + 1 }) := by
      unfold advance
      dsimp only
      rw [if_pos (List.getElem?_eq_some_iff.1 ht).1, ht]
    rw [hadv]
    dsimp only
    cases hn : namedToken tok with
    | error x => left; rw [namedToken_err hn]
    | ok named =>
      dsimp only
      cases hm : matchAll tok named (tokenText S tok) e with
      | error x => left; rw [matchAll_err hm]
      | ok ms =>
        dsimp only
        have hs := matchAll_spec hn hm
        obtain ⟨t, l, h1, h2⟩ := hx
        have hin := (hs t l).2 ⟨h1, h2⟩
        right
        refine ⟨ms, ?_, hs, matchAll_sublist hm⟩
        unfold synDecide
        rw [if_pos (by intro h; rw [h] at hin; cases hin)]

theorem tok_of {S st} (hc : Core S st) {k : Nat} {tok} (h : (tokensOf st.elems)[k]? = some tok) : ∃ j, st.toks[k]? = some (tok, j) := by
  rw [← core_tokens hc, List.getElem?_map] at h
  obtain ⟨⟨t, j⟩, h1, h2⟩ := Option.map_eq_some_iff.1 h
  dsimp only at h2
  subst h2
  exact ⟨j, h1⟩

theorem syn_presents {S G goal st} (hc : Core S st) :
    Presents (synCfg S G goal) (tokenWorld S st.elems (fun _ => st.elems)) (fun k => ({ st with seen := k }, posAfter st.elems k)) where
  first := rfl
  last := rfl
  «at» _ _ h := h
  here _ := rfl
  holds k prev con h := by
    intro hf
    have hf : synCheck S { st with seen := k } prev con = .ok false := hf
    have hc' := core_seen k hc
    have := (synCheck_spec hc' hf).2 h
    cases this
  next k t l hs e kl _ ht := by
    obtain ⟨tok, h1, h2⟩ := hs
    obtain ⟨j, hj⟩ := tok_of hc h1
    rcases synNext_ready (S := S) (st := { st with seen := k }) (pos := posAfter st.elems k) (kl := kl) hj ⟨t, l, ht, h2⟩ with h | ⟨rats, h3, h4, _⟩
    · exact .inl h
    · refine .inr ⟨rats, ?_, ?_⟩
      · have hp : posAfter st.elems (k + 1) = tok.extent.2 := by simp [posAfter, h1]
        show synNext S _ _ _ _ = _
        rw [h3, hp]
      · rintro t' l' ht' ⟨tok', h1', h2'⟩
        rw [h1] at h1'; injection h1' with h1'; subst h1'
        exact (h4 t' l').2 ⟨ht', h2'⟩

theorem syn_ends {S G goal st p} (hc : Core S st) (hne : NoEmptyLit G) {n : Nat} (hn : (tokensOf st.elems)[n]? = some (.eoi p)) :
    EndsAt (synCfg S G goal) (fun k => ({ st with seen := k }, posAfter st.elems k)) n (.eoi p) := by
  refine ⟨rfl, ?_⟩
  intro e kl hu he
  obtain ⟨j, hj⟩ := tok_of hc hn
  rcases synNext_ready (S := S) (st := { st with seen := n }) (pos := posAfter st.elems n) (kl := kl) hj
    ⟨endOfInput, .eoi p, he, .inl ⟨rfl, rfl⟩⟩ with h | ⟨rats, h3, h4, h5⟩
  · exact .inl h
  · right
    have hall : ∀ q ∈ rats, q = (endOfInput, SynLeaf.eoi p) := by
      rintro ⟨t, l⟩ hq
      obtain ⟨ht, hi⟩ := (h4 t l).1 hq
      rcases hi with ⟨rfl, rfl⟩ | ⟨rfl, _⟩
      · rfl
      · exfalso
        rcases hu.1 _ ht with h | ⟨m, ps, pr, g1, g2, g3⟩
        · simp [Cfg.final, synCfg, endOfInput] at h
        · exact hne m ps pr g1 g2 g3
    have hnd : (rats.map (·.1)).Nodup := List.Nodup.sublist h5 hu.2.2
    have hin : (endOfInput, SynLeaf.eoi p) ∈ rats := (h4 _ _).2 ⟨he, .inl ⟨rfl, rfl⟩⟩
    have hr : rats = [(endOfInput, SynLeaf.eoi p)] := by
      cases rats with
      | nil => cases hin
      | cons q r =>
        rw [hall q List.mem_cons_self]
        cases r with
        | nil => rfl
        | cons q' r =>
          exfalso
          rw [hall q List.mem_cons_self, hall q' (by simp)] at hnd
          simp at hnd
    rw [hr] at h3
    exact ⟨_, _, h3⟩

/-- No syntax error for a text of common input elements whose tokens can be derived. -/
theorem synParse_complete {S G goal ns m node} (hcm : Common S 0 ns) (hf : Filed G) (hcl : Closed G)
    (hgoal : (G goal).isSome = true) (hne : NoEmptyLit G)
    (hm : (tokensOf (commonElems S ns))[m]? = some (.eoi S.text.length))
    (ht : IsTree G (tokenWorld S (commonElems S ns) (fun _ => commonElems S ns)) goal 0 m node) (fuel : Nat) :
    synParse S G goal fuel ≠ .error .parse := by
  obtain ⟨st, h1, h2, h3, h4, h5⟩ := init_common hcm
  have hc := (synInit_inv h1).core
  unfold synParse
  rw [h1]
  dsimp only
  have hP := syn_presents (G := G) (goal := goal) hc
  rw [h2] at hP
  have hE := syn_ends (G := G) (goal := goal) (p := S.text.length) hc hne (n := m) (by rw [h2]; exact hm)
  rw [h2] at hE
  have hr := run_complete_all (c := synCfg S G goal) (S := fun k => ({ st with seen := k }, posAfter (commonElems S ns) k)) rfl
    (by rw [← h2] at hP ⊢; exact hP) (fun st prev pos k => synCheck_quiet _ _ _ _) hf hcl hgoal ht
    (by rw [← h2] at hE ⊢; exact hE) fuel
  have hst : ({ st with seen := 0 } : Syn) = st := by
    cases st; simp only [Syn.mk.injEq, true_and, and_true]; exact h4.symm
  dsimp only at hr
  rw [hst] at hr
  exact hr

end Verif.Earley
