import Verif.Shared.TargetLemmas
import Verif.Shared.DLLemmas
import Verif.Shared.EntityLemmas
/-!
# Properties C01-C05 of `shared.py`
-/
namespace Verif.Shared

/-! ## C01 -/

/-- C01: for an offset at or before the last newline the reported line and column are the
true ones. -/
theorem c01_linecol_exact (text : List Char) (p : Nat) (h : OnTerminatedLine text p) :
    convertPosnToLinecol text p = some (specLine text p, (specCol text p : Int)) :=
  convert_ok text p h

/-- C01: any other offset (negative, or after the last newline) fails; no wrong answer is
ever returned. -/
theorem c01_linecol_fails (text : List Char) (p : Int)
    (h : p < 0 ∨ ¬ OnTerminatedLine text p.toNat) : convertPosnToLinecol text p = none := by
  cases hc : convertPosnToLinecol text p with
  | none => rfl
  | some r =>
    have := convert_some text p r hc
    rcases h with h | h
    · omega
    · exact absurd this.2 h

/-- C01: the HTMLParser position (1-based line, 0-based column) and the offset are inverse:
converting an offset to line/column and back gives the offset. -/
theorem c01_getpos_roundtrip (text : List Char) (p : Nat) (l : Nat) (c : Int)
    (h : convertPosnToLinecol text p = some (l, c)) :
    getposToPosn text l (c - 1).toNat = some (p : Int) := by
  have ht := (convert_some text p _ h).2
  simp only [Int.toNat_natCast] at ht
  obtain ⟨k, plo, phi, h1, h2, h3, h4, h5⟩ := bracket_of_terminated text p ht
  have hb := bracket_spec text k plo phi p h1 h2 h3 h4
  rw [convert_ok text p ht] at h
  injection h with h
  injection h with hl hc
  subst hl; subst hc
  unfold getposToPosn
  rw [h5]
  simp only [Nat.add_sub_cancel, h1]
  have := hb.2.2.2
  simp only [Int.toNat_natCast] at this
  have hpos : 1 ≤ specCol text p := by unfold specCol; omega
  congr 1; omega

/-- C01: the source line shown above a caret is the line of the text, and the caret stands
under the column. -/
theorem c01_caret (text : List Char) (p : Nat) (h : OnTerminatedLine text p) :
    ∃ line, sourceLineWithCaret text p
        = some (line, List.replicate (specCol text p - 1) '-' ++ ['^']) ∧
      '\n' ∉ line ∧ line.length ≥ specCol text p - 1 ∧
      line.take (specCol text p - 1) = ((text.take p).reverse.takeWhile (· ≠ '\n')).reverse := by
  obtain ⟨k, plo, phi, h1, h2, h3, h4, h5⟩ := bracket_of_terminated text p h
  have hb := bracket_spec text k plo phi p h1 h2 h3 h4
  simp only [Int.toNat_natCast] at hb
  have hcol := hb.2.2.2
  have hpos : 1 ≤ specCol text p := by unfold specCol; omega
  refine ⟨slice text (plo + 1).toNat phi.toNat, ?_, ?_, ?_⟩
  · unfold sourceLineWithCaret
    rw [convert_ok text p h, h5]
    simp only [Nat.add_sub_cancel, h1, h2]
    congr 3
    congr 1
    omega
  · -- no newline strictly between two consecutive newline positions
    intro hmem
    unfold slice at hmem
    obtain ⟨i, hi⟩ := List.mem_iff_getElem?.1 hmem
    rw [List.getElem?_drop, List.getElem?_take] at hi
    split at hi
    · rename_i hlt
      have hq := nlPosns_of_nl text 0 _ hi
      have hk1 : (newlinePosns text)[(text.take ((plo + 1).toNat + i)).count '\n' + 1]?
          = some (((plo + 1).toNat + i : Nat) : Int) := by
        simpa [newlinePosns] using hq
      generalize hx : (text.take ((plo + 1).toNat + i)).count '\n' + 1 = x at hk1
      have hplo : -1 ≤ plo := by
        cases k with
        | zero => simp [newlinePosns] at h1; omega
        | succ k =>
          simp [newlinePosns] at h1
          obtain ⟨q, hq, _⟩ := nlPosns_get _ _ _ _ h1; omega
      rcases Nat.lt_trichotomy x (k + 1) with hlt' | heq | hgt
      · rcases Nat.lt_or_ge x k with hlt'' | hge
        · have := np_lt text x k _ _ hlt'' hk1 h1; omega
        · have : x = k := by omega
          subst this
          rw [h1] at hk1; injection hk1 with hk1; omega
      · subst heq; rw [h2] at hk1; injection hk1 with hk1; omega
      · have := np_lt text (k + 1) x _ _ hgt h2 hk1; omega
    · cases hi
  · have hplo : -1 ≤ plo := by
      cases k with
      | zero => simp [newlinePosns] at h1; omega
      | succ k =>
        simp [newlinePosns] at h1
        obtain ⟨q, hq, _⟩ := nlPosns_get _ _ _ _ h1; omega
    have hphi : phi.toNat ≤ text.length := by
      simp [newlinePosns] at h2
      obtain ⟨q, hq, hq2, _⟩ := nlPosns_get _ _ _ _ h2
      have := (List.getElem?_eq_some_iff.1 hq2).1
      omega
    have hplen : p ≤ text.length := by omega
    refine ⟨by rw [length_slice _ _ _ hphi]; omega, ?_⟩
    have e1 : specCol text p - 1 = p - (plo + 1).toNat := by omega
    have e2 : ((text.take p).reverse.takeWhile (· ≠ '\n')).length = p - (plo + 1).toNat := by
      unfold specCol at e1; omega
    have e3 : (text.take p).reverse.takeWhile (· ≠ '\n')
        = (text.take p).reverse.take (p - (plo + 1).toNat) := by
      rw [← e2]
      exact List.prefix_iff_eq_take.1 (List.takeWhile_prefix _)
    rw [e3, e1, List.reverse_take]
    simp only [List.length_reverse, List.reverse_reverse, List.length_take, Nat.min_eq_left hplen]
    unfold slice
    rw [List.take_drop, List.take_take]
    congr 1
    · omega
    · congr 1; omega

/-- Non-vacuity: offset 4 of "ab\ncd\n" is line 2, column 2. -/
example : OnTerminatedLine "ab\ncd\n".toList 4 ∧
    convertPosnToLinecol "ab\ncd\n".toList 4 = some (2, 2) :=
  ⟨⟨5, by decide, rfl⟩, by rw [show ((4 : Int)) = ((4 : Nat) : Int) from rfl, c01_linecol_exact _ _ ⟨5, by decide, rfl⟩]; decide⟩

/-- Non-vacuity of the failing case: an offset after the last newline. -/
example : ¬ OnTerminatedLine "ab\ncd".toList 4 := by
  rintro ⟨j, h1, h2⟩
  have : j < 5 := (List.getElem?_eq_some_iff.1 h2).1
  have : j = 4 := by omega
  subst this
  simp at h2

/-! ## C02 -/

/-- C02: whatever is written is the text with exactly the requested ranges replaced: the text
falls into kept and removed parts, the removed parts are the requested ranges (in some
order), and the output has each one's replacement in its place. -/
theorem c02_replacements_exact (text : List Char) (rs : List Repl) (out : List Char)
    (hin : ∀ r ∈ rs, r.InText text.length)
    (h : writeSpecWithReplacements text rs = some out) :
    ∃ ps tail, text = original ps tail ∧ out = edited ps tail ∧ (editsOf ps 0).Perm rs := by
  have hp := List.mergeSort_perm rs replLe
  obtain ⟨ps, tail, h1, h2, h3⟩ := spliceFrom_some text _ 0 out
    (fun r hr => hin r (hp.mem_iff.1 hr)) (Nat.zero_le _) h
  exact ⟨ps, tail, by simpa using h1, h2, h3 ▸ hp⟩

/-- C02: something is written exactly when no two requested ranges overlap. -/
theorem c02_rejects_overlap (text : List Char) (rs : List Repl)
    (hin : ∀ r ∈ rs, r.InText text.length) :
    (writeSpecWithReplacements text rs).isSome = true ↔ rs.Pairwise Repl.Disjoint := by
  have hp := List.mergeSort_perm rs replLe
  have hs := List.pairwise_mergeSort replLe_trans replLe_total rs
  unfold writeSpecWithReplacements
  rw [spliceFrom_isSome, adjacent_iff_pairwise _ (fun r hr => (hin r (hp.mem_iff.1 hr)).1) hs,
    hp.pairwise_iff disjoint_symm]
  simp

/-- C02: the order in which the edits were requested is irrelevant. -/
theorem c02_order_irrelevant (text : List Char) {rs rs' : List Repl} (h : rs.Perm rs') :
    writeSpecWithReplacements text rs = writeSpecWithReplacements text rs' := by
  unfold writeSpecWithReplacements
  rw [mergeSort_congr replLe replLe_total replLe_trans replLe_antisymm h]

example : writeSpecWithReplacements "hello".toList [⟨3, 5, ['X']⟩, ⟨0, 1, ['J']⟩]
    = some "JelX".toList := by
  rw [c02_order_irrelevant (rs' := [⟨0, 1, ['J']⟩, ⟨3, 5, ['X']⟩]) _ (List.Perm.swap _ _ _)]
  unfold writeSpecWithReplacements
  rw [List.mergeSort_of_pairwise (by simp [replLe])]
  decide

example : (∀ r ∈ [(⟨3, 5, ['X']⟩ : Repl), ⟨0, 4, ['J']⟩], r.InText "hello".toList.length) ∧
    ¬ [(⟨3, 5, ['X']⟩ : Repl), ⟨0, 4, ['J']⟩].Pairwise Repl.Disjoint := by
  simp [Repl.InText, Repl.Disjoint]

/-! ## C03 -/

/-- C03: decoding inverts every way of encoding a string. -/
theorem c03_decode_encode (s e : List Char) (h : Encodes s e) : decodeEntities e = some s := by
  obtain ⟨ts, rfl, rfl, h3⟩ := encodes_toks h
  exact decode_toks ts h3

/-- C03: a raw `<` is refused, and nothing else is. -/
theorem c03_refuses_lt (text : List Char) : decodeEntities text = none ↔ '<' ∈ text := by
  unfold decodeEntities
  split <;> simp_all

/-- Every string has an encoding, so `c03_decode_encode` speaks about all strings. -/
theorem c03_encoding_exists (s : List Char) : ∃ e, Encodes s e := by
  induction s with
  | nil => exact ⟨[], .nil⟩
  | cons c cs ih =>
    obtain ⟨e, he⟩ := ih
    by_cases h1 : c = '&'
    · subst h1; exact ⟨_, .cons .amp he⟩
    · by_cases h2 : c = '<'
      · subst h2; exact ⟨_, .cons .lt he⟩
      · exact ⟨_, .cons (.plain c h1 h2) he⟩

/-- The doubly encoded `&amp;lt;` decodes to `&lt;`, not to `<`. -/
example : decodeEntities "&amp;lt;".toList = some "&lt;".toList :=
  c03_decode_encode _ _ (.cons .amp (.cons (.plain _ (by decide) (by decide))
    (.cons (.plain _ (by decide) (by decide)) (.cons (.plain _ (by decide) (by decide)) .nil))))

/-! ## C04 -/

/-- C04: a call sequence that ends in the closed state was exactly the call sequence of some
definition list, and the lines are exactly that list's lines. -/
theorem c04_closed_is_document (calls : List DLCall) (s : DLState) (h : dlRun calls = some s)
    (hc : s.expecting = .nothing) :
    ∃ items, calls = docCalls items ∧ s.lines = docLines items := by
  have := dlRun_inv calls s h
  simp only [DLInv, hc] at this
  obtain ⟨items, _, h1, h2⟩ := this
  exact ⟨items, h1, h2⟩

/-- C04: any accepted call sequence can be continued to a complete definition list, so the
lines emitted so far are always a prefix of a well-formed one. -/
theorem c04_prefix_of_document (calls : List DLCall) (s : DLState) (h : dlRun calls = some s) :
    ∃ items, s.lines <+: docLines items ∧ calls <+: docCalls items ∧
      ∃ s', dlRun (docCalls items) = some s' ∧ s'.expecting = .nothing ∧ s'.lines = docLines items := by
  have hi := dlRun_inv calls s h
  have key : ∃ items, itemsOk false items ∧ s.lines <+: docLines items ∧ calls <+: docCalls items := by
    cases hx : s.expecting with
    | dl =>
      simp only [DLInv, hx] at hi
      exact ⟨[], by simp [itemsOk], by simp [hi.2.1], by simp [hi.1]⟩
    | dt =>
      simp only [DLInv, hx] at hi
      obtain ⟨items, h0, _, h2, h3⟩ := hi
      exact ⟨items, h0, ⟨[.dlClose], by simp [h3, docLines]⟩, ⟨[.finish], by simp [h2, docCalls]⟩⟩
    | dd =>
      simp only [DLInv, hx] at hi
      obtain ⟨items, t, h0, _, h2, h3⟩ := hi
      refine ⟨items ++ [.simple t ""], ?_, ⟨[.dd "", .dlClose], ?_⟩, ⟨[.dd "", .finish], ?_⟩⟩
      · rw [itemsOk_append]; exact ⟨h0, by simp [itemsOk]⟩
      · simp [h3, docLines, DLItem.lines]
      · simp [h2, docCalls, DLItem.calls]
    | li =>
      simp only [DLInv, hx] at hi
      obtain ⟨items, t, lefts, lis, h0, hl, h1, _, h3, h4⟩ := hi
      refine ⟨items ++ [.bulleted t lefts lis], ?_, ⟨[.ulClose, .ddClose, .dlClose], ?_⟩,
        ⟨[.ulEnd, .finish], ?_⟩⟩
      · rw [itemsOk_append]; simp only [itemsOk, Bool.false_or, and_true]; exact ⟨h0, hl, h1⟩
      · simp [h4, docLines, DLItem.lines]
      · simp [h3, docCalls, DLItem.calls]
    | nothing =>
      simp only [DLInv, hx] at hi
      obtain ⟨items, h0, h1, h2⟩ := hi
      exact ⟨items, h0, by simp [h2], by simp [h1]⟩
  obtain ⟨items, h0, h1, h2⟩ := key
  exact ⟨items, h1, h2, _, run_doc items h0, rfl, rfl⟩

/-- C04: after the list is closed every further call is refused. -/
theorem c04_closed_is_final (s : DLState) (h : s.expecting = .nothing) (c : DLCall) :
    dlStep s c = none := by
  cases c <;> simp [dlStep, h]

theorem weight_doc (items : List DLItem) : ((docLines items).map DLLine.weight).sum = 0 := by
  have hl : ∀ lis : List LiItem, ((lis.flatMap LiItem.lines).map DLLine.weight).sum = 0 := by
    intro lis
    induction lis with
    | nil => simp
    | cons x xs ih => cases x <;> simp_all [LiItem.lines, DLLine.weight]
  have : ((items.flatMap DLItem.lines).map DLLine.weight).sum = 0 := by
    induction items with
    | nil => simp
    | cons x xs ih =>
      cases x with
      | simple t d => simp_all [DLItem.lines, DLLine.weight]
      | bulleted t ls lis =>
        have := hl lis
        simp_all [DLItem.lines, DLLine.weight]
  simp_all [docLines, DLLine.weight]

/-- C04: in a completed list every element that was opened was closed. -/
theorem c04_closed_is_balanced (calls : List DLCall) (s : DLState) (h : dlRun calls = some s)
    (hc : s.expecting = .nothing) : (s.lines.map DLLine.weight).sum = 0 := by
  obtain ⟨items, _, h2⟩ := c04_closed_is_document calls s h hc
  rw [h2, weight_doc]

example : ∃ s, dlRun [.start, .dt "a", .ddUlStart ["x"], .li "x" "y", .liComment "note", .ulEnd, .finish]
    = some s ∧ s.expecting = .nothing := ⟨_, rfl, rfl⟩

/-! ## C05 -/

/-- C05: the listing shows every line of the text once and in order; under each line stand
exactly its own messages, in (column, message) order; over the whole listing every recorded
message is shown exactly once. -/
theorem c05_listing (text : List Char) (calls : List (Int × List Char))
    (h : ∀ c ∈ calls, 0 ≤ c.1 ∧ OnTerminatedLine text c.1.toNat) :
    ∃ tbl groups, msgHistory text calls = some tbl ∧
      msgAtPosnFinish text tbl = listing groups ∧
      LinesOf text (groups.map Prod.fst) ∧
      (∀ (k : Nat) (g : List Char × List Msg), groups[k]? = some g →
        g.2.Perm (messagesAt text calls (k + 1)) ∧ g.2.Pairwise Msg.Before) ∧
      (groups.flatMap Prod.snd).Perm
        (calls.map (fun c => ((specCol text c.1.toNat : Int), c.2))) := by
  refine ⟨_, groupsFrom (messagesAt text calls) (splitLines text) 0, history_ok text calls h, ?_, ?_, ?_, ?_⟩
  · exact finishFrom_eq _ _ _
  · rw [groupsFrom_fst]; exact splitLines_spec text
  · intro k g hg
    have := groupsFrom_get _ _ _ _ _ hg
    rw [Nat.zero_add] at this
    rw [this]
    refine ⟨List.mergeSort_perm _ _, ?_⟩
    refine (List.pairwise_mergeSort msgLe_trans msgLe_total _).imp ?_
    intro a b hab
    rw [msgLe_iff, charsLe_iff] at hab
    exact hab
  · exact all_messages_perm text calls

/-- C05: the arrival order of the messages is irrelevant to the listing. -/
theorem c05_order_irrelevant (text : List Char) {calls calls' : List (Int × List Char)}
    (hp : calls.Perm calls') (tbl tbl' : MsgTable)
    (h : msgHistory text calls = some tbl) (h' : msgHistory text calls' = some tbl') :
    msgAtPosnFinish text tbl = msgAtPosnFinish text tbl' := by
  have e1 := history_ok text calls (history_fail text calls _ _ h)
  have e2 := history_ok text calls' (history_fail text calls' _ _ h')
  rw [h] at e1; rw [h'] at e2
  injection e1 with e1; injection e2 with e2
  subst e1; subst e2
  exact finish_congr _ _ (messagesAt_perm text hp) _ _

/-- C05: a message outside the terminated lines is not silently dropped: recording it fails. -/
theorem c05_bad_position_fails (text : List Char) (calls : List (Int × List Char))
    (c : Int × List Char) (hc : c ∈ calls)
    (hbad : c.1 < 0 ∨ ¬ OnTerminatedLine text c.1.toNat) : msgHistory text calls = none := by
  cases h : msgHistory text calls with
  | none => rfl
  | some t =>
    have := history_fail text calls _ _ h c hc
    rcases hbad with hb | hb
    · omega
    · exact absurd this.2 hb

/-- C05 (targeted messages): recording never hits a missing line; the annotated text shows
every visible line once and in order, each followed by exactly the messages of the nodes
that end on that line, ordered by end column. -/
theorem c05_targeted (text : List Char) (calls : List (Int × Int × List Char))
    (h : ∀ c ∈ calls, (0 ≤ c.1 ∧ OnTerminatedLine text c.1.toNat) ∧
      (0 ≤ c.2.1 ∧ OnTerminatedLine text c.2.1.toNat)) :
    ∃ infos, targetedHistory text calls = some infos ∧
      ∃ groups : List (List Char × List (Int × Int × List Char)),
        writeSpecWithExtras text infos = groups.flatMap (fun g => g.1 :: g.2.flatMap renderTargeted) ∧
        (∃ lines, LinesOf text lines ∧ groups.map Prod.fst = visibleLines lines) ∧
        ∀ (k : Nat) (g : List Char × List (Int × Int × List Char)),
          groups[k]? = some g → g.2.Perm (targetedAt text calls (k + 1)) ∧
          g.2.Pairwise (fun a b => a.2.1 ≤ b.2.1) := by
  obtain ⟨infos, h1, h2, h3⟩ := targeted_from text calls (prepForLineInfo text) rfl h
  refine ⟨infos, h1, infos.map (fun i => (slice text i.start i.stop,
    i.targeted.mergeSort (fun a b => decide (a.2.1 ≤ b.2.1)))), ?_, ?_, ?_⟩
  · simp [writeSpecWithExtras, List.flatMap_map]
  · refine ⟨splitLines text, splitLines_spec text, ?_⟩
    unfold visibleLines
    rw [← prep_slices, List.map_map]
    apply List.ext_getElem?
    intro k
    rw [List.getElem?_map, List.getElem?_map]
    have := (h3 k).1
    cases hx : infos[k]? with
    | none =>
      rw [hx] at this
      cases hy : (prepForLineInfo text)[k]? with
      | none => rfl
      | some y => rw [hy] at this; simp at this
    | some x =>
      rw [hx] at this
      cases hy : (prepForLineInfo text)[k]? with
      | none => rw [hy] at this; simp at this
      | some y =>
        rw [hy] at this
        simp at this ⊢
        rw [this.1, this.2]
  · intro k g hg
    rw [List.getElem?_map] at hg
    have := (h3 k).2
    cases hx : infos[k]? with
    | none => rw [hx] at hg; simp at hg
    | some x =>
      rw [hx] at hg this
      simp at hg; subst hg
      cases hy : (prepForLineInfo text)[k]? with
      | none => rw [hy] at this; simp at this
      | some y =>
        rw [hy] at this
        have hy0 := lineInfosFrom_targeted _ _ y (List.mem_of_getElem? hy)
        simp [hy0] at this
        dsimp only
        rw [this]
        refine ⟨List.mergeSort_perm _ _, ?_⟩
        refine (List.pairwise_mergeSort (le := fun a b : Int × Int × List Char => decide (a.2.1 ≤ b.2.1)) ?_ ?_ _).imp ?_
        · intro a b c; simp; omega
        · intro a b; simp; omega
        · intro a b; simp

/-- C05: a message is shown as its text under a marker whose only caret stands under the
message's column. -/
theorem c05_caret_column (col : Nat) (hc : 1 ≤ col) (m : List Char) :
    ∃ marker, renderMsg (col, m) = [marker, ['-', '-', ' '] ++ m] ∧
      ∀ i, marker[i]? = some '^' ↔ i + 1 = col := by
  refine ⟨_, rfl, fun i => ?_⟩
  have e : ((col : Int) - 1).toNat = col - 1 := by omega
  simp only [e, List.getElem?_append, List.length_replicate, List.getElem?_replicate]
  split
  · simp; omega
  · rw [List.getElem?_singleton]
    split
    · simp; omega
    · simp; omega

/-- C05: a targeted message marks, with carets, exactly the columns from the start column up
to (not including) the end column, and then gives its text line by line. -/
theorem c05_caret_range (sc ec : Nat) (hs : 1 ≤ sc) (m : List Char) :
    ∃ marker rest, renderTargeted (sc, ec, m) = marker :: rest ∧
      (∀ i, marker[i]? = some '^' ↔ sc ≤ i + 1 ∧ i + 1 < ec) ∧
      ∃ lines, LinesOf m lines ∧ rest = lines.map (['>', '>', '>', ' '] ++ ·) ++ [[]] := by
  refine ⟨_, _, rfl, fun i => ?_, splitLines m, splitLines_spec m, rfl⟩
  have e : ((sc : Int) - 1).toNat = sc - 1 := by omega
  have e2 : ((ec : Int) - (sc : Int)).toNat = ec - sc := by omega
  simp only [e, e2, List.getElem?_append, List.length_replicate, List.getElem?_replicate]
  split
  · simp; omega
  · split
    · simp; omega
    · simp; omega

example : ∀ c ∈ [((4 : Int), "m2".toList), (0, "m1".toList)],
    0 ≤ c.1 ∧ OnTerminatedLine "ab\ncd\n".toList c.1.toNat := by
  intro c hc
  have h5 : ("ab\ncd\n".toList)[5]? = some '\n' := rfl
  rcases List.mem_cons.1 hc with rfl | hc
  · exact ⟨by decide, 5, by decide, h5⟩
  · rw [List.mem_singleton.1 hc]; exact ⟨by decide, 5, by decide, h5⟩

end Verif.Shared
