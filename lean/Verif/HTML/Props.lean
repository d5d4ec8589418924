import Verif.HTML.Sound
/-! # Properties of the HTML parser: C12, C13 -/
namespace Verif.HTML
open Verif.Shared (convertPosnToLinecol OnTerminatedLine slice)

variable {isWord : Char → Bool} {text : Str}

theorem linecol_isSome (p : Nat) : (convertPosnToLinecol text p).isSome = true ↔ OnTerminatedLine text p := by
  constructor
  · intro h
    refine Classical.byContradiction fun hn => ?_
    rw [Verif.Shared.c01_linecol_fails text p (.inr (by simpa using hn))] at h
    cases h
  · intro h
    rw [Verif.Shared.c01_linecol_exact text p h]; rfl

/-- C12: the parser is exactly the inverse of writing a document out.  It succeeds on a text iff the
text is that of some well-formed document (whose stray end-tags lie before the last newline), and
then the tree is that document's, with all offsets, and the messages are one for each stray
end-tag, in order, at its offset. -/
theorem c12_parse_exact (hw : WordOk isWord) (text : Str) (doc : Node) (msgs : List (Nat × Str)) :
    parse isWord text = some (doc, msgs) ↔
      ∃ f, WF docName false f ∧ src f = text ∧ doc = .mk 0 text.length docName [] none (nodesOf 0 f) ∧
        msgs = strays 0 f ∧ ∀ q ∈ strays 0 f, OnTerminatedLine text q.1 := by
  constructor
  · intro h
    obtain ⟨f, h1, h2, h3, h4, h5⟩ := parse_sound hw h
    exact ⟨f, h1, h2, h3, h4, fun q hq => (linecol_isSome q.1).1 (h5 q hq)⟩
  · rintro ⟨f, h1, rfl, rfl, rfl, h5⟩
    exact parse_complete hw h1 (fun q hq => (linecol_isSome q.1).2 (h5 q hq))

theorem strays_nil_iff (f : Forest) : ∀ p, strays p f = [] ↔ Balanced f := by
  induction f with
  | nil => intro p; simp [strays, Balanced]
  | stray n r ih => intro p; simp [strays, Balanced]
  | elem n as k r ihk ihr => intro p; simp only [strays, Balanced, List.append_eq_nil_iff, ihk, ihr]
  | _ => rename_i ih; intro p; simp only [strays, Balanced, ih]

theorem startTag_pos (n as) : 0 < (startTag n as).length := by simp [startTag]
theorem endTag_pos (n) : 0 < (endTag n).length := by simp [endTag]

theorem tiled_nodesOf (f : Forest) : ∀ p, Balanced f → TiledSeq p (nodesOf p f) (p + (src f).length) := by
  induction f with
  | nil => intro p _; exact .nil
  | stray n r ih => intro p h; exact absurd h (by simp [Balanced])
  | elem n as k r ihk ihr =>
    intro p h
    have := ihr (p + (startTag n as).length + (src k).length + (endTag n).length) h.2
    simp only [nodesOf, src, List.length_append, ← Nat.add_assoc]
    exact .cons rfl (.elem (by have := startTag_pos n as; omega) (by have := endTag_pos n; omega) (ihk _ h.1)) this
  | style as c r ih =>
    intro p h
    have := ih (p + (startTag styleName as).length + c.length + (endTag styleName).length) h
    simp only [nodesOf, src, List.length_append, ← Nat.add_assoc]
    exact .cons rfl (.elem (by have := startTag_pos styleName as; omega) (by have := endTag_pos styleName; omega)
      (.cons rfl (.leaf (by omega)) .nil)) this
  | _ =>
    rename_i ih
    intro p h
    simp only [nodesOf, src, List.length_append, ← Nat.add_assoc]
    exact .cons rfl (.leaf (by omega)) (ih _ h)

theorem nestedSeq_mono {a' a ns b} (h : NestedSeq a ns b) (ha : a' ≤ a) : NestedSeq a' ns b := by
  cases h with
  | nil h => exact .nil (by omega)
  | cons h1 h2 h3 => exact .cons (by omega) h2 h3

theorem nested_nodesOf (f : Forest) : ∀ p, NestedSeq p (nodesOf p f) (p + (src f).length) := by
  induction f with
  | nil => intro p; exact .nil (by omega)
  | stray n r ih =>
    intro p
    simp only [nodesOf, src, List.length_append, ← Nat.add_assoc]
    exact nestedSeq_mono (ih _) (by omega)
  | elem n as k r ihk ihr =>
    intro p
    have := ihr (p + (startTag n as).length + (src k).length + (endTag n).length)
    simp only [nodesOf, src, List.length_append, ← Nat.add_assoc]
    exact .cons (Nat.le_refl _) (.elem (by have := startTag_pos n as; omega) (by have := endTag_pos n; omega) (ihk _)) this
  | style as c r ih =>
    intro p
    have := ih (p + (startTag styleName as).length + c.length + (endTag styleName).length)
    simp only [nodesOf, src, List.length_append, ← Nat.add_assoc]
    exact .cons (Nat.le_refl _) (.elem (by have := startTag_pos styleName as; omega) (by have := endTag_pos styleName; omega)
      (.cons (Nat.le_refl _) (.leaf (by omega)) (.nil (Nat.le_refl _)))) this
  | _ =>
    rename_i ih
    intro p
    simp only [nodesOf, src, List.length_append, ← Nat.add_assoc]
    exact .cons (Nat.le_refl _) (.leaf (by omega)) (ih _)

theorem slice_mid (a b c : Str) : slice (a ++ (b ++ c)) a.length (a.length + b.length) = b := by
  unfold slice
  rw [← List.append_assoc, List.take_left' (by simp), List.drop_left' rfl]

theorem slice_at {t a b c : Str} {i j : Nat} (ht : t = a ++ (b ++ c)) (hi : i = a.length) (hj : j = a.length + b.length) :
    slice t i j = b := by subst ht; subst hi; subst hj; exact slice_mid a b c

theorem pieces_nodesOf (f : Forest) : ∀ (a c : Str), Balanced f →
    piecesList (a ++ (src f ++ c)) (nodesOf a.length f) = src f := by
  induction f with
  | nil => intro a c _; rfl
  | stray n r ih => intro a c h; exact absurd h (by simp [Balanced])
  | elem n as k r ihk ihr =>
    intro a c h
    have e1 := ihk (a ++ startTag n as) (endTag n ++ (src r ++ c)) h.1
    have e2 := ihr (a ++ (startTag n as ++ (src k ++ endTag n))) c h.2
    simp only [src, nodesOf, piecesList, pieces]
    simp only [List.append_assoc, List.length_append, ← Nat.add_assoc] at e1 e2 ⊢
    rw [e1, e2]
    rw [slice_at (b := startTag n as) rfl rfl rfl,
      slice_at (a := a ++ (startTag n as ++ src k)) (b := endTag n) (c := src r ++ c) (by simp) (by simp; omega) (by simp; omega)]
  | style as s r ih =>
    intro a c h
    have e2 := ih (a ++ (startTag styleName as ++ (s ++ endTag styleName))) c h
    simp only [src, nodesOf, piecesList, pieces]
    simp only [List.append_assoc, List.length_append, ← Nat.add_assoc] at e2 ⊢
    rw [e2]
    rw [slice_at (b := startTag styleName as) rfl rfl rfl,
      slice_at (a := a ++ startTag styleName as) (b := s) (c := endTag styleName ++ (src r ++ c)) (by simp) (by simp) (by simp),
      slice_at (a := a ++ (startTag styleName as ++ s)) (b := endTag styleName) (c := src r ++ c) (by simp) (by simp; omega) (by simp; omega)]
    simp
  | text s r ih =>
    intro a c h
    have e2 := ih (a ++ s) c h
    simp only [src, nodesOf, piecesList, pieces]
    simp only [List.append_assoc, List.length_append] at e2 ⊢
    rw [e2, slice_at (b := s) rfl rfl rfl]
  | comment s r ih =>
    intro a c h
    have e2 := ih (a ++ commentText s) c h
    simp only [src, nodesOf, piecesList, pieces]
    simp only [List.append_assoc, List.length_append] at e2 ⊢
    rw [e2, slice_at (b := commentText s) rfl rfl rfl]
  | decl r ih =>
    intro a c h
    have e2 := ih (a ++ declText) c h
    simp only [src, nodesOf, piecesList, pieces]
    simp only [List.append_assoc, List.length_append] at e2 ⊢
    rw [e2, slice_at (b := declText) rfl rfl rfl]
  | void n as r ih =>
    intro a c h
    have e2 := ih (a ++ startTag n as) c h
    simp only [src, nodesOf, piecesList, pieces]
    simp only [List.append_assoc, List.length_append] at e2 ⊢
    rw [e2, slice_at (b := startTag n as) rfl rfl rfl]

/-- C12: when no message is produced, the top-level nodes lie end to end over the whole text,
every node's children lie end to end over its inner extent, and putting the tags and leaves
together in document order gives back the text. -/
theorem c12_tiles (hw : WordOk isWord) (text : Str) (doc : Node) (h : parse isWord text = some (doc, [])) :
    ∃ kids, doc = .mk 0 text.length docName [] none kids ∧ TiledSeq 0 kids text.length ∧
      piecesList text kids = text := by
  obtain ⟨f, h1, h2, h3, h4, _⟩ := (c12_parse_exact hw text doc []).1 h
  have hb := (strays_nil_iff f 0).1 h4.symm
  refine ⟨_, h3, ?_, ?_⟩
  · have := tiled_nodesOf f 0 hb
    rwa [h2, Nat.zero_add] at this
  · have := pieces_nodesOf f [] [] hb
    simpa [h2] using this

/-- C12: whether or not there are messages, every node lies inside its parent, and siblings are
disjoint and in order. -/
theorem c12_nested (hw : WordOk isWord) (text : Str) (doc : Node) (msgs : List (Nat × Str))
    (h : parse isWord text = some (doc, msgs)) :
    ∃ kids, doc = .mk 0 text.length docName [] none kids ∧ NestedSeq 0 kids text.length := by
  obtain ⟨f, h1, h2, h3, h4, _⟩ := (c12_parse_exact hw text doc msgs).1 h
  refine ⟨_, h3, ?_⟩
  have := nested_nodesOf f 0
  rwa [h2, Nat.zero_add] at this

/-- C13: parsing succeeds without a message iff the text is a well-formed document in which every
end-tag closes the element it stands in and every non-void element is closed. -/
theorem c13_silent_iff_balanced (hw : WordOk isWord) (text : Str) :
    (∃ doc, parse isWord text = some (doc, [])) ↔ ∃ f, WF docName false f ∧ Balanced f ∧ src f = text := by
  constructor
  · rintro ⟨doc, h⟩
    obtain ⟨f, h1, h2, h3, h4, _⟩ := (c12_parse_exact hw text doc []).1 h
    exact ⟨f, h1, (strays_nil_iff f 0).1 h4.symm, h2⟩
  · rintro ⟨f, h1, h2, h3⟩
    have hn := (strays_nil_iff f 0).2 h2
    refine ⟨_, (c12_parse_exact hw text _ []).2 ⟨f, h1, h3, rfl, hn.symm, ?_⟩⟩
    rw [hn]; intro q hq; cases hq

/-- C13: every mismatched end-tag is reported: at each message's offset in the text stands that
end-tag, there are as many messages as stray end-tags, and they are in text order. -/
theorem c13_mismatch_reported (hw : WordOk isWord) (f : Forest) (hf : WF docName false f)
    (hst : ∀ q ∈ strays 0 f, OnTerminatedLine (src f) q.1) :
    ∃ doc, parse isWord (src f) = some (doc, strays 0 f) :=
  ⟨_, (c12_parse_exact hw (src f) _ _).2 ⟨f, hf, rfl, rfl, rfl, hst⟩⟩

theorem strays_at (f : Forest) : ∀ (a c : Str), ∀ q ∈ strays a.length f,
    ∃ u v, a ++ (src f ++ c) = u ++ (endTag q.2 ++ v) ∧ u.length = q.1 ∧ a.length ≤ q.1 ∧ q.1 < a.length + (src f).length := by
  induction f with
  | nil => intro a c q hq; simp [strays] at hq
  | stray n r ih =>
    intro a c q hq
    simp only [strays, List.mem_cons] at hq
    rcases hq with rfl | hq
    · refine ⟨a, src r ++ c, by simp [src], rfl, Nat.le_refl _, ?_⟩
      have := endTag_pos n
      simp [src]; omega
    · have := ih (a ++ endTag n) c q (by simpa using hq)
      obtain ⟨u, v, h1, h2, h3, h4⟩ := this
      refine ⟨u, v, by simpa [src] using h1, h2, ?_, ?_⟩
      · simp at h3; omega
      · simp [src] at h4 ⊢; omega
  | elem n as k r ihk ihr =>
    intro a c q hq
    simp only [strays, List.mem_append] at hq
    rcases hq with hq | hq
    · obtain ⟨u, v, h1, h2, h3, h4⟩ := ihk (a ++ startTag n as) (endTag n ++ (src r ++ c)) q (by simpa using hq)
      refine ⟨u, v, by simpa [src] using h1, h2, ?_, ?_⟩
      · simp at h3; omega
      · simp [src] at h4 ⊢; omega
    · obtain ⟨u, v, h1, h2, h3, h4⟩ := ihr (a ++ (startTag n as ++ (src k ++ endTag n))) c q (by simpa [Nat.add_assoc] using hq)
      refine ⟨u, v, by simpa [src] using h1, h2, ?_, ?_⟩
      · simp at h3; omega
      · simp [src] at h4 ⊢; omega
  | style as s r ih =>
    intro a c q hq
    simp only [strays] at hq
    obtain ⟨u, v, h1, h2, h3, h4⟩ := ih (a ++ (startTag styleName as ++ (s ++ endTag styleName))) c q (by simpa [Nat.add_assoc] using hq)
    refine ⟨u, v, by simpa [src] using h1, h2, ?_, ?_⟩
    · simp at h3; omega
    · simp [src] at h4 ⊢; omega
  | text s r ih =>
    intro a c q hq
    obtain ⟨u, v, h1, h2, h3, h4⟩ := ih (a ++ s) c q (by simpa [strays] using hq)
    refine ⟨u, v, by simpa [src] using h1, h2, ?_, ?_⟩
    · simp at h3; omega
    · simp [src] at h4 ⊢; omega
  | comment s r ih =>
    intro a c q hq
    obtain ⟨u, v, h1, h2, h3, h4⟩ := ih (a ++ commentText s) c q (by simpa [strays] using hq)
    refine ⟨u, v, by simpa [src] using h1, h2, ?_, ?_⟩
    · simp at h3; omega
    · simp [src] at h4 ⊢; omega
  | decl r ih =>
    intro a c q hq
    obtain ⟨u, v, h1, h2, h3, h4⟩ := ih (a ++ declText) c q (by simpa [strays] using hq)
    refine ⟨u, v, by simpa [src] using h1, h2, ?_, ?_⟩
    · simp at h3; omega
    · simp [src] at h4 ⊢; omega
  | void n as r ih =>
    intro a c q hq
    obtain ⟨u, v, h1, h2, h3, h4⟩ := ih (a ++ startTag n as) c q (by simpa [strays] using hq)
    refine ⟨u, v, by simpa [src] using h1, h2, ?_, ?_⟩
    · simp at h3; omega
    · simp [src] at h4 ⊢; omega

theorem strays_sorted (f : Forest) : ∀ p, ((strays p f).map (·.1)).Pairwise (· < ·) ∧
    ∀ q ∈ strays p f, p ≤ q.1 ∧ q.1 < p + (src f).length := by
  intro p
  have hb : ∀ (f : Forest) (p : Nat), ∀ q ∈ strays p f, p ≤ q.1 ∧ q.1 < p + (src f).length := by
    intro f p q hq
    have := strays_at f (List.replicate p 'x') [] q (by simpa using hq)
    obtain ⟨_, _, _, _, h3, h4⟩ := this
    simp at h3 h4
    exact ⟨h3, h4⟩
  refine ⟨?_, hb f p⟩
  induction f generalizing p with
  | nil => simp [strays]
  | stray n r ih =>
    simp only [strays, List.map_cons, List.pairwise_cons]
    refine ⟨?_, ih _⟩
    intro x hx
    obtain ⟨q, hq, rfl⟩ := List.mem_map.1 hx
    have := hb r _ q hq
    have := endTag_pos n
    omega
  | elem n as k r ihk ihr =>
    simp only [strays, List.map_append, List.pairwise_append]
    refine ⟨ihk _, ihr _, ?_⟩
    intro x hx y hy
    obtain ⟨q, hq, rfl⟩ := List.mem_map.1 hx
    obtain ⟨q', hq', rfl⟩ := List.mem_map.1 hy
    have := hb k _ q hq
    have := hb r _ q' hq'
    omega
  | _ => rename_i ih; simp only [strays]; exact ih _

/-- C13: a message is given only where a mismatched end-tag stands; messages are in text order, without repetition. -/
theorem c13_messages_genuine (hw : WordOk isWord) (text : Str) (doc : Node) (msgs : List (Nat × Str))
    (h : parse isWord text = some (doc, msgs)) :
    (msgs.map (·.1)).Pairwise (· < ·) ∧
      ∀ q ∈ msgs, ∃ u v, text = u ++ (endTag q.2 ++ v) ∧ u.length = q.1 := by
  obtain ⟨f, h1, h2, h3, rfl, _⟩ := (c12_parse_exact hw text doc msgs).1 h
  refine ⟨(strays_sorted f 0).1, fun q hq => ?_⟩
  obtain ⟨u, v, e1, e2, _⟩ := strays_at f [] [] q hq
  exact ⟨u, v, by simpa [h2] using e1, e2⟩

theorem eats_open (hw : WordOk isWord) (es : List (Str × Attrs × Forest)) : ∀ (p : Nat) (st : St),
    (∀ e ∈ es, OpenOk e) →
    ∃ st', Eats isWord text p (openSrc es) st (p + (openSrc es).length) [] st' ∧
      st'.stack.length = st.stack.length + es.length := by
  induction es with
  | nil => intro p st _; exact ⟨st, .refl _ _ _, rfl⟩
  | cons e es ih =>
    intro p st hok
    obtain ⟨n, as, k⟩ := e
    obtain ⟨hn, hv, hsn, ha, hwk, hbal⟩ := hok _ List.mem_cons_self
    simp only at hn hv hsn ha hwk hbal
    have hstop : StopsAt (fun c => decide (c ≠ '<')) (openSrc es) := by
      cases es with
      | nil => exact nil_stops
      | cons e' es' => exact lt_stops _
    have hsrc : openSrc ((n, as, k) :: es) = startTag n as ++ (src k ++ openSrc es) := by
      simp [openSrc]
    obtain ⟨⟨c, t, hct, hc, _⟩, _⟩ := id hn
    let i := p + (startTag n as).length
    have hstep : step isWord text p (startTag n as ++ (src k ++ openSrc es)) st =
        some (i, src k ++ openSrc es, ⟨⟨p, i, n, as, []⟩ :: st.stack, st.msgs⟩) := by
      have h0 : startTag n as ++ (src k ++ openSrc es) = '<' :: c :: (t ++ (as.flatMap renderAttr ++ '>' :: (src k ++ openSrc es))) := by
        rw [startTag_eq, hct]; rfl
      have h1 := doStart_complete hw hn ha p (src k ++ openSrc es) st
      rw [h0, step_start hc, ← List.cons_append, ← hct, h1]
      simp only
      rw [if_neg hsn, addElement, if_neg]
      intro h
      rcases h with h | h
      · exact nameOk_head hn.1 h
      · exact hv h
    have h1 : Eats isWord text p (startTag n as ++ (src k ++ openSrc es)) _ _ _ _ := Eats.step (c := '<') hstep (by simp; omega)
    have h2 := eats_forest (text := text) hw k n false i (openSrc es) ⟨p, i, n, as, []⟩ st.stack st.msgs hwk rfl
      (by rw [(strays_nil_iff k i).2 hbal]; intro q hq; cases hq) hstop
    obtain ⟨st', h3, h4⟩ := ih (i + (src k).length) _ (fun e he => hok e (List.mem_cons_of_mem _ he))
    refine ⟨st', ?_, ?_⟩
    · have := (h1.trans h2).trans h3
      rw [hsrc]
      simpa [Nat.add_assoc, i] using this
    · rw [h4]; simp; omega

/-- C13: a text that leaves elements open, however many and however deep, is refused. -/
theorem c13_unclosed_refused (hw : WordOk isWord) (f : Forest) (hf : WF docName false f) (hb : Balanced f)
    (es : List (Str × Attrs × Forest)) (hes : es ≠ []) (hok : ∀ e ∈ es, OpenOk e) :
    parse isWord (src f ++ openSrc es) = none := by
  have hstop : StopsAt (fun c => decide (c ≠ '<')) (openSrc es) := by
    cases es with
    | nil => exact absurd rfl hes
    | cons e' es' => exact lt_stops _
  have h1 := eats_forest (text := src f ++ openSrc es) hw f docName false 0 (openSrc es)
    ⟨0, (src f ++ openSrc es).length, docName, [], []⟩ [] [] hf rfl
    (by rw [(strays_nil_iff f 0).2 hb]; intro q hq; cases hq) hstop
  obtain ⟨st', h2, h3⟩ := eats_open (text := src f ++ openSrc es) hw es (0 + (src f).length) _ hok
  obtain ⟨k, hk, hl⟩ := h1.trans h2
  simp only [List.length_nil, Nat.add_zero] at hk
  have h := hl ((src f ++ openSrc es).length - k)
  rw [Nat.sub_add_cancel hk, loop_nil] at h
  unfold parse
  rw [h]
  obtain ⟨stack, msgs⟩ := st'
  cases es with
  | nil => exact absurd rfl hes
  | cons e es =>
    cases stack with
    | nil => simp at h3
    | cons a s =>
      cases s with
      | nil => simp at h3
      | cons b s => rfl

/-! ### Non-vacuity -/

/-- ASCII reading of `\w`. -/
def asciiWord (c : Char) : Bool := isLower c || ('0' ≤ c && c ≤ '9') || ('A' ≤ c && c ≤ 'Z') || c = '_'

theorem asciiWord_ok : WordOk asciiWord where
  lower c h := by simp [asciiWord, h]
  digit c h1 h2 := by simp [asciiWord, h1, h2]
  space := by decide
  gt := by decide
  hyphen := by decide

/-- `<p id="a">x<br>y</i></p>⏎` has one stray end-tag, and parses to the expected tree. -/
example : parse asciiWord "<p id=\"a\">x<br>y</i></p>\n".toList =
    some (.mk 0 25 docName [] none [
      .mk 0 24 ['p'] [(['i', 'd'], some ['a'])] (some (10, 20)) [
        .mk 10 11 litName [] none [], .mk 11 15 ['b', 'r'] [] none [], .mk 15 16 litName [] none []],
      .mk 24 25 litName [] none []], [(16, ['i'])]) :=
  (c12_parse_exact asciiWord_ok _ _ _).2 ⟨.elem ['p'] [(['i', 'd'], some ['a'])]
      (.text ['x'] (.void ['b', 'r'] [] (.text ['y'] (.stray ['i'] .nil)))) (.text ['\n'] .nil), by
    refine ⟨⟨⟨⟨_, _, rfl, by decide, by simp⟩, by decide⟩, by decide, by decide, ⟨by simp, ?_⟩,
      ⟨rfl, by simp, by simp, by decide, ⟨by simp, by simp⟩, rfl, by simp, by simp,
        ⟨_, _, rfl, by decide, by simp⟩, by decide, trivial⟩, rfl, by simp, by simp, trivial⟩, rfl, rfl, rfl, ?_⟩
    · intro a ha
      simp at ha
      subst ha
      exact ⟨⟨_, _, rfl, by decide, by decide⟩, by simp⟩
    · intro q hq
      simp [strays, startTag, endTag, renderAttr] at hq
      subst hq
      exact ⟨24, by decide, rfl⟩⟩

/-- A balanced document with a comment, an element and raw style content. -/
example : WF docName false (.comment [' '] (.elem ['p'] [] (.text ['x'] .nil) (.style [] ['<', 'p', '>'] .nil))) ∧
    Balanced (.comment [' '] (.elem ['p'] [] (.text ['x'] .nil) (.style [] ['<', 'p', '>'] .nil))) := by
  refine ⟨⟨(endsAtFirst_iff (by simp)).2 (by decide), ⟨⟨_, _, rfl, by decide, by simp⟩, by decide⟩, by decide, by decide, ⟨by simp, by simp⟩,
    ⟨rfl, by simp, by simp, trivial⟩, ⟨by simp, by simp⟩, (endsAtFirst_iff (by simp)).2 (by decide), trivial⟩, trivial, trivial⟩

/-- An element left open. -/
example : OpenOk (['p'], [], .text ['x'] .nil) :=
  ⟨⟨⟨_, _, rfl, by decide, by simp⟩, by decide⟩, by decide, by decide, ⟨by simp, by simp⟩, ⟨rfl, by simp, by simp, trivial⟩, trivial⟩

/-- A document with a stray end-tag before the last newline. -/
example : ∃ f, WF docName false f ∧ strays 0 f = [(0, ['i'])] ∧ ∀ q ∈ strays 0 f, OnTerminatedLine (src f) q.1 :=
  ⟨.stray ['i'] (.text ['\n'] .nil), ⟨⟨_, _, rfl, by decide, by simp⟩, by decide, rfl, by simp, by decide, trivial⟩, rfl, by
    intro q hq
    simp [strays] at hq
    subst hq
    exact ⟨4, by decide, rfl⟩⟩

end Verif.HTML
