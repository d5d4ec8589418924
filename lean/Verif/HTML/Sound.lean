import Verif.HTML.Complete
/-! # Whatever is parsed is a written-out document -/
namespace Verif.HTML
open Verif.Shared (dropPrefix? convertPosnToLinecol)

variable {isWord : Char → Bool} {text : Str}

/-- What one step can have done. -/
inductive Did (text : Str) (p : Nat) (s : Str) (st : St) : Nat → Str → St → Prop
  | text {c t s'} : s = c :: t ++ s' → '<' ∉ c :: t → StopsAt (fun c => decide (c ≠ '<')) s' →
      Did text p s st (p + (c :: t).length) s' (addNode (.mk p (p + (c :: t).length) litName [] none []) st)
  | comment {c s'} : s = commentText c ++ s' → find ['-', '-', '>'] (c ++ ['-', '-', '>']) = some c.length →
      Did text p s st (p + (commentText c).length) s' (addNode (.mk p (p + (commentText c).length) commentName [] none []) st)
  | decl {s'} : s = declText ++ s' →
      Did text p s st (p + declText.length) s' (addNode (.mk p (p + declText.length) declName [] none []) st)
  | stop {n s' st'} : s = endTag n ++ s' → NameOk n → closeOpenChild text p (p + (endTag n).length) n st = some st' →
      Did text p s st (p + (endTag n).length) s' st'
  | start {n as s'} : s = startTag n as ++ s' → ElemNameOk n → AttrsOk as → n ≠ styleName →
      Did text p s st (p + (startTag n as).length) s' (addElement p (p + (startTag n as).length) n as st)
  | style {as c r} : s = startTag styleName as ++ (c ++ (endTag styleName ++ r)) → AttrsOk as →
      find ['<', '/', 's', 't', 'y', 'l', 'e', '>'] (c ++ ['<', '/', 's', 't', 'y', 'l', 'e', '>']) = some c.length →
      Did text p s st (p + (startTag styleName as).length + c.length) (endTag styleName ++ r)
        (addNode (.mk (p + (startTag styleName as).length) (p + (startTag styleName as).length + c.length) litName [] none [])
          (addElement p (p + (startTag styleName as).length) styleName as st))

theorem step_sound (hw : WordOk isWord) {p s st p' s' st'} (h : step isWord text p s st = some (p', s', st')) :
    Did text p s st p' s' st' := by
  unfold step at h
  split at h
  · cases h
  · rename_i r
    split at h
    · cases h
    · rename_i n r' hm
      obtain ⟨e, hn⟩ := matchEndTag_sound hm
      subst e
      obtain ⟨st1, hc, he⟩ := Option.map_eq_some_iff.1 h
      have hlen : p + 2 + ((n ++ '>' :: r').length - r'.length) = p + (endTag n).length := by
        simp [endTag]; omega
      rw [hlen] at hc he
      injection he with h1 h2; injection h2 with h2 h3
      subst h1; subst h2; subst h3
      exact .stop (by simp [endTag]) hn hc
  · rename_i r
    split at h
    · rename_i r2 hd
      have e := dropPrefix_some.1 hd
      subst e
      split at h
      · cases h
      · rename_i k hf
        obtain ⟨c, r, e, hk, hc⟩ := find_sound (by simp) hf
        subst hk
        subst e
        injection h with h; injection h with h1 h2; injection h2 with h2 h3
        have h5 : (c ++ ['-', '-', '>'] ++ r).drop (c.length + 3) = r := List.drop_left' (by simp)
        have h6 : p + 4 + c.length + 3 = p + (commentText c).length := by simp [commentText]; omega
        rw [h5] at h2
        rw [h6] at h1 h3
        subst h1; subst h2; subst h3
        exact .comment (by simp [commentText]) hc
    · split at h
      · rename_i r2 hd
        have e := dropPrefix_some.1 hd
        subst e
        injection h with h; injection h with h1 h2; injection h2 with h2 h3
        subst h1; subst h2; subst h3
        exact .decl (by simp [declText])
      · cases h
  · rename_i r _ _
    unfold doStartTag at h
    split at h
    · cases h
    · rename_i n after hm
      obtain ⟨e, hn⟩ := matchStartName_sound hw hm
      subst e
      split at h
      · cases h
      · rename_i as X ha
        obtain ⟨as', e1, e2, hok⟩ := attrLoop_sound _ _ [] as X (by simp [AttrsOk]) ha
        simp only [List.nil_append] at e1
        subst e1; subst e2
        obtain ⟨d, t, hd, hdd⟩ := attrEnd_render as X
        have hn := hn d t hd hdd
        have hlen : p + 1 + ((n ++ (as.flatMap renderAttr ++ '>' :: X)).length - X.length) = p + (startTag n as).length := by
          simp [startTag]; omega
        rw [hlen] at h
        dsimp only at h
        split at h
        · rename_i hs
          subst hs
          split at h
          · cases h
          · rename_i k hf
            obtain ⟨c, r, e, hk, hc⟩ := find_sound (by simp) hf
            subst hk
            subst e
            injection h with h; injection h with h1 h2; injection h2 with h2 h3
            have h5 : (c ++ ['<', '/', 's', 't', 'y', 'l', 'e', '>'] ++ r).drop c.length = endTag styleName ++ r := by
              rw [List.append_assoc, List.drop_left' rfl]; rfl
            rw [h5] at h2
            subst h1; subst h2; subst h3
            exact .style (by rw [startTag_eq]; simp [endTag, styleName]) hok hc
        · rename_i hs
          injection h with h; injection h with h1 h2; injection h2 with h2 h3
          subst h1; subst h2; subst h3
          exact .start (by rw [startTag_eq]) hn hok hs
  · rename_i c r g1 g2 g3
    injection h with h; injection h with h1 h2; injection h2 with h2 h3
    obtain ⟨e, ht, hs⟩ := takeWhile_sound (fun c => decide (c ≠ '<')) r
    subst h1; subst h2; subst h3
    refine .text (by rw [List.cons_append, ← e]) ?_ hs
    intro hmem
    rcases List.mem_cons.1 hmem with h | h
    · exact g3 h.symm
    · simpa using ht _ h

theorem cat_nil_iff {α} {a b : List α} : a ++ b = [] ↔ a = [] ∧ b = [] := List.append_eq_nil_iff

/-- From any point of a successful run, the current element's remaining contents are a written-out
forest, followed by the element's end-tag, or by the end of the text. -/
theorem loop_sound (hw : WordOk isWord) : ∀ (fuel : Nat) (p : Nat) (s : Str) (fr : Frame) (fs : List Frame)
    (msgs : List (Nat × Str)) (b : Bool) (f1 : Frame) (msgs' : List (Nat × Str)),
    (b = true → StopsAt (fun c => decide (c ≠ '<')) s) → (fs = [] → fr.name = docName) →
    loop isWord text fuel p s ⟨fr :: fs, msgs⟩ = some ⟨[f1], msgs'⟩ →
    ∃ f R fuel', s = src f ++ R ∧ WF fr.name b f ∧ (R = [] ∧ fs = [] ∨ ∃ R', R = endTag fr.name ++ R' ∧ fs ≠ []) ∧
      (∀ q ∈ strays p f, (convertPosnToLinecol text q.1).isSome = true) ∧ fuel' ≤ fuel ∧
      loop isWord text fuel' (p + (src f).length) R
        ⟨{ fr with children := fr.children ++ nodesOf p f } :: fs, msgs ++ strays p f⟩ = some ⟨[f1], msgs'⟩ := by
  intro fuel
  induction fuel using Nat.strongRecOn with
  | ind fuel ih =>
  intro p s fr fs msgs b f1 msgs' hb hdoc h
  -- stop here
  have stopHere : (s = [] ∧ fs = [] ∨ ∃ R', s = endTag fr.name ++ R' ∧ fs ≠ []) → ∃ f R fuel', s = src f ++ R ∧
      WF fr.name b f ∧ (R = [] ∧ fs = [] ∨ ∃ R', R = endTag fr.name ++ R' ∧ fs ≠ []) ∧
      (∀ q ∈ strays p f, (convertPosnToLinecol text q.1).isSome = true) ∧ fuel' ≤ fuel ∧
      loop isWord text fuel' (p + (src f).length) R
        ⟨{ fr with children := fr.children ++ nodesOf p f } :: fs, msgs ++ strays p f⟩ = some ⟨[f1], msgs'⟩ := by
    intro hR
    refine ⟨.nil, s, fuel, rfl, trivial, hR, ?_, Nat.le_refl _, ?_⟩
    · intro q hq; simp [strays] at hq
    · simpa [src, nodesOf, strays] using h
  cases s with
  | nil =>
    apply stopHere
    rw [loop_nil] at h
    simp at h
    exact .inl ⟨rfl, h.1.2⟩
  | cons c0 s0 =>
  cases fuel with
  | zero => simp [loop] at h
  | succ fuel =>
  have hl := h
  rw [loop] at h
  rotate_left
  · intro h; cases h
  split at h
  · cases h
  rename_i p' s' st' hs
  generalize hse : c0 :: s0 = s at *
  have hd := step_sound hw hs
  clear hs
  cases hd with
  | @text c t _ e hlt hstop =>
    obtain ⟨r, R, fuel', e1, e2, e3, e4, e5, e6⟩ := ih fuel (by omega) _ _ _ _ _ true f1 msgs' (fun _ => hstop) (by exact hdoc) h
    have hb' : b = false := by
      cases b with
      | false => rfl
      | true =>
        have := hb rfl c (t ++ s') (by rw [e]; rfl)
        simp at this
        subst this
        exact absurd List.mem_cons_self hlt
    refine ⟨.text (c :: t) r, R, fuel', ?_, ⟨hb', by simp, hlt, e2⟩, e3, e4, by omega, ?_⟩
    · rw [e, e1]; simp [src]
    · simpa [src, nodesOf, strays, Nat.add_assoc, Nat.add_comm 1] using e6
  | @comment c _ e hc =>
    obtain ⟨r, R, fuel', e1, e2, e3, e4, e5, e6⟩ := ih fuel (by omega) _ _ _ _ _ false f1 msgs' (by simp) (by exact hdoc) h
    refine ⟨.comment c r, R, fuel', ?_, ⟨(endsAtFirst_iff (by simp)).2 hc, e2⟩, e3, e4, by omega, ?_⟩
    · rw [e, e1]; simp [src]
    · simpa [src, nodesOf, strays, Nat.add_assoc] using e6
  | @decl _ e =>
    obtain ⟨r, R, fuel', e1, e2, e3, e4, e5, e6⟩ := ih fuel (by omega) _ _ _ _ _ false f1 msgs' (by simp) (by exact hdoc) h
    refine ⟨.decl r, R, fuel', ?_, e2, e3, e4, by omega, ?_⟩
    · rw [e, e1]; simp [src]
    · simpa [src, nodesOf, strays, Nat.add_assoc] using e6
  | @stop n _ _ e hn hc =>
    unfold closeOpenChild at hc
    dsimp only at hc
    split at hc
    · rename_i hne
      split at hc
      · cases hc
      · rename_i v hv
        injection hc with hc
        subst hc
        obtain ⟨r, R, fuel', e1, e2, e3, e4, e5, e6⟩ := ih fuel (by omega) _ _ _ _ _ false f1 msgs' (by simp) (by exact hdoc) h
        refine ⟨.stray n r, R, fuel', ?_, ⟨hn, hne, e2⟩, e3, ?_, by omega, ?_⟩
        · rw [e, e1]; simp [src]
        · intro q hq
          simp only [strays, List.mem_cons] at hq
          rcases hq with rfl | hq
          · rw [hv]; rfl
          · exact e4 q hq
        · simpa [src, nodesOf, strays, Nat.add_assoc] using e6
    · rename_i hne
      have hne : n = fr.name := by simpa using hne
      subst hne
      cases fs with
      | nil => simp at hc
      | cons g gs => exact stopHere (.inr ⟨s', e, by simp⟩)
  | @start n as _ e hn ha hsn =>
    by_cases hv : n ∈ voidNames
    · rw [addElement, if_pos (.inr hv)] at h
      obtain ⟨r, R, fuel', e1, e2, e3, e4, e5, e6⟩ := ih fuel (by omega) _ _ _ _ _ false f1 msgs' (by simp) (by exact hdoc) h
      refine ⟨.void n as r, R, fuel', ?_, ⟨hv, ha, e2⟩, e3, e4, by omega, ?_⟩
      · rw [e, e1]; simp [src]
      · simpa [src, nodesOf, strays, Nat.add_assoc] using e6
    · rw [addElement, if_neg (by
        intro h
        rcases h with h | h
        · exact nameOk_head hn.1 h
        · exact hv h)] at h
      obtain ⟨k, R1, fuel1, e1, e2, e3, e4, e5, e6⟩ := ih fuel (by omega) _ _ _ _ _ false f1 msgs' (by simp) (by simp) h
      rcases e3 with ⟨_, h0⟩ | ⟨R2, e7, _⟩
      · simp at h0
      simp only at e7
      subst e7
      cases fuel1 with
      | zero =>
        exfalso
        simp [endTag, loop] at e6
      | succ fuel1 =>
        rw [loop] at e6
        rotate_left
        · intro h; cases h
        rw [step_end hn.1] at e6
        simp only [closeOpenChild, ne_eq, not_true_eq_false, if_false, addNode, Option.map_some] at e6
        obtain ⟨r, R, fuel', g1, g2, g3, g4, g5, g6⟩ := ih fuel1 (by omega) _ _ _ _ _ false f1 msgs' (by simp) (by exact hdoc) e6
        refine ⟨.elem n as k r, R, fuel', ?_, ⟨hn, hv, hsn, ha, e2, g2⟩, g3, ?_, by omega, ?_⟩
        · rw [e, e1, g1]; simp [src]
        · intro q hq
          simp only [strays, List.mem_append] at hq
          rcases hq with hq | hq
          · exact e4 q hq
          · exact g4 q hq
        · simpa [src, nodesOf, strays, Nat.add_assoc] using g6
  | @style as c X e ha hc =>
    rw [addElement, if_neg (by decide)] at h
    cases fuel with
    | zero => simp [endTag, loop] at h
    | succ fuel =>
      rw [loop] at h
      rotate_left
      · intro h; cases h
      simp only [addNode] at h
      rw [step_end elemNameOk_style.1] at h
      simp only [closeOpenChild, ne_eq, not_true_eq_false, if_false, addNode, Option.map_some] at h
      obtain ⟨r, R, fuel', g1, g2, g3, g4, g5, g6⟩ := ih fuel (by omega) _ _ _ _ _ false f1 msgs' (by simp) (by exact hdoc) h
      refine ⟨.style as c r, R, fuel', ?_, ⟨ha, (endsAtFirst_iff (by simp)).2 hc, g2⟩, g3, ?_, by omega, ?_⟩
      · rw [e, g1]; simp [src]
      · intro q hq
        exact g4 q hq
      · simpa [src, nodesOf, strays, Nat.add_assoc] using g6

theorem parse_sound (hw : WordOk isWord) {doc : Node} {msgs : List (Nat × Str)} (h : parse isWord text = some (doc, msgs)) :
    ∃ f, WF docName false f ∧ src f = text ∧ doc = .mk 0 text.length docName [] none (nodesOf 0 f) ∧ msgs = strays 0 f ∧
      ∀ q ∈ strays 0 f, (convertPosnToLinecol text q.1).isSome = true := by
  unfold parse at h
  split at h
  · rename_i f1 msgs' hl
    obtain ⟨f, R, fuel', e1, e2, e3, e4, e5, e6⟩ :=
      loop_sound hw _ _ _ _ _ _ false f1 msgs' (by simp) (fun _ => rfl) hl
    rcases e3 with ⟨rfl, _⟩ | ⟨_, _, h0⟩
    · rw [loop_nil] at e6
      simp only [List.append_nil] at e1
      simp at e6
      injection h with h
      injection h with h1 h2
      refine ⟨f, e2, e1.symm, ?_, by rw [← h2, ← e6.2], e4⟩
      rw [← h1, ← e6.1]
    · exact absurd rfl h0
  · cases h

end Verif.HTML
