import Verif.HTML.LexLemmas
import Verif.Shared.Props
/-! # Written-out documents are parsed back -/
namespace Verif.HTML
open Verif.Shared (dropPrefix? convertPosnToLinecol)

variable {isWord : Char → Bool} {text : Str}

theorem lower_ne {c : Char} (h : isLower c = true) : c ≠ '/' ∧ c ≠ '!' ∧ c ≠ '#' := by
  refine ⟨?_, ?_, ?_⟩ <;> rintro rfl <;> exact absurd h (by decide)

theorem step_start {c : Char} (hc : isLower c = true) (p : Nat) (r : Str) (st : St) :
    step isWord text p ('<' :: c :: r) st = doStartTag isWord p (c :: r) st := by
  obtain ⟨h1, h2, _⟩ := lower_ne hc
  unfold step
  split
  · rename_i h; cases h
  · rename_i h; injection h with _ h; injection h with h _; exact absurd h h1
  · rename_i h; injection h with _ h; injection h with h _; exact absurd h h2
  · rename_i h; injection h with _ h; rw [h]
  · rename_i h2 h; injection h with h1 _; exact absurd h1.symm h2
theorem startTag_eq (n : Str) (as : Attrs) (X : Str) :
    startTag n as ++ X = '<' :: (n ++ (as.flatMap renderAttr ++ '>' :: X)) := by
  simp [startTag]

theorem doStart_complete (hw : WordOk isWord) {n : Str} (hn : ElemNameOk n) {as : Attrs} (ha : AttrsOk as)
    (p : Nat) (X : Str) (st : St) :
    doStartTag isWord p (n ++ (as.flatMap renderAttr ++ '>' :: X)) st =
      (let tagEnd := p + (startTag n as).length
       let st1 := addElement p tagEnd n as st
       if n = styleName then
        match find ['<', '/', 's', 't', 'y', 'l', 'e', '>'] X with
        | none => none
        | some k => some (tagEnd + k, X.drop k, addNode (.mk tagEnd (tagEnd + k) litName [] none []) st1)
      else some (tagEnd, X, st1)) := by
  obtain ⟨d, t, hd, hdd⟩ := attrEnd_render as X
  have hm : matchStartName isWord (n ++ (as.flatMap renderAttr ++ '>' :: X)) = some (n, as.flatMap renderAttr ++ '>' :: X) := by
    rw [hd]; exact matchStartName_complete hw hn t hdd
  unfold doStartTag
  rw [hm]
  simp only
  rw [attrLoop_complete as _ X [] (by simpa using ha) (by omega)]
  simp only [List.nil_append]
  have hlen : p + 1 + ((n ++ (as.flatMap renderAttr ++ '>' :: X)).length - X.length) = p + (startTag n as).length := by
    simp [startTag]; omega
  rw [hlen]
  split <;> rfl

theorem elemNameOk_of_void {n : Str} (h : n ∈ voidNames) : ElemNameOk n := by
  have key : ∀ m ∈ voidNames, ∃ c r, m = c :: r ∧ isLower c = true ∧ (r.all isNameChar) = true ∧ m.getLast? ≠ some '-' := by
    intro m hm
    simp only [voidNames, List.mem_cons, List.not_mem_nil, or_false] at hm
    rcases hm with rfl | rfl | rfl | rfl | rfl <;> exact ⟨_, _, rfl, by decide, by decide, by decide⟩
  obtain ⟨c, r, h1, h2, h3, h4⟩ := key n h
  exact ⟨⟨c, r, h1, h2, fun x hx => List.all_eq_true.1 h3 x hx⟩, h4⟩

theorem elemNameOk_style : ElemNameOk styleName :=
  ⟨⟨'s', _, rfl, by decide, by decide⟩, by decide⟩

theorem style_not_void : styleName ∉ voidNames := by decide

theorem void_ne_style {n : Str} (h : n ∈ voidNames) : n ≠ styleName := by
  rintro rfl; exact style_not_void h

theorem nameOk_head {n : Str} (h : NameOk n) : n.head? ≠ some '#' := by
  obtain ⟨c, r, rfl, hc, _⟩ := h
  simp
  exact (lower_ne hc).2.2

/-- Running the loop consumes a stretch of text. -/
def Eats (isWord : Char → Bool) (text : Str) (p : Nat) (s : Str) (st : St) (p' : Nat) (s' : Str) (st' : St) : Prop :=
  ∃ k, k + s'.length ≤ s.length ∧ ∀ fuel, loop isWord text (fuel + k) p s st = loop isWord text fuel p' s' st'

theorem Eats.refl (p s st) : Eats isWord text p s st p s st := ⟨0, by omega, fun _ => rfl⟩

theorem Eats.trans {p s st p' s' st' p'' s'' st''} (h1 : Eats isWord text p s st p' s' st')
    (h2 : Eats isWord text p' s' st' p'' s'' st'') : Eats isWord text p s st p'' s'' st'' := by
  obtain ⟨k1, l1, e1⟩ := h1
  obtain ⟨k2, l2, e2⟩ := h2
  refine ⟨k2 + k1, by omega, fun fuel => ?_⟩
  rw [← Nat.add_assoc, e1, e2]

theorem Eats.step {p c s st p' s' st'} (h : step isWord text p (c :: s) st = some (p', s', st'))
    (hl : s'.length < (c :: s).length) : Eats isWord text p (c :: s) st p' s' st' := by
  refine ⟨1, by omega, fun fuel => ?_⟩
  rw [loop, h]
  intro h; cases h

theorem head_lt {n : Str} {f : Forest} (h : WF n true f) {R : Str} (hR : StopsAt (fun c => decide (c ≠ '<')) R) :
    StopsAt (fun c => decide (c ≠ '<')) (src f ++ R) := by
  have key : ∀ (t : Str), StopsAt (fun c => decide (c ≠ '<')) ('<' :: t) := by
    intro t c u h; injection h with h _; subst h; rfl
  cases f with
  | nil => exact hR
  | text s r => exact absurd h.1 (by decide)
  | _ => exact key _

theorem lt_stops (t : Str) : StopsAt (fun c => decide (c ≠ '<')) ('<' :: t) := by
  intro c u h; injection h with h _; subst h; rfl

theorem nil_stops {p : Char → Bool} : StopsAt p [] := by
  intro c u h; cases h

theorem step_text {c : Char} {t X : Str} (hs : '<' ∉ c :: t) (hX : StopsAt (fun c => decide (c ≠ '<')) X) (p : Nat) (st : St) :
    step isWord text p (c :: t ++ X) st =
      some (p + (c :: t).length, X, addNode (.mk p (p + (c :: t).length) litName [] none []) st) := by
  have hc : c ≠ '<' := by rintro rfl; exact hs List.mem_cons_self
  have ht : ∀ x ∈ t, (decide (x ≠ '<')) = true := by
    intro x hx; simp; rintro rfl; exact hs (List.mem_cons_of_mem _ hx)
  unfold step
  split
  · rename_i h; cases h
  · rename_i h; injection h with h _; exact absurd h hc
  · rename_i h; injection h with h _; exact absurd h hc
  · rename_i h; injection h with h _; exact absurd h hc
  · rename_i c' r' _ _ h2 h
    injection h with h1 h3
    subst h1; subst h3
    dsimp only
    rw [show List.append t X = t ++ X from rfl, (takeWhile_stop ht hX).1, (takeWhile_stop ht hX).2]

theorem step_end {n : Str} (hn : NameOk n) (p : Nat) (X : Str) (st : St) :
    step isWord text p (endTag n ++ X) st =
      (closeOpenChild text p (p + (endTag n).length) n st).map (fun st' => (p + (endTag n).length, X, st')) := by
  have e : endTag n ++ X = '<' :: '/' :: (n ++ '>' :: X) := by simp [endTag]
  rw [e]
  unfold step
  simp only
  rw [matchEndTag_complete hn X]
  simp only
  have : p + 2 + ((n ++ '>' :: X).length - X.length) = p + (endTag n).length := by
    simp [endTag]; omega
  rw [this]

theorem step_comment {s : Str} (hs : find ['-', '-', '>'] (s ++ ['-', '-', '>']) = some s.length) (p : Nat) (X : Str) (st : St) :
    step isWord text p (commentText s ++ X) st =
      some (p + (commentText s).length, X, addNode (.mk p (p + (commentText s).length) commentName [] none []) st) := by
  have e : commentText s ++ X = '<' :: '!' :: (['-', '-'] ++ (s ++ ['-', '-', '>'] ++ X)) := by simp [commentText]
  rw [e]
  unfold step
  simp only
  rw [dropPrefix_some.2 rfl]
  simp only
  rw [find_complete (by simp) X hs]
  simp only
  have h1 : p + 4 + s.length + 3 = p + (commentText s).length := by simp [commentText]; omega
  have h2 : (s ++ ['-', '-', '>'] ++ X).drop (s.length + 3) = X := List.drop_left' (by simp)
  rw [h1, h2]

theorem step_decl (p : Nat) (X : Str) (st : St) :
    step isWord text p (declText ++ X) st =
      some (p + declText.length, X, addNode (.mk p (p + declText.length) declName [] none []) st) := by
  have e : declText ++ X = '<' :: '!' :: (['D', 'O', 'C', 'T', 'Y', 'P', 'E', ' ', 'h', 't', 'm', 'l', '>'] ++ X) := by simp [declText]
  rw [e]
  unfold step
  simp only
  have h1 : dropPrefix? ['-', '-'] (['D', 'O', 'C', 'T', 'Y', 'P', 'E', ' ', 'h', 't', 'm', 'l', '>'] ++ X) = none := by
    simp [dropPrefix?]
  rw [h1, dropPrefix_some.2 rfl]
  simp only
  rfl

theorem eats_forest (hw : WordOk isWord) (f : Forest) : ∀ (n : Str) (b : Bool) (p : Nat) (R : Str) (fr : Frame)
    (fs : List Frame) (msgs : List (Nat × Str)), WF n b f → fr.name = n →
    (∀ q ∈ strays p f, (convertPosnToLinecol text q.1).isSome = true) →
    StopsAt (fun c => decide (c ≠ '<')) R →
    Eats isWord text p (src f ++ R) ⟨fr :: fs, msgs⟩ (p + (src f).length) R
      ⟨{ fr with children := fr.children ++ nodesOf p f } :: fs, msgs ++ strays p f⟩ := by
  induction f with
  | nil =>
    intro n b p R fr fs msgs _ _ _ _
    simp only [src, nodesOf, strays, List.nil_append, List.append_nil, List.length_nil, Nat.add_zero]
    exact .refl _ _ _
  | text s r ih =>
    intro n b p R fr fs msgs hwf hname hst hR
    obtain ⟨_, hne, hlt, hwf'⟩ := hwf
    cases s with
    | nil => exact absurd rfl hne
    | cons c t =>
      simp only [src, nodesOf, strays] at hst ⊢
      rw [List.append_assoc]
      have h1 := Eats.step (isWord := isWord) (text := text) (step_text hlt (head_lt hwf' hR) p ⟨fr :: fs, msgs⟩) (by simp; omega)
      have h2 := ih n true (p + (c :: t).length) R
        { fr with children := fr.children ++ [.mk p (p + (c :: t).length) litName [] none []] } fs msgs hwf' hname hst hR
      have := h1.trans h2
      simpa [Nat.add_assoc, Nat.add_comm 1] using this
  | comment s r ih =>
    intro n b p R fr fs msgs hwf hname hst hR
    obtain ⟨hs, hwf'⟩ := hwf
    have hs := (endsAtFirst_iff (by simp)).1 hs
    simp only [src, nodesOf, strays] at hst ⊢
    rw [List.append_assoc]
    have h1 : Eats isWord text p (commentText s ++ (src r ++ R)) _ _ _ _ :=
      Eats.step (c := '<') (step_comment hs p (src r ++ R) ⟨fr :: fs, msgs⟩) (by simp; omega)
    have h2 := ih n false (p + (commentText s).length) R
      { fr with children := fr.children ++ [.mk p (p + (commentText s).length) commentName [] none []] } fs msgs hwf' hname hst hR
    have := h1.trans h2
    simpa [Nat.add_assoc] using this
  | decl r ih =>
    intro n b p R fr fs msgs hwf hname hst hR
    simp only [src, nodesOf, strays] at hst ⊢
    rw [List.append_assoc]
    have h1 : Eats isWord text p (declText ++ (src r ++ R)) _ _ _ _ :=
      Eats.step (c := '<') (step_decl p (src r ++ R) ⟨fr :: fs, msgs⟩) (by simp; omega)
    have h2 := ih n false (p + declText.length) R
      { fr with children := fr.children ++ [.mk p (p + declText.length) declName [] none []] } fs msgs hwf hname hst hR
    have := h1.trans h2
    simpa [Nat.add_assoc] using this
  | stray m r ih =>
    intro n b p R fr fs msgs hwf hname hst hR
    obtain ⟨hm, hne, hwf'⟩ := hwf
    simp only [src, nodesOf, strays] at hst ⊢
    rw [List.append_assoc]
    have hclose : closeOpenChild text p (p + (endTag m).length) m ⟨fr :: fs, msgs⟩ = some ⟨fr :: fs, msgs ++ [(p, m)]⟩ := by
      have := hst (p, m) List.mem_cons_self
      obtain ⟨v, hv⟩ := Option.isSome_iff_exists.1 this
      simp only [closeOpenChild]
      rw [if_pos (by rw [hname]; exact hne)]
      simp only at hv
      rw [hv]
    have h1 : Eats isWord text p (endTag m ++ (src r ++ R)) ⟨fr :: fs, msgs⟩ (p + (endTag m).length) (src r ++ R)
        ⟨fr :: fs, msgs ++ [(p, m)]⟩ :=
      Eats.step (c := '<') (by
        have := step_end (isWord := isWord) (text := text) hm p (src r ++ R) ⟨fr :: fs, msgs⟩
        rw [hclose] at this; exact this) (by simp; omega)
    have h2 := ih n false (p + (endTag m).length) R fr fs (msgs ++ [(p, m)]) hwf' hname
      (fun q hq => hst q (List.mem_cons_of_mem _ hq)) hR
    have := h1.trans h2
    simpa [Nat.add_assoc] using this
  | void m as r ih =>
    intro n b p R fr fs msgs hwf hname hst hR
    obtain ⟨hm, ha, hwf'⟩ := hwf
    have hmo := elemNameOk_of_void hm
    simp only [src, nodesOf, strays] at hst ⊢
    rw [List.append_assoc]
    obtain ⟨⟨c, t, hct, hc, _⟩, _⟩ := id hmo
    have hstep : step isWord text p (startTag m as ++ (src r ++ R)) ⟨fr :: fs, msgs⟩ = some (p + (startTag m as).length,
        src r ++ R, ⟨{ fr with children := fr.children ++ [.mk p (p + (startTag m as).length) m as none []] } :: fs, msgs⟩) := by
      have h0 : startTag m as ++ (src r ++ R) = '<' :: c :: (t ++ (as.flatMap renderAttr ++ '>' :: (src r ++ R))) := by
        rw [startTag_eq, hct]; rfl
      have h1 := doStart_complete hw hmo ha p (src r ++ R) ⟨fr :: fs, msgs⟩
      rw [h0, step_start hc, ← List.cons_append, ← hct, h1]
      simp only
      rw [if_neg (void_ne_style hm), addElement, if_pos (.inr hm)]
      rfl
    have h1 : Eats isWord text p (startTag m as ++ (src r ++ R)) _ _ _ _ := Eats.step (c := '<') hstep (by simp; omega)
    have h2 := ih n false (p + (startTag m as).length) R
      { fr with children := fr.children ++ [.mk p (p + (startTag m as).length) m as none []] } fs msgs hwf' hname hst hR
    have := h1.trans h2
    simpa [Nat.add_assoc] using this
  | style as c r ih =>
    intro n b p R fr fs msgs hwf hname hst hR
    obtain ⟨ha, hc, hwf'⟩ := hwf
    have hc := (endsAtFirst_iff (by simp)).1 hc
    simp only [src, nodesOf, strays] at hst ⊢
    simp only [List.append_assoc]
    let i := p + (startTag styleName as).length
    let lit : Node := .mk i (i + c.length) litName [] none []
    let X := c ++ (endTag styleName ++ (src r ++ R))
    have hend : endTag styleName = ['<', '/', 's', 't', 'y', 'l', 'e', '>'] := by decide
    have hstep : step isWord text p (startTag styleName as ++ X) ⟨fr :: fs, msgs⟩ =
        some (i + c.length, endTag styleName ++ (src r ++ R), ⟨⟨p, i, styleName, as, [lit]⟩ :: fr :: fs, msgs⟩) := by
      have h0 : startTag styleName as ++ X = '<' :: 's' :: (['t', 'y', 'l', 'e'] ++ (as.flatMap renderAttr ++ '>' :: X)) := by
        rw [startTag_eq]; rfl
      have h1 := doStart_complete hw elemNameOk_style ha p X ⟨fr :: fs, msgs⟩
      rw [h0, step_start (by decide)]
      refine Eq.trans h1 ?_
      simp only
      have hf : find ['<', '/', 's', 't', 'y', 'l', 'e', '>'] X = some c.length := by
        have := find_complete (pat := ['<', '/', 's', 't', 'y', 'l', 'e', '>']) (by simp) (src r ++ R) hc
        simp only [X]
        rw [hend, ← List.append_assoc]; exact this
      rw [if_pos trivial, hf]
      simp only
      rw [show X.drop c.length = endTag styleName ++ (src r ++ R) from List.drop_left' rfl]
      rw [addElement, if_neg (by decide)]
      rfl
    have h1 : Eats isWord text p (startTag styleName as ++ X) _ _ _ _ := Eats.step (c := '<') hstep (by simp [X]; omega)
    have hstep2 : step isWord text (i + c.length) (endTag styleName ++ (src r ++ R)) ⟨⟨p, i, styleName, as, [lit]⟩ :: fr :: fs, msgs⟩ =
        some (i + c.length + (endTag styleName).length, src r ++ R,
          ⟨{ fr with children := fr.children ++ [.mk p (i + c.length + (endTag styleName).length) styleName as (some (i, i + c.length)) [lit]] } :: fs, msgs⟩) := by
      rw [step_end elemNameOk_style.1]
      simp [closeOpenChild, addNode]
    have h2 : Eats isWord text (i + c.length) (endTag styleName ++ (src r ++ R)) _ _ _ _ := Eats.step (c := '<') hstep2 (by simp; omega)
    have h3 := ih n false (i + c.length + (endTag styleName).length) R
      { fr with children := fr.children ++ [.mk p (i + c.length + (endTag styleName).length) styleName as (some (i, i + c.length)) [lit]] }
      fs msgs hwf' hname hst hR
    have := (h1.trans h2).trans h3
    simpa [Nat.add_assoc, X, i, lit] using this
  | elem m as k r ihk ihr =>
    intro n b p R fr fs msgs hwf hname hst hR
    obtain ⟨hm, hv, hsn, ha, hwk, hwf'⟩ := hwf
    simp only [src, nodesOf, strays] at hst ⊢
    simp only [List.append_assoc]
    let i := p + (startTag m as).length
    obtain ⟨⟨c, t, hct, hc, _⟩, _⟩ := id hm
    let X := src k ++ (endTag m ++ (src r ++ R))
    have hstep : step isWord text p (startTag m as ++ X) ⟨fr :: fs, msgs⟩ =
        some (i, X, ⟨⟨p, i, m, as, []⟩ :: fr :: fs, msgs⟩) := by
      have h0 : startTag m as ++ X = '<' :: c :: (t ++ (as.flatMap renderAttr ++ '>' :: X)) := by
        rw [startTag_eq, hct]; rfl
      have h1 := doStart_complete hw hm ha p X ⟨fr :: fs, msgs⟩
      rw [h0, step_start hc, ← List.cons_append, ← hct, h1]
      simp only
      rw [if_neg hsn, addElement, if_neg]
      intro h
      rcases h with h | h
      · exact nameOk_head hm.1 h
      · exact hv h
    have h1 : Eats isWord text p (startTag m as ++ X) _ _ _ _ := Eats.step (c := '<') hstep (by simp; omega)
    have h2 := ihk m false i (endTag m ++ (src r ++ R)) ⟨p, i, m, as, []⟩ (fr :: fs) msgs hwk rfl
      (fun q hq => hst q (List.mem_append_left _ hq)) (lt_stops _)
    let j := i + (src k).length
    let e := j + (endTag m).length
    have hstep2 : step isWord text j (endTag m ++ (src r ++ R)) ⟨⟨p, i, m, as, [] ++ nodesOf i k⟩ :: fr :: fs, msgs ++ strays i k⟩ =
        some (e, src r ++ R,
          ⟨{ fr with children := fr.children ++ [.mk p e m as (some (i, j)) (nodesOf i k)] } :: fs, msgs ++ strays i k⟩) := by
      rw [step_end hm.1]
      simp [closeOpenChild, addNode, e]
    have h3 : Eats isWord text j (endTag m ++ (src r ++ R)) _ _ _ _ := Eats.step (c := '<') hstep2 (by simp; omega)
    have h4 := ihr n false e R { fr with children := fr.children ++ [.mk p e m as (some (i, j)) (nodesOf i k)] }
      fs (msgs ++ strays i k) hwf' hname (fun q hq => hst q (List.mem_append_right _ hq)) hR
    have := ((h1.trans h2).trans h3).trans h4
    simpa [Nat.add_assoc, X, i, j, e] using this

theorem loop_nil {fuel p st} : loop isWord text fuel p [] st = some st := by
  cases fuel <;> rfl

theorem parse_complete (hw : WordOk isWord) {f : Forest} (hf : WF docName false f)
    (hst : ∀ q ∈ strays 0 f, (convertPosnToLinecol (src f) q.1).isSome = true) :
    parse isWord (src f) = some (.mk 0 (src f).length docName [] none (nodesOf 0 f), strays 0 f) := by
  obtain ⟨k, hk, hl⟩ := eats_forest (text := src f) hw f docName false 0 [] ⟨0, (src f).length, docName, [], []⟩ [] [] hf rfl hst nil_stops
  simp only [List.append_nil, List.length_nil, Nat.add_zero] at hk hl
  unfold parse
  have h := hl ((src f).length - k)
  rw [Nat.sub_add_cancel hk] at h
  rw [h, loop_nil]
  simp

end Verif.HTML
