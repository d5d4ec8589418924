import Verif.HTML.Spec
import Verif.Shared.EntityLemmas
/-! # The pieces of the lexer -/
namespace Verif.HTML
open Verif.Shared (dropPrefix?)

theorem dropPrefix_some {p s t : Str} : dropPrefix? p s = some t ↔ s = p ++ t := by
  induction p generalizing s with
  | nil => simp [dropPrefix?]
  | cons a p ih =>
    cases s with
    | nil => simp [dropPrefix?]
    | cons b s =>
      simp only [dropPrefix?, List.cons_append, List.cons.injEq]
      by_cases h : a = b
      · subst h; simp [ih]
      · simp [h, Ne.symm h]

/-- A text does not continue with a character of `p`. -/
def StopsAt (p : Char → Bool) (r : Str) : Prop := ∀ c t, r = c :: t → p c = false

theorem takeWhile_stop {p : Char → Bool} {s r : Str} (hs : ∀ x ∈ s, p x = true) (hr : StopsAt p r) :
    (s ++ r).takeWhile p = s ∧ (s ++ r).dropWhile p = r := by
  rw [List.takeWhile_append_of_pos hs, List.dropWhile_append_of_pos hs]
  cases r with
  | nil => simp
  | cons c t => simp [hr c t rfl]

theorem takeWhile_sound (p : Char → Bool) (s : Str) :
    s = s.takeWhile p ++ s.dropWhile p ∧ (∀ x ∈ s.takeWhile p, p x = true) ∧ StopsAt p (s.dropWhile p) := by
  refine ⟨List.takeWhile_append_dropWhile.symm, ?_, ?_⟩
  · intro x hx
    have := List.all_takeWhile (l := s) (p := p)
    exact List.all_eq_true.1 this x hx
  · intro c t h
    induction s with
    | nil => simp at h
    | cons a s ih =>
      rw [List.dropWhile_cons] at h
      split at h
      · exact ih h
      · rename_i hp
        injection h with h1 _
        subst h1; simpa using hp

theorem find_complete {pat : Str} (hpat : pat ≠ []) : ∀ {c : Str} (r : Str),
    find pat (c ++ pat) = some c.length → find pat (c ++ pat ++ r) = some c.length := by
  intro c
  induction c with
  | nil =>
    intro r _
    cases pat with
    | nil => exact absurd rfl hpat
    | cons a pat =>
      simp only [List.nil_append, List.cons_append, find]
      rw [dropPrefix_some.2 (by simp : a :: (pat ++ r) = (a :: pat) ++ r)]
      rfl
  | cons x c ih =>
    intro r h
    simp only [List.cons_append, find] at h ⊢
    cases hd : dropPrefix? pat (x :: (c ++ pat)) with
    | some t => rw [hd] at h; simp at h
    | none =>
      rw [hd] at h
      simp only [List.length_cons] at h
      have hf : find pat (c ++ pat) = some c.length := by
        cases hf : find pat (c ++ pat) with
        | none => rw [hf] at h; simp at h
        | some k => rw [hf] at h; simp at h; rw [h]
      cases hd2 : dropPrefix? pat (x :: (c ++ pat ++ r)) with
      | some t =>
        have e := dropPrefix_some.1 hd2
        -- the prefix lies within `x :: (c ++ pat)`
        have e2 : (x :: (c ++ pat)) ++ r = pat ++ t := by simpa using e
        have hlen : pat.length ≤ (x :: (c ++ pat)).length := by simp; omega
        have e3 := congrArg (List.take pat.length) e2
        rw [List.take_append_of_le_length hlen, List.take_left] at e3
        have : dropPrefix? pat (x :: (c ++ pat)) = some ((x :: (c ++ pat)).drop pat.length) := by
          rw [dropPrefix_some]
          conv => lhs; rw [← List.take_append_drop pat.length (x :: (c ++ pat))]
          rw [e3]
        rw [this] at hd; cases hd
      | none =>
        rw [ih r hf]; rfl

theorem find_sound {pat : Str} (hpat : pat ≠ []) : ∀ {s : Str} {k : Nat}, find pat s = some k →
    ∃ c r, s = c ++ pat ++ r ∧ c.length = k ∧ find pat (c ++ pat) = some c.length := by
  intro s
  induction s with
  | nil => intro k h; simp [find, hpat] at h
  | cons x s ih =>
    intro k h
    rw [find] at h
    cases hd : dropPrefix? pat (x :: s) with
    | some t =>
      rw [hd] at h
      simp at h
      subst h
      refine ⟨[], t, by simpa using dropPrefix_some.1 hd, rfl, ?_⟩
      cases pat with
      | nil => exact absurd rfl hpat
      | cons a pat =>
        simp only [List.nil_append, find]
        rw [dropPrefix_some.2 (by simp : a :: pat = (a :: pat) ++ [])]
        rfl
    | none =>
      rw [hd] at h
      simp only at h
      cases hf : find pat s with
      | none => rw [hf] at h; simp at h
      | some k' =>
        rw [hf] at h
        simp at h
        subst h
        obtain ⟨c, r, e1, e2, e3⟩ := ih hf
        refine ⟨x :: c, r, by simp [e1], by simp [e2], ?_⟩
        simp only [List.cons_append, find]
        cases hd2 : dropPrefix? pat (x :: (c ++ pat)) with
        | some t =>
          have e := dropPrefix_some.1 hd2
          have : dropPrefix? pat (x :: s) = some (t ++ r) := by
            rw [dropPrefix_some, e1]
            rw [← List.cons_append, e, List.append_assoc]
          rw [this] at hd; cases hd
        | none => rw [e3]; rfl

/-! ### Names -/

theorem find_le {pat : Str} : ∀ (u v : Str), ∃ k, find pat (u ++ pat ++ v) = some k ∧ k ≤ u.length := by
  intro u
  induction u with
  | nil =>
    intro v
    cases pat with
    | nil => cases v <;> exact ⟨0, by simp [find, dropPrefix?], Nat.le_refl _⟩
    | cons a p =>
      refine ⟨0, ?_, Nat.le_refl _⟩
      show find (a :: p) (a :: (p ++ v)) = some 0
      rw [find, show dropPrefix? (a :: p) (a :: (p ++ v)) = some v from dropPrefix_some.2 rfl]
  | cons x u ih =>
    intro v
    obtain ⟨k, h1, h2⟩ := ih v
    show ∃ k, find pat (x :: (u ++ pat ++ v)) = some k ∧ _
    rw [find]
    split
    · exact ⟨0, rfl, Nat.zero_le _⟩
    · exact ⟨k + 1, by rw [h1]; rfl, by simpa using h2⟩

theorem endsAtFirst_iff {pat c : Str} (hpat : pat ≠ []) :
    EndsAtFirst pat c ↔ find pat (c ++ pat) = some c.length := by
  constructor
  · intro h
    obtain ⟨k, h1, h2⟩ := find_le (pat := pat) c []
    rw [List.append_nil] at h1
    obtain ⟨c', r, h3, h4, _⟩ := find_sound hpat h1
    have := h c' r h3
    subst this
    have := congrArg List.length h3
    simp at this
    rw [h1]; congr 1; omega
  · intro h u v e
    obtain ⟨k, h1, h2⟩ := find_le (pat := pat) u v
    rw [← e, h] at h1
    injection h1 with h1
    have := congrArg List.length e
    simp at this
    exact List.length_eq_zero_iff.1 (by omega)

theorem nameChar_of_lower {c : Char} (h : isLower c = true) : isNameChar c = true := by simp [isNameChar, h]

theorem stops_space : ∀ r, StopsAt isNameChar (' ' :: r) := by
  intro r c t h; injection h with h _; subst h; decide
theorem stops_gt : ∀ r, StopsAt isNameChar ('>' :: r) := by
  intro r c t h; injection h with h _; subst h; decide
theorem stops_eq : ∀ r, StopsAt isNameChar ('=' :: r) := by
  intro r c t h; injection h with h _; subst h; decide

theorem word_of_nameChar {isWord} (hw : WordOk isWord) {c : Char} (h : isNameChar c = true) (hc : c ≠ '-') :
    isWord c = true := by
  simp only [isNameChar, Bool.or_eq_true, Bool.and_eq_true, decide_eq_true_eq] at h
  rcases h with (h | h) | h
  · exact hw.lower c h
  · exact hw.digit c h.1 h.2
  · exact absurd h hc

theorem matchStartName_complete {isWord} (hw : WordOk isWord) {n : Str} (hn : ElemNameOk n) {d : Char} (r : Str)
    (hd : d = ' ' ∨ d = '>') : matchStartName isWord (n ++ d :: r) = some (n, d :: r) := by
  obtain ⟨⟨c, t, rfl, hc, ht⟩, hlast⟩ := hn
  have hstop : StopsAt isNameChar (d :: r) := by
    rcases hd with rfl | rfl
    · exact stops_space r
    · exact stops_gt r
  have hdw : isWord d = false := by
    rcases hd with rfl | rfl
    · exact hw.space
    · exact hw.gt
  simp only [matchStartName, List.cons_append, hc, if_true, (takeWhile_stop ht hstop).1]
  have hb : boundary isWord (c :: (t ++ d :: r)) (t.length + 1) = true := by
    simp only [boundary, Nat.add_sub_cancel]
    have h1 : (c :: (t ++ d :: r))[t.length + 1]? = some d := by simp
    have h2 : (c :: (t ++ d :: r))[t.length]? = (c :: t).getLast? := by
      rw [List.getLast?_eq_getElem?]
      rw [show c :: (t ++ d :: r) = (c :: t) ++ d :: r by rfl]
      rw [List.getElem?_append_left (by simp)]
      simp
    rw [h1, h2]
    cases hl : (c :: t).getLast? with
    | none => simp at hl
    | some x =>
      rw [hl] at hlast
      have hx : x ∈ c :: t := List.mem_of_getLast? hl
      have hxn : isNameChar x = true := by
        rcases List.mem_cons.1 hx with rfl | hx
        · exact nameChar_of_lower hc
        · exact ht x hx
      have := word_of_nameChar hw hxn (by rintro rfl; exact hlast rfl)
      simp [this, hdw]
  rw [Nat.add_comm 1, backOff, if_pos hb]
  simp only [Option.some.injEq, Prod.mk.injEq]
  constructor
  · rw [show c :: (t ++ d :: r) = (c :: t) ++ d :: r by rfl]; exact List.take_left' rfl
  · rw [show c :: (t ++ d :: r) = (c :: t) ++ d :: r by rfl]; exact List.drop_left' rfl

theorem backOff_sound {isWord s} : ∀ {k m : Nat}, backOff isWord s k = some m → 1 ≤ m ∧ m ≤ k ∧ boundary isWord s m = true := by
  intro k
  induction k with
  | zero => intro m h; simp [backOff] at h
  | succ k ih =>
    intro m h
    rw [backOff] at h
    split at h
    · injection h with h; subst h; exact ⟨by omega, by omega, by assumption⟩
    · obtain ⟨h1, h2, h3⟩ := ih h; exact ⟨h1, by omega, h3⟩

theorem matchStartName_sound {isWord} (hw : WordOk isWord) {s n after : Str}
    (h : matchStartName isWord s = some (n, after)) : s = n ++ after ∧
      ∀ d r, after = d :: r → (d = ' ' ∨ d = '>') → ElemNameOk n := by
  cases s with
  | nil => simp [matchStartName] at h
  | cons c s =>
    simp only [matchStartName] at h
    split at h
    · rename_i hc
      split at h
      · cases h
      · rename_i k hk
        injection h with h
        injection h with h1 h2
        obtain ⟨b1, b2, b3⟩ := backOff_sound hk
        refine ⟨by rw [← h1, ← h2, List.take_append_drop], ?_⟩
        intro d r hd hdw
        obtain ⟨t1, t2, t3⟩ := takeWhile_sound isNameChar s
        generalize s.takeWhile isNameChar = t at *
        generalize s.dropWhile isNameChar = u at *
        subst t1
        have hdw' : isWord d = false := by
          rcases hdw with rfl | rfl
          · exact hw.space
          · exact hw.gt
        have hn : NameOk n := by
          cases k with
          | zero => omega
          | succ k =>
            refine ⟨c, (t ++ u).take k, by rw [← h1]; rfl, hc, ?_⟩
            intro x hx
            rw [List.take_append_of_le_length (by omega)] at hx
            exact t2 x (List.mem_of_mem_take hx)
        refine ⟨hn, ?_⟩
        intro hl
        -- the character before the boundary is a hyphen, the one after is not a word character
        rw [boundary] at b3
        have hk2 : (c :: (t ++ u))[k]? = some d := by
          have e : (List.drop k (c :: (t ++ u)))[0]? = (d :: r)[0]? := by rw [h2, hd]
          rw [List.getElem?_drop] at e
          simpa using e
        have hklen : k ≤ (c :: (t ++ u)).length := by simp only [List.length_cons, List.length_append]; omega
        have hk1 : (c :: (t ++ u))[k - 1]? = some '-' := by
          rw [← h1, List.getLast?_eq_getElem?, List.length_take, Nat.min_eq_left hklen, List.getElem?_take] at hl
          rw [if_pos (by omega)] at hl
          exact hl
        dsimp only at b3
        rw [hk1, hk2] at b3
        simp [hw.hyphen, hdw'] at b3
    · cases h

theorem matchEndTag_complete {n : Str} (hn : NameOk n) (r : Str) : matchEndTag (n ++ '>' :: r) = some (n, r) := by
  obtain ⟨c, t, rfl, hc, ht⟩ := hn
  simp only [matchEndTag, List.cons_append, hc, if_true]
  rw [(takeWhile_stop ht (stops_gt r)).1, (takeWhile_stop ht (stops_gt r)).2]
  rfl

theorem matchEndTag_sound {s n r : Str} (h : matchEndTag s = some (n, r)) : s = n ++ '>' :: r ∧ NameOk n := by
  cases s with
  | nil => simp [matchEndTag] at h
  | cons c s =>
    simp only [matchEndTag] at h
    split at h
    · rename_i hc
      split at h
      · rename_i r' hr
        injection h with h
        injection h with h1 h2
        subst h1; subst h2
        obtain ⟨t1, t2, _⟩ := takeWhile_sound isNameChar s
        rw [hr] at t1
        exact ⟨by rw [List.cons_append, ← t1], _, _, rfl, hc, t2⟩
      · cases h
    · cases h

/-! ### Attributes -/

/-- An attribute is followed by a space or the end of the tag. -/
def AttrEnd (r : Str) : Prop := ∃ d t, r = d :: t ∧ (d = ' ' ∨ d = '>')

theorem matchAttr_complete {n : Str} {v : Option Str} (hn : NameOk n) (hv : ∀ x, v = some x → '"' ∉ x) {r : Str}
    (hr : AttrEnd r) : matchAttr (renderAttr (n, v) ++ r) = some (n, v, r) := by
  obtain ⟨c, t, rfl, hc, ht⟩ := hn
  cases v with
  | none =>
    simp only [renderAttr, List.cons_append, matchAttr, hc, if_true]
    have hstop : StopsAt isNameChar r := by
      obtain ⟨d, t, rfl, rfl | rfl⟩ := hr
      · exact stops_space _
      · exact stops_gt _
    rw [(takeWhile_stop ht hstop).1, (takeWhile_stop ht hstop).2]
    obtain ⟨d, t', rfl, rfl | rfl⟩ := hr <;> rfl
  | some x =>
    have hq := hv x rfl
    simp only [renderAttr, List.cons_append, List.append_assoc, matchAttr, hc, if_true, List.nil_append]
    rw [(takeWhile_stop ht (stops_eq _)).1, (takeWhile_stop ht (stops_eq _)).2]
    have hx : ∀ y ∈ x, (decide (y ≠ '"')) = true := by
      intro y hy; simp; rintro rfl; exact hq hy
    have hst : StopsAt (fun y => decide (y ≠ '"')) ('"' :: r) := by
      intro c t h; injection h with h _; subst h; rfl
    simp only
    rw [(takeWhile_stop hx hst).1, (takeWhile_stop hx hst).2]
    rfl

theorem matchAttr_sound {s n : Str} {v : Option Str} {r : Str} (h : matchAttr s = some (n, v, r)) :
    s = renderAttr (n, v) ++ r ∧ NameOk n ∧ ∀ x, v = some x → '"' ∉ x := by
  unfold matchAttr at h
  split at h
  · rename_i c t
    split at h
    · rename_i hc
      obtain ⟨t1, t2, _⟩ := takeWhile_sound isNameChar t
      generalize t.takeWhile isNameChar = u at *
      generalize t.dropWhile isNameChar = w at *
      subst t1
      have hn : NameOk (c :: u) := ⟨c, u, rfl, hc, t2⟩
      dsimp only at h
      split at h
      · rename_i w' _
        obtain ⟨s1, s2, s3⟩ := takeWhile_sound (fun y => decide (y ≠ '"')) w'
        split at h
        · rename_i r' hr'
          simp only [Option.some.injEq, Prod.mk.injEq] at h
          obtain ⟨rfl, rfl, rfl⟩ := h
          rw [hr'] at s1
          refine ⟨?_, hn, ?_⟩
          · simp only [renderAttr, List.cons_append, List.append_assoc, List.nil_append]
            rw [← s1]
          · intro x hx
            injection hx with hx
            subst hx
            intro hmem
            have := s2 _ hmem
            simp at this
        · simp only [Option.some.injEq, Prod.mk.injEq] at h
          obtain ⟨rfl, rfl, rfl⟩ := h
          exact ⟨by simp [renderAttr], hn, by simp⟩
      · simp only [Option.some.injEq, Prod.mk.injEq] at h
        obtain ⟨rfl, rfl, rfl⟩ := h
        exact ⟨by simp [renderAttr], hn, by simp⟩
    · cases h
  · cases h

theorem attrEnd_render (as : Attrs) (r : Str) : AttrEnd (as.flatMap renderAttr ++ '>' :: r) := by
  cases as with
  | nil => exact ⟨'>', r, rfl, .inr rfl⟩
  | cons a as =>
    obtain ⟨n, v⟩ := a
    cases v with
    | none => exact ⟨' ', _, rfl, .inl rfl⟩
    | some v => exact ⟨' ', _, rfl, .inl rfl⟩

theorem attrLoop_complete : ∀ (as : Attrs) (n : Nat) (r : Str) (acc : Attrs), AttrsOk (acc ++ as) →
    (as.flatMap renderAttr ++ '>' :: r).length ≤ n →
    attrLoop n (as.flatMap renderAttr ++ '>' :: r) acc = some (acc ++ as, r) := by
  intro as
  induction as with
  | nil =>
    intro n r acc _ hn
    cases n with
    | zero => simp at hn
    | succ n => simp [attrLoop]
  | cons a as ih =>
    intro n r acc hok hn
    cases n with
    | zero => simp at hn
    | succ n =>
      obtain ⟨nm, v⟩ := a
      obtain ⟨ok1, ok2⟩ := hok
      have ha := ok2 (nm, v) (by simp)
      have hm : matchAttr (renderAttr (nm, v) ++ (as.flatMap renderAttr ++ '>' :: r)) = some (nm, v, _) :=
        matchAttr_complete ha.1 ha.2 (attrEnd_render as r)
      have hhead : ∃ t, renderAttr (nm, v) = ' ' :: t := by
        cases v with
        | none => exact ⟨_, rfl⟩
        | some v => exact ⟨_, rfl⟩
      obtain ⟨t, ht⟩ := hhead
      rw [List.flatMap_cons, List.append_assoc]
      rw [List.flatMap_cons, List.append_assoc] at hn
      rw [ht] at hm hn ⊢
      simp only [List.cons_append] at hm hn ⊢
      rw [attrLoop]
      · rw [hm]
        simp only
        have hnotin : nm ∉ acc.map (·.1) := by
          rw [List.map_append, List.nodup_append] at ok1
          intro hmem
          exact ok1.2.2 nm hmem nm (by simp) rfl
        rw [if_neg hnotin, ih n r (acc ++ [(nm, v)]) ⟨by simpa using ok1, by simpa using ok2⟩ (by simp at hn ⊢; omega)]
        simp
      · intro r h; injection h with h _; cases h

theorem attrLoop_sound : ∀ (n : Nat) (s : Str) (acc as : Attrs) (r : Str), AttrsOk acc →
    attrLoop n s acc = some (as, r) →
    ∃ as', as = acc ++ as' ∧ s = as'.flatMap renderAttr ++ '>' :: r ∧ AttrsOk as := by
  intro n
  induction n with
  | zero => intro s acc as r _ h; simp [attrLoop] at h
  | succ n ih =>
    intro s acc as r hacc h
    rw [attrLoop.eq_def] at h
    dsimp only at h
    split at h
    · rename_i r'
      simp only [Option.some.injEq, Prod.mk.injEq] at h
      obtain ⟨rfl, rfl⟩ := h
      exact ⟨[], by simp, by simp, hacc⟩
    · split at h
      · cases h
      · rename_i nm v r' hm
        split at h
        · cases h
        · rename_i hnotin
          obtain ⟨e1, e2, e3⟩ := matchAttr_sound hm
          obtain ⟨as', f1, f2, f3⟩ := ih _ _ _ _ (by
            refine ⟨?_, ?_⟩
            · rw [List.map_append, List.nodup_append]
              refine ⟨hacc.1, by simp, ?_⟩
              intro a ha b hb
              simp at hb; subst hb
              rintro rfl; exact hnotin ha
            · intro a ha
              rcases List.mem_append.1 ha with ha | ha
              · exact hacc.2 a ha
              · simp at ha; subst ha; exact ⟨e2, e3⟩) h
          exact ⟨(nm, v) :: as', by rw [f1]; simp, by rw [e1, f2]; simp, f3⟩

end Verif.HTML
