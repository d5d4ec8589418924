import Verif.Unesc.Spec
/-!
# C98: escape sequences in names
-/
namespace Verif.Unesc

variable {nd : Nat → Option Nat}

theorem hexOf_iff {c v : Nat} : hexOf nd c = some v ↔ Digit nd c v := by
  constructor
  · intro h
    unfold hexOf at h
    split at h
    · next h1 =>
      injection h with h
      have := Digit.decimal (nd := nd) v (by omega)
      rwa [show 48 + v = c by omega] at this
    split at h
    · next h1 =>
      injection h with h
      have := Digit.lower (nd := nd) (v - 10) (by omega)
      rwa [show 97 + (v - 10) = c by omega, show 10 + (v - 10) = v by omega] at this
    split at h
    · next h1 =>
      injection h with h
      have := Digit.upper (nd := nd) (v - 10) (by omega)
      rwa [show 65 + (v - 10) = c by omega, show 10 + (v - 10) = v by omega] at this
    split at h
    · next h1 => exact .other c v h1 h
    · exact nomatch h
  · intro h
    unfold hexOf
    cases h with
    | decimal v h => rw [if_pos (by omega), show 48 + v - 48 = v by omega]
    | lower v h => rw [if_neg (by omega), if_pos (by omega), show 97 + v - 87 = 10 + v by omega]
    | upper v h => rw [if_neg (by omega), if_neg (by omega), if_pos (by omega), show 65 + v - 55 = 10 + v by omega]
    | other c v h h' => rw [if_neg (by omega), if_neg (by omega), if_neg (by omega), if_pos h, h']

theorem intOf_append (cs ds : Text) (a : Nat) : intOf nd (cs ++ ds) a = intOf nd ds (intOf nd cs a) := by
  induction cs generalizing a with
  | nil => rfl
  | cons c cs ih => exact ih _

theorem numeral_of {cs : Text} : ∀ (n : Nat), cs.length = n + 1 → (∀ c ∈ cs, (hexOf nd c).isSome = true) → Numeral nd cs (intOf nd cs 0) := by
  intro n
  induction n generalizing cs with
  | zero =>
    intro hl h
    obtain ⟨c, rfl⟩ := List.length_eq_one_iff.1 hl
    obtain ⟨v, hv⟩ := Option.isSome_iff_exists.1 (h c (.head _))
    have : intOf nd [c] 0 = v := by rw [intOf, intOf, hv]; show 16 * 0 + v = v; omega
    rw [this]
    exact .one (hexOf_iff.1 hv)
  | succ n ih =>
    intro hl h
    obtain ⟨ds, c, rfl⟩ : ∃ ds c, cs = ds ++ [c] := ⟨cs.dropLast, cs.getLast (by intro e; rw [e] at hl; exact nomatch hl), (List.dropLast_concat_getLast _).symm⟩
    rw [List.length_append, List.length_singleton] at hl
    obtain ⟨v, hv⟩ := Option.isSome_iff_exists.1 (h c (by simp))
    have hd := ih (cs := ds) (by omega) (fun d hd => h d (by simp [hd]))
    have : intOf nd (ds ++ [c]) 0 = 16 * intOf nd ds 0 + v := by rw [intOf_append, intOf, intOf, hv]; rfl
    rw [this]
    exact .more hd (hexOf_iff.1 hv)

theorem numeral_spec {cs : Text} {v : Nat} (h : Numeral nd cs v) : cs ≠ [] ∧ (∀ c ∈ cs, (hexOf nd c).isSome = true) ∧ intOf nd cs 0 = v := by
  induction h with
  | one hd =>
    have := hexOf_iff.2 hd
    refine ⟨by simp, fun c hc => ?_, ?_⟩
    · rw [List.mem_singleton.1 hc, this]; rfl
    · rw [intOf, intOf, this]; simp
  | more _ hd ih =>
    have := hexOf_iff.2 hd
    refine ⟨by simp, fun c hc => ?_, ?_⟩
    · rcases List.mem_append.1 hc with hc | hc
      · exact ih.2.1 c hc
      · rw [List.mem_singleton.1 hc, this]; rfl
    · rw [intOf_append, ih.2.2, intOf, intOf, this]; rfl

theorem hex_brace : (hexOf nd 125).isSome = false := by unfold hexOf; simp
theorem hex_open : (hexOf nd 123).isSome = false := by unfold hexOf; simp

theorem takeWhile_digits {cs s : Text} (h : ∀ c ∈ cs, (hexOf nd c).isSome = true) :
    (cs ++ 125 :: s).takeWhile (fun c => (hexOf nd c).isSome) = cs ∧ (cs ++ 125 :: s).dropWhile (fun c => (hexOf nd c).isSome) = 125 :: s := by
  induction cs with
  | nil =>
    show List.takeWhile _ (125 :: s) = [] ∧ List.dropWhile _ (125 :: s) = _
    rw [List.takeWhile_cons, List.dropWhile_cons, hex_brace]
    exact ⟨rfl, rfl⟩
  | cons c cs ih =>
    have ih := ih (fun d hd => h d (.tail _ hd))
    show List.takeWhile _ (c :: (cs ++ 125 :: s)) = _ ∧ List.dropWhile _ (c :: (cs ++ 125 :: s)) = _
    rw [List.takeWhile_cons, List.dropWhile_cons, h c (.head _), if_pos rfl, if_pos rfl, ih.1, ih.2]
    exact ⟨rfl, rfl⟩

theorem four_sound {cs : Text} {v n : Nat} (h : four nd cs = some (v, n)) : ∃ e s, 92 :: 117 :: cs = e ++ s ∧ Escape nd e v ∧ n = e.length := by
  unfold four at h
  split at h
  · next hc =>
    injection h with h
    injection h with h1 h2
    refine ⟨92 :: 117 :: cs.take 4, cs.drop 4, ?_, ?_, ?_⟩
    · rw [List.cons_append, List.cons_append, List.take_append_drop]
    · rw [← h1]
      exact .four (numeral_of 3 hc.1 (List.all_eq_true.1 hc.2)) hc.1
    · rw [List.length_cons, List.length_cons, hc.1, ← h2]
  · exact nomatch h

theorem four_complete {cs s : Text} {v : Nat} (hn : Numeral nd cs v) (hl : cs.length = 4) : four nd (cs ++ s) = some (v, 6) := by
  obtain ⟨_, h2, h3⟩ := numeral_spec hn
  unfold four
  rw [show (cs ++ s).take 4 = cs by rw [← hl]; exact List.take_left, if_pos ⟨hl, List.all_eq_true.2 h2⟩, h3]

theorem matchAt_sound {t : Text} {v n : Nat} (h : matchAt nd t = some (v, n)) : ∃ e s, t = e ++ s ∧ Escape nd e v ∧ n = e.length := by
  unfold matchAt at h
  split at h
  · next cs =>
    split at h
    · next hc =>
      injection h with h
      injection h with h1 h2
      obtain ⟨s, hs⟩ : ∃ s, cs.dropWhile (fun c => (hexOf nd c).isSome) = 125 :: s := by
        cases hd : cs.dropWhile (fun c => (hexOf nd c).isSome) with
        | nil => rw [hd] at hc; exact nomatch hc.2
        | cons a s => rw [hd] at hc; have := Option.some.inj hc.2; exact ⟨s, by rw [this]⟩
      refine ⟨92 :: 117 :: 123 :: (cs.takeWhile (fun c => (hexOf nd c).isSome) ++ [125]), s, ?_, ?_, ?_⟩
      · rw [List.cons_append, List.cons_append, List.cons_append, List.append_assoc, List.singleton_append, ← hs, List.takeWhile_append_dropWhile]
      · rw [← h1]
        refine .braces (numeral_of ((cs.takeWhile (fun c => (hexOf nd c).isSome)).length - 1) ?_ ?_)
        · have := List.length_pos_iff.2 hc.1
          omega
        · exact fun c hcm => List.all_eq_true.1 List.all_takeWhile c hcm
      · rw [← h2]; simp
    · exact four_sound h
  · exact four_sound h
  · exact nomatch h

theorem matchAt_complete {e s : Text} {v : Nat} (h : Escape nd e v) : matchAt nd (e ++ s) = some (v, e.length) := by
  cases h with
  | @braces cs v hn =>
    obtain ⟨h1, h2, h3⟩ := numeral_spec hn
    obtain ⟨t1, t2⟩ := takeWhile_digits (s := s) h2
    rw [List.cons_append, List.cons_append, List.cons_append, List.append_assoc, List.singleton_append, matchAt, t1, t2, if_pos ⟨h1, rfl⟩, h3]
    simp
  | @four cs v hn hl =>
    rw [List.cons_append, List.cons_append]
    have hf := four_complete (s := s) hn hl
    have hlen : (92 :: 117 :: cs).length = 6 := by rw [List.length_cons, List.length_cons, hl]
    rw [hlen]
    cases cs with
    | nil => exact nomatch hl
    | cons c cs =>
      have hc := (numeral_spec hn).2.1 c (.head _)
      have hne : c ≠ 123 := by
        rintro rfl
        rw [hex_open] at hc
        exact nomatch hc
      rw [List.cons_append] at hf ⊢
      rw [matchAt]
      · exact hf
      · intro cs' h
        injection h with h _
        exact hne h

theorem sub_skip (k : Nat) : ∀ (e s : Text), e.length = k → sub nd k (e ++ s) = sub nd 0 s := by
  induction k with
  | zero => intro e s h; rw [List.length_eq_zero_iff.1 h]; rfl
  | succ k ih =>
    intro e s h
    cases e with
    | nil => exact nomatch h
    | cons c e => rw [List.cons_append, sub]; exact ih e s (Nat.succ.inj h)

theorem escape_ne {e : Text} {v : Nat} (h : Escape nd e v) : ∃ c r, e = c :: r ∧ c = 92 := by
  cases h <;> exact ⟨_, _, rfl, rfl⟩

theorem sub_escape {e s : Text} {v : Nat} (h : Escape nd e v) : sub nd 0 (e ++ s) = if v < 1114112 then (sub nd 0 s).map (v :: ·) else none := by
  have hm := matchAt_complete (s := s) h
  obtain ⟨c, r, rfl, -⟩ := escape_ne h
  rw [List.cons_append] at hm ⊢
  rw [sub, hm]
  dsimp only
  rw [List.length_cons, Nat.add_sub_cancel, sub_skip r.length r s rfl]

theorem sub_sound : ∀ (n : Nat) (s t : Text), s.length ≤ n → sub nd 0 s = some t → Means nd s t
  | _, [], t, _, h => by
    rw [sub] at h
    injection h with h
    rw [← h]
    exact .nil
  | 0, c :: s, t, hl, _ => absurd hl (by simp)
  | n + 1, c :: s, t, hl, h => by
    cases hm : matchAt nd (c :: s) with
    | none =>
      rw [sub, hm] at h
      obtain ⟨t', h', rfl⟩ := Option.map_eq_some_iff.1 h
      refine .char (fun e v he hp => ?_) (sub_sound n s t' (by simpa using hl) h')
      obtain ⟨r, hr⟩ := hp
      rw [← hr, matchAt_complete he] at hm
      exact nomatch hm
    | some p =>
      obtain ⟨v, k⟩ := p
      obtain ⟨e, s', hs, he, -⟩ := matchAt_sound hm
      rw [hs, sub_escape he] at h
      split at h
      · next hv =>
        obtain ⟨t', h', rfl⟩ := Option.map_eq_some_iff.1 h
        rw [hs]
        obtain ⟨a, r, rfl, -⟩ := escape_ne he
        refine .escape he (by omega) (sub_sound n s' t' ?_ h')
        have := congrArg List.length hs
        rw [List.length_append, List.length_cons, List.length_cons] at this
        rw [List.length_cons] at hl
        omega
      · exact nomatch h

theorem sub_complete {s t : Text} (h : Means nd s t) : sub nd 0 s = some t := by
  induction h with
  | nil => rw [sub]
  | escape he hv _ ih => rw [sub_escape he, if_pos (by omega), ih]; rfl
  | @char c s t hn _ ih =>
    have hm : matchAt nd (c :: s) = none := by
      cases hm : matchAt nd (c :: s) with
      | none => rfl
      | some p =>
        obtain ⟨e, s', hs, he, -⟩ := matchAt_sound (v := p.1) (n := p.2) hm
        exact absurd ⟨s', hs.symm⟩ (hn e _ he)
    rw [sub, hm]
    dsimp only
    rw [ih]; rfl

theorem means_plain : ∀ {s : Text}, 92 ∉ s → Means nd s s
  | [], _ => .nil
  | c :: s, h => by
    refine .char (fun e v he hp => ?_) (means_plain (fun hc => h (.tail _ hc)))
    obtain ⟨a, r, rfl, rfl⟩ := escape_ne he
    obtain ⟨x, hx⟩ := hp
    injection hx with hx _
    exact h (by rw [← hx]; exact .head _)

/-- **C98.**  The text that is given is the one that is meant: each escape sequence is replaced by its code point, and all else is kept. -/
theorem c98_meaning (s t : Text) : replaceEscapes nd s = some t ↔ Means nd s t := by
  unfold replaceEscapes
  by_cases h : 92 ∈ s
  · rw [if_pos h]
    exact ⟨sub_sound s.length s t (Nat.le_refl _), sub_complete⟩
  · rw [if_neg h]
    have hm := means_plain (nd := nd) h
    exact ⟨fun e => Option.some.inj e ▸ hm, fun e => by rw [← sub_complete hm]; exact sub_complete e⟩

/-- **C98.**  A text means at most one text. -/
theorem c98_unique {s t t' : Text} (h : Means nd s t) (h' : Means nd s t') : t = t' :=
  Option.some.inj (((c98_meaning s t).2 h).symm.trans ((c98_meaning s t').2 h'))

/-- **C98.**  Two names mean the same, however their characters are escaped: if each character of a name without a backslash is written as itself or as an escape sequence for it, the name comes out. -/
theorem c98_spelling (parts : List (Text × Nat)) (h : ∀ p ∈ parts, (p.1 = [p.2] ∧ p.2 ≠ 92) ∨ (Escape nd p.1 p.2 ∧ p.2 ≤ 0x10FFFF)) :
    replaceEscapes nd (parts.map Prod.fst).flatten = some (parts.map Prod.snd) := by
  rw [c98_meaning]
  induction parts with
  | nil => exact .nil
  | cons p parts ih =>
    have ih := ih (fun q hq => h q (.tail _ hq))
    rw [List.map_cons, List.flatten_cons, List.map_cons]
    rcases h p (.head _) with ⟨h1, h2⟩ | ⟨h1, h2⟩
    · rw [h1]
      refine .char (fun e v he hp => ?_) ih
      obtain ⟨a, r, rfl, rfl⟩ := escape_ne he
      obtain ⟨x, hx⟩ := hp
      injection hx with hx _
      exact h2 hx.symm
    · exact .escape h1 h2 ih

/-- **C98.**  There is an exception just if the text has no meaning. -/
theorem c98_exception (s : Text) : replaceEscapes nd s = none ↔ ¬ ∃ t, Means nd s t := by
  constructor
  · rintro h ⟨t, ht⟩
    rw [(c98_meaning s t).2 ht] at h
    exact nomatch h
  · intro h
    cases hr : replaceEscapes nd s with
    | none => rfl
    | some t => exact absurd ⟨t, (c98_meaning s t).1 hr⟩ h

/-- An escape sequence whose number is too large raises an exception, whatever comes after it. -/
theorem c98_too_large {e s : Text} {v : Nat} (h : Escape nd e v) (hv : 0x10FFFF < v) : replaceEscapes nd (e ++ s) = none := by
  unfold replaceEscapes
  obtain ⟨c, r, rfl, rfl⟩ := escape_ne h
  rw [if_pos (by simp), sub_escape h, if_neg (by omega)]

/-! ## Examples -/

def text (s : String) : Text := s.toList.map Char.toNat
/-- The digits of one more script. -/
def nd0 (c : Nat) : Option Nat := if 0x660 ≤ c ∧ c ≤ 0x669 then some (c - 0x660) else none

example : replaceEscapes nd0 (text "\\u0061b\\u{1F600}\\u{63}") = some (text "ab😀c") := by decide +kernel
/-- What only looks like an escape sequence is kept. -/
example : replaceEscapes nd0 (text "a\\u{}\\u12\\x") = some (text "a\\u{}\\u12\\x") := by decide +kernel
/-- Two surrogates remain two code points. -/
example : replaceEscapes nd0 (text "\\uD83D\\uDE00") = some [0xD83D, 0xDE00] := by decide +kernel
example : replaceEscapes nd0 (text "\\u{110000}") = none := by decide +kernel
/-- Digits of other scripts are taken for digits, though the language has only those of ASCII. -/
example : replaceEscapes nd0 (text "\\u{٦١}") = some (text "a") := by decide +kernel
example : Escape nd0 (text "\\u{61}") 0x61 := .braces (.more (.one (.decimal 6 (by decide))) (.decimal 1 (by decide)))
example : replaceEscapes nd0 ([(text "a", 0x61), (text "\\u{61}", 0x61)].map Prod.fst).flatten = some [0x61, 0x61] := by decide +kernel

end Verif.Unesc
