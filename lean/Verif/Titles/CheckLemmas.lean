import Verif.Titles.IdLemmas
/-!
# Lemmas about the checks of titles
-/
namespace Verif.Titles
open Verif.Sections

theorem findPos_some {p : Str → Bool} : ∀ {s : Str} {i : Nat}, findPos p s = some i ↔ i ≤ s.length ∧ p (s.drop i) = true ∧ ∀ j, j < i → p (s.drop j) = false
  | [], i => by
    rw [findPos]
    by_cases h : p [] = true
    · rw [if_pos h]
      constructor
      · intro e; cases e; exact ⟨Nat.le_refl _, h, fun j hj => absurd hj (by omega)⟩
      · rintro ⟨e, _⟩
        simp only [List.length_nil, Nat.le_zero] at e
        rw [e]
    · rw [if_neg h]
      constructor
      · intro e; cases e
      · rintro ⟨e, e2, _⟩
        rw [List.drop_nil] at e2
        exact absurd e2 h
  | c :: cs, i => by
    rw [findPos]
    by_cases h : p (c :: cs) = true
    · rw [if_pos h]
      constructor
      · intro e; cases e; exact ⟨Nat.zero_le _, h, fun j hj => absurd hj (by omega)⟩
      · rintro ⟨_, _, e⟩
        cases i with
        | zero => rfl
        | succ i =>
          have := e 0 (by omega)
          rw [List.drop_zero, h] at this; cases this
    · rw [if_neg h]
      cases i with
      | zero =>
        constructor
        · intro e
          cases hf : findPos p cs with
          | none => rw [hf] at e; cases e
          | some k => rw [hf] at e; simp at e
        · rintro ⟨_, e, _⟩; exact absurd e h
      | succ i =>
        have ih := findPos_some (p := p) (s := cs) (i := i)
        have e1 : (findPos p cs).map (· + 1) = some (i + 1) ↔ findPos p cs = some i := by
          cases findPos p cs <;> simp
        rw [e1, ih, List.length_cons, List.drop_succ_cons]
        constructor
        · rintro ⟨h1, h2, h3⟩
          refine ⟨by omega, h2, fun j hj => ?_⟩
          cases j with
          | zero => simpa using h
          | succ j => rw [List.drop_succ_cons]; exact h3 j (by omega)
        · rintro ⟨h1, h2, h3⟩
          exact ⟨by omega, h2, fun j hj => by have := h3 (j + 1) (by omega); rwa [List.drop_succ_cons] at this⟩

theorem findPos_isSome {p : Str → Bool} {s : Str} : (findPos p s).isSome = true ↔ ∃ i, i ≤ s.length ∧ p (s.drop i) = true := by
  constructor
  · intro h
    obtain ⟨i, hi⟩ := Option.isSome_iff_exists.1 h
    exact ⟨i, (findPos_some.1 hi).1, (findPos_some.1 hi).2.1⟩
  · intro ⟨i, hi⟩
    have : ∃ i, (i ≤ s.length ∧ p (s.drop i) = true) ∧ ∀ j, j < i → ¬ (j ≤ s.length ∧ p (s.drop j) = true) := by
      induction i using Nat.strongRecOn with
      | _ i ih =>
        by_cases h : ∃ j, j < i ∧ j ≤ s.length ∧ p (s.drop j) = true
        · obtain ⟨j, h1, h2⟩ := h; exact ih j h1 h2
        · exact ⟨i, hi, fun j hj hh => h ⟨j, hj, hh⟩⟩
    obtain ⟨i, h1, h2⟩ := this
    rw [findPos_some.2 ⟨h1.1, h1.2, fun j hj => by simpa using fun hp => h2 j hj ⟨by omega, hp⟩⟩]
    rfl

theorem drop_form {s : Str} {i : Nat} (h : i ≤ s.length) : ∃ a, s = a ++ s.drop i ∧ a.length = i := ⟨s.take i, (List.take_append_drop i s).symm, by simp [h]⟩

/-- Places where something is found, for a property that holds only of nonempty lists. -/
theorem found_iff {p : Str → Bool} {P : Nat → Prop} {s : Str} (h : ∀ i, P i ↔ i ≤ s.length ∧ p (s.drop i) = true) (i : Nat) : findPos p s = some i ↔ First P i := by
  rw [findPos_some]
  constructor
  · rintro ⟨h1, h2, h3⟩
    refine ⟨(h i).2 ⟨h1, h2⟩, fun j hj => Nat.le_of_not_lt fun hlt => ?_⟩
    have := h3 j hlt
    rw [((h j).1 hj).2] at this
    cases this
  · rintro ⟨h1, h2⟩
    obtain ⟨h3, h4⟩ := (h i).1 h1
    refine ⟨h3, h4, fun j hj => ?_⟩
    cases hp : p (s.drop j) with
    | false => rfl
    | true => have := h2 j ((h j).2 ⟨by omega, hp⟩); omega

/-! ### Words -/

theorem isWord_false {c : Char} : isWord c = false ↔ ¬ (c.isAlphanum = true ∨ c = '_') := by
  rw [← isWord_iff, Bool.not_eq_true]

theorem lowWord_spec (t : Str) (k : Nat) (w : Str) : LowWord t (k + 1) w ↔ k ≤ t.length ∧ lowWord (t.drop k) = true ∧ w = (t.drop (k + 1)).takeWhile isWord := by
  constructor
  · rintro ⟨a, c, d, r, b, rfl, hk, rfl, h1, h2, h3, h4⟩
    obtain rfl : a.length = k := by omega
    have e : a ++ ' ' :: (c :: d :: r) ++ b = a ++ ' ' :: (c :: d :: (r ++ b)) := by simp
    have hd : (a ++ ' ' :: (c :: d :: r) ++ b).drop a.length = ' ' :: c :: d :: (r ++ b) := by rw [e, List.drop_left]
    have hd' : (a ++ ' ' :: (c :: d :: r) ++ b).drop (a.length + 1) = (c :: d :: r) ++ b := by rw [← List.drop_drop, hd]; rfl
    refine ⟨by simp, ?_, ?_⟩
    · rw [hd, lowWord, h1, (isWord_iff d).2 (h2 d (by simp))]
      simp only [Bool.true_and, Bool.not_eq_true']
      refine List.any_eq_false.2 fun x hx => ?_
      rw [List.isPrefixOf_iff_prefix]
      rintro ⟨y, hy⟩
      have key : ∀ z ∈ ["an", "for", "in", "of", "on", "the", "to", "with"], ∀ y, z.toList ++ y ≠ c :: d :: (r ++ b) := fun z hz y hh => h4 z hz y (by simpa using hh.symm)
      simp only [small, List.mem_cons, List.not_mem_nil, or_false] at hx
      rcases hx with rfl | rfl | rfl | rfl | rfl | rfl | rfl | rfl | rfl
      · exact key "an" (by simp) y hy
      · exact key "an" (by simp) ('d' :: y) (by rw [← hy]; rfl)
      · exact key "for" (by simp) y hy
      · exact key "in" (by simp) y hy
      · exact key "of" (by simp) y hy
      · exact key "on" (by simp) y hy
      · exact key "the" (by simp) y hy
      · exact key "to" (by simp) y hy
      · exact key "with" (by simp) y hy
    · rw [hd', (takeWhile_all (p := isWord) (w := c :: d :: r) (r := b) ?_ ?_).1]
      · intro x hx
        rcases List.mem_cons.1 hx with rfl | hx
        · refine alpha_word ?_
          simp [Char.isAlpha, h1]
        · exact (isWord_iff x).2 (h2 x hx)
      · intro x hx
        cases b with
        | nil => cases hx
        | cons y b => cases hx; exact isWord_false.2 (h3 x b rfl)
  · rintro ⟨hk, hl, rfl⟩
    obtain ⟨a, ha, hal⟩ := drop_form hk
    rw [← List.drop_drop]
    generalize hg : t.drop k = u at hl ha
    unfold lowWord at hl
    split at hl
    · rename_i c d cs
      rw [Bool.and_eq_true, Bool.and_eq_true, Bool.not_eq_true'] at hl
      obtain ⟨⟨h1, h2⟩, h3⟩ := hl
      have hc : isWord c = true := alpha_word (by simp [Char.isAlpha, h1])
      have e0 : (' ' :: c :: d :: cs).drop 1 = c :: d :: cs := rfl
      rw [e0, List.takeWhile_cons, if_pos hc, List.takeWhile_cons, if_pos h2]
      obtain ⟨t1, t2, t3⟩ := take_drop_while (p := isWord) cs
      refine ⟨a, c, d, cs.takeWhile isWord, cs.dropWhile isWord, ?_, by omega, rfl, h1, fun x hx => ?_, fun x y hb => ?_, fun x hx y hy => ?_⟩
      · rw [ha]
        have : (c :: d :: cs.takeWhile isWord) ++ cs.dropWhile isWord = c :: d :: cs := by rw [List.cons_append, List.cons_append, ← t1]
        rw [List.append_assoc, List.cons_append, this]
      · rcases List.mem_cons.1 hx with rfl | hx
        · exact (isWord_iff x).1 h2
        · exact (isWord_iff x).1 (t2 x hx)
      · exact isWord_false.1 (t3 x (by rw [hb]; rfl))
      · rw [List.cons_append, List.cons_append, ← t1] at hy
        have hm : x ∈ small := by
          revert hx
          simp only [small, List.mem_cons, List.not_mem_nil, or_false]
          rintro (h | h | h | h | h | h | h | h) <;> simp [h]
        have := List.any_eq_false.1 h3 x hm
        rw [List.isPrefixOf_iff_prefix] at this
        exact this ⟨y, hy.symm⟩
    · cases hl

theorem lowWord_pos {t : Str} {i : Nat} {w : Str} (h : LowWord t i w) : ∃ k, i = k + 1 := by
  obtain ⟨a, _, _, _, _, _, h, _⟩ := h
  exact ⟨a.length, h.symm⟩

/-! ### Symbols -/

theorem dropWhile_sp (n : Nat) (b : Str) : (List.replicate n ' ' ++ '@' :: b).dropWhile (· == ' ') = '@' :: b := by
  induction n with
  | zero => rfl
  | succ n ih => rw [List.replicate_succ, List.cons_append, List.dropWhile_cons]; simpa using ih

theorem takeWhile_sp (s : Str) : s.takeWhile (· == ' ') = List.replicate (s.takeWhile (· == ' ')).length ' ' := by
  refine List.eq_replicate_iff.2 ⟨rfl, fun c hc => ?_⟩
  have := (take_drop_while (p := (· == ' ')) s).2.1 c hc
  simpa using this

theorem atSign_spec (t : Str) (i : Nat) : AtSign t i ↔ i ≤ t.length ∧ atSign (t.drop i) = true := by
  constructor
  · rintro ⟨a, n, b, rfl, rfl⟩
    refine ⟨by simp, ?_⟩
    have : a ++ '[' :: List.replicate n ' ' ++ '@' :: b = a ++ ('[' :: (List.replicate n ' ' ++ '@' :: b)) := by simp
    rw [this, List.drop_left, atSign, dropWhile_sp]; rfl
  · rintro ⟨h, hp⟩
    obtain ⟨a, ha, hal⟩ := drop_form h
    generalize t.drop i = u at hp ha
    unfold atSign at hp
    split at hp
    · rename_i cs
      split at hp
      · rename_i b e
        refine ⟨a, (cs.takeWhile (· == ' ')).length, b, ?_, hal⟩
        rw [ha, List.append_assoc, List.cons_append, ← e, ← takeWhile_sp cs, List.takeWhile_append_dropWhile]
      · cases hp
    · cases hp

theorem symbolHere_spec (s : Str) : symbolHere s = true ↔ ∃ w b, s = "[ %Symbol.".toList ++ w ++ "% ]".toList ++ b ∧ w ≠ [] ∧ (∀ c ∈ w, c.isAlphanum = true ∨ c = '_') ∧ (b = [] ∨ ∃ b', b = ' ' :: b') := by
  constructor
  · intro h
    unfold symbolHere at h
    split at h
    · rename_i cs
      obtain ⟨t1, t2, t3⟩ := take_drop_while (p := isWord) cs
      split at h
      · rename_i x y r e1 e2
        rw [e1] at t1 t2
        rw [e2] at t1
        refine ⟨x :: y, r, by rw [t1]; simp, by simp, fun c hc => (isWord_iff c).1 (t2 c hc), ?_⟩
        split at h
        · exact .inl rfl
        · rename_i c r
          rw [decide_eq_true_eq] at h
          exact .inr ⟨r, by rw [h]⟩
      · cases h
    · cases h
  · rintro ⟨w, b, rfl, hw, hc, hb⟩
    obtain ⟨e1, e2⟩ := takeWhile_all (p := isWord) (w := w) (r := "% ]".toList ++ b) (fun c h => (isWord_iff c).2 (hc c h)) (by intro c h; cases h; decide)
    have e : "[ %Symbol.".toList ++ w ++ "% ]".toList ++ b = '[' :: ' ' :: '%' :: 'S' :: 'y' :: 'm' :: 'b' :: 'o' :: 'l' :: '.' :: (w ++ ("% ]".toList ++ b)) := by simp
    rw [e, symbolHere, e1, e2]
    cases w with
    | nil => exact absurd rfl hw
    | cons x y =>
      rcases hb with rfl | ⟨b', rfl⟩
      · rfl
      · rfl

theorem symbolRef_spec (t : Str) : symbolRef t = true ↔ SymbolRef t := by
  have e : symbolRef t = (symbolHere t || (findPos afterSpace t).isSome) := rfl
  rw [e, Bool.or_eq_true, findPos_isSome, symbolHere_spec]
  constructor
  · rintro (⟨w, b, h1, h2, h3, h4⟩ | ⟨i, h1, h2⟩)
    · exact ⟨[], w, b, by simpa using h1, h2, h3, .inl rfl, h4⟩
    · obtain ⟨a, ha, hal⟩ := drop_form h1
      generalize t.drop i = u at h2 ha
      unfold afterSpace at h2
      split at h2
      · rename_i cs
        obtain ⟨w, b, g1, g2, g3, g4⟩ := (symbolHere_spec cs).1 h2
        exact ⟨a ++ [' '], w, b, by rw [ha, g1]; simp, g2, g3, .inr ⟨a, rfl⟩, g4⟩
      · cases h2
  · rintro ⟨a, w, b, rfl, h2, h3, h4, h5⟩
    rcases h4 with rfl | ⟨a', rfl⟩
    · exact .inl ⟨w, b, by simp, h2, h3, h5⟩
    · refine .inr ⟨a'.length, by simp, ?_⟩
      have : a' ++ [' '] ++ "[ %Symbol.".toList ++ w ++ "% ]".toList ++ b = a' ++ (' ' :: ("[ %Symbol.".toList ++ w ++ "% ]".toList ++ b)) := by simp
      rw [this, List.drop_left, afterSpace]
      exact (symbolHere_spec _).2 ⟨w, b, rfl, h2, h3, h5⟩

/-! ### Parentheses -/

theorem closes_spec (s : Str) : closes s = true ↔ ∃ m, s = m ++ " )".toList ∧ (m = [] ∨ ∃ x, x ≠ [] ∧ m = ' ' :: x) := by
  constructor
  · intro h
    unfold closes at h
    split at h
    · rename_i m e
      have e' : s = m.reverse ++ " )".toList := by
        have := congrArg List.reverse e
        rw [List.reverse_reverse] at this
        rw [this]; simp
      refine ⟨m.reverse, e', ?_⟩
      rw [Bool.or_eq_true, Bool.and_eq_true, decide_eq_true_eq, decide_eq_true_eq, decide_eq_true_eq] at h
      rcases h with rfl | ⟨h1, h2⟩
      · exact .inl rfl
      · right
        cases hm : m.reverse with
        | nil =>
          have := congrArg List.length hm
          simp at this
          rw [this] at h1; simp at h1
        | cons c x =>
          have hm' := congrArg List.reverse hm
          rw [List.reverse_reverse, List.reverse_cons] at hm'
          rw [hm'] at h1 h2
          simp at h2 h1
          exact ⟨x, fun hx => by rw [hx] at h1; simp at h1, by rw [h2]⟩
    · cases h
  · rintro ⟨m, rfl, h⟩
    have e : (m ++ " )".toList).reverse = ')' :: ' ' :: m.reverse := by simp
    rw [closes, e]
    simp only
    rcases h with rfl | ⟨x, hx, rfl⟩
    · rfl
    · cases x with
      | nil => exact absurd rfl hx
      | cons y x => simp

theorem listHere_spec (s : Str) : listHere s = true ↔ ∃ m b, s = " (".toList ++ m ++ " )".toList ++ b ∧ (m = [] ∨ ∃ x, x ≠ [] ∧ m = ' ' :: x) ∧ (b = [] ∨ b = " Concrete Method".toList) := by
  have hlen : " Concrete Method".toList.length = 16 := by decide +kernel
  constructor
  · intro h
    unfold listHere at h
    split at h
    · rename_i r
      rw [Bool.or_eq_true, Bool.and_eq_true, Bool.and_eq_true, decide_eq_true_eq, List.isSuffixOf_iff_suffix] at h
      rcases h with h | ⟨⟨⟨u, h1⟩, h2⟩, h3⟩
      · obtain ⟨m, rfl, hm⟩ := (closes_spec r).1 h
        exact ⟨m, [], by simp, hm, .inl rfl⟩
      · obtain ⟨m, e, hm⟩ := (closes_spec _).1 h2
        refine ⟨m, " Concrete Method".toList, ?_, hm, .inr rfl⟩
        have hu : u.length + 15 = r.length := by rw [← h1, List.length_append]; rfl
        have hge : 16 ≤ r.length := by
          apply Classical.byContradiction
          intro hlt
          have hu0 : u = [] := List.length_eq_zero_iff.1 (by omega)
          subst hu0
          rw [← h1] at h3
          revert h3; decide +kernel
        have hd : r.drop (r.length - 16) = " Concrete Method".toList := by
          have h4 : r.drop (r.length - 16) = ' ' :: r.drop (r.length - 16 + 1) := by
            obtain ⟨hlt, hg⟩ := List.getElem?_eq_some_iff.1 h3
            rw [← hg]
            exact List.drop_eq_getElem_cons hlt
          rw [h4]
          have h5 : r.length - 16 + 1 = u.length := by omega
          rw [h5, ← h1, List.drop_left]
          rfl
        have := (List.take_append_drop (r.length - 16) r).symm
        rw [hd, e] at this
        rw [this]
        simp
    · cases h
  · rintro ⟨m, b, rfl, hm, hb⟩
    have e : " (".toList ++ m ++ " )".toList ++ b = ' ' :: '(' :: (m ++ " )".toList ++ b) := by simp
    rw [e, listHere, Bool.or_eq_true]
    rcases hb with rfl | rfl
    · left
      rw [List.append_nil]
      exact (closes_spec _).2 ⟨m, rfl, hm⟩
    · right
      have hl : (m ++ " )".toList ++ " Concrete Method".toList).length - 16 = (m ++ " )".toList).length := by rw [List.length_append, hlen]; omega
      rw [hl, List.take_left, Bool.and_eq_true, Bool.and_eq_true, decide_eq_true_eq, List.isSuffixOf_iff_suffix]
      refine ⟨⟨⟨m ++ " )".toList ++ [' '], by simp⟩, (closes_spec _).2 ⟨m, rfl, hm⟩⟩, ?_⟩
      rw [List.getElem?_append_right (Nat.le_refl _)]
      simp

theorem endsWithList_spec (t : Str) : (findPos listHere t).isSome = true ↔ EndsWithList t := by
  rw [findPos_isSome]
  constructor
  · rintro ⟨i, h1, h2⟩
    obtain ⟨a, ha, _⟩ := drop_form h1
    obtain ⟨m, b, e, hm, hb⟩ := (listHere_spec _).1 h2
    exact ⟨a, m, b, by rw [e] at ha; rw [ha]; simp, hm, hb⟩
  · rintro ⟨a, m, b, rfl, hm, hb⟩
    refine ⟨a.length, by simp, ?_⟩
    have : a ++ " (".toList ++ m ++ " )".toList ++ b = a ++ (" (".toList ++ m ++ " )".toList ++ b) := by simp
    rw [this, List.drop_left]
    exact (listHere_spec _).2 ⟨m, b, rfl, hm, hb⟩

/-! ### The order -/

theorem propKinds_iff (k t : Str) : k ∈ propKinds.map String.toList ↔ IsProp (k, t) := Iff.rfl

theorem not_le_iff {a b : Str} : a ≤ b ↔ ¬ b < a := Iff.rfl

/-- The last one for a property before a place, or what was before. -/
def Last (key : Str → Str) (prev : Option (Str × Str)) (cs : List (Str × Str)) (i : Nat) (kt : Str × Str) : Prop :=
  (∃ (j : Nat) (d : Str × Str), j < i ∧ cs[j]? = some d ∧ IsProp d ∧ (∀ (k : Nat) e, j < k → k < i → cs[k]? = some e → ¬ IsProp e) ∧ kt = (key d.2, d.2)) ∨
  (prev = some kt ∧ ∀ (k : Nat) e, k < i → cs[k]? = some e → ¬ IsProp e)

theorem last_zero {key : Str → Str} {prev : Option (Str × Str)} {cs : List (Str × Str)} {kt : Str × Str} : Last key prev cs 0 kt ↔ prev = some kt := by
  constructor
  · rintro (⟨j, d, h, _⟩ | ⟨h, _⟩)
    · omega
    · exact h
  · intro h
    exact .inr ⟨h, fun k e hk => absurd hk (by omega)⟩

theorem last_succ {key : Str → Str} {prev : Option (Str × Str)} {c : Str × Str} {cs : List (Str × Str)} {i : Nat} {kt : Str × Str} :
    Last key prev (c :: cs) (i + 1) kt ↔ Last key (if IsProp c then some (key c.2, c.2) else prev) cs i kt := by
  constructor
  · rintro (⟨j, d, h1, h2, h3, h4, h5⟩ | ⟨h1, h2⟩)
    · cases j with
      | zero =>
        cases h2
        refine .inr ⟨by rw [if_pos h3, h5], fun k e hk he => h4 (k + 1) e (by omega) (by omega) he⟩
      | succ j => exact .inl ⟨j, d, by omega, h2, h3, fun k e hk hk' he => h4 (k + 1) e (by omega) (by omega) he, h5⟩
    · refine .inr ⟨by rw [if_neg (h2 0 c (by omega) rfl)]; exact h1, fun k e hk he => h2 (k + 1) e (by omega) he⟩
  · rintro (⟨j, d, h1, h2, h3, h4, h5⟩ | ⟨h1, h2⟩)
    · refine .inl ⟨j + 1, d, by omega, h2, h3, fun k e hk hk' he => ?_, h5⟩
      cases k with
      | zero => omega
      | succ k => exact h4 k e (by omega) (by omega) he
    · by_cases hc : IsProp c
      · rw [if_pos hc] at h1
        cases h1
        refine .inl ⟨0, c, by omega, rfl, hc, fun k e hk hk' he => ?_, rfl⟩
        cases k with
        | zero => omega
        | succ k => exact h2 k e (by omega) he
      · rw [if_neg hc] at h1
        refine .inr ⟨h1, fun k e hk he => ?_⟩
        cases k with
        | zero => cases he; exact hc
        | succ k => exact h2 k e (by omega) he

theorem orderLoop_spec (title : Str) : ∀ (cs : List (Str × Str)) (prev : Option (Str × Str)) (i : Nat),
    (orderLoop title prev i cs = none ↔ ∃ c ∈ cs, ¬ IsProp c ∧ ¬ Between title c) ∧
    ∀ ms, orderLoop title prev i cs = some ms →
      (∀ n b, (n, b) ∈ ms ↔ ∃ (j : Nat) (c : Str × Str), n = i + j ∧ cs[j]? = some c ∧ IsProp c ∧ ∃ k,
        Last (sortKey (title = "Properties of the RegExp Prototype Object".toList)) prev cs j (k, b) ∧ ¬ k < sortKey (title = "Properties of the RegExp Prototype Object".toList) c.2) ∧
      (ms = [] ↔ (((match prev with | some p => [p.1] | none => []) ++ (cs.filter (fun c => IsProp c)).map (fun c => sortKey (title = "Properties of the RegExp Prototype Object".toList) c.2)).Pairwise (· < ·)))
  | [], prev, i => by
    refine ⟨⟨fun h => (by cases h), fun ⟨c, h, _⟩ => (by cases h)⟩, fun ms h => ?_⟩
    cases h
    refine ⟨fun n b => ⟨fun h => (by cases h), fun ⟨j, c, _, h, _⟩ => (by simp at h)⟩, ⟨fun _ => ?_, fun _ => rfl⟩⟩
    cases prev <;> simp
  | (k, t) :: cs, prev, i => by
    rw [orderLoop]
    generalize hkey : sortKey (decide (title = "Properties of the RegExp Prototype Object".toList)) = key
    by_cases hk : k ∈ propKinds.map String.toList
    · rw [if_pos hk]
      have hp : IsProp (k, t) := hk
      obtain ⟨ih1, ih2⟩ := orderLoop_spec title cs (some (key t, t)) (i + 1)
      rw [hkey] at ih2
      dsimp only
      cases hl : orderLoop title (some (key t, t)) (i + 1) cs with
      | none =>
        refine ⟨⟨fun _ => ?_, fun _ => rfl⟩, fun ms h => (by cases h)⟩
        obtain ⟨c, h1, h2⟩ := ih1.1 hl
        exact ⟨c, List.mem_cons_of_mem _ h1, h2⟩
      | some r =>
        refine ⟨⟨fun h => (by cases h), fun ⟨c, h1, h2, h3⟩ => ?_⟩, fun ms h => ?_⟩
        · rcases List.mem_cons.1 h1 with rfl | h1
          · exact absurd hp h2
          · rw [ih1.2 ⟨c, h1, h2, h3⟩] at hl; cases hl
        · cases h
          obtain ⟨g1, g2⟩ := ih2 r hl
          constructor
          · intro n b
            rw [List.mem_append, g1]
            constructor
            · rintro (h | ⟨j, c, h1, h2, h3, k', h4, h5⟩)
              · cases prev with
                | none => cases h
                | some p =>
                  obtain ⟨pk, pt⟩ := p
                  dsimp only at h
                  by_cases hle : key t ≤ pk
                  · rw [if_pos hle] at h
                    simp only [List.mem_singleton, Prod.mk.injEq] at h
                    obtain ⟨rfl, rfl⟩ := h
                    exact ⟨0, (k, t), rfl, rfl, hp, pk, last_zero.2 rfl, hle⟩
                  · rw [if_neg hle] at h; cases h
              · exact ⟨j + 1, c, by omega, h2, h3, k', last_succ.2 (by rw [if_pos hp]; exact h4), h5⟩
            · rintro ⟨j, c, h1, h2, h3, k', h4, h5⟩
              cases j with
              | zero =>
                cases h2
                have := last_zero.1 h4
                subst this
                left
                dsimp only
                rw [if_pos (not_le_iff.2 h5), h1]
                simp
              | succ j =>
                rw [last_succ, if_pos hp] at h4
                exact .inr ⟨j, c, by omega, h2, h3, k', h4, h5⟩
          · rw [List.append_eq_nil_iff, g2, List.filter_cons_of_pos (by simpa using hp), List.map_cons]
            cases prev with
            | none => simp
            | some p =>
              obtain ⟨pk, pt⟩ := p
              dsimp only
              have e : ((if key t ≤ pk then [(i, pt)] else []) = []) ↔ pk < key t := by
                by_cases hle : key t ≤ pk
                · rw [if_pos hle]; exact ⟨fun h => (by cases h), fun h => absurd h hle⟩
                · rw [if_neg hle]; exact ⟨fun _ => Classical.byContradiction fun h => hle h, fun _ => rfl⟩
              rw [e]
              simp only [List.singleton_append]
              constructor
              · rintro ⟨h1, h2⟩
                refine List.pairwise_cons.2 ⟨fun x hx => ?_, h2⟩
                rcases List.mem_cons.1 hx with rfl | hx
                · exact h1
                · exact List.lt_trans h1 ((List.pairwise_cons.1 h2).1 x hx)
              · intro h
                obtain ⟨h1, h2⟩ := List.pairwise_cons.1 h
                exact ⟨h1 _ (List.mem_cons_self ..), h2⟩
    · rw [if_neg hk]
      have hp : ¬ IsProp (k, t) := hk
      have hb : (if title = "URI Handling Functions".toList then k = "abstract_operation".toList else k = "- // properties".toList ∨ k = "catchall".toList) ↔ Between title (k, t) := by
        unfold Between
        by_cases ht : title = "URI Handling Functions".toList
        · rw [if_pos ht]; exact ⟨fun h => .inl ⟨ht, h⟩, fun h => h.elim (·.2) (fun h => absurd ht h.1)⟩
        · rw [if_neg ht]; exact ⟨fun h => .inr ⟨ht, h⟩, fun h => h.elim (fun h => absurd h.1 ht) (·.2)⟩
      by_cases hbt : (if title = "URI Handling Functions".toList then k = "abstract_operation".toList else k = "- // properties".toList ∨ k = "catchall".toList)
      · rw [if_pos hbt]
        obtain ⟨ih1, ih2⟩ := orderLoop_spec title cs prev (i + 1)
        rw [hkey] at ih2
        rw [ih1]
        refine ⟨⟨fun ⟨c, h1, h2⟩ => ⟨c, List.mem_cons_of_mem _ h1, h2⟩, fun ⟨c, h1, h2, h3⟩ => ?_⟩, fun ms h => ?_⟩
        · rcases List.mem_cons.1 h1 with rfl | h1
          · exact absurd (hb.1 hbt) h3
          · exact ⟨c, h1, h2, h3⟩
        · obtain ⟨g1, g2⟩ := ih2 ms h
          refine ⟨fun n b => ?_, ?_⟩
          · rw [g1]
            constructor
            · rintro ⟨j, c, h1, h2, h3, k', h4, h5⟩
              exact ⟨j + 1, c, by omega, h2, h3, k', last_succ.2 (by rw [if_neg hp]; exact h4), h5⟩
            · rintro ⟨j, c, h1, h2, h3, k', h4, h5⟩
              cases j with
              | zero => cases h2; exact absurd h3 hp
              | succ j =>
                rw [last_succ, if_neg hp] at h4
                exact ⟨j, c, by omega, h2, h3, k', h4, h5⟩
          · rw [g2, List.filter_cons_of_neg (by simpa using hp)]
      · rw [if_neg hbt]
        exact ⟨⟨fun _ => ⟨(k, t), List.mem_cons_self .., hp, fun h => hbt (hb.2 h)⟩, fun _ => rfl⟩, fun ms h => (by cases h)⟩

/-! ### Keys -/

theorem replace_none {old new : Str} : ∀ (s : Str), ¬ Part old s → replaceFrom old new 0 s = s
  | [], _ => rfl
  | c :: cs, h => by
    rw [replaceFrom, if_neg, replace_none cs]
    · rintro ⟨a, b, hh⟩; exact h ⟨c :: a, b, by simp [hh]⟩
    · rw [List.isPrefixOf_iff_prefix]
      rintro ⟨b, hb⟩
      exact h ⟨[], b, by simp [hb]⟩

theorem replace_upto {new : Str} {r : Str} : ∀ (p : Str), ¬ Part "int8".toList p →
    replaceFrom "int8".toList new 0 (p ++ 'i' :: r) = p ++ replaceFrom "int8".toList new 0 ('i' :: r)
  | [], _ => rfl
  | c :: cs, h => by
    have h' : ¬ Part "int8".toList cs := by
      rintro ⟨a, b, hh⟩
      exact h ⟨c :: a, b, by simp [hh]⟩
    rw [List.cons_append, replaceFrom, if_neg, replace_upto cs h', List.cons_append]
    rw [List.isPrefixOf_iff_prefix]
    rintro ⟨b, hb⟩
    have e1 : "int8".toList = ['i', 'n', 't', '8'] := rfl
    rw [e1] at hb
    rcases cs with _ | ⟨c2, _ | ⟨c3, _ | ⟨c4, cs⟩⟩⟩ <;> simp only [List.nil_append, List.cons_append, List.cons.injEq] at hb
    · exact absurd hb.2.1 (by decide)
    · exact absurd hb.2.2.1 (by decide)
    · exact absurd hb.2.2.2.1 (by decide)
    · exact h ⟨[], cs, by rw [e1, ← hb.1, ← hb.2.1, ← hb.2.2.1, ← hb.2.2.2.1]; rfl⟩

theorem replace_int8 (r : Str) : replaceFrom "int8".toList "int08".toList 0 ("int8".toList ++ r) = "int08".toList ++ replaceFrom "int8".toList "int08".toList 0 r := by
  show replaceFrom ['i', 'n', 't', '8'] _ 0 ('i' :: 'n' :: 't' :: '8' :: r) = _
  rw [replaceFrom, if_pos (by simp)]
  simp only [List.length_cons, List.length_nil, Nat.zero_add, Nat.reduceAdd, Nat.reduceSub, replaceFrom]
  rfl

theorem replace_int08 (r : Str) : replaceFrom "int8".toList "int08".toList 0 ("int08".toList ++ r) = "int08".toList ++ replaceFrom "int8".toList "int08".toList 0 r := by
  show replaceFrom ['i', 'n', 't', '8'] _ 0 ('i' :: 'n' :: 't' :: '0' :: '8' :: r) = _
  rw [replaceFrom, if_neg (by simp), replaceFrom, if_neg (by simp), replaceFrom, if_neg (by simp), replaceFrom, if_neg (by simp), replaceFrom, if_neg (by simp)]
  rfl

theorem replace_same {s s' : Str} (h : Int8 s s') : replaceFrom "int8".toList "int08".toList 0 (lower s) = replaceFrom "int8".toList "int08".toList 0 (lower s') := by
  induction h with
  | plain _ => rfl
  | @more p x s s' hp hx _ ih =>
    have e1 : lower (p ++ x ++ s) = p.map Char.toLower ++ 'i' :: ("nt8".toList ++ lower s) := by
      simp only [lower, List.map_append, hx]
      simp
    have e2 : lower (p ++ "int08".toList ++ s') = p.map Char.toLower ++ 'i' :: ("nt08".toList ++ lower s') := by
      have : "int08".toList.map Char.toLower = "int08".toList := by decide +kernel
      simp only [lower, List.map_append, this]
      simp
    rw [e1, e2, replace_upto _ hp, replace_upto _ hp]
    have e3 : 'i' :: ("nt8".toList ++ lower s) = "int8".toList ++ lower s := rfl
    have e4 : 'i' :: ("nt08".toList ++ lower s') = "int08".toList ++ lower s' := rfl
    rw [e3, e4, replace_int8, replace_int08, ih]

theorem zz_none : ∀ (s : Str) (b : Bool), ¬ Part "__".toList s → zz b s = s
  | [], b, _ => by cases b <;> rfl
  | c :: cs, b, h => by
    have h' : ¬ Part "__".toList cs := fun ⟨a, b, hh⟩ => h ⟨c :: a, b, by simp [hh]⟩
    rw [zz, zz_none cs _ h']
    intro r _ h1 h2
    subst h1
    exact h ⟨[], r, by simp [h2]⟩

theorem zz_inner : ∀ (s : Str) (b : Bool), ¬ Part ".__".toList s → (b = true → ∀ r, s ≠ '_' :: '_' :: r) → zz b s = s
  | [], b, _, _ => by cases b <;> rfl
  | c :: cs, b, h, hb => by
    have h' : ¬ Part ".__".toList cs := fun ⟨a, b, hh⟩ => h ⟨c :: a, b, by simp [hh]⟩
    rw [zz, zz_inner cs _ h']
    · intro hc r hr
      have : c = '.' := by simpa using hc
      subst this
      exact h ⟨[], r, by simp [hr]⟩
    · intro r hbt h1 h2
      exact hb hbt r (by rw [h1, h2])

theorem zz_upto {r : Str} : ∀ (a : Str) (b : Bool), ¬ Part "__".toList a → zz b (a ++ '.' :: r) = a ++ '.' :: zz true r
  | [], b, _ => by cases b <;> rfl
  | c :: cs, b, h => by
    have h' : ¬ Part "__".toList cs := fun ⟨a, b, hh⟩ => h ⟨c :: a, b, by simp [hh]⟩
    rw [List.cons_append, zz, zz_upto cs _ h', List.cons_append]
    intro u _ h1 h2
    subst h1
    cases cs with
    | nil => cases h2
    | cons d ds =>
      simp only [List.cons_append, List.cons.injEq] at h2
      exact h ⟨[], ds, by simp [h2.1]⟩

theorem symbols_plain (pre : Str) : ∀ (s t : Str), ' ' ∉ s → symbols pre 0 (s ++ t) = s ++ symbols pre 0 t
  | [], t, _ => rfl
  | c :: cs, t, h => by
    have hs : symbolWord (c :: (cs ++ t)) = none := by
      unfold symbolWord
      split
      · rename_i e
        injection e with e _
        exact absurd (by simp [e]) h
      · rfl
    rw [List.cons_append, symbols, hs, symbols_plain pre cs t (fun hh => h (List.mem_cons_of_mem _ hh))]
    rfl

theorem symbols_skip (pre : Str) : ∀ (n : Nat) (u t : Str), u.length = n → symbols pre n (u ++ t) = symbols pre 0 t
  | 0, [], t, _ => rfl
  | n + 1, _ :: u, t, h => by
    rw [List.cons_append, symbols]
    exact symbols_skip pre n u t (by simpa using h)

theorem symbols_symbol (pre w t : Str) (hw : w ≠ []) (hc : ∀ c ∈ w, isWord c = true) : symbols pre 0 (" [ %symbol.".toList ++ w ++ "% ]".toList ++ t) = pre ++ w ++ symbols pre 0 t := by
  obtain ⟨e1, e2⟩ := takeWhile_all (p := isWord) (w := w) (r := "% ]".toList ++ t) hc (by intro c h; cases h; decide)
  have e : " [ %symbol.".toList ++ w ++ "% ]".toList ++ t = ' ' :: ("[ %symbol.".toList ++ w ++ "% ]".toList ++ t) := by simp
  have hs : symbolWord (' ' :: ("[ %symbol.".toList ++ w ++ "% ]".toList ++ t)) = some w := by
    have e' : ' ' :: ("[ %symbol.".toList ++ w ++ "% ]".toList ++ t) = ' ' :: '[' :: ' ' :: '%' :: 's' :: 'y' :: 'm' :: 'b' :: 'o' :: 'l' :: '.' :: (w ++ ("% ]".toList ++ t)) := by simp
    rw [e', symbolWord, e1, e2]
    cases w with
    | nil => exact absurd rfl hw
    | cons x y => rfl
  rw [e, symbols, hs]
  dsimp only
  rw [symbols_skip pre (w.length + 13) ("[ %symbol.".toList ++ w ++ "% ]".toList) t]
  have : "[ %symbol.".toList.length = 10 := by decide +kernel
  have : "% ]".toList.length = 3 := by decide +kernel
  simp only [List.length_append]
  omega

end Verif.Titles
