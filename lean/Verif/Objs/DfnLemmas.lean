import Verif.Objs.HeadLemmas
/-!
# The phrase that is marked in the first sentence
-/
namespace Verif.Objs
open Verif.Preambles (after after_iff word_chars)
open Verif.Paths.Spec (Word)
open Verif.Kinds.Spec (Line Some' NoTags Capital)
open Verif.Titles (takeWhile_all hasSub hasSub_iff)
open Verif.Sections (isWord)
open Spec

theorem cut {c : Char} : ∀ {x y r t : Str}, c ∉ x → c ∉ y → x ++ c :: r = y ++ c :: t → x = y ∧ r = t
  | [], [], _, _, _, _, e => ⟨rfl, by simpa using e⟩
  | [], b :: y, _, _, _, h2, e => by
    rw [List.nil_append, List.cons_append] at e
    exact absurd (by rw [(List.cons.inj e).1]; simp) h2
  | a :: x, [], _, _, h1, _, e => by
    rw [List.nil_append, List.cons_append] at e
    exact absurd (by rw [(List.cons.inj e).1]; simp) h1
  | a :: x, b :: y, r, t, h1, h2, e => by
    rw [List.cons_append, List.cons_append] at e
    obtain ⟨rfl, e2⟩ := List.cons.inj e
    obtain ⟨rfl, e3⟩ := cut (fun h => h1 (List.mem_cons_of_mem _ h)) (fun h => h2 (List.mem_cons_of_mem _ h)) e2
    exact ⟨rfl, e3⟩

theorem dfnEnd_iff (a d x : Str) (r : Str × Str × Str) : dfnEnd a d x = some r ↔ Some' d ∧ ∃ b, Some' b ∧ x = "</dfn>".toList ++ b ∧ r = (a, d, b) := by
  unfold dfnEnd Some' Line
  by_cases h : d = [] ∨ '\n' ∈ d
  · rw [if_pos h]
    constructor
    · intro h; cases h
    · rintro ⟨⟨h1, h2⟩, _⟩
      rcases h with h | h
      · exact absurd h h1
      · exact absurd h h2
  · rw [if_neg h]
    have hd : d ≠ [] ∧ '\n' ∉ d := ⟨fun e => h (.inl e), fun e => h (.inr e)⟩
    constructor
    · intro h
      cases ha : after "</dfn>" x with
      | none => rw [ha] at h; cases h
      | some b =>
        rw [ha] at h
        dsimp only at h
        by_cases hb : b ≠ [] ∧ '\n' ∉ b
        · rw [if_pos hb] at h
          exact ⟨hd, b, hb, after_iff.1 ha, (Option.some.inj h).symm⟩
        · rw [if_neg hb] at h; cases h
    · rintro ⟨_, b, hb, rfl, rfl⟩
      rw [after_iff.2 rfl]
      dsimp only
      rw [if_pos hb]

theorem not_word_char (c : Char) : ¬ Word [c] ↔ isWord c = false := by
  rw [word_chars]
  simp

theorem dfnStart_some {a x : Str} {r : Str × Str × Str} (h : dfnStart a x = some r) : ∃ g d b, r = (a, d, b) ∧ Some' a ∧ DfnTag g ∧ Some' d ∧ Some' b ∧ x = g ++ d ++ "</dfn>".toList ++ b := by
  unfold dfnStart at h
  by_cases h0 : a = [] ∨ '\n' ∈ a
  · rw [if_pos h0] at h; cases h
  · rw [if_neg h0] at h
    have ha : a ≠ [] ∧ '\n' ∉ a := ⟨fun e => h0 (.inl e), fun e => h0 (.inr e)⟩
    cases h1 : after "<dfn" x with
    | none => rw [h1] at h; cases h
    | some y =>
      rw [h1] at h
      dsimp only at h
      by_cases h2 : y.head?.any isWord = true
      · rw [if_pos h2] at h; cases h
      · rw [if_neg h2] at h
        cases h3 : y.dropWhile (fun c => c != '<' && c != '>') with
        | nil => rw [h3] at h; cases h
        | cons c z =>
          rw [h3] at h
          by_cases hc : c = '>'
          · subst hc
            obtain ⟨d, v, rfl, h4, _⟩ := greedy_some h
            rw [List.nil_append, dfnEnd_iff] at h4
            obtain ⟨hd, b, hb, rfl, rfl⟩ := h4
            have hy : y = y.takeWhile (fun c => c != '<' && c != '>') ++ '>' :: (d ++ ("</dfn>".toList ++ b)) := by rw [← h3, List.takeWhile_append_dropWhile]
            have ht : ∀ c ∈ y.takeWhile (fun c => c != '<' && c != '>'), c ≠ '<' ∧ c ≠ '>' := by
              intro c hc
              have := List.all_eq_true.1 (List.all_takeWhile (l := y) (p := fun c => c != '<' && c != '>')) c hc
              simpa using this
            refine ⟨"<dfn".toList ++ y.takeWhile (fun c => c != '<' && c != '>') ++ ">".toList, d, b, rfl, ha, ⟨_, ⟨fun h => (ht _ h).1 rfl, fun h => (ht _ h).2 rfl⟩, ?_, rfl⟩, hd, hb, ?_⟩
            · intro c hc
              rw [not_word_char]
              cases hyy : y with
              | nil => rw [hyy] at hc; cases hc
              | cons e y' =>
                rw [hyy] at hc h2
                rw [List.takeWhile_cons] at hc
                split at hc
                · cases hc
                  simpa using h2
                · cases hc
            · rw [after_iff.1 h1]
              conv => lhs; rw [hy]
              simp
          · split at h
            · rename_i e; exact absurd (List.cons.inj e).1 hc
            · cases h

theorem dfnStart_complete {a g d b : Str} (ha : Some' a) (hg : DfnTag g) (hd : Some' d) (hb : Some' b) : dfnStart a (g ++ d ++ "</dfn>".toList ++ b) ≠ none := by
  obtain ⟨t, ht, hw, rfl⟩ := hg
  unfold dfnStart
  have h0 : ¬ (a = [] ∨ '\n' ∈ a) := fun h => h.elim ha.1 ha.2
  rw [if_neg h0]
  have e : "<dfn".toList ++ t ++ ">".toList ++ d ++ "</dfn>".toList ++ b = "<dfn".toList ++ (t ++ '>' :: (d ++ ("</dfn>".toList ++ b))) := by simp
  rw [e, after_iff.2 rfl]
  dsimp only
  have h2 : ¬ (t ++ '>' :: (d ++ ("</dfn>".toList ++ b))).head?.any isWord = true := by
    cases t with
    | nil => simp [isWord]
    | cons c t =>
      have := (not_word_char c).1 (hw c rfl)
      simp [this]
  have h3 : (t ++ '>' :: (d ++ ("</dfn>".toList ++ b))).dropWhile (fun c => c != '<' && c != '>') = '>' :: (d ++ ("</dfn>".toList ++ b)) := by
    refine (takeWhile_all (fun c hc => ?_) (by simp)).2
    simp only [Bool.and_eq_true, bne_iff_ne, ne_eq]
    exact ⟨fun e => ht.1 (e ▸ hc), fun e => ht.2 (e ▸ hc)⟩
  rw [if_neg h2, h3]
  intro hg
  have := greedy_some.greedy_none hg d ("</dfn>".toList ++ b) rfl
  rw [List.nil_append, (dfnEnd_iff _ _ _ _).2 ⟨hd, b, hb, rfl, rfl⟩] at this
  cases this

/-- A text is marked in one way. -/
theorem dfn_unique {a g d b a' g' d' b' : Str} (h1 : '<' ∉ a) (h2 : '<' ∉ d) (h3 : '<' ∉ b) (hg : DfnTag g) (hg' : DfnTag g')
    (e : a ++ g ++ d ++ "</dfn>".toList ++ b = a' ++ g' ++ d' ++ "</dfn>".toList ++ b') : a = a' ∧ d = d' ∧ b = b' := by
  obtain ⟨t, ht, _, rfl⟩ := hg
  obtain ⟨t', ht', _, rfl⟩ := hg'
  have hcount := congrArg (List.count '<') e
  simp only [List.count_append] at hcount
  have c1 : List.count '<' "<dfn".toList = 1 := by decide
  have c2 : List.count '<' "</dfn>".toList = 1 := by decide
  have c3 : List.count '<' ">".toList = 0 := by decide
  rw [c1, c2, c3, List.count_eq_zero.2 h1, List.count_eq_zero.2 h2, List.count_eq_zero.2 h3, List.count_eq_zero.2 ht.1, List.count_eq_zero.2 ht'.1] at hcount
  have h1' : '<' ∉ a' := List.count_eq_zero.1 (by omega)
  have h2' : '<' ∉ d' := List.count_eq_zero.1 (by omega)
  have e1 : a ++ '<' :: ("dfn".toList ++ (t ++ '>' :: (d ++ '<' :: ("/dfn>".toList ++ b)))) = a' ++ '<' :: ("dfn".toList ++ (t' ++ '>' :: (d' ++ '<' :: ("/dfn>".toList ++ b')))) := by
    simpa using e
  obtain ⟨rfl, e2⟩ := cut h1 h1' e1
  obtain ⟨rfl, e3⟩ := cut ht.2 ht'.2 (List.append_cancel_left e2)
  obtain ⟨rfl, e4⟩ := cut h2 h2' e3
  exact ⟨rfl, rfl, List.append_cancel_left e4⟩

theorem intro_iff (t p s : Str) (fs : List Fact) : intro t p = some (s, fs) ↔ ∃ d, Begins t p s d ∧ fs = d.toList.map (Fact.aka s) := by
  unfold intro undfn
  by_cases hs : hasSub "<dfn".toList p = true
  · rw [if_pos hs]
    obtain ⟨l, r, hp⟩ := (hasSub_iff _ _).1 hs
    constructor
    · intro h
      cases hg : greedy dfnStart [] p with
      | none => rw [hg] at h; cases h
      | some q =>
        obtain ⟨u, v, rfl, h1, _⟩ := greedy_some hg
        obtain ⟨g, d, b, rfl, ha, hgt, hd, hb, rfl⟩ := dfnStart_some h1
        rw [hg] at h
        simp only [Option.map_some] at h
        cases hsub : subjectOf t with
        | none => rw [hsub] at h; cases h
        | some se =>
          obtain ⟨s', e⟩ := se
          rw [hsub] at h
          dsimp only at h
          by_cases he : [] ++ u ++ d ++ b = e
          · rw [if_pos he] at h
            obtain ⟨rfl, rfl⟩ := Prod.mk.inj (Option.some.inj h)
            refine ⟨some d, ?_, rfl⟩
            have := Begins.marked ((subject_iff _ _ _).1 hsub) he.symm ha.1 hd.1 hb.1 hgt
            simpa using this
          · rw [if_neg he] at h; cases h
    · rintro ⟨d, h, rfl⟩
      cases h with
      | unmarked hsub =>
        refine absurd ?_ (subject_chars hsub).1
        rw [hp]; simp
      | marked hsub he ha hd hb hgt =>
        rename_i e a g d b
        have hc := subject_chars hsub
        rw [he] at hc
        simp only [List.mem_append, not_or] at hc
        obtain ⟨⟨⟨c1, c2⟩, c3⟩, ⟨n1, n2⟩, n3⟩ := hc
        cases hg : greedy dfnStart [] (a ++ g ++ d ++ "</dfn>".toList ++ b) with
        | none =>
          have := greedy_some.greedy_none hg a (g ++ d ++ "</dfn>".toList ++ b) (by simp)
          exact absurd this (dfnStart_complete ⟨ha, n1⟩ hgt ⟨hd, n2⟩ ⟨hb, n3⟩)
        | some q =>
          obtain ⟨u, v, e', h1, _⟩ := greedy_some hg
          obtain ⟨g', d', b', rfl, _, hgt', _, _, rfl⟩ := dfnStart_some h1
          obtain ⟨rfl, rfl, rfl⟩ := dfn_unique (a' := u) (d' := d') (b' := b') c1 c2 c3 hgt hgt' (by rw [e']; simp only [List.append_assoc])
          simp only [Option.map_some]
          rw [(subject_iff _ _ _).2 hsub]
          dsimp only
          rw [if_pos (by rw [he]; simp)]
  · rw [if_neg hs]
    constructor
    · intro h
      dsimp only at h
      cases hsub : subjectOf t with
      | none => rw [hsub] at h; cases h
      | some se =>
        obtain ⟨s', e⟩ := se
        rw [hsub] at h
        dsimp only at h
        by_cases he : p = e
        · rw [if_pos he] at h
          obtain ⟨rfl, rfl⟩ := Prod.mk.inj (Option.some.inj h)
          exact ⟨none, he ▸ .unmarked ((subject_iff _ _ _).1 hsub), rfl⟩
        · rw [if_neg he] at h; cases h
    · rintro ⟨d, h, rfl⟩
      cases h with
      | unmarked hsub =>
        dsimp only
        rw [(subject_iff _ _ _).2 hsub]
        dsimp only
        rw [if_pos rfl]
      | marked hsub he ha hd hb hgt =>
        rename_i e a g d b
        obtain ⟨t', _, _, rfl⟩ := hgt
        refine absurd ((hasSub_iff _ _).2 ⟨a, t' ++ ">".toList ++ d ++ "</dfn>".toList ++ b, ?_⟩) hs
        simp

end Verif.Objs
