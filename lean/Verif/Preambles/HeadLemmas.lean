import Verif.Titles.CheckLemmas
import Verif.Preambles.SentenceLemmas
/-! # Lemmas about paragraphs and heads -/
namespace Verif.Preambles
open Verif.Kinds
open Verif.Paths.Spec (Word)
open Verif.Kinds.Spec (Line Some')
open Verif.Sections (isWord)
open Verif.Titles (replaceFrom)
open Spec

/-! ## Splitting -/

theorem sentences_same : ∀ (p : Str) (b : Bool), NoBreak p → (b = true → p.head? ≠ some ' ') → sentences (some b) p = [p]
  | [], b, _, _ => by cases b <;> rfl
  | c :: p, b, h, hb => by
    have h' : NoBreak p := fun x y he => h (c :: x) y (by rw [he]; rfl)
    have hc : (c == '.') = true → p.head? ≠ some ' ' := by
      intro hd he
      cases p with
      | nil => cases he
      | cons d p =>
        simp only [List.head?_cons, Option.some.injEq] at he
        have : c = '.' := by simpa using hd
        exact h [] p (by rw [this, he]; rfl)
    have ih := sentences_same p (c == '.') h' hc
    cases b with
    | false => rw [sentences, ih]; rfl
    | true =>
      have : c ≠ ' ' := by
        intro e
        exact hb rfl (by rw [e]; rfl)
      rw [sentences, if_neg this, ih]; rfl

theorem sentences_cut {t : Str} : ∀ (p : Str) (b : Bool), NoBreak (p ++ ['.']) → (b = true → (p ++ ['.']).head? ≠ some ' ') →
    sentences (some b) (p ++ '.' :: ' ' :: t) = (p ++ ['.']) :: sentences none t
  | [], b, _, _ => by
    cases b <;> simp [sentences, push]
  | c :: p, b, h, hb => by
    have h' : NoBreak (p ++ ['.']) := fun x y he => h (c :: x) y (by rw [List.cons_append, he]; rfl)
    have hc : (c == '.') = true → (p ++ ['.']).head? ≠ some ' ' := by
      intro hd he
      cases p with
      | nil => simp at he
      | cons d p =>
        simp only [List.cons_append, List.head?_cons, Option.some.injEq] at he
        have : c = '.' := by simpa using hd
        exact h [] (p ++ ['.']) (by rw [this, he]; rfl)
    have ih := sentences_cut (t := t) p (c == '.') h' hc
    cases b with
    | false => rw [List.cons_append, sentences, ih]; rfl
    | true =>
      have : c ≠ ' ' := by
        intro e
        exact hb rfl (by rw [e]; rfl)
      rw [List.cons_append, sentences, if_neg this, ih]; rfl

theorem sentences_gap {s : Str} (hs : s.head? ≠ some ' ') : ∀ (g : Str), (∀ c ∈ g, c = ' ') → sentences none (g ++ s) = sentences (some false) s
  | [], _ => by
    cases s with
    | nil => rfl
    | cons c s =>
      have : c ≠ ' ' := by
        intro e
        exact hs (by rw [e]; rfl)
      rw [List.nil_append, sentences.eq_4, if_neg this, sentences.eq_3]
  | c :: g, h => by
    rw [List.cons_append, sentences, if_pos (h c (by simp)), sentences_gap hs g fun d hd => h d (by simp [hd])]

theorem splits_fun {s : Str} {ps : List Str} (h : Splits s ps) : sentences (some false) s = ps := by
  induction h with
  | last h => exact sentences_same _ _ h (by simp)
  | @more p gap s ps h1 h2 h3 h4 _ ih =>
    cases gap with
    | nil => exact absurd rfl h2
    | cons g gap =>
      have hg := h3 g (by simp)
      subst hg
      have e : p ++ ['.'] ++ (' ' :: gap) ++ s = p ++ '.' :: ' ' :: (gap ++ s) := by simp
      rw [e, sentences_cut p false h1 (by simp), sentences_gap h4 gap (fun c hc => h3 c (by simp [hc])), ih]

theorem first_break : ∀ (n : Nat) (a b : Str), a.length = n → ∃ a' b', a ++ '.' :: ' ' :: b = a' ++ '.' :: ' ' :: b' ∧ NoBreak (a' ++ ['.']) := by
  intro n
  induction n using Nat.strongRecOn with
  | _ n ih =>
    intro a b hn
    by_cases h : NoBreak (a ++ ['.'])
    · exact ⟨a, b, rfl, h⟩
    · simp only [NoBreak, ne_eq, Classical.not_forall, Classical.not_not] at h
      obtain ⟨x, y, hxy⟩ := h
      have hl := congrArg List.length hxy
      simp only [List.length_append, List.length_cons, List.length_nil] at hl
      obtain ⟨a', b', h1, h2⟩ := ih x.length (by omega) x (y ++ ' ' :: b) rfl
      refine ⟨a', b', ?_, h2⟩
      rw [← h1]
      have : a ++ '.' :: ' ' :: b = (a ++ ['.']) ++ ' ' :: b := by simp
      rw [this, hxy]
      simp

theorem splits_total : ∀ (n : Nat) (s : Str), s.length = n → ∃ ps, Splits s ps := by
  intro n
  induction n using Nat.strongRecOn with
  | _ n ih =>
    intro s hn
    by_cases h : NoBreak s
    · exact ⟨_, .last h⟩
    · simp only [NoBreak, ne_eq, Classical.not_forall, Classical.not_not] at h
      obtain ⟨x, y, rfl⟩ := h
      obtain ⟨a, b, h1, h2⟩ := first_break _ x y rfl
      rw [h1] at hn ⊢
      let q : Char → Bool := fun c => c == ' '
      have hb : b = b.takeWhile q ++ b.dropWhile q := List.takeWhile_append_dropWhile.symm
      have hlen : (b.dropWhile q).length ≤ b.length := (List.dropWhile_sublist q).length_le
      simp only [List.length_append, List.length_cons] at hn
      obtain ⟨ps, hps⟩ := ih (b.dropWhile q).length (by omega) _ rfl
      refine ⟨(a ++ ['.']) :: ps, ?_⟩
      have e : a ++ '.' :: ' ' :: b = a ++ ['.'] ++ (' ' :: b.takeWhile q) ++ b.dropWhile q := by
        conv => lhs; rw [hb]
        simp
      rw [e]
      refine .more h2 (by simp) ?_ ?_ hps
      · intro c hc
        rcases List.mem_cons.mp hc with rfl | hc
        · rfl
        · have := List.all_eq_true.mp List.all_takeWhile c hc
          simpa [q] using this
      · intro he
        have := List.head?_dropWhile_not q b
        rw [he] at this
        simp [q] at this

theorem splits_iff {s : Str} {ps : List Str} : Splits s ps ↔ sentences (some false) s = ps := by
  refine ⟨splits_fun, fun h => ?_⟩
  obtain ⟨qs, hq⟩ := splits_total _ s rfl
  rw [← h, splits_fun hq]
  exact hq

/-! ## Each value once -/

theorem mem_dedupe {v : Str} : ∀ (vs seen : List Str), v ∈ dedupe seen vs ↔ v ∈ vs ∧ v ∉ seen
  | [], seen => by simp [dedupe]
  | x :: vs, seen => by
    rw [dedupe]
    by_cases hx : x ∈ seen
    · rw [if_pos hx, mem_dedupe vs]
      simp only [List.mem_cons, not_or]
      constructor
      · rintro ⟨h1, _, h3⟩; exact ⟨.inr h1, h3⟩
      · rintro ⟨rfl | h1, h3⟩
        · exact absurd hx h3
        · refine ⟨h1, ?_, h3⟩
          rintro rfl; exact h3 hx
    · rw [if_neg hx, List.mem_cons, mem_dedupe vs]
      simp only [List.mem_cons, not_or]
      constructor
      · rintro (rfl | ⟨h1, _, h3⟩)
        · exact ⟨.inl rfl, hx⟩
        · exact ⟨.inr h1, h3⟩
      · rintro ⟨rfl | h1, h3⟩
        · exact .inl rfl
        · by_cases e : v = x
          · exact .inl e
          · exact .inr ⟨h1, e, h3⟩

theorem dedupe_concat {v : Str} : ∀ (vs seen : List Str), dedupe seen (vs ++ [v]) = dedupe seen vs ++ (if v ∈ seen ∨ v ∈ vs then [] else [v])
  | [], seen => by simp [dedupe]
  | x :: vs, seen => by
    rw [List.cons_append, dedupe, dedupe, dedupe_concat vs]
    have e : (v ∈ x :: seen ∨ v ∈ vs) ↔ (v ∈ seen ∨ v ∈ x :: vs) := by
      simp only [List.mem_cons]
      constructor
      · rintro ((h | h) | h)
        · exact .inr (.inl h)
        · exact .inl h
        · exact .inr (.inr h)
      · rintro (h | h | h)
        · exact .inl (.inr h)
        · exact .inl (.inl h)
        · exact .inr h
    simp only [e]
    by_cases hx : x ∈ seen
    · rw [if_pos hx, if_pos hx]
    · rw [if_neg hx, if_neg hx, List.cons_append]

theorem firsts_fun {vs ws : List Str} (h : Firsts vs ws) : dedupe [] vs = ws := by
  induction h with
  | nil => rfl
  | @old vs ws v _ hm ih =>
    rw [dedupe_concat, ih, if_pos, List.append_nil]
    rw [← ih, mem_dedupe] at hm
    exact .inr hm.1
  | @new vs ws v _ hm ih =>
    rw [dedupe_concat, ih, if_neg]
    rw [← ih, mem_dedupe] at hm
    simpa using hm

theorem firsts_total : ∀ (n : Nat) (vs : List Str), vs.length = n → ∃ ws, Firsts vs ws
  | 0, vs, h => ⟨[], by rw [List.length_eq_zero_iff.mp h]; exact .nil⟩
  | n + 1, vs, h => by
    rcases List.eq_nil_or_concat vs with rfl | ⟨us, v, rfl⟩
    · cases h
    · obtain ⟨ws, hw⟩ := firsts_total n us (by simpa using h)
      rw [List.concat_eq_append]
      by_cases hv : v ∈ ws
      · exact ⟨_, .old hw hv⟩
      · exact ⟨_, .new hw hv⟩

theorem firsts_iff {vs ws : List Str} : Firsts vs ws ↔ dedupe [] vs = ws := by
  refine ⟨firsts_fun, fun h => ?_⟩
  obtain ⟨us, hu⟩ := firsts_total _ vs rfl
  rw [← h, firsts_fun hu]
  exact hu

theorem says_iff {facts : List Fact} {key : String} {ws : List Str} : Says facts key ws ↔ field facts key = ws := firsts_iff

/-! ## Replacing -/

theorem replace_at {old new s : Str} : ∀ (a : Str), old ≠ [] → (∀ a' b', a ++ old ++ s = a' ++ old ++ b' → a.length ≤ a'.length) →
    replaceFrom old new 0 (a ++ old ++ s) = a ++ new ++ replaceFrom old new 0 s
  | [], ho, _ => by
    cases old with
    | nil => exact absurd rfl ho
    | cons c o =>
      have hp : (c :: o).isPrefixOf (c :: (o ++ s)) = true := List.isPrefixOf_iff_prefix.mpr ⟨s, rfl⟩
      simp only [List.nil_append, List.cons_append]
      rw [replaceFrom, if_pos hp]
      congr 1
      have : ∀ (x : Str) , replaceFrom (c :: o) new x.length (x ++ s) = replaceFrom (c :: o) new 0 s := by
        intro x
        induction x with
        | nil => rfl
        | cons d x ih => rw [List.length_cons, List.cons_append, replaceFrom, ih]
      simpa using this o
  | c :: a, ho, h => by
    rw [List.cons_append, List.cons_append, replaceFrom, if_neg, replace_at a ho]
    · rfl
    · intro a' b' he
      have := h (c :: a') b' (by simpa using he)
      simpa using this
    · rw [List.isPrefixOf_iff_prefix]
      rintro ⟨b, hb⟩
      have := h [] b (by simpa using hb.symm)
      simp at this

theorem replaced_fun {old new s s' : Str} (ho : old ≠ []) (h : Replaced old new s s') : replaceFrom old new 0 s = s' := by
  induction h with
  | done h => exact Titles.replace_none _ (fun ⟨a, b, hh⟩ => h a b hh)
  | more h _ ih => rw [replace_at _ ho h, ih]

theorem first_place {old : Str} : ∀ (n : Nat) (a b : Str), a.length = n → ∃ a' b', a ++ old ++ b = a' ++ old ++ b' ∧ ∀ x y, a' ++ old ++ b' = x ++ old ++ y → a'.length ≤ x.length := by
  intro n
  induction n using Nat.strongRecOn with
  | _ n ih =>
    intro a b hn
    by_cases h : ∃ x y, a ++ old ++ b = x ++ old ++ y ∧ x.length < a.length
    · obtain ⟨x, y, hxy, hl⟩ := h
      obtain ⟨a', b', h1, h2⟩ := ih x.length (by omega) x y rfl
      exact ⟨a', b', hxy.trans h1, h2⟩
    · refine ⟨a, b, rfl, fun x y he => ?_⟩
      rcases Nat.lt_or_ge x.length a.length with hl | hl
      · exact absurd ⟨x, y, he, hl⟩ h
      · exact hl

theorem replaced_total {old new : Str} (ho : old ≠ []) : ∀ (n : Nat) (s : Str), s.length = n → ∃ s', Replaced old new s s' := by
  intro n
  induction n using Nat.strongRecOn with
  | _ n ih =>
    intro s hn
    by_cases h : ∃ a b, s = a ++ old ++ b
    · obtain ⟨a, b, rfl⟩ := h
      obtain ⟨a', b', h1, h2⟩ := first_place _ a b rfl
      rw [h1] at hn ⊢
      have : 0 < old.length := List.length_pos_iff.mpr ho
      simp only [List.length_append] at hn
      obtain ⟨s', hs⟩ := ih b'.length (by omega) b' rfl
      exact ⟨_, .more h2 hs⟩
    · exact ⟨s, .done fun a b he => h ⟨a, b, he⟩⟩

theorem replaced_iff {old new s s' : Str} (ho : old ≠ []) : Replaced old new s s' ↔ replaceFrom old new 0 s = s' := by
  refine ⟨replaced_fun ho, fun h => ?_⟩
  obtain ⟨t, ht⟩ := replaced_total (new := new) ho _ s rfl
  rw [← h, replaced_fun ho ht]
  exact ht

theorem names_iff {name pr : Str} : NameFits name pr ↔ namesAgree name pr = true := by
  unfold NameFits namesAgree
  simp only [Bool.or_eq_true, beq_iff_eq, replaced_iff (show " [ ".toList ≠ [] by simp), replaced_iff (show " ]".toList ≠ [] by simp), exists_eq_left', or_assoc]
  constructor
  · rintro (h | h | h)
    · exact .inl h
    · exact .inr (.inl h.symm)
    · exact .inr (.inr h)
  · rintro (h | h | h)
    · exact .inl h
    · exact .inr (.inl h.symm)
    · exact .inr (.inr h)

/-! ## Variables -/

theorem mem_words {v : Str} : ∀ (n : Nat) (s : Str), s.length = n → (v ∈ Titles.words s ↔ ∃ a b, s = a ++ v ++ b ∧ v ≠ [] ∧ (∀ c ∈ v, isWord c = true) ∧
    (∀ c, a.getLast? = some c → isWord c = false) ∧ (∀ c, b.head? = some c → isWord c = false)) := by
  intro n
  induction n using Nat.strongRecOn with
  | _ n ih =>
    intro s hn
    cases s with
    | nil =>
      refine iff_of_false (by simp [Titles.words]) ?_
      rintro ⟨a, b, he, hv, _⟩
      simp only [List.nil_eq, List.append_eq_nil_iff] at he
      exact hv he.1.2
    | cons c s =>
      by_cases hc : isWord c = true
      · obtain ⟨e1, e2⟩ : (∀ d ∈ (c :: s).takeWhile isWord, isWord d = true) ∧ ∀ d, ((c :: s).dropWhile isWord).head? = some d → isWord d = false := by
          constructor
          · exact fun d hd => List.all_eq_true.mp List.all_takeWhile d hd
          · intro d hd
            have := List.head?_dropWhile_not isWord (c :: s)
            rw [hd] at this
            simpa using this
        have hne : (c :: s).takeWhile isWord ≠ [] := by simp [hc]
        have hs : (c :: s).takeWhile isWord ++ (c :: s).dropWhile isWord = c :: s := List.takeWhile_append_dropWhile
        generalize (c :: s).takeWhile isWord = w at *
        generalize (c :: s).dropWhile isWord = t at *
        have hl : t.length < n := by
          rw [← hn, ← hs, List.length_append]
          have := List.length_pos_iff.mpr hne
          omega
        rw [← hs, Titles.words_word w t hne e1 e2, List.mem_cons, ih t.length hl t rfl]
        constructor
        · rintro (rfl | ⟨a, b, rfl, h1, h2, h3, h4⟩)
          · exact ⟨[], t, by simp, hne, e1, by simp, e2⟩
          · refine ⟨w ++ a, b, by simp, h1, h2, ?_, h4⟩
            intro d hd
            cases a with
            | nil =>
              cases v with
              | nil => exact absurd rfl h1
              | cons x v =>
                have := e2 x (by simp)
                rw [h2 x (by simp)] at this
                cases this
            | cons x a =>
              apply h3
              rw [← hd, List.getLast?_append]
              cases hx : (x :: a).getLast? with
              | none => simp at hx
              | some y => rfl
        · rintro ⟨a, b, he, h1, h2, h3, h4⟩
          cases a with
          | nil =>
            left
            have k1 := (Titles.takeWhile_all (p := isWord) (w := v) (r := b) h2 h4).1
            have k2 := (Titles.takeWhile_all (p := isWord) (w := w) (r := t) e1 e2).1
            rw [he, List.nil_append, k1] at k2
            exact k2
          | cons x a =>
            right
            have hlast : ∃ y, (x :: a).getLast? = some y := by
              cases hx : (x :: a).getLast? with
              | none => simp at hx
              | some y => exact ⟨y, rfl⟩
            obtain ⟨y, hy⟩ := hlast
            have hy' := h3 y hy
            rw [List.append_assoc] at he
            rcases List.append_eq_append_iff.mp he with ⟨a', ha, ht⟩ | ⟨c', hw, _⟩
            · refine ⟨a', b, by rw [ht, List.append_assoc], h1, h2, ?_, h4⟩
              intro d hd
              apply h3
              rw [ha, List.getLast?_append, hd]
              rfl
            · have : y ∈ w := by
                rw [hw]
                exact List.mem_append_left _ (List.mem_of_getLast? hy)
              rw [e1 y this] at hy'
              cases hy'
      · have hc' : isWord c = false := by simpa using hc
        rw [List.length_cons] at hn
        rw [Titles.words_sep s hc', ih s.length (by omega) s rfl]
        constructor
        · rintro ⟨a, b, rfl, h1, h2, h3, h4⟩
          refine ⟨c :: a, b, rfl, h1, h2, ?_, h4⟩
          intro d hd
          cases a with
          | nil =>
            simp only [List.getLast?_singleton, Option.some.injEq] at hd
            rw [← hd, hc']
          | cons x a => exact h3 d (by rw [← hd, List.getLast?_cons_cons])
        · rintro ⟨a, b, he, h1, h2, h3, h4⟩
          cases a with
          | nil =>
            cases v with
            | nil => exact absurd rfl h1
            | cons x v =>
              simp only [List.nil_append, List.cons_append, List.cons.injEq] at he
              have := h2 x (by simp)
              rw [← he.1, hc'] at this
              cases this
          | cons x a =>
            simp only [List.cons_append, List.cons.injEq] at he
            refine ⟨a, b, he.2, h1, h2, ?_, h4⟩
            intro d hd
            cases a with
            | nil => cases hd
            | cons z a => exact h3 d (by rw [← hd, List.getLast?_cons_cons])

theorem mentions_iff {para v : Str} : Mentions para v ↔ v ∈ Titles.words para ∧ isVar v = true := by
  have hw : ∀ c, ¬ Word [c] ↔ isWord c = false := by
    intro c
    rw [word_chars]
    simp
  rw [mem_words _ para rfl]
  constructor
  · rintro ⟨a, b, x, he, rfl, hx, h1, h2⟩
    obtain ⟨hx1, hx2⟩ := word_chars.mp hx
    refine ⟨⟨a, b, he, by simp, ?_, fun c hc => (hw c).mp (h1 c hc), fun c hc => (hw c).mp (h2 c hc)⟩, ?_⟩
    · intro c hc
      rcases List.mem_cons.mp hc with rfl | hc
      · decide
      · exact hx2 c hc
    · cases x with
      | nil => exact absurd rfl hx1
      | cons y x => rfl
  · rintro ⟨⟨a, b, he, h1, h2, h3, h4⟩, hv⟩
    unfold isVar at hv
    split at hv
    · next y z =>
      exact ⟨a, b, y :: z, he, rfl, word_chars.mpr ⟨by simp, fun c hc => h2 c (List.mem_cons_of_mem _ hc)⟩, fun c hc => (hw c).mpr (h3 c hc), fun c hc => (hw c).mpr (h4 c hc)⟩
    · cases hv

theorem mem_insert {v x : Str} : ∀ (xs : List Str), x ∈ insert v xs ↔ x = v ∨ x ∈ xs
  | [] => by simp [insert]
  | y :: xs => by
    rw [insert]
    split
    · simp
    · split
      · next h => simp [h]
      · rw [List.mem_cons, mem_insert xs, List.mem_cons]
        constructor
        · rintro (h | h | h)
          · exact .inr (.inl h)
          · exact .inl h
          · exact .inr (.inr h)
        · rintro (h | h | h)
          · exact .inr (.inl h)
          · exact .inl h
          · exact .inr (.inr h)

theorem insert_sorted {v : Str} : ∀ (xs : List Str), xs.Pairwise (· < ·) → (insert v xs).Pairwise (· < ·)
  | [], _ => by simp [insert]
  | y :: xs, h => by
    obtain ⟨h1, h2⟩ := List.pairwise_cons.mp h
    rw [insert]
    split
    · next hl =>
      refine List.pairwise_cons.mpr ⟨?_, h⟩
      intro z hz
      rcases List.mem_cons.mp hz with rfl | hz
      · exact hl
      · exact List.lt_trans hl (h1 z hz)
    · next hl =>
      split
      · exact h
      · next hne =>
        refine List.pairwise_cons.mpr ⟨?_, insert_sorted xs h2⟩
        intro z hz
        rcases (mem_insert xs).mp hz with rfl | hz
        · exact Std.lt_of_le_of_ne (List.not_lt.mp hl) (fun e => hne e.symm)
        · exact h1 z hz

theorem foldr_insert : ∀ (l : List Str), (l.foldr insert []).Pairwise (· < ·) ∧ ∀ v, v ∈ l.foldr insert [] ↔ v ∈ l
  | [] => by simp
  | x :: l => by
    obtain ⟨h1, h2⟩ := foldr_insert l
    refine ⟨insert_sorted _ h1, fun v => ?_⟩
    rw [List.foldr_cons, mem_insert, h2, List.mem_cons]

theorem vars_iff {name : Str} {params : List Param} {desc : List Str} {v : Str} : v ∈ otherVars name params desc ↔ Stray name params desc v := by
  unfold otherVars Stray
  rw [(foldr_insert _).2]
  simp only [List.mem_filter, List.mem_flatMap, Bool.and_eq_true, decide_eq_true_eq, Bool.not_eq_true', List.any_eq_false, beq_iff_eq]
  have he : expectedVars = expected := rfl
  rw [he]
  constructor
  · rintro ⟨⟨⟨p, hp, hw⟩, hv⟩, h1, h2⟩
    refine ⟨⟨p, hp, mentions_iff.mpr ⟨hw, hv⟩⟩, ?_, ?_⟩
    · rintro q hq rfl
      exact h1 (List.mem_map_of_mem hq)
    · rintro e hm
      exact h2 e hm
  · rintro ⟨⟨p, hp, hm⟩, h1, h2⟩
    obtain ⟨hw, hv⟩ := mentions_iff.mp hm
    refine ⟨⟨⟨p, hp, hw⟩, hv⟩, ?_, ?_⟩
    · intro hmem
      obtain ⟨q, hq, e⟩ := List.mem_map.mp hmem
      exact h1 q hq e
    · rintro e hm
      exact h2 e hm

end Verif.Preambles
