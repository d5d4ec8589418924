import Verif.Objs.SaysLemmas
/-!
# How a section begins
-/
namespace Verif.Objs
open Verif.Kinds (Rx full lit plus cat any w dot Matches full_iff m_cat m_cat_nil m_lit m_word m_any m_empty m_between m_before m_capital)
open Verif.Preambles (after after_iff word_chars)
open Verif.Paths.Spec (Word)
open Verif.Kinds.Spec (Line Some' NoTags Capital)
open Verif.Titles (takeWhile_all)
open Verif.Sections (isWord)
open Spec

theorem word_no {c : Char} (hc : isWord c = false) {x : Str} (h : Word x) : c ∉ x := fun hm => by
  have := (word_chars.1 h).2 _ hm
  rw [hc] at this; cases this

theorem var_iff (i : Str) : full (cat [lit "_", plus w, lit "_"]) i = true ↔ ∃ x, Word x ∧ i = "_".toList ++ x ++ "_".toList := by
  rw [full_iff, m_between]; simp only [m_word]

theorem titleName_iff (i : Str) : full (any [cat [lit "%", plus w, any [cat [lit ".", plus w], .empty], lit "%"], cat [.char Char.isUpper, plus w]]) i = true ↔ TitleName i := by
  rw [full_iff]
  have hc : Matches (cat [.char Char.isUpper, plus w]) i ↔ Capital i := m_capital
  simp only [m_any, List.mem_cons, List.not_mem_nil, or_false, exists_eq_or_imp, exists_eq_left, hc]
  simp only [m_cat, m_cat_nil, m_lit, m_word, m_any, List.mem_cons, List.not_mem_nil, or_false, exists_eq_or_imp, exists_eq_left, m_empty]
  unfold TitleName
  constructor
  · rintro (⟨_, _, rfl, rfl, x, _, rfl, hx, _, _, rfl, (⟨_, _, rfl, rfl, y, _, rfl, hy, rfl⟩ | rfl), _, _, rfl, rfl, rfl⟩ | h)
    · exact .inr (.inl ⟨x, y, hx, hy, by simp⟩)
    · exact .inl ⟨x, hx, by simp⟩
    · exact .inr (.inr h)
  · rintro (⟨x, hx, rfl⟩ | ⟨x, y, hx, hy, rfl⟩ | h)
    · exact .inl ⟨"%".toList, x ++ "%".toList, by simp, rfl, x, _, rfl, hx, [], "%".toList, rfl, .inr rfl, "%".toList, [], by simp, rfl, rfl⟩
    · exact .inl ⟨"%".toList, x ++ (".".toList ++ y ++ "%".toList), by simp, rfl, x, _, rfl, hx, ".".toList ++ y, _, rfl, .inl ⟨_, _, rfl, rfl, y, [], by simp, hy, rfl⟩,
        "%".toList, [], by simp, rfl, rfl⟩
    · exact .inr h

/-- The characters of names in titles. -/
theorem titleName_no {c : Char} (hc : isWord c = false) (h1 : c ≠ '%') (h2 : c ≠ '.') (h3 : ¬ ('A' ≤ c ∧ c ≤ 'Z')) {i : Str} (h : TitleName i) : c ∉ i := by
  rcases h with ⟨x, hx, rfl⟩ | ⟨x, y, hx, hy, rfl⟩ | ⟨d, r, rfl, hd, hr⟩
  · have := word_no hc hx
    simp [*]
  · have := word_no hc hx
    have := word_no hc hy
    simp [*]
  · have := word_no hc hr
    simp only [List.mem_cons, not_or]
    exact ⟨fun e => h3 (e ▸ hd), this⟩

/-- What comes after `The `. -/
def Tail (r s e : Str) : Prop :=
  (∃ x k l, Word x ∧ (k, l) ∈ [("Constructors", "constructor"), ("Prototype Objects", "prototype object")] ∧ r = "_".toList ++ x ++ "_ ".toList ++ k.toList ∧
    s = "each _".toList ++ x ++ "_ ".toList ++ l.toList ∧ e = "Each _".toList ++ x ++ "_ ".toList ++ l.toList ++ ":".toList) ∨
  (∃ i j k l, TitleName i ∧ (k, l) ∈ kinds ∧ ((i = "Global".toList ∧ j = "global".toList) ∨ (i ≠ "Global".toList ∧ j = i)) ∧ r = i ++ " ".toList ++ k.toList ∧
    s = "the ".toList ++ j ++ " ".toList ++ l.toList ∧ e = "The ".toList ++ j ++ " ".toList ++ l.toList ++ ":".toList)

theorem take_space {n r : Str} (h : ' ' ∉ n) : (n ++ ' ' :: r).takeWhile (· != ' ') = n ∧ (n ++ ' ' :: r).dropWhile (· != ' ') = ' ' :: r :=
  takeWhile_all (fun c hc => by simp only [bne_iff_ne, ne_eq]; rintro rfl; exact h hc) (by simp)

theorem split_space {r : Str} {c : Char} {s : Str} (h : r.dropWhile (· != ' ') = c :: s) : r = r.takeWhile (· != ' ') ++ ' ' :: s := by
  have : c = ' ' := by
    have := List.head_dropWhile_not (p := (· != ' ')) (l := r) (by rw [h]; simp)
    simpa [h] using this
  subst this
  rw [← h, List.takeWhile_append_dropWhile]

theorem tail_iff (r s e : Str) : subjectTail r = some (s, e) ↔ Tail r s e := by
  unfold subjectTail
  constructor
  · intro h
    cases hd : r.dropWhile (· != ' ') with
    | nil => rw [hd] at h; cases h
    | cons c t =>
      rw [hd] at h
      have hr := split_space hd
      dsimp only at h
      generalize r.takeWhile (· != ' ') = i at h hr
      by_cases h1 : (full (cat [lit "_", plus w, lit "_"]) i && (t == "Constructors".toList || t == "Prototype Objects".toList)) = true
      · rw [if_pos h1] at h
        simp only [Bool.and_eq_true, Bool.or_eq_true, beq_iff_eq] at h1
        obtain ⟨h1, h2⟩ := h1
        obtain ⟨x, hx, rfl⟩ := (var_iff _).1 h1
        rcases h2 with rfl | rfl
        · have hf : lowers.find? (fun e => e.1.toList == "Constructors".toList.dropLast) = some ("Constructor", "constructor") := by decide
          rw [hf] at h
          obtain ⟨rfl, rfl⟩ := Prod.mk.inj (Option.some.inj h)
          exact .inl ⟨x, "Constructors", "constructor", hx, by simp, by rw [hr]; simp, by simp, by simp⟩
        · have hf : lowers.find? (fun e => e.1.toList == "Prototype Objects".toList.dropLast) = some ("Prototype Object", "prototype object") := by decide
          rw [hf] at h
          obtain ⟨rfl, rfl⟩ := Prod.mk.inj (Option.some.inj h)
          exact .inl ⟨x, "Prototype Objects", "prototype object", hx, by simp, by rw [hr]; simp, by simp, by simp⟩
      · rw [if_neg h1] at h
        by_cases h2 : full (any [cat [lit "%", plus w, any [cat [lit ".", plus w], .empty], lit "%"], cat [.char Char.isUpper, plus w]]) i = true
        · rw [if_pos h2] at h
          cases hf : lowers.find? (fun e => e.1.toList == t) with
          | none => rw [hf] at h; cases h
          | some q =>
            rw [hf] at h
            obtain ⟨rfl, rfl⟩ := Prod.mk.inj (Option.some.inj h)
            have hm := List.mem_of_find?_eq_some hf
            have ht := List.find?_some hf
            simp only [beq_iff_eq] at ht
            refine .inr ⟨i, _, q.1, q.2, (titleName_iff _).1 h2, hm, ?_, by rw [hr, ht]; simp, rfl, rfl⟩
            by_cases hi : i = "Global".toList
            · exact .inl ⟨hi, by rw [if_pos hi]⟩
            · exact .inr ⟨hi, by rw [if_neg hi]⟩
        · rw [if_neg h2] at h; cases h
  · rintro (⟨x, k, l, hx, hk, rfl, rfl, rfl⟩ | ⟨i, j, k, l, hi, hk, hj, rfl, rfl, rfl⟩)
    · have hn : ' ' ∉ "_".toList ++ x ++ "_".toList := by have := word_no (c := ' ') rfl hx; simp [this]
      obtain ⟨e1, e2⟩ := take_space (r := k.toList) hn
      have er : "_".toList ++ x ++ "_ ".toList ++ k.toList = "_".toList ++ x ++ "_".toList ++ ' ' :: k.toList := by simp
      rw [er, e1, e2]
      dsimp only
      rw [(var_iff _).2 ⟨x, hx, rfl⟩]
      simp only [List.mem_cons, List.not_mem_nil, or_false, Prod.mk.injEq] at hk
      rcases hk with ⟨rfl, rfl⟩ | ⟨rfl, rfl⟩
      · have hf : lowers.find? (fun e => e.1.toList == "Constructors".toList.dropLast) = some ("Constructor", "constructor") := by decide
        rw [if_pos (by decide), hf]; simp
      · have hf : lowers.find? (fun e => e.1.toList == "Prototype Objects".toList.dropLast) = some ("Prototype Object", "prototype object") := by decide
        rw [if_pos (by decide), hf]; simp
    · have hn : ' ' ∉ i := titleName_no (c := ' ') rfl (by decide) (by decide) (by decide) hi
      obtain ⟨e1, e2⟩ := take_space (r := k.toList) hn
      have er : i ++ " ".toList ++ k.toList = i ++ ' ' :: k.toList := by simp
      rw [er, e1, e2]
      dsimp only
      have hj' : (if i = "Global".toList then "global".toList else i) = j := by
        rcases hj with ⟨h, rfl⟩ | ⟨h, rfl⟩
        · rw [if_pos h]
        · rw [if_neg h]
      have hs : (k.toList == "Constructors".toList || k.toList == "Prototype Objects".toList) = false ∧ lowers.find? (fun e => e.1.toList == k.toList) = some (k, l) := by
        simp only [kinds, List.mem_cons, List.not_mem_nil, or_false, Prod.mk.injEq] at hk
        rcases hk with ⟨rfl, rfl⟩ | ⟨rfl, rfl⟩ | ⟨rfl, rfl⟩ | ⟨rfl, rfl⟩ <;> exact ⟨by decide, by decide⟩
      rw [hs.1, Bool.and_false, if_neg (by decide), if_pos ((titleName_iff _).2 hi), hs.2]
      simp only [Option.map_some, hj']

theorem subject_iff (t s e : Str) : subjectOf t = some (s, e) ↔ Subject t s e := by
  have key : Subject t s e ↔ ∃ h r, (h = "Properties of the ".toList ∨ h = "The ".toList) ∧ t = h ++ r ∧ Tail r s e := by
    constructor
    · intro hs
      cases hs with
      | @each h x k l hh hx hk => exact ⟨h, "_".toList ++ x ++ "_ ".toList ++ k.toList, hh, by simp only [List.append_assoc], .inl ⟨_, _, _, hx, hk, rfl, rfl, rfl⟩⟩
      | @one h i j k l hh hi hk hj => exact ⟨h, i ++ " ".toList ++ k.toList, hh, by simp only [List.append_assoc], .inr ⟨_, _, _, _, hi, hk, hj, rfl, rfl, rfl⟩⟩
    · rintro ⟨h, r, hh, rfl, ⟨x, k, l, hx, hk, rfl, rfl, rfl⟩ | ⟨i, j, k, l, hi, hk, hj, rfl, rfl, rfl⟩⟩
      · have := Subject.each hh hx hk
        simpa only [List.append_assoc] using this
      · have := Subject.one hh hi hk hj
        simpa only [List.append_assoc] using this
  rw [key]
  unfold subjectOf
  constructor
  · intro h
    cases ha : after "Properties of the " t with
    | some r =>
      rw [ha] at h
      exact ⟨_, r, .inl rfl, after_iff.1 ha, (tail_iff _ _ _).1 h⟩
    | none =>
      rw [ha] at h
      dsimp only at h
      cases hb : after "The " t with
      | some r =>
        rw [hb] at h
        exact ⟨_, r, .inr rfl, after_iff.1 hb, (tail_iff _ _ _).1 h⟩
      | none => rw [hb] at h; cases h
  · rintro ⟨_, r, rfl | rfl, rfl, h⟩
    · rw [after_iff.2 rfl]
      exact (tail_iff _ _ _).2 h
    · have : after "Properties of the " ("The ".toList ++ r) = none := by
        cases ha : after "Properties of the " ("The ".toList ++ r) with
        | none => rfl
        | some q => have := after_iff.1 ha; simp at this
      rw [this, after_iff.2 rfl]
      exact (tail_iff _ _ _).2 h

/-- The sentence has no tags in it, and is on one line. -/
theorem subject_chars {t s e : Str} (h : Subject t s e) : '<' ∉ e ∧ '\n' ∉ e := by
  have hg : ∀ c : Char, isWord c = false → c ≠ '%' → c ≠ '.' → ¬ ('A' ≤ c ∧ c ≤ 'Z') → c ≠ ' ' → c ≠ ':' → c ∉ e := by
    intro c hc h1 h2 h3 h4 h5
    have hw : ∀ {d}, isWord d = true → c ≠ d := fun hd e => by rw [← e, hc] at hd; cases hd
    cases h with
    | each hh hx hk =>
      have := word_no hc hx
      simp only [List.mem_cons, List.not_mem_nil, or_false, Prod.mk.injEq] at hk
      rcases hk with ⟨rfl, rfl⟩ | ⟨rfl, rfl⟩ <;>
        simp [*, hw (d := '_') rfl, hw (d := 'E') rfl, hw (d := 'a') rfl, hw (d := 'c') rfl, hw (d := 'h') rfl, hw (d := 'o') rfl, hw (d := 'n') rfl, hw (d := 's') rfl,
          hw (d := 't') rfl, hw (d := 'r') rfl, hw (d := 'u') rfl, hw (d := 'p') rfl, hw (d := 'y') rfl, hw (d := 'e') rfl, hw (d := 'b') rfl, hw (d := 'j') rfl]
    | one hh hi hk hj =>
      have hi' := titleName_no hc h1 h2 h3 hi
      rename_i i j k l
      have hj' : c ∉ j := by
        rcases hj with ⟨_, rfl⟩ | ⟨_, rfl⟩
        · simp [hw (d := 'g') rfl, hw (d := 'l') rfl, hw (d := 'o') rfl, hw (d := 'b') rfl, hw (d := 'a') rfl]
        · exact hi'
      simp only [kinds, List.mem_cons, List.not_mem_nil, or_false, Prod.mk.injEq] at hk
      rcases hk with ⟨rfl, rfl⟩ | ⟨rfl, rfl⟩ | ⟨rfl, rfl⟩ | ⟨rfl, rfl⟩ <;>
        simp [*, hw (d := 'T') rfl, hw (d := 'i') rfl, hw (d := 'h') rfl, hw (d := 'c') rfl, hw (d := 'o') rfl, hw (d := 'n') rfl, hw (d := 's') rfl,
          hw (d := 't') rfl, hw (d := 'r') rfl, hw (d := 'u') rfl, hw (d := 'p') rfl, hw (d := 'y') rfl, hw (d := 'e') rfl, hw (d := 'b') rfl, hw (d := 'j') rfl]
  exact ⟨hg _ rfl (by decide) (by decide) (by decide) (by decide) (by decide), hg _ rfl (by decide) (by decide) (by decide) (by decide) (by decide)⟩

end Verif.Objs
