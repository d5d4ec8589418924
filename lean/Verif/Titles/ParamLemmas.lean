import Verif.Titles.Spec
import Verif.Sections.ParamLemmas
/-!
# Lemmas about lists of parameters in titles
-/
namespace Verif.Titles
open Verif.Sections

def pn (b : Bool) : Punct := if b then .optional else .plain

def rd : Bool → List Param → List (Str × Punct)
  | _, [] => []
  | b, p :: ps => (p.name, pn (b || p.optional)) :: rd (b || p.optional) ps

theorem brief_read : ∀ (ps : List Param) (n : Str) (opt : Bool) (k : Nat), IsName n → (∀ p ∈ ps, IsName p.name) →
    eachParam opt (splitComma (n ++ brief false ps ++ closer k)) = some ((n, pn opt) :: rd opt ps)
  | [], n, opt, k, hn, _ => by
    rw [brief, List.append_nil, split_nocomma _ (by simp [name_nocomma hn, closer_nocomma]), eachParam, one_name opt hn (closer_head k), if_pos (closers_closer k)]
    rfl
  | p :: ps, n, opt, k, hn, hp => by
    have hp1 := hp p (List.mem_cons_self ..)
    have hp2 := fun q hq => hp q (List.mem_cons_of_mem _ hq)
    rw [brief]
    by_cases ho : p.optional = true
    · rw [if_pos ho]
      have e : n ++ (" [".toList ++ (if false = true then " ".toList else " , ".toList) ++ p.name ++ brief false ps ++ " ]".toList) ++ closer k =
          (n ++ [' ', '[', ' ']) ++ ',' :: ' ' :: (p.name ++ brief false ps ++ closer (k + 1)) := by simp [closer]
      rw [e, split_comma _ _ (by simp [name_nocomma hn]), eachParam, one_name opt hn (by simp; decide), if_neg (by rw [not_sp]; simp), if_pos rfl]
      dsimp only
      rw [brief_read ps p.name true (k + 1) hp1 hp2]
      simp [rd, ho, pn]
    · rw [if_neg ho]
      have e : n ++ ((if false = true then " ".toList else ", ".toList) ++ p.name ++ brief false ps) ++ closer k =
          n ++ ',' :: ' ' :: (p.name ++ brief false ps ++ closer k) := by simp
      rw [e, split_comma _ _ (name_nocomma hn), eachParam]
      have := one_name (s := []) opt hn (by simp)
      rw [List.append_nil] at this
      rw [this, if_pos (show closers [] = true from rfl)]
      dsimp only
      rw [brief_read ps p.name opt k hp1 hp2]
      simp only [Bool.not_eq_true] at ho
      simp [rd, ho, pn]

theorem brief_last : ∀ (ps : List Param) (n : Str) (k : Nat), IsName n → (∀ p ∈ ps, IsName p.name) → ∃ m b, n ++ brief false ps ++ closer k = m ++ [b] ∧ b ≠ ' '
  | [], n, 0, hn, _ => by
    obtain ⟨w, rfl⟩ := name_last hn
    exact ⟨w, '_', by simp [brief, closer], by decide⟩
  | [], n, k + 1, hn, _ => by
    have : ∀ k, ∃ m, closer (k + 1) = m ++ [']'] := by
      intro k
      induction k with
      | zero => exact ⟨[' '], rfl⟩
      | succ k ih =>
        obtain ⟨m, hm⟩ := ih
        exact ⟨' ' :: ']' :: m, by rw [closer, hm]; rfl⟩
    obtain ⟨m, hm⟩ := this k
    exact ⟨n ++ m, ']', by simp [brief, hm], by decide⟩
  | p :: ps, n, k, hn, hp => by
    have hp1 := hp p (List.mem_cons_self ..)
    have hp2 := fun q hq => hp q (List.mem_cons_of_mem _ hq)
    rw [brief]
    by_cases ho : p.optional = true
    · obtain ⟨m, b, h1, h2⟩ := brief_last ps p.name (k + 1) hp1 hp2
      refine ⟨n ++ " [ , ".toList ++ m, b, ?_, h2⟩
      rw [if_pos ho, List.append_assoc _ m, ← h1]
      simp [closer]
    · obtain ⟨m, b, h1, h2⟩ := brief_last ps p.name k hp1 hp2
      refine ⟨n ++ ", ".toList ++ m, b, ?_, h2⟩
      rw [if_neg ho, List.append_assoc _ m, ← h1]
      simp

theorem strip_spaces {s : Str} : strip (' ' :: s ++ [' ']) = strip s := by
  have key : ∀ s : Str, strip (s ++ [' ']) = strip s := by
    intro s
    unfold strip
    by_cases h : s.dropWhile (· == ' ') = []
    · have : (s ++ [' ']).dropWhile (· == ' ') = [] := by
        rw [List.dropWhile_append]
        simp [h]
      rw [this, h]
    · rw [List.dropWhile_append, if_neg (by simpa using h), List.reverse_append]
      simp
  rw [List.cons_append]
  have : strip (' ' :: (s ++ [' '])) = strip (s ++ [' ']) := by simp [strip]
  rw [this, key]

theorem paramsOf_brief (ps : List Param) (hp : ∀ p ∈ ps, IsName p.name) : paramsOf (brief true ps ++ [' ']) = some (rd false ps) := by
  cases ps with
  | nil => rfl
  | cons p ps =>
    have hp1 := hp p (List.mem_cons_self ..)
    have hp2 := fun q hq => hp q (List.mem_cons_of_mem _ hq)
    rw [brief]
    obtain ⟨w, hw⟩ := name_ne hp1
    by_cases ho : p.optional = true
    · rw [if_pos ho]
      have e : " [".toList ++ (if true = true then " ".toList else " , ".toList) ++ p.name ++ brief false ps ++ " ]".toList ++ [' '] = ' ' :: ('[' :: ' ' :: (p.name ++ brief false ps ++ closer 1)) ++ [' '] := by simp [closer]
      rw [e]
      obtain ⟨m, b, h1, h2⟩ := brief_last ps p.name 1 hp1 hp2
      have es : strip ('[' :: ' ' :: (p.name ++ brief false ps ++ closer 1)) = '[' :: ' ' :: (p.name ++ brief false ps ++ closer 1) :=
        strip_self (m' := '[' :: ' ' :: m) rfl (by rw [h1]; rfl) (by decide) h2
      rw [paramsOf, strip_spaces, es]
      rw [if_neg (by simp)]
      have hr := brief_read ps p.name true 1 hp1 hp2
      have key : ∀ s, (∃ n r, IsName n ∧ s = n ++ r ∧ ∀ c, r.head? = some c → isWord c = false) → ∀ r, eachParam true (splitComma s) = some r → eachParam false (splitComma ('[' :: ' ' :: s)) = some r := by
        intro s ⟨n, t, hn, hst, ht⟩ r h
        have e2 : splitComma ('[' :: ' ' :: s) = match splitComma s with
          | [] => ['[' :: [' ']]
          | w :: ws => ('[' :: ' ' :: w) :: ws := by
          rw [splitComma, splitComma]
          · cases splitComma s <;> rfl
          · intro s h; cases h
          · intro s h; cases h
        rw [e2]
        obtain ⟨x, hx⟩ := name_ne hn
        cases hs : splitComma s with
        | nil => rw [hs] at h; rw [hst, hx, List.cons_append, splitComma] at hs
                 · split at hs <;> cases hs
                 · intro s h; cases h
        | cons v vs =>
          rw [hs] at h
          dsimp only
          rw [eachParam] at h ⊢
          have : oneParam false ('[' :: ' ' :: v) = oneParam true v := by
            have hv : ∃ v', v = '_' :: v' := by
              rw [hst, hx, List.cons_append, splitComma] at hs
              · split at hs
                · cases hs; exact ⟨_, rfl⟩
                · cases hs; exact ⟨_, rfl⟩
              · intro s h; cases h
            obtain ⟨v', rfl⟩ := hv
            simp [oneParam]
          rw [this]
          exact h
      have hh : ∀ c, (brief false ps ++ closer 1).head? = some c → isWord c = false := by
        intro c hc
        cases ps with
        | nil => exact closer_head 1 c hc
        | cons q qs =>
          rw [brief] at hc
          by_cases hq : q.optional = true
          · rw [if_pos hq] at hc; simp at hc; subst hc; decide
          · rw [if_neg hq] at hc; simp at hc; subst hc; decide
      rw [key _ ⟨p.name, brief false ps ++ closer 1, hp1, by simp, hh⟩ _ hr]
      simp [rd, ho]
    · rw [if_neg ho]
      have e : (if true = true then " ".toList else ", ".toList) ++ p.name ++ brief false ps ++ [' '] = ' ' :: (p.name ++ brief false ps ++ closer 0) ++ [' '] := by simp [closer]
      rw [e]
      obtain ⟨m, b, h1, h2⟩ := brief_last ps p.name 0 hp1 hp2
      have es : strip (p.name ++ brief false ps ++ closer 0) = p.name ++ brief false ps ++ closer 0 :=
        strip_self (a := '_') (m := w ++ brief false ps ++ closer 0) (by rw [hw]; simp) h1 (by decide) h2
      rw [paramsOf, strip_spaces, es]
      rw [if_neg (by rw [hw]; simp), brief_read ps p.name false 0 hp1 hp2]
      simp only [Bool.not_eq_true] at ho
      simp [rd, ho]

theorem rd_reads : ∀ (ps : List Param) (b : Bool), (rd b ps).map (·.1) = ps.map (·.name) ∧
    ∀ (i : Nat) q, (rd b ps)[i]? = some q → (q.2 = .optional ∧ (b = true ∨ ∃ (j : Nat) (p : Param), j ≤ i ∧ ps[j]? = some p ∧ p.optional = true)) ∨
      (q.2 = .plain ∧ b = false ∧ ∀ (j : Nat) (p : Param), j ≤ i → ps[j]? = some p → p.optional = false)
  | [], b => ⟨rfl, fun i q h => by simp [rd] at h⟩
  | p :: ps, b => by
    obtain ⟨h1, h2⟩ := rd_reads ps (b || p.optional)
    refine ⟨by simp [rd, h1], fun i q h => ?_⟩
    rw [rd] at h
    cases i with
    | zero =>
      cases h
      cases hb : (b || p.optional) with
      | true =>
        refine .inl ⟨rfl, ?_⟩
        rcases Bool.or_eq_true _ _ ▸ hb with h | h
        · exact .inl h
        · exact .inr ⟨0, p, Nat.le_refl _, rfl, h⟩
      | false =>
        rw [Bool.or_eq_false_iff] at hb
        refine .inr ⟨rfl, hb.1, fun j q hj hq => ?_⟩
        obtain rfl : j = 0 := by omega
        cases hq
        exact hb.2
    | succ i =>
      rw [List.getElem?_cons_succ] at h
      rcases h2 i q h with ⟨g1, g2⟩ | ⟨g1, g2, g3⟩
      · refine .inl ⟨g1, ?_⟩
        rcases g2 with g2 | ⟨j, q', g2, g3, g4⟩
        · rcases Bool.or_eq_true _ _ ▸ g2 with h | h
          · exact .inl h
          · exact .inr ⟨0, p, by omega, rfl, h⟩
        · exact .inr ⟨j + 1, q', by omega, g3, g4⟩
      · rw [Bool.or_eq_false_iff] at g2
        refine .inr ⟨g1, g2.1, fun j q' hj hq => ?_⟩
        cases j with
        | zero => cases hq; exact g2.2
        | succ j => exact g3 j q' (by omega) hq

/-! ### Words -/

theorem words_sep {c : Char} (s : Str) (h : isWord c = false) : words (c :: s) = words s := by
  rw [words.eq_def]; simp [h]

theorem words_word : ∀ (w t : Str), w ≠ [] → (∀ c ∈ w, isWord c = true) → (∀ c, t.head? = some c → isWord c = false) → words (w ++ t) = w :: words t
  | [], _, h, _, _ => absurd rfl h
  | [c], t, _, hw, ht => by
    have hc := hw c (by simp)
    cases t with
    | nil => simp [words, hc]
    | cons d t =>
      have := ht d rfl
      rw [List.singleton_append, words, if_pos hc]
      simp only [this]
      rfl
  | c :: d :: w, t, _, hw, ht => by
    have hc := hw c (by simp)
    have hd := hw d (by simp)
    have ih := words_word (d :: w) t (by simp) (fun x hx => hw x (List.mem_cons_of_mem _ hx)) ht
    rw [List.cons_append] at ih
    rw [List.cons_append, List.cons_append, words, if_pos hc]
    simp only [hd, if_true, ih]

theorem name_isWord {n : Str} (h : IsName n) : ∀ c ∈ n, isWord c = true := fun c hc => (isWord_iff c).2 (name_word h c hc)

theorem brief_head (ps : List Param) (t : Str) (ht : ∀ c, t.head? = some c → isWord c = false) : ∀ c, (brief false ps ++ t).head? = some c → isWord c = false := by
  intro c hc
  cases ps with
  | nil => exact ht c hc
  | cons q qs =>
    rw [brief] at hc
    by_cases hq : q.optional = true
    · rw [if_pos hq] at hc; simp at hc; subst hc; decide
    · rw [if_neg hq] at hc; simp at hc; subst hc; decide

theorem words_brief : ∀ (ps : List Param) (first : Bool) (t : Str), (∀ p ∈ ps, IsName p.name) → (∀ c, t.head? = some c → isWord c = false) →
    words (brief first ps ++ t) = ps.map (·.name) ++ words t
  | [], first, t, _, _ => by simp [brief]
  | p :: ps, first, t, hp, ht => by
    have hp1 := hp p (List.mem_cons_self ..)
    have hp2 := fun q hq => hp q (List.mem_cons_of_mem _ hq)
    have hne : p.name ≠ [] := by obtain ⟨w, hw⟩ := name_ne hp1; rw [hw]; simp
    have sp : isWord ' ' = false := by decide
    have co : isWord ',' = false := by decide
    have ob : isWord '[' = false := by decide
    have cb : isWord ']' = false := by decide
    rw [brief]
    by_cases ho : p.optional = true
    · rw [if_pos ho]
      have ih := words_brief ps false (" ]".toList ++ t) hp2 (by simp; decide)
      have hh := words_word p.name (brief false ps ++ (" ]".toList ++ t)) hne (name_isWord hp1) (brief_head ps _ (by simp; decide))
      rw [ih] at hh
      have e : words (" ]".toList ++ t) = words t := (words_sep _ sp).trans (words_sep _ cb)
      rw [e] at hh
      cases first
      · have : " [".toList ++ (if false = true then " ".toList else " , ".toList) ++ p.name ++ brief false ps ++ " ]".toList ++ t = ' ' :: '[' :: ' ' :: ',' :: ' ' :: (p.name ++ (brief false ps ++ (" ]".toList ++ t))) := by simp
        rw [this, words_sep _ sp, words_sep _ ob, words_sep _ sp, words_sep _ co, words_sep _ sp, hh]
        simp
      · have : " [".toList ++ (if true = true then " ".toList else " , ".toList) ++ p.name ++ brief false ps ++ " ]".toList ++ t = ' ' :: '[' :: ' ' :: (p.name ++ (brief false ps ++ (" ]".toList ++ t))) := by simp
        rw [this, words_sep _ sp, words_sep _ ob, words_sep _ sp, hh]
        simp
    · rw [if_neg ho]
      have ih := words_brief ps false t hp2 ht
      have hh := words_word p.name (brief false ps ++ t) hne (name_isWord hp1) (brief_head ps _ ht)
      rw [ih] at hh
      cases first
      · have : (if false = true then " ".toList else ", ".toList) ++ p.name ++ brief false ps ++ t = ',' :: ' ' :: (p.name ++ (brief false ps ++ t)) := by simp
        rw [this, words_sep _ co, words_sep _ sp, hh]
        simp
      · have : (if true = true then " ".toList else ", ".toList) ++ p.name ++ brief false ps ++ t = ' ' :: (p.name ++ (brief false ps ++ t)) := by simp
        rw [this, words_sep _ sp, hh]
        simp

theorem brief_chars : ∀ (ps : List Param) (first : Bool), (∀ p ∈ ps, IsName p.name) → '(' ∉ brief first ps ∧ ')' ∉ brief first ps
  | [], first, _ => by simp [brief]
  | p :: ps, first, hp => by
    have hp1 := name_word (hp p (List.mem_cons_self ..))
    obtain ⟨i1, i2⟩ := brief_chars ps false (fun q hq => hp q (List.mem_cons_of_mem _ hq))
    have h1 : '(' ∉ p.name := fun h => by rcases hp1 _ h with h | h <;> revert h <;> decide
    have h2 : ')' ∉ p.name := fun h => by rcases hp1 _ h with h | h <;> revert h <;> decide
    rw [brief]
    by_cases ho : p.optional = true
    · rw [if_pos ho]
      cases first <;> simp [h1, h2, i1, i2]
    · rw [if_neg ho]
      cases first <;> simp [h1, h2, i1, i2]

end Verif.Titles
