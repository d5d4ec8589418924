import Verif.Kinds.KindLemmas
/-!
# Titles of functions
-/
namespace Verif.Kinds
open Verif.Sections (isWord)
open Verif.Paths.Spec (Word Key Base Path Plain)
open Spec

theorem fn_cons {s : Str} {q : Rx × Bool × String} {rest : List (Rx × Bool × String)} {x : String × Str × Option Str}
    (h : ((q :: rest).find? (fun p => full (fnRx p) s)).map (fun p => (p.2.2, groups p.2.1 s)) = some x) :
    (full (fnRx q) s = true ∧ (q.2.2, groups q.2.1 s) = x) ∨
    (¬ full (fnRx q) s = true ∧ (rest.find? (fun p => full (fnRx p) s)).map (fun p => (p.2.2, groups p.2.1 s)) = some x) := by
  rw [List.find?_cons] at h
  cases e : full (fnRx q) s with
  | true => rw [e] at h; exact .inl ⟨rfl, by simpa using h⟩
  | false => rw [e] at h; exact .inr ⟨by simp, h⟩

theorem groups_call {n ps : Str} (hn : '(' ∉ n) : groups true (call n ps) = (n, some ps) := by
  have hp : ∀ c ∈ n ++ [' '], (c != '(') = true := by
    intro c hc
    simp only [bne_iff_ne, ne_eq]
    rintro rfl
    simp at hc
    exact hn hc
  have e : call n ps = (n ++ [' ']) ++ '(' :: (ps ++ [')']) := by simp [call]
  rw [groups, if_pos rfl, e, List.takeWhile_append_of_pos hp, List.dropWhile_append_of_pos hp]
  simp

theorem m_call {r : Rx} {k : String} {s : Str} : Matches (fnRx (r, true, k)) s ↔ ∃ n ps, Matches r n ∧ NoParens ps ∧ s = call n ps := by
  have : fnRx (r, true, k) = .seq r parameterList := rfl
  rw [this, m_seq]
  simp only [m_params]
  constructor
  · rintro ⟨n, v, rfl, hn, ps, hp, rfl⟩; exact ⟨n, ps, hn, hp, by simp [call]⟩
  · rintro ⟨n, ps, hn, hp, rfl⟩; exact ⟨n, _, by simp [call], hn, ps, hp, rfl⟩

theorem m_variable {s : Str} : Matches (cat [lit "_", upper, plus w, lit "_"]) s ↔ ∃ n, Capital n ∧ s = '_' :: n ++ ['_'] := by
  rw [m_cat]
  simp only [m_lit]
  constructor
  · rintro ⟨u, v, rfl, rfl, h⟩
    obtain ⟨c, t, rfl, hc, h⟩ := m_cat.1 h
    obtain ⟨x, hx, rfl⟩ := m_after.1 h
    exact ⟨c ++ x, capital_iff.1 ⟨c, x, rfl, hc, hx⟩, by simp⟩
  · rintro ⟨n, hn, rfl⟩
    obtain ⟨c, x, rfl, hc, hx⟩ := capital_iff.2 hn
    exact ⟨_, c ++ (x ++ "_".toList), by simp, rfl, m_cat.2 ⟨c, _, rfl, hc, m_after.2 ⟨x, hx, rfl⟩⟩⟩

theorem m_percent {s : Str} : Matches (cat [lit "%", upper, plus w, lit "%"]) s ↔ ∃ n, Capital n ∧ s = '%' :: n ++ ['%'] := by
  rw [m_cat]
  simp only [m_lit]
  constructor
  · rintro ⟨u, v, rfl, rfl, h⟩
    obtain ⟨c, t, rfl, hc, h⟩ := m_cat.1 h
    obtain ⟨x, hx, rfl⟩ := m_after.1 h
    exact ⟨c ++ x, capital_iff.1 ⟨c, x, rfl, hc, hx⟩, by simp⟩
  · rintro ⟨n, hn, rfl⟩
    obtain ⟨c, x, rfl, hc, hx⟩ := capital_iff.2 hn
    exact ⟨_, c ++ (x ++ "%".toList), by simp, rfl, m_cat.2 ⟨c, _, rfl, hc, m_after.2 ⟨x, hx, rfl⟩⟩⟩

theorem constructor_chars {n : Str} (h : Constructor n) : '(' ∉ n ∧ '.' ∉ n := by
  cases h with
  | plain h =>
    have := m_capital.2 h
    exact ⟨avoids_of this (by decide), avoids_of this (by decide)⟩
  | underscored h =>
    have := m_variable.2 ⟨_, h, rfl⟩
    exact ⟨avoids_of this (by decide), avoids_of this (by decide)⟩
  | percent h =>
    have := m_percent.2 ⟨_, h, rfl⟩
    exact ⟨avoids_of this (by decide), avoids_of this (by decide)⟩

theorem word_chars {n : Str} (h : Word n) : '(' ∉ n ∧ '.' ∉ n :=
  ⟨avoids_of (m_word.2 h) (by decide), avoids_of (m_word.2 h) (by decide)⟩

theorem path_chars {n : Str} (h : PropPath n) : '(' ∉ n ∧ ')' ∉ n ∧ '.' ∈ n := by
  refine ⟨avoids_of (m_propPath.2 h) (by decide), avoids_of (m_propPath.2 h) (by decide), ?_⟩
  obtain ⟨b, ks, -, hn, -, rfl⟩ := h
  cases ks with
  | nil => exact absurd rfl hn
  | cons k ks =>
    refine List.mem_append_right _ ?_
    rw [List.flatMap_cons]
    refine List.mem_append_left _ ?_
    cases k with
    | string x => exact .head _
    | symbol x =>
      have : '.' ∈ " [ %Symbol.".toList := by decide
      exact List.mem_append_left _ (List.mem_append_left _ this)

theorem call_inj {n n' ps ps' : Str} (hn : '(' ∉ n) (hn' : '(' ∉ n') (e : call n ps = call n' ps') : n = n' ∧ ps = ps' := by
  have := groups_call (ps := ps) hn
  rw [e, groups_call hn'] at this
  simp only [Prod.mk.injEq, Option.some.injEq] at this
  exact ⟨this.1.symm, this.2.symm⟩

/-- A title of an accessor is none of a call. -/
theorem accessor_call {pre n m ps : Str} (hp : ')' ∉ pre) (h : PropPath n) (e : pre ++ n = call m ps) : False := by
  have : ')' ∈ pre ++ n := by rw [e]; simp [call]
  rcases List.mem_append.1 this with h' | h'
  · exact hp h'
  · exact (path_chars h).2.1 h'

theorem fn_inv {s : Str} {k : String} {n : Str} {ps : Option Str} (h : FnTitle s k n ps) :
    (∃ m, PropPath m ∧ k = "accessor_property" ∧ n = s ∧ ps = none ∧ (s = "get ".toList ++ m ∨ s = "set ".toList ++ m)) ∨
    (∃ qs, s = call n qs ∧ ps = some qs ∧ '(' ∉ n ∧
      (k = "CallConstruct" ∧ Constructor n ∨ k = "function_property" ∧ (PropPath n ∨ Word n ∧ ¬ Constructor n))) := by
  cases h with
  | construct h _ => exact .inr ⟨_, rfl, rfl, (constructor_chars h).1, .inl ⟨rfl, h⟩⟩
  | getter h => exact .inl ⟨_, h, rfl, rfl, rfl, .inl rfl⟩
  | setter h => exact .inl ⟨_, h, rfl, rfl, rfl, .inr rfl⟩
  | method h _ => exact .inr ⟨_, rfl, rfl, (path_chars h).1, .inr ⟨rfl, .inl h⟩⟩
  | global h h' _ => exact .inr ⟨_, rfl, rfl, (word_chars h).1, .inr ⟨rfl, .inr ⟨h, h'⟩⟩⟩

theorem fn_unique {s : Str} {k k' : String} {n n' : Str} {ps ps' : Option Str} (h : FnTitle s k n ps) (h' : FnTitle s k' n' ps') :
    k = k' ∧ n = n' ∧ ps = ps' := by
  have not_both : ∀ {m qs t}, PropPath m → s = "get ".toList ++ m ∨ s = "set ".toList ++ m → s = call t qs → False := by
    intro m qs t hm h e
    rcases h with h | h
    · exact accessor_call (by decide) hm (h.symm.trans e)
    · exact accessor_call (by decide) hm (h.symm.trans e)
  rcases fn_inv h with ⟨m, hm, rfl, rfl, rfl, hs⟩ | ⟨qs, e, rfl, hn, hk⟩
  · rcases fn_inv h' with ⟨m', -, rfl, rfl, rfl, -⟩ | ⟨qs', e', -⟩
    · exact ⟨rfl, rfl, rfl⟩
    · exact (not_both hm hs e').elim
  · rcases fn_inv h' with ⟨m', hm', -, -, -, hs'⟩ | ⟨qs', e', rfl, hn', hk'⟩
    · exact (not_both hm' hs' e).elim
    · obtain ⟨rfl, rfl⟩ := call_inj hn hn' (e.symm.trans e')
      refine ⟨?_, rfl, rfl⟩
      have excl : Constructor n → ¬ (PropPath n ∨ Word n ∧ ¬ Constructor n) := by
        rintro hc (hp | ⟨-, hc'⟩)
        · exact (constructor_chars hc).2 (path_chars hp).2.2
        · exact hc' hc
      rcases hk with ⟨rfl, hc⟩ | ⟨rfl, hp⟩ <;> rcases hk' with ⟨rfl, hc'⟩ | ⟨rfl, hp'⟩
      · rfl
      · exact absurd hp' (excl hc)
      · exact absurd hp (excl hc')
      · rfl

attribute [local irreducible] lit cat any plus full

theorem fn_sound {s : Str} {k : String} {n : Str} {ps : Option Str} (h : fnTitle s = some (k, n, ps)) : FnTitle s k n ps := by
  unfold fnTitle fnPatterns at h
  rcases fn_cons h with ⟨h0, e⟩ | ⟨n0, h⟩
  · obtain ⟨m, qs, hm, hq, rfl⟩ := m_call.1 ((full_iff _ _).1 h0)
    have hc := Constructor.plain (m_capital.1 hm)
    rw [groups_call (constructor_chars hc).1] at e
    cases e
    exact .construct hc hq
  rcases fn_cons h with ⟨h1, e⟩ | ⟨n1, h⟩
  · obtain ⟨m, qs, hm, hq, rfl⟩ := m_call.1 ((full_iff _ _).1 h1)
    obtain ⟨x, hx, rfl⟩ := m_variable.1 hm
    have hc := Constructor.underscored hx
    rw [groups_call (constructor_chars hc).1] at e
    cases e
    exact .construct hc hq
  rcases fn_cons h with ⟨h2, e⟩ | ⟨n2, h⟩
  · obtain ⟨m, qs, hm, hq, rfl⟩ := m_call.1 ((full_iff _ _).1 h2)
    obtain ⟨x, hx, rfl⟩ := m_percent.1 hm
    have hc := Constructor.percent hx
    rw [groups_call (constructor_chars hc).1] at e
    cases e
    exact .construct hc hq
  rcases fn_cons h with ⟨h3, e⟩ | ⟨-, h⟩
  · obtain ⟨m, hm, rfl⟩ := m_before.1 ((full_iff _ _).1 h3)
    cases e
    exact .getter (m_propPath.1 hm)
  rcases fn_cons h with ⟨h4, e⟩ | ⟨-, h⟩
  · obtain ⟨m, hm, rfl⟩ := m_before.1 ((full_iff _ _).1 h4)
    cases e
    exact .setter (m_propPath.1 hm)
  rcases fn_cons h with ⟨h5, e⟩ | ⟨-, h⟩
  · obtain ⟨m, qs, hm, hq, rfl⟩ := m_call.1 ((full_iff _ _).1 h5)
    have hc := m_propPath.1 hm
    rw [groups_call (path_chars hc).1] at e
    cases e
    exact .method hc hq
  rcases fn_cons h with ⟨h6, e⟩ | ⟨-, h⟩
  · obtain ⟨m, qs, hm, hq, rfl⟩ := m_call.1 ((full_iff _ _).1 h6)
    have hc := m_word.1 hm
    rw [groups_call (word_chars hc).1] at e
    cases e
    refine .global hc ?_ hq
    intro hk
    cases hk with
    | plain hk => exact n0 ((full_iff _ _).2 (m_call.2 ⟨_, qs, m_capital.2 hk, hq, rfl⟩))
    | underscored hk => exact n1 ((full_iff _ _).2 (m_call.2 ⟨_, qs, m_variable.2 ⟨_, hk, rfl⟩, hq, rfl⟩))
    | percent hk => exact n2 ((full_iff _ _).2 (m_call.2 ⟨_, qs, m_percent.2 ⟨_, hk, rfl⟩, hq, rfl⟩))
  cases h

theorem fn_found {s : Str} {i : Nat} {q : Rx × Bool × String} (hq : fnPatterns[i]? = some q) (h : Matches (fnRx q) s) : ∃ x, fnTitle s = some x := by
  unfold fnTitle
  cases e : fnPatterns.find? (fun p => full (fnRx p) s) with
  | some q => exact ⟨_, rfl⟩
  | none =>
    rw [List.find?_eq_none] at e
    exact absurd ((full_iff _ _).2 h) (e q (List.mem_of_getElem? hq))

theorem fn_complete {s : Str} {k : String} {n : Str} {ps : Option Str} (h : FnTitle s k n ps) : ∃ x, fnTitle s = some x := by
  cases h with
  | construct h hp =>
    cases h with
    | plain h => exact fn_found (i := 0) rfl (m_call.2 ⟨_, _, m_capital.2 h, hp, rfl⟩)
    | underscored h => exact fn_found (i := 1) rfl (m_call.2 ⟨_, _, m_variable.2 ⟨_, h, rfl⟩, hp, rfl⟩)
    | percent h => exact fn_found (i := 2) rfl (m_call.2 ⟨_, _, m_percent.2 ⟨_, h, rfl⟩, hp, rfl⟩)
  | getter h => exact fn_found (i := 3) rfl (m_before.2 ⟨_, m_propPath.2 h, rfl⟩)
  | setter h => exact fn_found (i := 4) rfl (m_before.2 ⟨_, m_propPath.2 h, rfl⟩)
  | method h hp => exact fn_found (i := 5) rfl (m_call.2 ⟨_, _, m_propPath.2 h, hp, rfl⟩)
  | global h _ hp => exact fn_found (i := 6) rfl (m_call.2 ⟨_, _, m_word.2 h, hp, rfl⟩)

theorem fn_iff (s : Str) (k : String) (n : Str) (ps : Option Str) : fnTitle s = some (k, n, ps) ↔ FnTitle s k n ps := by
  constructor
  · exact fn_sound
  · intro h
    obtain ⟨⟨k', n', ps'⟩, e⟩ := fn_complete h
    obtain ⟨rfl, rfl, rfl⟩ := fn_unique h (fn_sound e)
    exact e

end Verif.Kinds
