import Verif.Earley.SynSpec
/-! # Lemmas on the token provider -/
namespace Verif.Earley

theorem isGap_iff {x : Elem} : x.isGap = true ↔ IsGap x := by
  constructor
  · intro h
    unfold Elem.isGap at h
    split at h
    · rename_i p b s e c
      cases c with
      | leaf => simp [symbolIn] at h
      | nt q b' s' e' cs =>
        refine ⟨p, b, s, e, q, b', s', e', cs, rfl, ?_⟩
        simpa [symbolIn, gapSymbols] using h
    · cases h
  · rintro ⟨p, b, s, e, q, b', s', e', cs, rfl, h⟩
    simpa [Elem.isGap, symbolIn, gapSymbols] using h

theorem isGap_false {x : Elem} : x.isGap = false ↔ ¬ IsGap x := by
  rw [← isGap_iff]; simp

mutual
theorem containsA_iff (name : String) : ∀ (n : Node LexLeaf), containsA name n = true ↔ Contains name n
  | .leaf l => by
    constructor
    · intro h; simp [containsA] at h
    · intro h; cases h
  | .nt p b s e cs => by
    have ih := containsAny_iff name cs
    simp only [containsA, Bool.or_eq_true, decide_eq_true_eq, ih]
    constructor
    · rintro (h | ⟨c, h1, h2⟩)
      · exact .here h
      · exact .child h1 h2
    · intro h
      cases h with
      | here h => exact .inl h
      | child h1 h2 => exact .inr ⟨_, h1, h2⟩
theorem containsAny_iff (name : String) : ∀ (cs : List (Node LexLeaf)),
    containsA.containsAny name cs = true ↔ ∃ c ∈ cs, Contains name c
  | [] => by simp [containsA.containsAny]
  | c :: r => by
    have h1 := containsA_iff name c
    have h2 := containsAny_iff name r
    simp [containsA.containsAny, h1, h2]
end

theorem ltOccurs_spec : ∀ {es b}, (∀ x ∈ es, IsGap x) → ltOccurs es = .ok b → (b = true ↔ ∃ x ∈ es, IsLineBreak x) := by
  intro es
  induction es with
  | nil => intro b _ h; simp [ltOccurs] at h; subst h; simp
  | cons x r ih =>
    intro b hg h
    obtain ⟨p, bb, s, e, q, b', s', e', cs, rfl, hq⟩ := hg x List.mem_cons_self
    have key : IsLineBreak (.node (.nt p bb s e [.nt q b' s' e' cs])) ↔
        (q.ogLhs = "LineTerminator" ∨ (q.ogLhs = "Comment" ∧ Contains "LineTerminator" (.nt q b' s' e' cs))) := by
      constructor
      · rintro ⟨_, _, _, _, _, _, _, _, _, h, h'⟩
        cases h; exact h'
      · intro h'; exact ⟨_, _, _, _, _, _, _, _, _, rfl, h'⟩
    simp only [ltOccurs] at h
    split at h
    · cases h
    split at h
    · cases h
    split at h
    · rename_i h1
      simp [symbolIn] at h1
      injection h with h; subst h
      simp only [true_iff]
      exact ⟨_, List.mem_cons_self, key.2 (.inl h1)⟩
    split at h
    · rename_i h1 h2
      simp only [symbolIn, List.mem_singleton, Bool.and_eq_true, decide_eq_true_eq, containsA_iff] at h2
      injection h with h; subst h
      simp only [true_iff]
      exact ⟨_, List.mem_cons_self, key.2 (.inr h2)⟩
    · rename_i h1 h2
      simp only [symbolIn, List.mem_singleton, decide_eq_true_eq] at h1
      simp only [symbolIn, List.mem_singleton, Bool.and_eq_true, decide_eq_true_eq, containsA_iff] at h2
      rw [ih (fun x hx => hg x (List.mem_cons_of_mem _ hx)) h]
      constructor
      · rintro ⟨x, hx, hl⟩; exact ⟨x, List.mem_cons_of_mem _ hx, hl⟩
      · rintro ⟨x, hx, hl⟩
        rcases List.mem_cons.1 hx with rfl | hx
        · rcases key.1 hl with h | h
          · exact absurd h h1
          · exact absurd h h2
        · exact ⟨x, hx, hl⟩

/-! ## Named tokens -/

theorem NamedBy.sym {n m} (h : NamedBy n m) : ∃ p b s e cs, m = .nt p b s e cs ∧ p.ogLhs ∈ namedTokens := by
  induction h with
  | here h => exact ⟨_, _, _, _, _, rfl, h⟩
  | down _ _ ih => exact ih

theorem wrap_not_named {s : String} (h : s ∈ wrappers) : s ∉ namedTokens := by
  intro h'
  simp only [wrappers, namedTokens, List.mem_cons, List.not_mem_nil, or_false] at h h'
  rcases h with rfl | rfl | rfl | rfl | rfl | rfl | rfl | rfl <;> revert h' <;> decide

theorem punct_not {s : String} (h : s ∈ punctuators) : s ∉ namedTokens ∧ s ∉ wrappers := by
  simp only [punctuators, List.mem_cons, List.not_mem_nil, or_false] at h
  rcases h with rfl | rfl | rfl <;> decide

theorem namedNode_some : ∀ (n m : Node LexLeaf), namedNode n = .ok (some m) → NamedBy n m
  | .leaf l, m, h => by
    simp only [namedNode] at h
    split at h
    · injection h with h; cases h
    · cases h
  | .nt p b s e [], m, h => by
    simp only [namedNode, namedNode.onlyChild] at h
    split at h
    · cases h
    split at h
    · rename_i h1
      injection h with h; injection h with h; subst h
      exact .here h1
    split at h
    · injection h with h; cases h
    · cases h
  | .nt p b s e [c], m, h => by
    have ih := namedNode_some c m
    simp only [namedNode, namedNode.onlyChild] at h
    split at h
    · rename_i h1; exact .down h1 (ih h)
    split at h
    · rename_i h1
      injection h with h; injection h with h; subst h
      exact .here h1
    split at h
    · injection h with h; cases h
    · cases h
  | .nt p b s e (c :: d :: r), m, h => by
    simp only [namedNode, namedNode.onlyChild] at h
    split at h
    · cases h
    split at h
    · rename_i h1
      injection h with h; injection h with h; subst h
      exact .here h1
    split at h
    · injection h with h; cases h
    · cases h

theorem namedNode_of {n m : Node LexLeaf} (h : NamedBy n m) : namedNode n = .ok (some m) := by
  induction h with
  | @here p b s e cs h =>
    have hw : p.ogLhs ∉ wrappers := fun hw => wrap_not_named hw h
    simp [namedNode, hw, h]
  | @down p b s e c m h _ ih => simp [namedNode, h, namedNode.onlyChild, ih]

/-! ## Matching -/

theorem matchOne_spec {S : SynEnv} {tok named t r} (hn : namedToken tok = .ok named)
    (h : matchOne tok named (tokenText S tok) t = .ok r) : ∀ l, Instance S tok t l ↔ r = some l := by
  intro l
  unfold matchOne at h
  cases t with
  | uProp => cases h
  | uRange => cases h
  | lit c =>
    dsimp only at h
    injection h with h
    cases tok with
    | semi p =>
      have ht : tokenText S (.semi p) = [';'] := rfl
      rw [ht] at h
      have hc : c.toList = [';'] ↔ c = ";" := by
        rw [show [';'] = ";".toList by decide, String.toList_inj]
      split at h
      · rename_i he
        have := hc.1 he; subst this
        subst h; simp [Instance, Elem.extent]; exact eq_comm
      · rename_i he
        subst h; simp only [Instance, reduceCtorEq, iff_false]
        rintro ⟨h1, _⟩
        injection h1 with h1
        exact he (hc.2 h1)
    | eoi p =>
      have ht : tokenText S (.eoi p) = [] := by simp [tokenText, Elem.text, Elem.extent, slice]
      rw [ht] at h
      have hc : c.toList = [] ↔ c = "" := by
        rw [show [] = "".toList by decide, String.toList_inj]
      split at h
      · rename_i he
        have := hc.1 he; subst this
        subst h; simp [Instance, Elem.extent, endOfInput]; exact eq_comm
      · rename_i he
        subst h; simp only [Instance, reduceCtorEq, iff_false]
        rintro (⟨h1, _⟩ | ⟨h1, _⟩)
        · cases h1
        · injection h1 with h1
          exact he (hc.2 h1)
    | node n =>
      have ht : tokenText S (.node n) = nodeText S.text n := rfl
      rw [ht] at h
      split at h
      · rename_i he
        subst h
        simp only [Instance, Elem.extent, reduceCtorEq, false_and, exists_false, or_false, Option.some.injEq]
        constructor
        · rintro ⟨c', h1, h2, h3⟩
          injection h1 with h1; subst h1
          rw [h3, he]
        · intro h1; exact ⟨c, rfl, he, by rw [← h1, he]⟩
      · rename_i he
        subst h
        simp only [Instance, reduceCtorEq, false_and, exists_false, or_false, iff_false]
        rintro ⟨c', h1, h2, h3⟩
        injection h1 with h1; subst h1
        exact he h2
  | named name =>
    dsimp only at h
    cases tok with
    | eoi p =>
      dsimp only at h
      injection h with h
      split at h
      · rename_i he
        subst h
        simp [Instance, he, endOfInput]; exact eq_comm
      · rename_i he
        subst h; simp [Instance, he]
    | semi p =>
      simp only [namedToken] at hn
      injection hn with hn; subst hn
      dsimp only at h
      injection h with h; subst h
      simp [Instance]
    | node n =>
      simp only [namedToken] at hn
      cases named with
      | none =>
        dsimp only at h
        injection h with h; subst h
        simp only [Instance, reduceCtorEq, false_and, exists_false, false_or, iff_false]
        rintro ⟨_, _, _, _, _, _, _, h2, _⟩
        rw [namedNode_of h2] at hn
        injection hn with hn; cases hn
      | some m =>
        dsimp only at h
        injection h with h
        have hm := namedNode_some _ _ hn
        obtain ⟨p, b, s, e, cs, rfl, _⟩ := hm.sym
        simp only [hasSymbol, decide_eq_true_eq] at h
        split at h
        · rename_i he
          subst h
          simp only [Instance, reduceCtorEq, false_and, exists_false, false_or, Option.some.injEq]
          constructor
          · rintro ⟨_, _, _, _, _, _, _, h2, _, h4⟩
            rw [namedNode_of h2] at hn
            injection hn with hn; injection hn with hn
            rw [h4, hn]
          · intro h1; exact ⟨name, p, b, s, e, cs, rfl, hm, he, h1.symm⟩
        · rename_i he
          subst h
          simp only [Instance, reduceCtorEq, false_and, exists_false, false_or, iff_false]
          rintro ⟨_, _, _, _, _, _, h1, h2, h3, _⟩
          rw [namedNode_of h2] at hn
          injection hn with hn; injection hn with hn; injection hn with hn
          injection h1 with h1
          exact he (by rw [← hn, h1, h3])

theorem matchAll_spec {S : SynEnv} {tok named} (hn : namedToken tok = .ok named) : ∀ {e ms},
    matchAll tok named (tokenText S tok) e = .ok ms → ∀ t l, (t, l) ∈ ms ↔ t ∈ e ∧ Instance S tok t l := by
  intro e
  induction e with
  | nil => intro ms h t l; simp [matchAll] at h; subst h; simp
  | cons t0 r ih =>
    intro ms h t l
    simp only [matchAll] at h
    split at h
    · cases h
    · cases h
    · rename_i h1 h2
      injection h with h; subst h
      have g := matchOne_spec hn h1
      rw [ih h2]
      constructor
      · rintro ⟨a, b⟩; exact ⟨List.mem_cons_of_mem _ a, b⟩
      · rintro ⟨a, b⟩
        rcases List.mem_cons.1 a with rfl | a
        · exact absurd ((g l).1 b) (by simp)
        · exact ⟨a, b⟩
    · rename_i l0 ms' h1 h2
      injection h with h; subst h
      have g := matchOne_spec hn h1
      rw [List.mem_cons, ih h2, _root_.Prod.mk.injEq]
      constructor
      · rintro (⟨rfl, rfl⟩ | ⟨a, b⟩)
        · exact ⟨List.mem_cons_self, (g l).2 rfl⟩
        · exact ⟨List.mem_cons_of_mem _ a, b⟩
      · rintro ⟨a, b⟩
        rcases List.mem_cons.1 a with rfl | a
        · have := (g l).1 b
          injection this with this
          exact .inl ⟨rfl, this.symm⟩
        · exact .inr ⟨a, b⟩

/-! ## Tokens and their places -/

/-- The tokens of a list of elements, numbered from `i`. -/
def toksOf : Nat → List Elem → List (Elem × Nat)
  | _, [] => []
  | i, x :: r => if x.isGap then toksOf (i + 1) r else (x, i) :: toksOf (i + 1) r

theorem toksOf_append (a b : List Elem) : ∀ i, toksOf i (a ++ b) = toksOf i a ++ toksOf (i + a.length) b := by
  induction a with
  | nil => intro i; simp [toksOf]
  | cons x r ih =>
    intro i
    simp only [List.cons_append, toksOf, ih, List.length_cons]
    rw [show i + 1 + r.length = i + (r.length + 1) by omega]
    split <;> simp

theorem toksOf_fst (a : List Elem) : ∀ i, (toksOf i a).map (·.1) = tokensOf a := by
  induction a with
  | nil => intro i; rfl
  | cons x r ih =>
    intro i
    simp only [toksOf, tokensOf, List.filter_cons]
    cases x.isGap
    · simp only [Bool.false_eq_true, if_false, List.map_cons, Bool.not_false, if_true, ih]; rfl
    · simp only [if_true, Bool.not_true, Bool.false_eq_true, if_false, ih]; rfl

theorem toksOf_shift (a : List Elem) : ∀ i, toksOf (i + 1) a = (toksOf i a).map (fun q => (q.1, q.2 + 1)) := by
  induction a with
  | nil => intro i; rfl
  | cons x r ih =>
    intro i
    simp only [toksOf]
    split
    · exact ih _
    · rw [ih]; rfl

theorem toksOf_nil {a : List Elem} {i} (h : toksOf i a = []) : ∀ x ∈ a, IsGap x := by
  induction a generalizing i with
  | nil => simp
  | cons y r ih =>
    simp only [toksOf] at h
    split at h
    · rename_i hg
      intro x hx
      rcases List.mem_cons.1 hx with rfl | hx
      · exact isGap_iff.1 hg
      · exact ih h x hx
    · cases h

theorem toksOf_split {es : List Elem} : ∀ {i A t j B}, toksOf i es = A ++ (t, j) :: B →
    ∃ b a, es = b ++ t :: a ∧ j = i + b.length ∧ toksOf i b = A ∧ toksOf (j + 1) a = B ∧ ¬ IsGap t := by
  induction es with
  | nil => intro i A t j B h; simp [toksOf] at h
  | cons x r ih =>
    intro i A t j B h
    simp only [toksOf] at h
    split at h
    · rename_i hg
      obtain ⟨b, a, rfl, rfl, h3, h4, h5⟩ := ih h
      refine ⟨x :: b, a, rfl, by simp; omega, ?_, h4, h5⟩
      simp [toksOf, hg, h3]
    · rename_i hg
      cases A with
      | nil =>
        rw [List.nil_append] at h
        injection h with h1 h2
        injection h1 with h1 h3
        subst h1 h3
        refine ⟨[], r, rfl, rfl, rfl, h2, ?_⟩
        rw [← isGap_iff]; exact hg
      | cons y A =>
        rw [List.cons_append] at h
        injection h with h1 h2
        obtain ⟨b, a, rfl, rfl, h3, h4, h5⟩ := ih h2
        refine ⟨x :: b, a, rfl, by simp; omega, ?_, h4, h5⟩
        simp [toksOf, hg, h3, h1]

/-- The token with a given number, the gap before it and everything else. -/
theorem token_at {es : List Elem} {k : Nat} {t j} (h : (toksOf 0 es)[k]? = some (t, j)) :
    ∃ before gap after, es = before ++ gap ++ t :: after ∧ TokenAt k before gap t ∧
      j = (before ++ gap).length ∧ toksOf 0 (before ++ gap) = (toksOf 0 es).take k ∧
      toksOf (j + 1) after = (toksOf 0 es).drop (k + 1) ∧
      before.length = gapStart (toksOf 0 es) k := by
  have hk := (List.getElem?_eq_some_iff.1 h).1
  have hsp : toksOf 0 es = (toksOf 0 es).take k ++ (t, j) :: (toksOf 0 es).drop (k + 1) := by
    have h1 : (toksOf 0 es).drop k = (t, j) :: (toksOf 0 es).drop (k + 1) := by
      rw [List.drop_eq_getElem_cons hk, (List.getElem?_eq_some_iff.1 h).2]
    rw [← h1, List.take_append_drop]
  obtain ⟨b, a, he, hj, h3, h4, h5⟩ := toksOf_split hsp
  rw [Nat.zero_add] at hj
  cases k with
  | zero =>
    rw [List.take_zero] at h3
    refine ⟨[], b, a, he, ⟨toksOf_nil h3, h5, .inl rfl, rfl⟩, hj, by rw [List.take_zero]; exact h3, h4, rfl⟩
  | succ m =>
    have hm : m < (toksOf 0 es).length := by omega
    have hlast : (toksOf 0 es).take (m + 1) = (toksOf 0 es).take m ++ [(toksOf 0 es)[m]] := by
      rw [List.take_succ_eq_append_getElem hm]
    rw [hlast] at h3
    obtain ⟨b1, g, hb, hj1, h31, h41, h51⟩ := toksOf_split (t := (toksOf 0 es)[m].1) (j := (toksOf 0 es)[m].2) (B := []) h3
    rw [Nat.zero_add] at hj1
    refine ⟨b1 ++ [(toksOf 0 es)[m].1], g, a, he.trans (by rw [hb]; simp), ?_, by rw [hj, hb]; simp, ?_, h4, ?_⟩
    · refine ⟨toksOf_nil h41, h5, .inr ⟨_, _, rfl, h51⟩, ?_⟩
      rw [← toksOf_fst _ 0, toksOf_append, h31, List.length_map, List.length_append, List.length_take]
      have : (toksOf (0 + b1.length) [(toksOf 0 es)[m].1]).length = 1 := by
        simp [toksOf, isGap_false.2 h51]
      rw [this]; omega
    · rw [hlast, ← h3, hb]; simp
    · simp only [gapStart]
      rw [List.getElem?_eq_getElem hm]
      simp [hj1]

end Verif.Earley
