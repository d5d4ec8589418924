import Verif.Strict.Spec
/-! # Lemmas about strict mode code -/
namespace Verif.Strict

mutual
theorem unitA_first {s : String} {u : PTree} : ∀ (t : PTree), unitA s t = some u → First s t u
  | .mk sym x cs, h => by
    rw [unitA] at h
    by_cases e : sym = some s
    · rw [if_pos e] at h
      cases h
      exact .here e
    · rw [if_neg e] at h
      obtain ⟨c, hc, hf⟩ := unitAs_first cs h
      exact .step e hc hf
theorem unitAs_first {s : String} {u : PTree} : ∀ (cs : List PTree), unitAs s cs = some u → ∃ c, cs = [c] ∧ First s c u
  | [], h => by cases h
  | [c], h => by
    rw [unitAs] at h
    exact ⟨c, rfl, unitA_first c h⟩
  | _ :: _ :: _, h => by cases h
end

theorem first_unitA {s : String} {t u : PTree} (h : First s t u) : unitA s t = some u := by
  induction h with
  | @here t h =>
    obtain ⟨sym, x, cs⟩ := t
    rw [unitA, if_pos (show sym = some s from h)]
  | @step t c u hn hk _ ih =>
    obtain ⟨sym, x, cs⟩ := t
    have hk' : cs = [c] := hk
    subst hk'
    rw [unitA, if_neg (show ¬ sym = some s from hn), unitAs]
    exact ih

theorem unitA_iff {s : String} {t u : PTree} : unitA s t = some u ↔ First s t u := ⟨unitA_first t, first_unitA⟩

theorem ends_iff {x : String} {s : Option String} : endsWith x s = true ↔ Ends x s := by
  cases s with
  | none => simp [endsWith, Ends]
  | some s =>
    simp only [endsWith, Ends, Option.map_some, Option.some.injEq, List.isSuffixOf_iff_suffix]
    constructor
    · rintro ⟨p, hp⟩
      exact ⟨p, hp.symm⟩
    · rintro ⟨p, hp⟩
      exact ⟨p, hp.symm⟩

theorem items_sound : ∀ (t : PTree) (is : List PTree), items t = some is → Items t is
  | .mk s x [], is, h => by simp [items] at h
  | .mk s x [i], is, h => by
    rw [items] at h
    by_cases e : (endsWith "List" s && endsWith "Item" i.sym) = true
    · rw [if_pos e] at h
      cases h
      rw [Bool.and_eq_true] at e
      exact .one (ends_iff.mp e.1) (ends_iff.mp e.2) rfl
    · rw [if_neg e] at h
      cases h
  | .mk s x [l, i], is, h => by
    rw [items] at h
    by_cases e : (endsWith "List" s && endsWith "List" l.sym && endsWith "Item" i.sym) = true
    · rw [if_pos e] at h
      rw [Bool.and_eq_true, Bool.and_eq_true] at e
      obtain ⟨is', h1, h2⟩ := Option.map_eq_some_iff.mp h
      subst h2
      exact .more (ends_iff.mp e.1.1) (ends_iff.mp e.2) rfl (items_sound l is' h1)
    · rw [if_neg e] at h
      cases h
  | .mk s x (_ :: _ :: _ :: _), is, h => by simp [items] at h

theorem items_list {t is} (h : Items t is) : Ends "List" t.sym := by
  cases h <;> assumption

theorem items_complete {t is} (h : Items t is) : items t = some is := by
  induction h with
  | @one l i h1 h2 hk =>
    obtain ⟨s, x, cs⟩ := l
    have hk' : cs = [i] := hk
    subst hk'
    have e1 : endsWith "List" s = true := ends_iff.mpr h1
    rw [items, e1, ends_iff.mpr h2]
    rfl
  | @more l l' i is h1 h2 hk hi ih =>
    obtain ⟨s, x, cs⟩ := l
    have hk' : cs = [l', i] := hk
    subst hk'
    have e1 : endsWith "List" s = true := ends_iff.mpr h1
    rw [items, e1, ends_iff.mpr h2, ends_iff.mpr (items_list hi), ih]
    rfl

theorem items_iff {t is} : items t = some is ↔ Items t is := ⟨items_sound t is, items_complete⟩

/-! ## Directives -/

theorem item_string {i l : PTree} : i.sym = some "StatementListItem" → (prologueItem i = some (some l) ↔ StringStatement i l) := by
  intro hi
  rw [prologueItem, if_pos (.inl hi)]
  constructor
  · intro h
    cases he : unitA "ExpressionStatement" i with
    | none => rw [he] at h; cases h
    | some e =>
      rw [he] at h
      simp only at h
      split at h
      · next ex semi hk => exact ⟨hi, e, ex, semi, unitA_iff.mp he, hk, unitA_iff.mp (by simpa using h)⟩
      · cases h
  · rintro ⟨_, e, ex, semi, h1, h2, h3⟩
    rw [unitA_iff.mpr h1]
    simp only [h2]
    rw [unitA_iff.mpr h3]

theorem item_fun {i l l' : PTree} (h : StringStatement i l) (h' : StringStatement i l') : l = l' := by
  have a := (item_string h.1).mpr h
  have b := (item_string h.1).mpr h'
  rw [a] at b
  cases b
  rfl

theorem item_good {i : PTree} (h : GoodItem i) : prologueItem i ≠ none := by
  rw [prologueItem, if_pos (.inl h.1)]
  cases he : unitA "ExpressionStatement" i with
  | none => simp
  | some e =>
    obtain ⟨ex, semi, hk⟩ := h.2 e (unitA_iff.mp he)
    simp [hk]

theorem directive_cons {i : PTree} {is : List PTree} {l : PTree} (hs : StringStatement i l) : HasDirective (i :: is) ↔ UseStrict l ∨ HasDirective is := by
  constructor
  · rintro ⟨pre, j, post, lit, he, hp, hj, hu⟩
    cases pre with
    | nil =>
      simp only [List.nil_append, List.cons.injEq] at he
      obtain ⟨rfl, rfl⟩ := he
      exact .inl (item_fun hs hj ▸ hu)
    | cons p pre =>
      simp only [List.cons_append, List.cons.injEq] at he
      obtain ⟨rfl, rfl⟩ := he
      exact .inr ⟨pre, j, post, lit, rfl, fun k hk => hp k (List.mem_cons_of_mem _ hk), hj, hu⟩
  · rintro (hu | ⟨pre, j, post, lit, he, hp, hj, hu⟩)
    · exact ⟨[], i, is, l, rfl, by simp, hs, hu⟩
    · refine ⟨i :: pre, j, post, lit, by rw [he]; rfl, ?_, hj, hu⟩
      intro k hk
      rcases List.mem_cons.mp hk with rfl | hk
      · exact ⟨l, hs⟩
      · exact hp k hk

theorem directive_none {i : PTree} {is : List PTree} (hs : ∀ l, ¬ StringStatement i l) : ¬ HasDirective (i :: is) := by
  rintro ⟨pre, j, post, lit, he, hp, hj, hu⟩
  cases pre with
  | nil =>
    simp only [List.nil_append, List.cons.injEq] at he
    obtain ⟨rfl, rfl⟩ := he
    exact hs lit hj
  | cons p pre =>
    simp only [List.cons_append, List.cons.injEq] at he
    obtain ⟨rfl, rfl⟩ := he
    obtain ⟨l, hl⟩ := hp i (List.mem_cons_self ..)
    exact hs l hl

theorem scan_sound : ∀ (is : List PTree) (b : Bool), scan is = some b → (b = true ↔ HasDirective is)
  | [], b, h => by
    cases h
    refine iff_of_false (by simp) ?_
    rintro ⟨pre, j, post, lit, he, _⟩
    simp at he
  | i :: is, b, h => by
    rw [scan] at h
    by_cases e : i.sym = some "StatementListItem"
    · rw [if_pos e] at h
      cases hp : prologueItem i with
      | none => rw [hp] at h; cases h
      | some o =>
        rw [hp] at h
        cases o with
        | none =>
          cases h
          refine iff_of_false (by simp) (directive_none ?_)
          intro l hl
          rw [(item_string e).mpr hl] at hp
          cases hp
        | some l =>
          have hs := (item_string e).mp hp
          rw [directive_cons hs]
          simp only at h
          by_cases hu : l.text = "\"use strict\"".toList ∨ l.text = "'use strict'".toList
          · rw [if_pos hu] at h
            cases h
            exact iff_of_true rfl (.inl hu)
          · rw [if_neg hu] at h
            rw [scan_sound is b h]
            exact ⟨.inr, fun h => h.resolve_left hu⟩
    · rw [if_neg e] at h
      cases h

theorem scan_good : ∀ (is : List PTree), (∀ i ∈ is, GoodItem i) → scan is ≠ none
  | [], _ => by simp [scan]
  | i :: is, h => by
    have hi := h i (List.mem_cons_self ..)
    rw [scan, if_pos hi.1]
    cases hp : prologueItem i with
    | none => exact absurd hp (item_good hi)
    | some o =>
      cases o with
      | none => simp
      | some l =>
        simp only
        split
        · simp
        · exact scan_good is fun j hj => h j (List.mem_cons_of_mem _ hj)

def Coded (b : PTree) : Prop := b.sym = some "Script" ∨ b.sym = some "FunctionBody" ∨ b.sym = some "GeneratorBody"

theorem first_fun {s t u v} (h : First s t u) (h' : First s t v) : u = v := by
  have a := first_unitA h
  rw [first_unitA h'] at a
  cases a
  rfl

theorem items_fun {t u v} (h : Items t u) (h' : Items t v) : u = v := by
  have a := items_complete h
  rw [items_complete h'] at a
  cases a
  rfl

theorem list_sound {p : PTree} {b : Bool} (h : beginsList p = some b) : Coded p ∧ (b = true ↔ Directs p) := by
  rw [beginsList] at h
  by_cases e : p.sym = some "Script" ∨ p.sym = some "FunctionBody" ∨ p.sym = some "GeneratorBody"
  · refine ⟨e, ?_⟩
    rw [if_pos e] at h
    cases hl : unitA "StatementList" p with
    | none =>
      rw [hl] at h
      cases h
      refine iff_of_false (by simp) ?_
      rintro ⟨l, is, h1, _⟩
      rw [unitA_iff.mpr h1] at hl
      cases hl
    | some l =>
      rw [hl] at h
      obtain ⟨is, hi, hs⟩ := Option.bind_eq_some_iff.mp h
      rw [scan_sound is b hs]
      constructor
      · intro hd
        exact ⟨l, is, unitA_iff.mp hl, items_iff.mp hi, hd⟩
      · rintro ⟨l', is', h1, h2, h3⟩
        have := first_fun h1 (unitA_iff.mp hl)
        subst this
        have := items_fun h2 (items_iff.mp hi)
        subst this
        exact h3
  · rw [if_neg e] at h
    cases h

theorem list_good {p : PTree} (h : Coded p) (hg : GoodCode p) : beginsList p ≠ none := by
  rw [beginsList, if_pos (show p.sym = some "Script" ∨ p.sym = some "FunctionBody" ∨ p.sym = some "GeneratorBody" from h)]
  cases hl : unitA "StatementList" p with
  | none => simp
  | some l =>
    obtain ⟨is, hi, hs⟩ := hg l (unitA_iff.mp hl)
    simp only [items_iff.mpr hi, Option.bind_some]
    exact scan_good is hs

/-! ## Bodies -/

theorem lastButOne_iff {cs : List PTree} {b : PTree} : lastButOne cs = some b ↔ ∃ pre x, cs = pre ++ [b, x] := by
  unfold lastButOne
  constructor
  · intro h
    split at h
    · next x y r hr =>
      cases h
      refine ⟨r.reverse, x, ?_⟩
      have := congrArg List.reverse hr
      simpa using this
    · cases h
  · rintro ⟨pre, x, rfl⟩
    simp

theorem not_concise {b : PTree} (h : b.sym = some "Script" ∨ b.sym = some "FunctionBody" ∨ b.sym = some "GeneratorBody") :
    ¬ (b.sym = some "ConciseBody" ∨ b.sym = some "AsyncConciseBody") := by
  rcases h with h | h | h <;> rw [h] <;> decide

theorem begins_coded {b : PTree} (h : Coded b) : begins b = beginsList b := by
  rw [begins, if_neg (not_concise h)]

/-- What the code of a function is. -/
inductive Code : PTree → Option PTree → Prop
  | body {n b} : Body n b → Code n (some b)
  | expression {n c e pre s s'} : n.sym = some s → s ∈ ["ArrowFunction", "AsyncArrowFunction"] → n.kids = pre ++ [c] → c.sym = some s' →
      s' ∈ ["ConciseBody", "AsyncConciseBody"] → c.kids = [e] → e.sym = some "ExpressionBody" → Code n none

theorem snoc_inj {pre pre' : List PTree} {a b x y : PTree} (h : pre ++ [a, x] = pre' ++ [b, y]) : a = b := by
  have := congrArg List.reverse h
  simp at this
  exact this.2.1

theorem snoc1_inj {pre pre' : List PTree} {a b : PTree} (h : pre ++ [a] = pre' ++ [b]) : a = b := by
  have := congrArg List.reverse h
  simp at this
  exact this.1

theorem arrow_code {n : PTree} {b : Bool} (hs : n.sym = some "ArrowFunction" ∨ n.sym = some "AsyncArrowFunction") (h : (bodyOf n).bind begins = some b) :
    (∃ c, Code n (some c) ∧ (b = true ↔ Directs c)) ∨ (Code n none ∧ b = false) := by
  obtain ⟨c, hc, hb⟩ := Option.bind_eq_some_iff.mp h
  rw [bodyOf, if_pos hs] at hc
  cases hl : n.kids.getLast? with
  | none => rw [hl] at hc; cases hc
  | some c' =>
    rw [hl] at hc
    simp only at hc
    by_cases e : c'.sym = some "ConciseBody" ∨ c'.sym = some "AsyncConciseBody"
    · rw [if_pos e] at hc
      cases hc
      have hk : ∃ pre, n.kids = pre ++ [c] := by
        obtain ⟨pre, hp⟩ := List.getLast?_eq_some_iff.mp hl
        exact ⟨pre, hp⟩
      obtain ⟨pre, hk⟩ := hk
      obtain ⟨s, hs1, hs2⟩ : ∃ s, n.sym = some s ∧ s ∈ ["ArrowFunction", "AsyncArrowFunction"] := by
        rcases hs with h | h
        · exact ⟨_, h, by decide⟩
        · exact ⟨_, h, by decide⟩
      obtain ⟨s', hs1', hs2'⟩ : ∃ s, c.sym = some s ∧ s ∈ ["ConciseBody", "AsyncConciseBody"] := by
        rcases e with h | h
        · exact ⟨_, h, by decide⟩
        · exact ⟨_, h, by decide⟩
      rw [begins, if_pos e] at hb
      split at hb
      · next ex hkc =>
        by_cases ee : ex.sym = some "ExpressionBody"
        · rw [if_pos ee] at hb
          cases hb
          exact .inr ⟨.expression hs1 hs2 hk hs1' hs2' hkc ee, rfl⟩
        · rw [if_neg ee] at hb
          cases hb
      · next l f r hkc =>
        by_cases ee : f.sym = some "FunctionBody" ∨ f.sym = some "AsyncFunctionBody"
        · rw [if_pos ee] at hb
          obtain ⟨hcd, hd⟩ := list_sound hb
          refine .inl ⟨f, .body (.arrow hs1 hs2 hk hs1' hs2' hkc ?_), hd⟩
          rcases ee with ee | ee
          · exact ee
          · rcases hcd with h | h | h <;> rw [ee] at h <;> simp at h
        · rw [if_neg ee] at hb
          cases hb
      · cases hb
    · rw [if_neg e] at hc
      cases hc

theorem body_cases {n : PTree} {b : Bool} (hf : among functions n.sym = true) (h : (bodyOf n).bind begins = some b) :
    (∃ c, Code n (some c) ∧ (b = true ↔ Directs c)) ∨ (Code n none ∧ b = false) := by
  by_cases ha : n.sym = some "ArrowFunction" ∨ n.sym = some "AsyncArrowFunction"
  · exact arrow_code ha h
  · left
    obtain ⟨c, hc, hb⟩ := Option.bind_eq_some_iff.mp h
    rw [bodyOf, if_neg ha] at hc
    by_cases hm : n.sym = some "MethodDefinition"
    · rw [if_pos hm] at hc
      split at hc
      · next g hk =>
        by_cases e : g.sym = some "GeneratorMethod" ∨ g.sym = some "AsyncMethod" ∨ g.sym = some "AsynGeneratorMethod"
        · rw [if_pos e] at hc
          cases hl : lastButOne g.kids with
          | none => rw [hl] at hc; cases hc
          | some d =>
            rw [hl] at hc
            simp only at hc
            by_cases e2 : d.sym = some "GeneratorBody" ∨ d.sym = some "AsyncFunctionBody" ∨ d.sym = some "AsyncGeneratorBody"
            · rw [if_pos e2] at hc
              cases hc
              obtain ⟨pre, x, hg⟩ := lastButOne_iff.mp hl
              have hnc : ¬ (c.sym = some "ConciseBody" ∨ c.sym = some "AsyncConciseBody") := by
                rcases e2 with h | h | h <;> rw [h] <;> decide
              rw [begins, if_neg hnc] at hb
              obtain ⟨hcd, hd⟩ := list_sound hb
              have hsym : c.sym = some "GeneratorBody" := by
                rcases e2 with h | h | h
                · exact h
                · rcases hcd with h' | h' | h' <;> rw [h] at h' <;> simp at h'
                · rcases hcd with h' | h' | h' <;> rw [h] at h' <;> simp at h'
              obtain ⟨s, hs1, hs2⟩ : ∃ s, g.sym = some s ∧ s ∈ ["GeneratorMethod", "AsyncMethod", "AsynGeneratorMethod"] := by
                rcases e with h | h | h
                · exact ⟨_, h, by decide⟩
                · exact ⟨_, h, by decide⟩
                · exact ⟨_, h, by decide⟩
              exact ⟨c, .body (.inner hm hk hs1 hs2 hg hsym), hd⟩
            · rw [if_neg e2] at hc
              cases hc
        · rw [if_neg e] at hc
          cases hc
      · cases hl : lastButOne n.kids with
        | none => rw [hl] at hc; cases hc
        | some d =>
          rw [hl] at hc
          simp only at hc
          by_cases e2 : d.sym = some "FunctionBody"
          · rw [if_pos e2] at hc
            cases hc
            obtain ⟨pre, x, hg⟩ := lastButOne_iff.mp hl
            have hcd : Coded c := .inr (.inl e2)
            rw [begins_coded hcd] at hb
            exact ⟨c, .body (.method hm hg e2), (list_sound hb).2⟩
          · rw [if_neg e2] at hc
            cases hc
    · rw [if_neg hm] at hc
      cases hl : lastButOne n.kids with
      | none => rw [hl] at hc; cases hc
      | some d =>
        rw [hl] at hc
        simp only at hc
        by_cases e2 : d.sym = some "FunctionBody" ∨ d.sym = some "GeneratorBody"
        · rw [if_pos e2] at hc
          cases hc
          obtain ⟨pre, x, hg⟩ := lastButOne_iff.mp hl
          have hcd : Coded c := .inr e2
          rw [begins_coded hcd] at hb
          refine ⟨c, .body ?_, (list_sound hb).2⟩
          cases hsym : n.sym with
          | none => rw [hsym] at hf; cases hf
          | some s =>
            rw [hsym] at hf ha hm
            refine .function hsym ?_ hg e2
            simp only [among, functions, List.contains_eq_mem, decide_eq_true_eq, List.mem_cons, List.not_mem_nil, or_false, Option.some.injEq] at hf ha hm ⊢
            grind
        · rw [if_neg e2] at hc
          cases hc

theorem mem2 {s a b : String} {o : Option String} (h : o = some s) (hs : s ∈ [a, b]) : o = some a ∨ o = some b := by
  simp only [List.mem_cons, List.not_mem_nil, or_false] at hs
  rcases hs with rfl | rfl
  · exact .inl h
  · exact .inr h

theorem arrow_body {n c : PTree} {pre : List PTree} {s s' : String} (h1 : n.sym = some s) (h2 : s ∈ ["ArrowFunction", "AsyncArrowFunction"])
    (h3 : n.kids = pre ++ [c]) (h4 : c.sym = some s') (h5 : s' ∈ ["ConciseBody", "AsyncConciseBody"]) : bodyOf n = some c := by
  rw [bodyOf, if_pos (mem2 h1 h2), h3, List.getLast?_concat]
  simp only
  rw [if_pos (mem2 h4 h5)]

theorem body_begins {n b : PTree} (h : Body n b) : among functions n.sym = true ∧ (bodyOf n).bind begins = beginsList b := by
  cases h with
  | @function _ brace pre s h1 h2 h3 h4 =>
    have ha : ¬ (n.sym = some "ArrowFunction" ∨ n.sym = some "AsyncArrowFunction") := by
      rw [h1]
      simp only [List.mem_cons, List.not_mem_nil, or_false] at h2
      rcases h2 with rfl | rfl | rfl | rfl | rfl | rfl | rfl | rfl <;> decide
    have hm : n.sym ≠ some "MethodDefinition" := by
      rw [h1]
      simp only [List.mem_cons, List.not_mem_nil, or_false] at h2
      rcases h2 with rfl | rfl | rfl | rfl | rfl | rfl | rfl | rfl <;> decide
    constructor
    · rw [h1]
      simp only [List.mem_cons, List.not_mem_nil, or_false] at h2
      rcases h2 with rfl | rfl | rfl | rfl | rfl | rfl | rfl | rfl <;> decide
    · rw [bodyOf, if_neg ha, if_neg hm, lastButOne_iff.mpr ⟨pre, brace, h3⟩]
      simp only
      rw [if_pos h4]
      exact begins_coded (.inr h4)
  | @method _ brace pre h1 h3 h4 =>
    have ha : ¬ (n.sym = some "ArrowFunction" ∨ n.sym = some "AsyncArrowFunction") := by
      rw [h1]
      decide
    refine ⟨by rw [h1]; decide, ?_⟩
    rw [bodyOf, if_neg ha, if_pos h1]
    split
    · next g hk =>
      rw [h3] at hk
      have := congrArg List.length hk
      simp at this
    · rw [lastButOne_iff.mpr ⟨pre, brace, h3⟩]
      simp only
      rw [if_pos h4]
      exact begins_coded (.inr (.inl h4))
  | @inner c _ brace pre s h1 h3 h4 h5 h6 h7 =>
    have ha : ¬ (n.sym = some "ArrowFunction" ∨ n.sym = some "AsyncArrowFunction") := by
      rw [h1]
      decide
    refine ⟨by rw [h1]; decide, ?_⟩
    rw [bodyOf, if_neg ha, if_pos h1, h3]
    simp only
    have e : c.sym = some "GeneratorMethod" ∨ c.sym = some "AsyncMethod" ∨ c.sym = some "AsynGeneratorMethod" := by
      simp only [List.mem_cons, List.not_mem_nil, or_false] at h5
      rcases h5 with rfl | rfl | rfl
      · exact .inl h4
      · exact .inr (.inl h4)
      · exact .inr (.inr h4)
    rw [if_pos e, lastButOne_iff.mpr ⟨pre, brace, h6⟩]
    simp only
    rw [if_pos (.inl h7)]
    exact begins_coded (.inr (.inr h7))
  | @arrow c _ l r pre s s' h1 h2 h3 h4 h5 h6 h7 =>
    have hb := arrow_body h1 h2 h3 h4 h5
    refine ⟨?_, ?_⟩
    · rcases mem2 h1 h2 with h | h <;> rw [h] <;> decide
    · rw [hb, Option.bind_some, begins, if_pos (mem2 h4 h5), h6]
      simp only
      rw [if_pos (.inl h7)]

theorem always_iff {o : Option String} : among ["ModuleBody", "ClassDeclaration", "ClassExpression"] o = true ↔
    ∃ s, o = some s ∧ s ∈ ["ModuleBody", "ClassDeclaration", "ClassExpression"] := by
  cases o with
  | none => simp [among]
  | some s => simp [among]

theorem func_iff {o : Option String} : among functions o = true ↔ ∃ s, o = some s ∧ s ∈ functions := by
  cases o with
  | none => simp [among]
  | some s => simp [among]

theorem func_always {o : Option String} (h : among functions o = true) : ¬ among ["ModuleBody", "ClassDeclaration", "ClassExpression"] o = true ∧ o ≠ some "Script" := by
  obtain ⟨s, rfl, hs⟩ := func_iff.mp h
  simp only [functions, List.mem_cons, List.not_mem_nil, or_false] at hs
  rcases hs with rfl | rfl | rfl | rfl | rfl | rfl | rfl | rfl | rfl | rfl | rfl <;> decide

theorem script_always {o : Option String} (h : o = some "Script") : ¬ among ["ModuleBody", "ClassDeclaration", "ClassExpression"] o = true := by
  rw [h]
  decide

theorem self_function {n : PTree} (h : among functions n.sym = true) : selfStrict n = (bodyOf n).bind begins := by
  obtain ⟨h1, h2⟩ := func_always h
  rw [selfStrict, if_neg h1, if_neg h2, if_pos h]

theorem self_script {n : PTree} (h : n.sym = some "Script") : selfStrict n = beginsList n := by
  rw [selfStrict, if_neg (script_always h), if_pos h, begins_coded (.inl h)]

theorem self_true {n : PTree} (h : selfStrict n = some true) : MakesStrict n := by
  rw [selfStrict] at h
  by_cases h1 : among ["ModuleBody", "ClassDeclaration", "ClassExpression"] n.sym = true
  · obtain ⟨s, hs, hm⟩ := always_iff.mp h1
    exact .always hs hm
  · rw [if_neg h1] at h
    by_cases h2 : n.sym = some "Script"
    · rw [if_pos h2, begins_coded (.inl h2)] at h
      exact .script h2 ((list_sound h).2.mp rfl)
    · rw [if_neg h2] at h
      by_cases h3 : among functions n.sym = true
      · rw [if_pos h3] at h
        rcases body_cases h3 h with ⟨c, hc, hd⟩ | ⟨_, hb⟩
        · cases hc with
          | body hb => exact .function hb (hd.mp rfl)
        · cases hb
      · rw [if_neg h3] at h
        cases h

theorem self_false {n : PTree} (h : selfStrict n = some false) : ¬ MakesStrict n := by
  rintro (⟨hs, hm⟩ | ⟨hs, hd⟩ | ⟨hb, hd⟩)
  · rw [selfStrict, if_pos (always_iff.mpr ⟨_, hs, hm⟩)] at h
    cases h
  · rw [self_script hs] at h
    have := (list_sound h).2.mpr hd
    cases this
  · obtain ⟨h1, h2⟩ := body_begins hb
    rw [self_function h1, h2] at h
    have := (list_sound h).2.mpr hd
    cases this

theorem body_coded {n b : PTree} (h : Body n b) : Coded b := by
  cases h with
  | function _ _ _ h => exact .inr h
  | method _ _ h => exact .inr (.inl h)
  | inner _ _ _ _ _ h => exact .inr (.inr h)
  | arrow _ _ _ _ _ _ h => exact .inr (.inl h)

theorem self_good {n : PTree} (h : GoodNode n) : selfStrict n ≠ none := by
  cases h with
  | script hs hg =>
    rw [self_script hs]
    exact list_good (.inl hs) hg
  | function hb hg =>
    obtain ⟨h1, h2⟩ := body_begins hb
    rw [self_function h1, h2]
    exact list_good (body_coded hb) hg
  | expression h1 h2 h3 h4 h5 h6 h7 =>
    have hf : among functions n.sym = true := by rcases mem2 h1 h2 with h | h <;> rw [h] <;> decide
    rw [self_function hf, arrow_body h1 h2 h3 h4 h5, Option.bind_some, begins, if_pos (mem2 h4 h5), h6]
    simp only
    rw [if_pos h7]
    simp
  | other h1 h2 =>
    have hf : ¬ among functions n.sym = true := by
      intro h
      obtain ⟨s, hs, hm⟩ := func_iff.mp h
      exact h2 s hm hs
    rw [selfStrict, if_neg h1, if_neg hf]
    split
    · simp
    · simp

theorem self_async {n : PTree} (h : AsyncNode n) : selfStrict n = none := by
  cases h with
  | @function b brace pre s s' h1 h2 h3 h4 h5 =>
    have ha : ¬ (n.sym = some "ArrowFunction" ∨ n.sym = some "AsyncArrowFunction") := by
      rw [h1]
      simp only [List.mem_cons, List.not_mem_nil, or_false] at h2
      rcases h2 with rfl | rfl | rfl | rfl <;> decide
    have hm : n.sym ≠ some "MethodDefinition" := by
      rw [h1]
      simp only [List.mem_cons, List.not_mem_nil, or_false] at h2
      rcases h2 with rfl | rfl | rfl | rfl <;> decide
    have hf : among functions n.sym = true := by
      rw [h1]
      simp only [List.mem_cons, List.not_mem_nil, or_false] at h2
      rcases h2 with rfl | rfl | rfl | rfl <;> decide
    have hb : ¬ (b.sym = some "FunctionBody" ∨ b.sym = some "GeneratorBody") := by
      rcases mem2 h4 h5 with h | h <;> rw [h] <;> decide
    rw [self_function hf, bodyOf, if_neg ha, if_neg hm, lastButOne_iff.mpr ⟨pre, brace, h3⟩]
    simp only
    rw [if_neg hb]
    rfl
  | @method c b brace pre s s' h1 h3 h4 h5 h6 h7 h8 =>
    have ha : ¬ (n.sym = some "ArrowFunction" ∨ n.sym = some "AsyncArrowFunction") := by
      rw [h1]
      decide
    have hf : among functions n.sym = true := by rw [h1]; decide
    rw [self_function hf, bodyOf, if_neg ha, if_pos h1, h3]
    simp only
    split
    · rw [lastButOne_iff.mpr ⟨pre, brace, h6⟩]
      simp only
      split
      · rw [Option.bind_some, begins, if_neg (by rcases mem2 h7 h8 with h | h <;> rw [h] <;> decide), beginsList,
          if_neg (by rcases mem2 h7 h8 with h | h <;> rw [h] <;> decide)]
      · rfl
    · rfl
  | @arrow c b l r pre h1 h3 h4 h5 h6 =>
    have hf : among functions n.sym = true := by rw [h1]; decide
    rw [self_function hf, arrow_body h1 (by decide) h3 h4 (by decide), Option.bind_some, begins, if_pos (.inr h4), h5]
    simp only
    rw [if_pos (.inr h6), beginsList, if_neg (by rw [h6]; decide)]

/-! ## Places -/

theorem ups_mem : ∀ (p : List Nat) (t : PTree) (us : List PTree), ups t p = some us → ∀ n, n ∈ us ↔ Encloses t p n
  | [], t, us, h, n => by
    cases h
    constructor
    · intro h
      simp only [List.mem_cons, List.not_mem_nil, or_false] at h
      subst h
      exact .end_
    · intro h
      cases h
      exact List.mem_cons_self ..
  | i :: p, t, us, h, n => by
    rw [ups] at h
    cases hc : t.kids[i]? with
    | none => rw [hc] at h; cases h
    | some c =>
      rw [hc] at h
      obtain ⟨us', h1, rfl⟩ := Option.map_eq_some_iff.mp h
      rw [List.mem_append, ups_mem p c us' h1 n]
      constructor
      · rintro (h | h)
        · exact .step hc h
        · simp only [List.mem_cons, List.not_mem_nil, or_false] at h
          subst h
          exact .self
      · intro h
        cases h with
        | self => exact .inr (List.mem_cons_self ..)
        | step hc' h' =>
          rw [hc] at hc'
          cases hc'
          exact .inl h'

theorem ups_last : ∀ (p : List Nat) (t : PTree) (us : List PTree), ups t p = some us → us.dropLast ++ [t] = us
  | [], t, us, h => by
    cases h
    rfl
  | i :: p, t, us, h => by
    rw [ups] at h
    cases hc : t.kids[i]? with
    | none => rw [hc] at h; cases h
    | some c =>
      rw [hc] at h
      obtain ⟨us', h1, rfl⟩ := Option.map_eq_some_iff.mp h
      simp

theorem ups_there : ∀ (p : List Nat) (t : PTree), (∃ us, ups t p = some us) ↔ There t p
  | [], t => ⟨fun _ => .here, fun _ => ⟨_, rfl⟩⟩
  | i :: p, t => by
    rw [ups]
    constructor
    · rintro ⟨us, h⟩
      cases hc : t.kids[i]? with
      | none => rw [hc] at h; cases h
      | some c =>
        rw [hc] at h
        obtain ⟨us', h1, rfl⟩ := Option.map_eq_some_iff.mp h
        exact .step hc ((ups_there p c).mp ⟨us', h1⟩)
    · intro h
      cases h with
      | step hc h' =>
        obtain ⟨us, hu⟩ := (ups_there p _).mpr h'
        rw [hc]
        simp only [hu]
        exact ⟨_, rfl⟩

theorem chain_mem : ∀ (l : Loc) (c : List (PTree × Bool)), chain l = some c → ∀ n, n ∈ c.map Prod.fst ↔ Around l n
  | [], c, h, n => by
    cases h
    simp [Around]
  | (t, p) :: l, c, h, n => by
    simp only [chain, bind, Option.bind_eq_some_iff, pure, Option.some.injEq] at h
    obtain ⟨us, hu, more, hm, rfl⟩ := h
    have e : (us.dropLast.map (·, false) ++ [(t, true)] ++ more).map Prod.fst = (us.dropLast ++ [t]) ++ more.map Prod.fst := by
      simp [Function.comp_def]
    rw [e, ups_last p t us hu, List.mem_append, ups_mem p t us hu n, chain_mem l more hm n]
    constructor
    · rintro (h | ⟨tp, h1, h2⟩)
      · exact ⟨(t, p), List.mem_cons_self .., h⟩
      · exact ⟨tp, List.mem_cons_of_mem _ h1, h2⟩
    · rintro ⟨tp, h1, h2⟩
      rcases List.mem_cons.mp h1 with rfl | h1
      · exact .inl h2
      · exact .inr ⟨tp, h1, h2⟩

theorem chain_there : ∀ (l : Loc), (∀ tp ∈ l, There tp.1 tp.2) → ∃ c, chain l = some c
  | [], _ => ⟨[], rfl⟩
  | (t, p) :: l, h => by
    obtain ⟨us, hu⟩ := (ups_there p t).mpr (h (t, p) (List.mem_cons_self ..))
    obtain ⟨more, hm⟩ := chain_there l fun tp htp => h tp (List.mem_cons_of_mem _ htp)
    exact ⟨us.dropLast.map (·, false) ++ [(t, true)] ++ more, by simp only [chain, hu, hm, bind, Option.bind_some, pure]⟩

theorem chain_root : ∀ (l : Loc) (c : List (PTree × Bool)), chain l = some c → ∀ n, (n, true) ∈ c → ∃ tp ∈ l, tp.1 = n
  | [], c, h, n, hn => by
    cases h
    cases hn
  | (t, p) :: l, c, h, n, hn => by
    simp only [chain, bind, Option.bind_eq_some_iff, pure, Option.some.injEq] at h
    obtain ⟨us, hu, more, hm, rfl⟩ := h
    simp only [List.mem_append, List.mem_map, Prod.mk.injEq, Bool.false_eq_true, and_false, exists_false, List.mem_cons, List.not_mem_nil, or_false, false_or,
      and_true] at hn
    rcases hn with rfl | hn
    · exact ⟨(n, p), List.mem_cons_self .., rfl⟩
    · obtain ⟨tp, h1, h2⟩ := chain_root l more hm n hn
      exact ⟨tp, List.mem_cons_of_mem _ h1, h2⟩

theorem strictIn_sound : ∀ (c : List (PTree × Bool)) (b : Bool), strictIn c = some b → (b = true ↔ ∃ n ∈ c.map Prod.fst, MakesStrict n)
  | [], b, h => by
    cases h
    simp
  | (n, r) :: up, b, h => by
    rw [strictIn] at h
    cases hs : selfStrict n with
    | none => rw [hs] at h; cases h
    | some s =>
      rw [hs] at h
      cases s with
      | true =>
        cases h
        exact iff_of_true rfl ⟨n, List.mem_cons_self .., self_true hs⟩
      | false =>
        simp only at h
        split at h
        · cases h
        · rw [strictIn_sound up b h]
          constructor
          · rintro ⟨m, h1, h2⟩
            exact ⟨m, List.mem_cons_of_mem _ h1, h2⟩
          · rintro ⟨m, h1, h2⟩
            rcases List.mem_cons.mp h1 with h1 | h1
            · have e : m = n := h1
              subst e
              exact absurd h2 (self_false hs)
            · exact ⟨m, h1, h2⟩

theorem strictIn_good : ∀ (c : List (PTree × Bool)), (∀ n ∈ c.map Prod.fst, GoodNode n) →
    (∀ n, (n, true) ∈ c → n.sym ≠ some "FormalParameters" ∧ n.sym ≠ some "UniqueFormalParameters") → strictIn c ≠ none
  | [], _, _ => by simp [strictIn]
  | (n, r) :: up, hg, hr => by
    rw [strictIn]
    cases hs : selfStrict n with
    | none => exact absurd hs (self_good (hg n (List.mem_cons_self ..)))
    | some s =>
      cases s with
      | true => simp
      | false =>
        simp only
        have : ¬ (r && among ["FormalParameters", "UniqueFormalParameters"] n.sym) = true := by
          intro h
          rw [Bool.and_eq_true] at h
          obtain ⟨h1, h2⟩ := h
          subst h1
          obtain ⟨ha, hb⟩ := hr n (List.mem_cons_self ..)
          cases hsym : n.sym with
          | none => rw [hsym] at h2; cases h2
          | some s =>
            rw [hsym] at h2 ha hb
            simp [among] at h2 ha hb
            rcases h2 with h2 | h2
            · exact ha h2
            · exact hb h2
        rw [if_neg this]
        exact strictIn_good up (fun m hm => hg m (List.mem_cons_of_mem _ hm)) fun m hm => hr m (List.mem_cons_of_mem _ hm)

theorem strictIn_async : ∀ (pre : List (PTree × Bool)) (n : PTree) (r : Bool) (up : List (PTree × Bool)), AsyncNode n →
    (∀ m ∈ pre.map Prod.fst, ¬ MakesStrict m) → strictIn (pre ++ (n, r) :: up) = none
  | [], n, r, up, h, _ => by
    rw [List.nil_append, strictIn, self_async h]
  | (m, r') :: pre, n, r, up, h, hp => by
    rw [List.cons_append, strictIn]
    cases hs : selfStrict m with
    | none => rfl
    | some s =>
      cases s with
      | true => exact absurd (self_true hs) (hp m (List.mem_cons_self ..))
      | false =>
        simp only
        split
        · rfl
        · exact strictIn_async pre n r up h fun k hk => hp k (List.mem_cons_of_mem _ hk)

/-! ## Nesting -/

theorem ups_way : ∀ (p : List Nat) (t : PTree) (us : List PTree), ups t p = some us ↔ Way t p us.reverse
  | [], t, us => by
    constructor
    · intro h
      cases h
      exact .here
    · intro h
      generalize e : us.reverse = w at h
      cases h
      have := congrArg List.reverse e
      simp at this
      rw [this]
      rfl
  | i :: p, t, us => by
    rw [ups]
    constructor
    · intro h
      cases hc : t.kids[i]? with
      | none => rw [hc] at h; cases h
      | some c =>
        rw [hc] at h
        obtain ⟨us', h1, rfl⟩ := Option.map_eq_some_iff.mp h
        rw [List.reverse_append]
        exact .step hc ((ups_way p c us').mp h1)
    · intro h
      generalize e : us.reverse = w at h
      cases h with
      | @step _ _ _ c w hc hw =>
        rw [hc]
        simp only
        have h2 := (ups_way p c w.reverse).mpr (by rw [List.reverse_reverse]; exact hw)
        rw [h2]
        have := congrArg List.reverse e
        simp at this
        simp [this]

theorem boundary_iff {n : PTree} : among (functions ++ ["ClassStaticBlock"]) n.sym = true ↔ Boundary n := by
  unfold Boundary
  cases n.sym with
  | none => simp [among]
  | some s => simp [among, functions]

theorem target_iff {ts : List String} {o : Option String} : among ts o = true ↔ ∃ s, o = some s ∧ s ∈ ts := by
  cases o with
  | none => simp [among]
  | some s => simp [among]

theorem nestedIn_iff {ts : List String} : ∀ (anc : List PTree), nestedIn ts anc = true ↔
    ∃ between a w s, anc = between ++ a :: w ∧ a.sym = some s ∧ s ∈ ts ∧ ∀ b ∈ between, ¬ Boundary b
  | [] => by simp [nestedIn]
  | a :: up => by
    rw [nestedIn]
    by_cases h : among ts a.sym = true
    · rw [if_pos h]
      obtain ⟨s, h1, h2⟩ := target_iff.mp h
      exact iff_of_true rfl ⟨[], a, up, s, rfl, h1, h2, by simp⟩
    · rw [if_neg h]
      by_cases hb : among (functions ++ ["ClassStaticBlock"]) a.sym = true
      · rw [if_pos hb]
        refine iff_of_false (by simp) ?_
        rintro ⟨between, x, w, s, he, h1, h2, h3⟩
        cases between with
        | nil =>
          simp only [List.nil_append, List.cons.injEq] at he
          rw [← he.1] at h1
          exact h (target_iff.mpr ⟨s, h1, h2⟩)
        | cons y between =>
          simp only [List.cons_append, List.cons.injEq] at he
          exact h3 y (List.mem_cons_self ..) (boundary_iff.mp (he.1 ▸ hb))
      · rw [if_neg hb, nestedIn_iff up]
        constructor
        · rintro ⟨between, x, w, s, he, h1, h2, h3⟩
          refine ⟨a :: between, x, w, s, by rw [he]; rfl, h1, h2, ?_⟩
          intro y hy
          rcases List.mem_cons.mp hy with rfl | hy
          · exact fun hh => hb (boundary_iff.mpr hh)
          · exact h3 y hy
        · rintro ⟨between, x, w, s, he, h1, h2, h3⟩
          cases between with
          | nil =>
            simp only [List.nil_append, List.cons.injEq] at he
            rw [← he.1] at h1
            exact absurd (target_iff.mpr ⟨s, h1, h2⟩) h
          | cons y between =>
            simp only [List.cons_append, List.cons.injEq] at he
            exact ⟨between, x, w, s, he.2, h1, h2, fun z hz => h3 z (List.mem_cons_of_mem _ hz)⟩

/-! ## Duplicates -/

theorem count_fold {V : Type} [DecidableEq V] {propName : PTree → Option V} {form : PTree → Bool} {v : V} : ∀ (ds : List PTree) (k n : Nat),
    ds.foldlM (fun n d => do
      if d.sym = some "PropertyDefinition" then
        let x ← propName d
        return if x = v ∧ form d = true then n + 1 else n
      else none) k = some n → n = k + ds.countP (fun d => decide (propName d = some v) && form d)
  | [], k, n, h => by
    simp at h
    simp [h]
  | d :: ds, k, n, h => by
    rw [List.foldlM_cons] at h
    simp only [bind, Option.bind_eq_some_iff, pure] at h
    obtain ⟨m, hm, hr⟩ := h
    have := count_fold ds m n hr
    rw [this, List.countP_cons]
    split at hm
    · simp only [Option.bind_eq_some_iff, Option.some.injEq] at hm
      obtain ⟨x, hx, rfl⟩ := hm
      rw [hx]
      by_cases e : x = v ∧ form d = true
      · rw [if_pos e]
        simp [e.1, e.2]
        omega
      · rw [if_neg e]
        have : (decide (some x = some v) && form d) = false := by
          simp only [Option.some.injEq]
          by_cases h1 : x = v
          · have : form d = false := by simpa using fun h => e ⟨h1, h⟩
            simp [this]
          · simp [h1]
        rw [this]
        simp
    · cases hm

/-- `k` hits or more, among the elements from a place on. -/
theorem countP_two {α : Type} (q : α → Bool) : ∀ (ds : List α), 2 ≤ ds.countP q ↔
    ∃ (i j : Nat) (a b : α), i < j ∧ ds[i]? = some a ∧ ds[j]? = some b ∧ q a = true ∧ q b = true
  | [] => by simp
  | d :: ds => by
    rw [List.countP_cons]
    by_cases h : q d = true
    · rw [if_pos h]
      have : 2 ≤ ds.countP q + 1 ↔ 0 < ds.countP q := by omega
      rw [this, List.countP_pos_iff]
      constructor
      · rintro ⟨b, hb, hq⟩
        obtain ⟨j, hj⟩ := List.getElem?_of_mem hb
        exact ⟨0, j + 1, d, b, by omega, rfl, by simpa using hj, h, hq⟩
      · rintro ⟨i, j, a, b, hij, _, hb, _, hq⟩
        obtain ⟨j, rfl⟩ : ∃ k, j = k + 1 := ⟨j - 1, by omega⟩
        rw [List.getElem?_cons_succ] at hb
        exact ⟨b, List.mem_of_getElem? hb, hq⟩
    · rw [if_neg h, Nat.add_zero, countP_two q ds]
      constructor
      · rintro ⟨i, j, a, b, hij, h1, h2, h3, h4⟩
        exact ⟨i + 1, j + 1, a, b, by omega, by simpa using h1, by simpa using h2, h3, h4⟩
      · rintro ⟨i, j, a, b, hij, h1, h2, h3, h4⟩
        obtain ⟨j, rfl⟩ : ∃ k, j = k + 1 := ⟨j - 1, by omega⟩
        cases i with
        | zero =>
          simp at h1
          subst h1
          exact absurd h3 h
        | succ i => exact ⟨i, j, a, b, by omega, by simpa using h1, by simpa using h2, h3, h4⟩

theorem definitions_sound : ∀ (t : PTree) (ds : List PTree), definitions t = some ds ↔ Definitions t ds
  | .mk s x [], ds => ⟨fun h => by simp [definitions] at h, fun h => by cases h <;> simp_all [PTree.kids]⟩
  | .mk s x [d], ds => by
    rw [definitions]
    constructor
    · intro h
      split at h
      · next e =>
        cases h
        exact .one e rfl
      · cases h
    · intro h
      cases h with
      | one h1 h2 =>
        have h2' : [d] = [_] := h2
        cases h2'
        rw [if_pos (show s = _ from h1)]
      | more h1 h2 _ =>
        have h2' : [d] = [_, _, _] := h2
        cases h2'
  | .mk s x [l, c, d], ds => by
    rw [definitions]
    constructor
    · intro h
      split at h
      · next e =>
        obtain ⟨ds', h1, rfl⟩ := Option.map_eq_some_iff.mp h
        exact .more e rfl ((definitions_sound l ds').mp h1)
      · cases h
    · intro h
      cases h with
      | one h1 h2 =>
        have h2' : [l, c, d] = [_] := h2
        cases h2'
      | more h1 h2 h3 =>
        have h2' : [l, c, d] = [_, _, _] := h2
        cases h2'
        rw [if_pos (show s = _ from h1), (definitions_sound l _).mpr h3]
        rfl
  | .mk s x [_, _], ds => ⟨fun h => by simp [definitions] at h, fun h => by
      cases h with
      | one _ h2 => have h2' : [_, _] = [_] := h2; cases h2'
      | more _ h2 _ => have h2' : [_, _] = [_, _, _] := h2; cases h2'⟩
  | .mk s x (_ :: _ :: _ :: _ :: _), ds => ⟨fun h => by simp [definitions] at h, fun h => by
      cases h with
      | one _ h2 => have h2' : _ :: _ :: _ :: _ :: _ = [_] := h2; cases h2'
      | more _ h2 _ => have h2' : _ :: _ :: _ :: _ :: _ = [_, _, _] := h2; cases h2'⟩

end Verif.Strict
