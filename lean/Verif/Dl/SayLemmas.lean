import Verif.Dl.Lemmas
/-! # Lemmas about sentences of descriptions -/
namespace Verif.Dl
open Verif.Kinds (full full_iff Matches lit plus cat dot same_reads is_text is_rest is_any Same)
open Verif.Kinds.Spec (Line Part Reads)
open Verif.Preambles (after after_iff sentences splits_iff word_chars)
open Spec

/-! ## Returns -/

/-- One of the verbs is between these. -/
def Verbed (s a b : Str) : Prop := b ≠ [] ∧ (s = a ++ " returns ".toList ++ b ∨ s = a ++ " returning ".toList ++ b)

theorem verb_iff {s b : Str} : verb s = some b ↔ s = " returns ".toList ++ b ∨ s = " returning ".toList ++ b := by
  unfold verb
  cases e : after " returns " s with
  | none =>
    rw [Option.none_or, after_iff]
    refine ⟨.inr, ?_⟩
    rintro (h | h)
    · rw [after_iff.mpr h] at e; cases e
    · exact h
  | some r =>
    rw [Option.some_or]
    have := after_iff.mp e
    subst this
    rw [Option.some.injEq]
    constructor
    · rintro rfl; exact .inl rfl
    · rintro (h | h)
      · exact List.append_cancel_left h
      · simp at h

theorem verbed_cons {c d : Char} {s a b : Str} : Verbed (c :: s) (d :: a) b ↔ c = d ∧ Verbed s a b := by
  simp only [Verbed, List.cons_append, List.cons.injEq]
  constructor
  · rintro ⟨h, ⟨h1, h2⟩ | ⟨h1, h2⟩⟩
    · exact ⟨h1, h, .inl h2⟩
    · exact ⟨h1, h, .inr h2⟩
  · rintro ⟨h1, h, h2 | h2⟩
    · exact ⟨h, .inl ⟨h1, h2⟩⟩
    · exact ⟨h, .inr ⟨h1, h2⟩⟩

theorem verbed_nil {s b : Str} : Verbed s [] b ↔ b ≠ [] ∧ verb s = some b := by
  rw [verb_iff]; rfl

theorem last_spec : ∀ (s : Str), (∀ a b, lastVerb s = some (a, b) → Verbed s a b ∧ ∀ a' b', Verbed s a' b' → a'.length ≤ a.length) ∧
    (lastVerb s = none → ∀ a b, ¬ Verbed s a b)
  | [] => by
    refine ⟨by simp [lastVerb], ?_⟩
    rintro - a b ⟨_, h | h⟩ <;> simp at h
  | c :: s => by
    obtain ⟨h1, h2⟩ := last_spec s
    rw [lastVerb]
    cases e : lastVerb s with
    | some x =>
      obtain ⟨a, b⟩ := x
      obtain ⟨hv, hm⟩ := h1 a b e
      refine ⟨?_, by simp⟩
      rintro a' b' h
      simp only [Option.some.injEq, Prod.mk.injEq] at h
      obtain ⟨rfl, rfl⟩ := h
      refine ⟨verbed_cons.mpr ⟨rfl, hv⟩, ?_⟩
      intro a' b' hv'
      cases a' with
      | nil => simp
      | cons d a' => simpa using hm a' b' (verbed_cons.mp hv').2
    | none =>
      have hn := h2 e
      have hnil : ∀ a' b', Verbed (c :: s) a' b' → a' = [] := by
        intro a' b' hv'
        cases a' with
        | nil => rfl
        | cons d a' => exact absurd (verbed_cons.mp hv').2 (hn a' b')
      dsimp only
      split
      · rename_i d b hb
        refine ⟨?_, by simp⟩
        intro a' b' h
        simp only [Option.some.injEq, Prod.mk.injEq] at h
        obtain ⟨rfl, rfl⟩ := h
        exact ⟨verbed_nil.mpr ⟨by simp, hb⟩, fun a' b' hv' => by rw [hnil a' b' hv']; exact Nat.le_refl _⟩
      · rename_i hb
        refine ⟨by simp, ?_⟩
        intro _ a b hv
        cases hnil a b hv
        obtain ⟨h3, h4⟩ := verbed_nil.mp hv
        cases b with
        | nil => exact h3 rfl
        | cons d b => exact hb d b h4

theorem parts_iff {s a b : Str} : Parts s a b ↔ Line s ∧ a ≠ [] ∧ Verbed s a b := Iff.rfl

theorem returning_some {s a b : Str} (h : returning s = some (a, b)) : Returns s a b := by
  unfold returning at h
  by_cases hl : '\n' ∈ s
  · rw [if_pos hl] at h; cases h
  · rw [if_neg hl] at h
    obtain ⟨h1, _⟩ := last_spec s
    split at h
    · rename_i c a' b' e
      simp only [Option.some.injEq, Prod.mk.injEq] at h
      obtain ⟨rfl, rfl⟩ := h
      obtain ⟨hv, hm⟩ := h1 _ _ e
      exact ⟨parts_iff.mpr ⟨hl, by simp, hv⟩, fun a' b' hp => hm a' b' (parts_iff.mp hp).2.2⟩
    · cases h

theorem returning_none {s : Str} (h : returning s = none) (a b : Str) : ¬ Parts s a b := by
  intro hp
  obtain ⟨hl, ha, hv⟩ := parts_iff.mp hp
  unfold returning at h
  rw [if_neg hl] at h
  obtain ⟨h1, h2⟩ := last_spec s
  cases e : lastVerb s with
  | none => exact h2 e a b hv
  | some x =>
    obtain ⟨a', b'⟩ := x
    rw [e] at h
    cases a' with
    | cons => cases h
    | nil =>
      have := (h1 _ _ e).2 a b hv
      simp only [List.length_nil, Nat.le_zero_eq, List.length_eq_zero_iff] at this
      exact ha this

theorem returns_unique {s a b a' b' : Str} (h : Returns s a b) (h' : Returns s a' b') : a = a' ∧ b = b' := by
  have hlen : a.length = a'.length := Nat.le_antisymm (h'.2 a b h.1) (h.2 a' b' h'.1)
  obtain ⟨_, _, _, h1⟩ := h.1
  obtain ⟨_, _, _, h2⟩ := h'.1
  simp only [List.append_assoc] at h1 h2
  rcases h1 with rfl | rfl <;> rcases h2 with h2 | h2
  · obtain ⟨e1, e2⟩ := List.append_inj h2 hlen
    exact ⟨e1, List.append_cancel_left e2⟩
  · obtain ⟨e1, e2⟩ := List.append_inj h2 hlen
    simp at e2
  · obtain ⟨e1, e2⟩ := List.append_inj h2 hlen
    simp at e2
  · obtain ⟨e1, e2⟩ := List.append_inj h2 hlen
    exact ⟨e1, List.append_cancel_left e2⟩

theorem returning_iff {s a b : Str} : returning s = some (a, b) ↔ Returns s a b := by
  refine ⟨returning_some, ?_⟩
  intro h
  cases e : returning s with
  | none => exact absurd h.1 (returning_none e a b)
  | some x =>
    obtain ⟨e1, e2⟩ := returns_unique h (returning_some e)
    rw [e1, e2]

theorem suffix_iff {t : String} {s : Str} : t.toList.isSuffixOf s = true ↔ ∃ x, s = x ++ t.toList := by
  rw [List.isSuffixOf_iff_suffix]
  exact ⟨fun ⟨x, h⟩ => ⟨x, h.symm⟩, fun ⟨x, h⟩ => ⟨x, h.symm⟩⟩

theorem excepted_iff {a : Str} : excepted a = true ↔ Excepted a := by
  simp only [excepted, Excepted, Bool.or_eq_true, suffix_iff, beq_iff_eq, or_assoc]

/-! ## Wordings -/

/-- The expressions and the wordings say the same, row by row. -/
inductive Rows : List (Kinds.Rx × List String) → List (List Part × List String) → Prop
  | nil : Rows [] []
  | cons {rs ps ns r p} : Same rs ps → Rows r p → Rows ((cat rs, ns) :: r) ((ps, ns) :: p)

theorem rows_ok : Rows patterns wordings := by
  unfold patterns wordings
  repeat first
    | exact Rows.nil
    | refine Rows.cons ?_ ?_
    | exact Same.nil
    | refine Same.cons (is_text _) ?_
    | refine Same.cons is_rest ?_
    | refine Same.cons is_any ?_

theorem rows_find {rs : List (Kinds.Rx × List String)} {ps : List (List Part × List String)} (h : Rows rs ps) (b : Str) :
    (∀ p, rs.find? (fun p => full p.1 b) = some p → ∃ before q after, ps = before ++ (q, p.2) :: after ∧ Reads q b ∧ ∀ x ∈ before, ¬ Reads x.1 b) ∧
    (rs.find? (fun p => full p.1 b) = none → ∀ x ∈ ps, ¬ Reads x.1 b) := by
  induction h with
  | nil => exact ⟨by simp, by simp⟩
  | @cons r q ns rs ps hs _ ih =>
    have hm : full (cat r) b = true ↔ Reads q b := by rw [full_iff, same_reads hs]
    by_cases hf : full (cat r) b = true
    · rw [List.find?_cons_of_pos (p := fun p : Kinds.Rx × List String => full p.1 b) hf]
      refine ⟨?_, by simp⟩
      rintro p hp
      cases hp
      exact ⟨[], q, ps, rfl, hm.mp hf, by simp⟩
    · rw [List.find?_cons_of_neg (p := fun p : Kinds.Rx × List String => full p.1 b) hf]
      have hn : ¬ Reads q b := fun h => hf (hm.mpr h)
      refine ⟨?_, ?_⟩
      · intro p hp
        obtain ⟨before, q', after, rfl, h1, h2⟩ := ih.1 p hp
        exact ⟨(q, ns) :: before, q', after, rfl, h1, by simpa [hn] using h2⟩
      · intro hp
        simpa [hn] using ih.2 hp

theorem worded_unique {b : Str} {ns ms : List String} (h : Worded b ns) (h' : Worded b ms) : ns = ms := by
  obtain ⟨b1, p1, a1, e1, r1, n1⟩ := h
  obtain ⟨b2, p2, a2, e2, r2, n2⟩ := h'
  rw [e1] at e2
  rcases List.append_eq_append_iff.mp e2 with ⟨c, rfl, hc⟩ | ⟨c, rfl, hc⟩
  · cases c with
    | nil => simp only [List.nil_append, List.cons.injEq, Prod.mk.injEq] at hc; exact hc.1.2
    | cons x c =>
      simp only [List.cons_append, List.cons.injEq] at hc
      obtain ⟨rfl, _⟩ := hc
      exact absurd r1 (n2 (p1, ns) (by simp))
  · cases c with
    | nil => simp only [List.nil_append, List.cons.injEq, Prod.mk.injEq] at hc; exact hc.1.2.symm
    | cons x c =>
      simp only [List.cons_append, List.cons.injEq] at hc
      obtain ⟨rfl, _⟩ := hc
      exact absurd r2 (n1 (p2, ms) (by simp))

theorem worded_not {b : Str} {ns : List String} (h : Worded b ns) : ¬ Unworded b := by
  intro hu
  obtain ⟨b1, p1, a1, e1, r1, _⟩ := h
  exact hu (p1, ns) (by rw [e1]; simp) r1

theorem natures_some {ret : Vd} : ∀ {ns : List String} {ms : List Msg}, natures ret ns = some ms →
    ∃ xs, ms = xs.map Msg.nature ∧ Those (fun n => ¬ Offers n ret) (ns.map String.toList) xs
  | [], ms, h => by cases h; exact ⟨[], rfl, .nil⟩
  | n :: ns, ms, h => by
    obtain ⟨h1, h2, _⟩ := sub_spec n.toList ret
    rw [natures] at h
    cases e : sub n.toList ret with
    | none => rw [e] at h; cases h
    | some v =>
      rw [e] at h
      obtain ⟨ms', hm, rfl⟩ := Option.map_eq_some_iff.mp h
      obtain ⟨xs, rfl, ht⟩ := natures_some hm
      cases v with
      | true => exact ⟨xs, rfl, .drop (fun hn => hn (h1 e)) ht⟩
      | false => exact ⟨n.toList :: xs, rfl, .keep (h2 e).2 ht⟩

theorem natures_total {ret : Vd} (hf : Foreseen ret) : ∀ (ns : List String), natures ret ns ≠ none
  | [] => by simp [natures]
  | n :: ns => by
    obtain ⟨_, _, h3⟩ := sub_spec n.toList ret
    rw [natures]
    cases e : sub n.toList ret with
    | none => exact absurd e (h3 hf)
    | some v => simpa using natures_total hf ns

/-! ## Sentences -/

theorem expected_iff {op : String} {v : Str} : expected.contains (op, String.ofList v) = true ↔ Expected op v := by
  have he : ∀ t : String, String.ofList v = t ↔ v = t.toList := by
    intro t
    constructor
    · rintro rfl; simp
    · rintro rfl; simp
  simp only [expected, List.contains_iff_mem, List.mem_cons, Prod.mk.injEq, List.not_mem_nil, or_false, he, Expected]
  constructor
  · rintro (h | h | h | h | h)
    · exact .inl ⟨.inl h.1, h.2⟩
    · exact .inl ⟨.inr h.1, h.2⟩
    · exact .inr (.inl h)
    · exact .inr (.inr (.inl h))
    · exact .inr (.inr (.inr h))
  · rintro (⟨h | h, h'⟩ | h | h | h)
    · exact .inl ⟨h, h'⟩
    · exact .inr (.inl ⟨h, h'⟩)
    · exact .inr (.inr (.inl h))
    · exact .inr (.inr (.inr (.inl h)))
    · exact .inr (.inr (.inr (.inr h)))

theorem checkVars_spec {op : String} {params : List Str} {p : Option Str} {s : Str} :
    ∃ vs ws, Vars s vs ∧ Those (fun v => ¬ Param params p v ∧ ¬ Expected op v) vs ws ∧ checkVars op (names params p) s = ws.map Msg.variable := by
  refine ⟨_, _, vars_iff.mp rfl, (those_iff ?_).mp rfl, rfl⟩
  intro v
  rw [← names_iff, ← expected_iff]
  simp

theorem those_unique {α : Type} {p : α → Prop} {as bs cs : List α} (h : Those p as bs) (h' : Those p as cs) : bs = cs := by
  induction h generalizing cs with
  | nil => cases h'; rfl
  | keep hp _ ih =>
    cases h' with
    | keep _ h' => rw [ih h']
    | drop hn _ => exact absurd hp hn
  | drop hn _ ih =>
    cases h' with
    | keep hp _ => exact absurd hp hn
    | drop _ h' => exact ih h'

theorem says_unique {op : String} {q : Str → Prop} {ret : Vd} {s : Str} {ms ns : List Msg} (h : Says op q ret s ms) (h' : Says op q ret s ns) : ms = ns := by
  have hv : ∀ {vs ws vs' ws'}, Vars s vs → Those (fun v => ¬ q v ∧ ¬ Expected op v) vs ws → Vars s vs' → Those (fun v => ¬ q v ∧ ¬ Expected op v) vs' ws' → ws = ws' := by
    intro vs ws vs' ws' h1 h2 h3 h4
    have e : vs = vs' := (vars_iff.mpr h1).symm.trans (vars_iff.mpr h3)
    subst e
    exact those_unique h2 h4
  cases h with
  | excepted hr he =>
    cases h' with
    | excepted => rfl
    | nothing hn => exact absurd hr.1 (hn _ _)
    | worded hr' he' => exact absurd ((returns_unique hr hr').1 ▸ he) he'
    | unworded hr' he' => exact absurd ((returns_unique hr hr').1 ▸ he) he'
  | nothing hn h1 h2 =>
    cases h' with
    | excepted hr => exact absurd hr.1 (hn _ _)
    | nothing _ h3 h4 => rw [hv h1 h2 h3 h4]
    | worded hr => exact absurd hr.1 (hn _ _)
    | unworded hr => exact absurd hr.1 (hn _ _)
  | worded hr he hw hm h1 h2 =>
    cases h' with
    | excepted hr' he' => exact absurd ((returns_unique hr' hr).1 ▸ he') he
    | nothing hn => exact absurd hr.1 (hn _ _)
    | worded hr' _ hw' hm' h3 h4 =>
      cases (returns_unique hr hr').2
      cases worded_unique hw hw'
      rw [hv h1 h2 h3 h4, those_unique hm hm']
    | unworded hr' _ hu =>
      cases (returns_unique hr hr').2
      exact absurd hu (worded_not hw)
  | unworded hr he hu h1 h2 =>
    cases h' with
    | excepted hr' he' => exact absurd ((returns_unique hr' hr).1 ▸ he') he
    | nothing hn => exact absurd hr.1 (hn _ _)
    | worded hr' _ hw =>
      cases (returns_unique hr hr').2
      exact absurd hu (worded_not hw)
    | unworded _ _ _ h3 h4 => rw [hv h1 h2 h3 h4]

theorem saysAll_unique {op : String} {q : Str → Prop} {ret : Vd} {ss : List Str} {ms ns : List Msg} (h : SaysAll op q ret ss ms) (h' : SaysAll op q ret ss ns) : ms = ns := by
  induction h generalizing ns with
  | nil => cases h'; rfl
  | cons h1 _ ih =>
    cases h' with
    | cons h2 h3 => rw [says_unique h1 h2, ih h3]

theorem says_of {op : String} {params : List Str} {p : Option Str} {ret : Vd} {s : Str} {ms : List Msg}
    (h : checkSentence op (names params p) ret s = some ms) : Says op (Param params p) ret s ms := by
  obtain ⟨vs, ws, h1, h2, h3⟩ := checkVars_spec (op := op) (params := params) (p := p) (s := s)
  unfold checkSentence at h
  cases e : returning s with
  | none =>
    rw [e] at h
    cases h
    rw [h3]
    exact .nothing (returning_none e) h1 h2
  | some x =>
    obtain ⟨a, b⟩ := x
    rw [e] at h
    have hr := returning_some e
    simp only at h
    by_cases hx : excepted a = true
    · rw [if_pos hx] at h
      cases h
      exact .excepted hr (excepted_iff.mp hx)
    · rw [if_neg hx] at h
      have hx' : ¬ Excepted a := fun h => hx (excepted_iff.mpr h)
      obtain ⟨ns, hn, rfl⟩ := Option.map_eq_some_iff.mp h
      rw [h3]
      unfold checkReturn at hn
      obtain ⟨g1, g2⟩ := rows_find rows_ok b
      cases e' : patterns.find? (fun p => full p.1 b) with
      | none =>
        rw [e'] at hn
        cases hn
        exact .unworded hr hx' (g2 e') h1 h2
      | some q =>
        rw [e'] at hn
        obtain ⟨xs, rfl, ht⟩ := natures_some hn
        exact .worded hr hx' (g1 q e') ht h1 h2

theorem saysAll_of {op : String} {params : List Str} {p : Option Str} {ret : Vd} : ∀ {ss : List Str} {ms : List Msg},
    checkAll op (names params p) ret ss = some ms → SaysAll op (Param params p) ret ss ms
  | [], ms, h => by cases h; exact .nil
  | s :: ss, ms, h => by
    rw [checkAll] at h
    cases e : checkSentence op (names params p) ret s with
    | none => rw [e] at h; cases h
    | some xs =>
      rw [e] at h
      obtain ⟨ys, hy, rfl⟩ := Option.map_eq_some_iff.mp h
      exact .cons (says_of e) (saysAll_of hy)

theorem sentence_total {op : String} {ps : List Str} {ret : Vd} (hf : Foreseen ret) (s : Str) : checkSentence op ps ret s ≠ none := by
  unfold checkSentence
  split
  · simp
  · split
    · simp
    · simp only [ne_eq, Option.map_eq_none_iff]
      unfold checkReturn
      split
      · exact natures_total hf _
      · simp

theorem all_total {op : String} {ps : List Str} {ret : Vd} (hf : Foreseen ret) : ∀ (ss : List Str), checkAll op ps ret ss ≠ none
  | [] => by simp [checkAll]
  | s :: ss => by
    rw [checkAll]
    cases e : checkSentence op ps ret s with
    | none => exact absurd e (sentence_total hf s)
    | some xs => simpa using all_total hf ss

end Verif.Dl
