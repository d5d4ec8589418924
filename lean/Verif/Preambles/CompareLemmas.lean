import Verif.Preambles.ParaLemmas
/-! # Lemmas about the comparison with heads -/
namespace Verif.Preambles
open Verif.Kinds
open Verif.Paths.Spec (Word)
open Spec

theorem join_amp {t : Str} (ht : '&' ∉ t) (hne : t ≠ []) : ∀ (ks : List Str), joinBy " & ".toList ks = t ↔ ks = [t]
  | [] => by simpa [joinBy] using fun e => hne e
  | [s] => by simp [joinBy]
  | s :: u :: ss => by
    refine iff_of_false ?_ (by simp)
    intro h
    rw [joinBy] at h
    exact ht (by rw [← h]; simp)

theorem species_iff {h : Head} {kinds : List Str} : speciesOk h kinds = true ↔ SpeciesFits h.species kinds := by
  unfold speciesOk prSpecies SpeciesFits
  by_cases h0 : kinds = []
  · simp [h0]
  · rw [if_neg h0]
    have e1 : joinBy " & ".toList kinds = "accessor property".toList ↔ kinds = ["accessor property".toList] := join_amp (by decide) (by simp) _
    have e2 : joinBy " & ".toList kinds = "method".toList ↔ kinds = ["method".toList] := join_amp (by decide) (by simp) _
    by_cases h1 : kinds = ["accessor property".toList]
    · rw [if_pos (e1.mpr h1)]
      subst h1
      simp only [beq_iff_eq]
      constructor
      · intro e; exact .inr (.inl ⟨trivial, e.symm⟩)
      · rintro (e | ⟨_, e⟩ | ⟨e, _⟩)
        · cases e
        · exact e.symm
        · exact absurd e (by simp)
    · rw [if_neg (fun h => h1 (e1.mp h))]
      by_cases h2 : kinds = ["method".toList]
      · rw [if_pos (e2.mpr h2)]
        subst h2
        simp only [beq_iff_eq]
        constructor
        · intro e; exact .inr (.inr ⟨trivial, e.symm⟩)
        · rintro (e | ⟨e, _⟩ | ⟨_, e⟩)
          · cases e
          · exact absurd e (by simp)
          · exact e.symm
      · rw [if_neg (fun h => h2 (e2.mp h))]
        refine iff_of_false (by simp) ?_
        rintro (e | ⟨e, _⟩ | ⟨e, _⟩)
        · exact h0 e
        · exact h1 e
        · exact h2 e

theorem name_none {h : Head} {names : List Str} : nameMsgs h names = none ↔ 2 ≤ names.length := by
  match names with
  | [] => simp [nameMsgs]
  | [_] => simp [nameMsgs]
  | _ :: _ :: _ => simp [nameMsgs]

theorem name_some {h : Head} {names : List Str} {ms : List Msg} (hm : nameMsgs h names = some ms) (m : Msg) : m ∈ ms ↔ ∃ pr, m = .name pr ∧ names = [pr] ∧ ¬ NameFits h.name pr := by
  match names with
  | [] => cases hm; simp
  | [pr] =>
    simp only [nameMsgs, Option.some.injEq] at hm
    subst hm
    simp only [names_iff, List.cons.injEq, and_true]
    by_cases ha : namesAgree h.name pr = true
    · rw [if_pos ha]
      refine iff_of_false (by simp) ?_
      rintro ⟨_, _, rfl, hn⟩
      exact hn ha
    · rw [if_neg ha, List.mem_singleton]
      constructor
      · rintro rfl; exact ⟨pr, rfl, rfl, ha⟩
      · rintro ⟨_, rfl, rfl, _⟩; rfl
  | _ :: _ :: _ => cases hm

theorem argument_iff {s x : Str} : argument s = some x ↔ ∃ y pre, Word y ∧ (pre = "an argument ".toList ∨ pre = "argument ".toList) ∧ s = pre ++ "_".toList ++ y ++ "_".toList ∧
    x = "_".toList ++ y ++ "_".toList := by
  have key : ∀ t : Str, (match after "argument " t with
      | none => none
      | some u => if full (cat [lit "_", plus w, lit "_"]) u then some u else none) = some x ↔
      ∃ y, Word y ∧ t = "argument ".toList ++ "_".toList ++ y ++ "_".toList ∧ x = "_".toList ++ y ++ "_".toList := by
    intro t
    constructor
    · intro h
      split at h
      · cases h
      · next u hu =>
        split at h
        · next hf =>
          cases h
          rw [full_iff, m_between] at hf
          obtain ⟨y, hy, rfl⟩ := hf
          exact ⟨y, m_word.mp hy, by rw [after_iff.mp hu]; simp, rfl⟩
        · cases h
    · rintro ⟨y, hy, rfl, rfl⟩
      have e : "argument ".toList ++ "_".toList ++ y ++ "_".toList = "argument ".toList ++ ("_".toList ++ y ++ "_".toList) := by simp
      rw [e, after_iff.mpr rfl]
      simp only
      rw [if_pos]
      rw [full_iff, m_between]
      exact ⟨y, m_word.mpr hy, rfl⟩
  unfold argument
  cases h : after "an " s with
  | some t =>
    have hs := after_iff.mp h
    subst hs
    refine (key _).trans ?_
    constructor
    · rintro ⟨y, hy, rfl, rfl⟩
      exact ⟨y, _, hy, .inl rfl, by simp, rfl⟩
    · rintro ⟨y, pre, hy, rfl | rfl, he, rfl⟩
      · refine ⟨y, hy, ?_, rfl⟩
        have e : "an argument ".toList = "an ".toList ++ "argument ".toList := by decide +kernel
        rw [e] at he
        simp only [List.append_assoc, List.append_cancel_left_eq] at he
        simpa using he
      · exact absurd (congrArg (fun l => l[1]?) he) (by simp)
  | none =>
    refine (key _).trans ?_
    constructor
    · rintro ⟨y, hy, rfl, rfl⟩
      exact ⟨y, _, hy, .inr rfl, rfl, rfl⟩
    · rintro ⟨y, pre, hy, rfl | rfl, he, rfl⟩
      · exfalso
        have e : "an argument ".toList ++ "_".toList ++ y ++ "_".toList = "an ".toList ++ ("argument ".toList ++ "_".toList ++ y ++ "_".toList) := by
          have e' : "an argument ".toList = "an ".toList ++ "argument ".toList := by decide +kernel
          rw [e']
          simp only [List.append_assoc]
        rw [he, e, after_iff.mpr rfl] at h
        cases h
      · exact ⟨y, hy, he, rfl⟩

theorem tells_iff {pls : List Str} {r : Option (List Param)} : Tells pls r ↔ (prParams pls).map Prod.fst = some r := by
  match pls with
  | [] =>
    constructor
    · intro h; cases h; rfl
    · intro h; cases h; exact .none
  | [pl] =>
    rw [prParams]
    by_cases h1 : pl = "no arguments".toList
    · rw [if_pos h1]
      subst h1
      constructor
      · intro h
        generalize e : ["no arguments".toList] = l at h
        cases h with
        | none => cases e
        | no => rfl
        | some => exact absurd e (by simp)
        | one _ hp => rcases hp with rfl | rfl <;> exact absurd e (by simp)
        | many => cases e
      · intro h; cases h; exact .no
    · rw [if_neg h1]
      by_cases h2 : pl = "zero or more arguments".toList
      · rw [if_pos h2]
        subst h2
        constructor
        · intro h
          generalize e : ["zero or more arguments".toList] = l at h
          cases h with
          | none => cases e
          | no => exact absurd e (by simp)
          | some => rfl
          | one _ hp => rcases hp with rfl | rfl <;> exact absurd e (by simp)
          | many => cases e
        · intro h; cases h; exact .some
      · rw [if_neg h2]
        constructor
        · intro h
          cases h with
          | no => exact absurd rfl h1
          | some => exact absurd rfl h2
          | one hx hp => rw [argument_iff.mpr ⟨_, _, hx, hp, rfl, rfl⟩]; rfl
        · intro h
          cases ha : argument pl with
          | none => rw [ha] at h; cases h
          | some x =>
            rw [ha] at h
            obtain ⟨y, pre, hy, hp, rfl, rfl⟩ := argument_iff.mp ha
            cases h
            exact .one hy hp
  | a :: b :: vs =>
    constructor
    · intro h; cases h; rfl
    · intro h; cases h; exact .many

theorem multi_iff {pls : List Str} {r : Option (List Param)} {ms : List Msg} (h : prParams pls = some (r, ms)) (m : Msg) : m ∈ ms ↔ m = .multi pls ∧ 2 ≤ pls.length := by
  match pls with
  | [] => cases h; simp
  | [pl] =>
    have : ms = [] := by
      rw [prParams] at h
      split at h
      · cases h; rfl
      · split at h
        · cases h; rfl
        · split at h
          · cases h
          · cases h; rfl
    simp [this]
  | a :: b :: vs =>
    cases h
    simp

theorem tells_two {pls : List Str} (h : ∀ r, ¬ Tells pls r) : prParams pls = none := by
  cases e : prParams pls with
  | none => rfl
  | some o => exact absurd (tells_iff.mpr (by rw [e]; rfl)) (h o.1)

theorem merge_some {a b : Option (List Param)} {ps : List Param} {ms : List Msg} (h : mergeParams a b = some (ps, ms)) : (a = some ps ∨ (a = none ∧ b = some ps)) ∧
    ∀ m, m ∈ ms ↔ ∃ as bs, a = some as ∧ b = some bs ∧ ∃ (i : Nat) (p q : Param), as[i]? = some p ∧ bs[i]? = some q ∧
      ((p.punct ≠ q.punct ∧ m = .punct p.name p.punct q.punct) ∨ (p.nature ≠ q.nature ∧ m = .nature p.name p.nature q.nature)) := by
  cases a with
  | none =>
    cases b with
    | none => cases h
    | some bs =>
      cases h
      exact ⟨.inr ⟨rfl, rfl⟩, by simp⟩
  | some as =>
    cases b with
    | none =>
      cases h
      exact ⟨.inl rfl, by simp⟩
    | some bs =>
      rw [mergeParams] at h
      split at h
      · cases h
      · cases h
        refine ⟨.inl rfl, fun m => ?_⟩
        simp only [List.mem_flatten, List.mem_map, Option.some.injEq, exists_and_left, exists_eq_left', Prod.exists]
        have hp : ∀ p q : Param, m ∈ pairMsgs p q ↔ (p.punct ≠ q.punct ∧ m = .punct p.name p.punct q.punct) ∨ (p.nature ≠ q.nature ∧ m = .nature p.name p.nature q.nature) := by
          intro p q
          unfold pairMsgs
          rw [List.mem_append]
          by_cases h1 : p.punct = q.punct <;> by_cases h2 : p.nature = q.nature <;> simp [h1, h2]
        have hz : ∀ (as bs : List Param) (p q : Param), (p, q) ∈ as.zip bs ↔ ∃ (i : Nat), as[i]? = some p ∧ bs[i]? = some q := by
          intro as bs p q
          rw [List.mem_iff_getElem?]
          constructor
          · rintro ⟨i, hi⟩
            rw [List.getElem?_zip_eq_some] at hi
            exact ⟨i, hi⟩
          · rintro ⟨i, hi⟩
            exact ⟨i, List.getElem?_zip_eq_some.mpr hi⟩
        constructor
        · rintro ⟨l, ⟨p, q, hm, rfl⟩, hml⟩
          obtain ⟨i, h1, h2⟩ := (hz _ _ p q).mp hm
          exact ⟨i, p, h1, q, h2, (hp p q).mp hml⟩
        · rintro ⟨i, p, h1, q, h2, h3⟩
          exact ⟨_, ⟨p, q, (hz _ _ p q).mpr ⟨i, h1, h2⟩, rfl⟩, (hp p q).mpr h3⟩

theorem merge_none {a b : Option (List Param)} : mergeParams a b = none ↔ (a = none ∧ b = none) ∨ ∃ as bs, a = some as ∧ b = some bs ∧ as.map Param.name ≠ bs.map Param.name := by
  cases a <;> cases b <;> simp [mergeParams]

end Verif.Preambles
