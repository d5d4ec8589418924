import Verif.Kinds.KindLemmas
/-!
# The kind of a section by its title
-/
namespace Verif.Kinds
open Spec

theorem fixed_catchall {s : Str} (h : s ∈ ["Properties of Valid Executions".toList, "Non-ECMAScript Functions".toList]) (hf : s ∈ fixedTitles) : TitleKind s "catchall" := by
  obtain ⟨f1, f2, f3, f4, f5, f6⟩ := fixed_only hf
  have key : ∀ t ∈ ["Properties of Valid Executions".toList, "Non-ECMAScript Functions".toList], ¬ ('\n' ∈ t) ∧ ¬ (t ∈ fixedTitles.take 9) := by decide
  obtain ⟨k1, k2⟩ := key s h
  have e : fixedTitles.take 9 = ["Implicit Normal Completion".toList, "Implicit Completion Values".toList, "Throw".toList, "Shorthands for Unwrapping Completion Records".toList,
    "IfAbruptRejectPromise ( _value_, _capability_ )".toList, "IfAbruptCloseIterator ( _value_, _iteratorRecord_ )".toList,
    "IfAbruptCloseIterators ( _value_, _iteratorRecords_ )".toList, "IfAbruptCloseAsyncIterator ( _value_, _iteratorRecord_ )".toList] ++ ["_NativeError_ Object Structure".toList] := rfl
  rw [e, List.mem_append, not_or] at k2
  exact .catchall k1 k2.1 f1 f2 f3 f4 (fun h => k2.2 (List.mem_singleton.2 h)) f5 f6

theorem find_cons {s : Str} {r : Rx} {k k' : String} {rest : List (Rx × String)} (h : (((r, k) :: rest).find? (fun p => full p.1 s)).map (·.2) = some k') :
    (full r s = true ∧ k = k') ∨ (¬ full r s = true ∧ (rest.find? (fun p => full p.1 s)).map (·.2) = some k') := by
  rw [List.find?_cons] at h
  dsimp only at h
  cases e : full r s with
  | true => rw [e] at h; exact .inl ⟨rfl, by simpa using h⟩
  | false => rw [e] at h; exact .inr ⟨by simp, h⟩

attribute [local irreducible] lit cat any plus full

/-- The pattern that is found says what the specification says. -/
theorem byTitle_sound {s : Str} {k : String} (h : byTitle s = some k) : TitleKind s k := by
  unfold byTitle otherPatterns at h
  rcases find_cons h with ⟨h0, rfl⟩ | ⟨n0, h⟩
  · exact .shorthand (by rw [m_lit.1 ((full_iff _ _).1 h0)]; unfold Shorthand; decide)
  rcases find_cons h with ⟨h1, rfl⟩ | ⟨n1, h⟩
  · exact .shorthand (by rw [m_lit.1 ((full_iff _ _).1 h1)]; unfold Shorthand; decide)
  rcases find_cons h with ⟨h2, rfl⟩ | ⟨n2, h⟩
  · exact .shorthand (by rw [m_lit.1 ((full_iff _ _).1 h2)]; unfold Shorthand; decide)
  rcases find_cons h with ⟨h3, rfl⟩ | ⟨n3, h⟩
  · exact .shorthand (by rw [m_lit.1 ((full_iff _ _).1 h3)]; unfold Shorthand; decide)
  rcases find_cons h with ⟨h4, rfl⟩ | ⟨n4, h⟩
  · exact .shorthand (by rw [m_lit.1 ((full_iff _ _).1 h4)]; unfold Shorthand; decide)
  rcases find_cons h with ⟨h5, rfl⟩ | ⟨n5, h⟩
  · exact .shorthand (by rw [m_lit.1 ((full_iff _ _).1 h5)]; unfold Shorthand; decide)
  rcases find_cons h with ⟨h6, rfl⟩ | ⟨n6, h⟩
  · exact .shorthand (by rw [m_lit.1 ((full_iff _ _).1 h6)]; unfold Shorthand; decide)
  rcases find_cons h with ⟨h7, rfl⟩ | ⟨n7, h⟩
  · exact .shorthand (by rw [m_lit.1 ((full_iff _ _).1 h7)]; unfold Shorthand; decide)
  rcases find_cons h with ⟨h8, rfl⟩ | ⟨n8, h⟩
  · exact .instances (instances_iff.2 (.inl ((full_iff _ _).1 h8)))
  rcases find_cons h with ⟨h9, rfl⟩ | ⟨n9, h⟩
  · exact .instances (instances_iff.2 (.inr ((full_iff _ _).1 h9)))
  rcases find_cons h with ⟨h10, rfl⟩ | ⟨n10, h⟩
  · exact fixed_catchall (by rw [m_lit.1 ((full_iff _ _).1 h10)]; decide) (by rw [m_lit.1 ((full_iff _ _).1 h10)]; decide)
  rcases find_cons h with ⟨h11, rfl⟩ | ⟨n11, h⟩
  · exact .intrinsic (.inl ⟨properties_iff.2 ((full_iff _ _).1 h11), fun e => n10 ((full_iff _ _).2 (m_lit.2 e))⟩) (fun h => (instances_iff.1 h).elim (fun h => n8 ((full_iff _ _).2 h)) (fun h => n9 ((full_iff _ _).2 h)))
  rcases find_cons h with ⟨h12, rfl⟩ | ⟨n12, h⟩
  · exact .intrinsic (.inr (object_iff.2 ((full_iff _ _).1 h12))) (fun h => (instances_iff.1 h).elim (fun h => n8 ((full_iff _ _).2 h)) (fun h => n9 ((full_iff _ _).2 h)))
  rcases find_cons h with ⟨h13, rfl⟩ | ⟨n13, h⟩
  · exact .additional (additional_iff.2 ((full_iff _ _).1 h13)) (fun h => (instances_iff.1 h).elim (fun h => n8 ((full_iff _ _).2 h)) (fun h => n9 ((full_iff _ _).2 h)))
  rcases find_cons h with ⟨h14, rfl⟩ | ⟨n14, h⟩
  · exact .construct (constructor_iff.2 (.inl ((full_iff _ _).1 h14)))
  rcases find_cons h with ⟨h15, rfl⟩ | ⟨n15, h⟩
  · exact .construct (constructor_iff.2 (.inr (.inl ((full_iff _ _).1 h15))))
  rcases find_cons h with ⟨h16, rfl⟩ | ⟨n16, h⟩
  · exact .construct (constructor_iff.2 (.inr (.inr (.inl ((full_iff _ _).1 h16)))))
  rcases find_cons h with ⟨h17, rfl⟩ | ⟨n17, h⟩
  · exact .construct (constructor_iff.2 (.inr (.inr (.inr ((full_iff _ _).1 h17)))))
  rcases find_cons h with ⟨h18, rfl⟩ | ⟨n18, h⟩
  · exact .loop (loop_iff.2 ((full_iff _ _).1 h18))
  rcases find_cons h with ⟨h19, rfl⟩ | ⟨n19, h⟩
  · exact fixed_catchall (by rw [m_lit.1 ((full_iff _ _).1 h19)]; decide) (by rw [m_lit.1 ((full_iff _ _).1 h19)]; decide)
  rcases find_cons h with ⟨h20, rfl⟩ | ⟨n20, h⟩
  · exact .group (group_iff.2 (.inl ((full_iff _ _).1 h20))) (fun h => (instances_iff.1 h).elim (fun h => n8 ((full_iff _ _).2 h)) (fun h => n9 ((full_iff _ _).2 h)))
  rcases find_cons h with ⟨h21, rfl⟩ | ⟨n21, h⟩
  · exact .group (group_iff.2 (.inr (.inl ((full_iff _ _).1 h21)))) (fun h => (instances_iff.1 h).elim (fun h => n8 ((full_iff _ _).2 h)) (fun h => n9 ((full_iff _ _).2 h)))
  rcases find_cons h with ⟨h22, rfl⟩ | ⟨n22, h⟩
  · exact .group (group_iff.2 (.inr (.inr ((full_iff _ _).1 h22)))) (fun h => (instances_iff.1 h).elim (fun h => n8 ((full_iff _ _).2 h)) (fun h => n9 ((full_iff _ _).2 h)))
  rcases find_cons h with ⟨h23, rfl⟩ | ⟨n23, h⟩
  · exact .property (property_iff.2 (.inl ((full_iff _ _).1 h23)))
  rcases find_cons h with ⟨h24, rfl⟩ | ⟨n24, h⟩
  · exact .property (property_iff.2 (.inr (.inl ((full_iff _ _).1 h24))))
  rcases find_cons h with ⟨h25, rfl⟩ | ⟨n25, h⟩
  · exact .property (property_iff.2 (.inr (.inr ((full_iff _ _).1 h25))))
  rcases find_cons h with ⟨h26, rfl⟩ | ⟨-, h⟩
  · have no : ∀ {r : Rx}, ¬ full r s = true → ¬ Matches r s := fun n h => n ((full_iff _ _).2 h)
    refine .catchall (m_lines.1 ((full_iff _ _).1 h26)) ?_ (fun h => (instances_iff.1 h).elim (fun h => n8 ((full_iff _ _).2 h)) (fun h => n9 ((full_iff _ _).2 h))) ?_ ?_ ?_ ?_ ?_ ?_
    · rw [shorthand_iff]
      simp only [otherPatterns, List.take_succ_cons, List.take_zero, List.mem_cons, List.not_mem_nil, or_false, exists_eq_or_imp, exists_eq_left, not_or]
      exact ⟨no n0, no n1, no n2, no n3, no n4, no n5, no n6, no n7⟩
    · rintro (⟨h, -⟩ | h)
      · exact no n11 (properties_iff.1 h)
      · exact no n12 (object_iff.1 h)
    · rw [additional_iff]; exact no n13
    · rw [constructor_iff]; simp only [not_or]; exact ⟨no n14, no n15, no n16, no n17⟩
    · rw [loop_iff]; exact no n18
    · rw [group_iff]; simp only [not_or]; exact ⟨no n20, no n21, no n22⟩
    · rw [property_iff]; simp only [not_or]; exact ⟨no n23, no n24, no n25⟩
  · cases h

theorem found {s : Str} {i : Nat} {q : Rx × String} (hq : otherPatterns[i]? = some q) (h : Matches q.1 s) : ∃ k, byTitle s = some k := by
  unfold byTitle
  cases e : otherPatterns.find? (fun p => full p.1 s) with
  | some q => exact ⟨_, rfl⟩
  | none =>
    rw [List.find?_eq_none] at e
    exact absurd ((full_iff _ _).2 h) (e q (List.mem_of_getElem? hq))

/-- A title with a kind matches some pattern. -/
theorem kind_found {s : Str} {k : String} (h : TitleKind s k) : ∃ k', byTitle s = some k' := by
  cases h with
  | shorthand h =>
    obtain ⟨p, hp, h⟩ := shorthand_iff.1 h
    obtain ⟨i, hi⟩ := List.mem_iff_getElem?.1 (List.mem_of_mem_take hp)
    exact found hi h
  | instances h =>
    rcases instances_iff.1 h with h | h
    · exact found (i := 8) rfl h
    · exact found (i := 9) rfl h
  | intrinsic h _ =>
    rcases h with ⟨h, -⟩ | h
    · exact found (i := 11) rfl (properties_iff.1 h)
    · exact found (i := 12) rfl (object_iff.1 h)
  | additional h _ => exact found (i := 13) rfl (additional_iff.1 h)
  | construct h =>
    rcases constructor_iff.1 h with h | h | h | h
    · exact found (i := 14) rfl h
    · exact found (i := 15) rfl h
    · exact found (i := 16) rfl h
    · exact found (i := 17) rfl h
  | loop h => exact found (i := 18) rfl (loop_iff.1 h)
  | group h _ =>
    rcases group_iff.1 h with h | h | h
    · exact found (i := 20) rfl h
    · exact found (i := 21) rfl h
    · exact found (i := 22) rfl h
  | property h =>
    rcases property_iff.1 h with h | h | h
    · exact found (i := 23) rfl h
    · exact found (i := 24) rfl h
    · exact found (i := 25) rfl h
  | catchall h => exact found (i := 26) rfl (m_lines.2 h)

theorem byTitle_iff (s : Str) (k : String) : byTitle s = some k ↔ TitleKind s k := by
  constructor
  · exact byTitle_sound
  · intro h
    obtain ⟨k', e⟩ := kind_found h
    rw [e, kind_unique h (byTitle_sound e)]

end Verif.Kinds
