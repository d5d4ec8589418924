import Verif.Bodies.Spec
/-! # Lemmas about texts -/
namespace Verif.Bodies

theorem stripPrefix_iff (p s t : Str) : stripPrefix p s = some t ↔ s = p ++ t := by
  induction p generalizing s with
  | nil => simp [stripPrefix]
  | cons c p ih =>
    cases s with
    | nil => simp [stripPrefix]
    | cons d s =>
      by_cases h : c = d
      · subst h; simp [stripPrefix, ih]
      · have h' : ¬ d = c := fun e => h e.symm
        simp [stripPrefix, h, h']

theorem stripSuffix_iff (p s t : Str) : stripSuffix p s = some t ↔ s = t ++ p := by
  simp only [stripSuffix, Option.map_eq_some_iff, stripPrefix_iff]
  constructor
  · rintro ⟨a, h, rfl⟩
    have := congrArg List.reverse h
    simpa using this
  · rintro rfl
    exact ⟨t.reverse, by simp, by simp⟩

theorem around_iff (a b : String) (f : Char → Bool) (s : Str) :
    around a b f s = true ↔ ∃ w, w ≠ [] ∧ (∀ c ∈ w, f c = true) ∧ s = a.toList ++ w ++ b.toList := by
  rw [around]
  cases h : stripPrefix a.toList s with
  | none =>
    refine ⟨fun e => by simp at e, ?_⟩
    rintro ⟨w, -, -, e⟩
    have := (stripPrefix_iff a.toList s (w ++ b.toList)).2 (by simpa using e)
    rw [h] at this; cases this
  | some t =>
    have ht := (stripPrefix_iff _ _ _).1 h
    dsimp only
    cases h2 : stripSuffix b.toList t with
    | none =>
      refine ⟨fun e => by simp at e, ?_⟩
      rintro ⟨w, -, -, e⟩
      have e2 : t = w ++ b.toList := by
        rw [ht] at e
        simpa using e
      have := (stripSuffix_iff b.toList t w).2 e2
      rw [h2] at this; cases this
    | some u =>
      have hu := (stripSuffix_iff _ _ _).1 h2
      constructor
      · intro e
        simp only [Bool.and_eq_true, Bool.not_eq_true', List.isEmpty_eq_false_iff, List.all_eq_true] at e
        exact ⟨u, e.1, e.2, by rw [ht, hu]; simp⟩
      · rintro ⟨w, h1, h3, e⟩
        have e2 : u = w := by
          rw [ht, hu] at e
          simpa using e
        subst e2
        simp only [Bool.and_eq_true, Bool.not_eq_true', List.isEmpty_eq_false_iff, List.all_eq_true]
        exact ⟨h1, h3⟩

theorem isWord_iff (c : Char) : isWord c = true ↔ c.isAlphanum = true ∨ c = '_' := by simp [isWord]

theorem default_iff (s : Str) : default s = true ↔ DefaultText s := by
  rw [default, around_iff, DefaultText]
  constructor
  · rintro ⟨w, h1, h2, h3⟩
    exact ⟨w, ⟨h1, fun c hc => (isWord_iff c).1 (h2 c hc)⟩, h3⟩
  · rintro ⟨w, ⟨h1, h2⟩, h3⟩
    exact ⟨w, h1, fun c hc => (isWord_iff c).2 (h2 c hc), h3⟩

theorem early_iff (s : Str) : (extended s = true ∨ modified s = true) ↔ EarlyText s := by
  rw [extended, around_iff, EarlyText, modified]
  simp

theorem example_iff (n : Verif.Util.HNode) : exempt n = true ↔ Example n := by
  rw [exempt, Option.isSome_iff_exists, Example]
  simp only [stripPrefix_iff]

end Verif.Bodies
