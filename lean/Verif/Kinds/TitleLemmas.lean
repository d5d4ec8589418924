import Verif.Kinds.RegexLemmas
/-!
# Titles of sections: the patterns say what the specification says
-/
namespace Verif.Kinds
open Verif.Sections (isWord)
open Verif.Paths.Spec (Word Key Base Path Plain)
open Spec

attribute [local irreducible] lit cat any plus

theorem upper_iff (c : Char) : c.isUpper = true ↔ 'A' ≤ c ∧ c ≤ 'Z' := by
  simp only [Char.isUpper, decide_eq_true_eq]; rfl

theorem lower_iff (c : Char) : c.isLower = true ↔ 'a' ≤ c ∧ c ≤ 'z' := by
  simp only [Char.isLower, Bool.and_eq_true, decide_eq_true_eq]; rfl

theorem capital_iff {s : Str} : (∃ u v, s = u ++ v ∧ Matches upper u ∧ Matches (plus w) v) ↔ Capital s := by
  constructor
  · rintro ⟨u, v, rfl, h1, h2⟩
    obtain ⟨c, rfl, hc⟩ := m_char.1 h1
    exact ⟨c, v, rfl, (upper_iff c).1 hc, m_word.1 h2⟩
  · rintro ⟨c, r, rfl, h1, h2⟩
    exact ⟨[c], r, rfl, .char ((upper_iff c).2 h1), m_word.2 h2⟩

theorem m_capital {s : Str} : Matches (cat [upper, plus w]) s ↔ Capital s := by
  rw [m_cat]; simp only [m_one]; exact capital_iff

theorem m_small {s : Str} : Matches (cat [.char Char.isLower, plus w]) s ↔ Small s := by
  rw [m_cat]; simp only [m_one]
  constructor
  · rintro ⟨u, v, rfl, h1, h2⟩
    obtain ⟨c, rfl, hc⟩ := m_char.1 h1
    exact ⟨c, v, rfl, (lower_iff c).1 hc, m_word.1 h2⟩
  · rintro ⟨c, r, rfl, h1, h2⟩
    exact ⟨[c], r, rfl, .char ((lower_iff c).2 h1), m_word.2 h2⟩

/-- A text, something, and another text. -/
theorem m_between {a b : String} {r : Rx} {s : Str} : Matches (cat [lit a, r, lit b]) s ↔ ∃ x, Matches r x ∧ s = a.toList ++ x ++ b.toList := by
  simp only [m_cat, m_cat_nil, m_lit]
  constructor
  · rintro ⟨u, v, rfl, rfl, x, y, rfl, hx, y', z, rfl, rfl, rfl⟩
    exact ⟨x, hx, by simp⟩
  · rintro ⟨x, hx, rfl⟩
    exact ⟨_, x ++ b.toList, by simp, rfl, x, b.toList, rfl, hx, b.toList, [], by simp, rfl, rfl⟩

theorem m_before {a : String} {r : Rx} {s : Str} : Matches (cat [lit a, r]) s ↔ ∃ x, Matches r x ∧ s = a.toList ++ x := by
  simp only [m_cat, m_cat_nil, m_lit]
  constructor
  · rintro ⟨u, v, rfl, rfl, x, y, rfl, hx, rfl⟩
    exact ⟨x, hx, by simp⟩
  · rintro ⟨x, hx, rfl⟩
    exact ⟨_, x, rfl, rfl, x, [], by simp, hx, rfl⟩

theorem m_after {a : String} {r : Rx} {s : Str} : Matches (cat [r, lit a]) s ↔ ∃ x, Matches r x ∧ s = x ++ a.toList := by
  simp only [m_cat, m_cat_nil, m_lit]
  constructor
  · rintro ⟨u, v, rfl, hx, x, y, rfl, rfl, rfl⟩
    exact ⟨u, hx, by simp⟩
  · rintro ⟨x, hx, rfl⟩
    exact ⟨x, _, rfl, hx, _, [], by simp, rfl, rfl⟩

theorem m_base {s : Str} : Matches (any [plus w, cat [lit "%", plus w, lit "%"]]) s ↔ ∃ b, Plain b ∧ s = b.text := by
  simp only [m_any, List.mem_cons, List.not_mem_nil, or_false, exists_eq_or_imp, exists_eq_left, m_between, m_word]
  constructor
  · rintro (h | ⟨x, h, rfl⟩)
    · exact ⟨.word s, h, rfl⟩
    · exact ⟨.percent x, h, rfl⟩
  · rintro ⟨b, h, rfl⟩
    cases b with
    | word x => exact .inl h
    | percent x => exact .inr ⟨x, h, rfl⟩
    | _ => exact h.elim

theorem m_key {s : Str} : Matches (any [cat [lit ".", plus w], cat [lit " [ %Symbol.", plus w, lit "% ]"]]) s ↔ ∃ k : Key, k.Ok ∧ s = k.text := by
  simp only [m_any, List.mem_cons, List.not_mem_nil, or_false, exists_eq_or_imp, exists_eq_left, m_between, m_before, m_word]
  constructor
  · rintro (⟨x, h, rfl⟩ | ⟨x, h, rfl⟩)
    · exact ⟨.string x, h, rfl⟩
    · exact ⟨.symbol x, h, rfl⟩
  · rintro ⟨k, h, rfl⟩
    cases k with
    | string x => exact .inl ⟨x, h, rfl⟩
    | symbol x => exact .inr ⟨x, h, rfl⟩

theorem keys_iff (xs : List Str) : (∀ x ∈ xs, ∃ k : Key, k.Ok ∧ x = k.text) ↔ ∃ ks : List Key, (∀ k ∈ ks, k.Ok) ∧ xs = ks.map Key.text := by
  induction xs with
  | nil => exact ⟨fun _ => ⟨[], by simp, rfl⟩, fun _ => by simp⟩
  | cons x xs ih =>
    rw [List.forall_mem_cons, ih]
    constructor
    · rintro ⟨⟨k, hk, rfl⟩, ks, hks, rfl⟩
      exact ⟨k :: ks, by simpa using ⟨hk, hks⟩, rfl⟩
    · rintro ⟨ks, h, e⟩
      cases ks with
      | nil => cases e
      | cons k ks =>
        cases e
        exact ⟨⟨k, h k (by simp), rfl⟩, ks, fun y hy => h y (by simp [hy]), rfl⟩

theorem m_propPath {s : Str} : Matches propPath s ↔ PropPath s := by
  unfold propPath
  rw [m_cat]
  simp only [m_one, m_base]
  constructor
  · rintro ⟨u, v, rfl, ⟨b, hb, rfl⟩, h⟩
    obtain ⟨xs, hn, rfl, h'⟩ := m_plus.1 h
    obtain ⟨ks, hk, rfl⟩ := (keys_iff xs).1 (fun x hx => m_key.1 (h' x hx))
    exact ⟨b, ks, hb, by simpa using hn, hk, by simp [Path.text, List.flatMap_def]⟩
  · rintro ⟨b, ks, hb, hn, hk, rfl⟩
    refine ⟨b.text, ks.flatMap Key.text, rfl, ⟨b, hb, rfl⟩, m_plus.2 ⟨ks.map Key.text, by simpa using hn, by simp [List.flatMap_def], ?_⟩⟩
    intro x hx
    obtain ⟨k, hk', rfl⟩ := List.mem_map.1 hx
    exact m_key.2 ⟨k, hk k hk', rfl⟩

theorem m_params {s : Str} : Matches parameterList s ↔ ∃ ps, NoParens ps ∧ s = " (".toList ++ ps ++ ")".toList := by
  unfold parameterList
  rw [m_between]
  simp only [m_chars]
  have : ∀ ps : Str, (∀ c ∈ ps, (c != '(' && c != ')') = true) ↔ NoParens ps := by
    intro ps
    simp only [Bool.and_eq_true, bne_iff_ne, ne_eq, NoParens]
    constructor
    · intro h; exact ⟨fun h' => (h _ h').1 rfl, fun h' => (h _ h').2 rfl⟩
    · rintro ⟨h1, h2⟩ c hc; exact ⟨fun e => h1 (e ▸ hc), fun e => h2 (e ▸ hc)⟩
  simp only [this]

/-! ## Other titles -/

theorem shorthand_iff {s : Str} : Shorthand s ↔ ∃ p ∈ otherPatterns.take 8, Matches p.1 s := by
  simp only [Shorthand, otherPatterns, List.take_succ_cons, List.take_zero, List.mem_cons, List.not_mem_nil, or_false, exists_eq_or_imp, exists_eq_left, m_lit]

theorem instances_iff {s : Str} : Instances s ↔ Matches (cat [plus dot, lit " Instances"]) s ∨ Matches (lit "Module Namespace Objects") s := by
  simp only [m_after, m_line, m_lit, Instances]

theorem properties_iff {s : Str} : (∃ x, Some' x ∧ s = "Properties of ".toList ++ x) ↔ Matches (cat [lit "Properties of ", plus dot]) s := by
  simp only [m_before, m_line]

theorem object_iff {s : Str} : (∃ x, x ≠ [] ∧ (∀ c ∈ x, c.isAlphanum = true ∨ c = '_' ∨ c = '%' ∨ c = '.') ∧ s = "The ".toList ++ x ++ " Object".toList) ↔
    Matches (cat [lit "The ", plus (.char (fun c => isWord c || c == '%' || c == '.')), lit " Object"]) s := by
  simp only [m_between, m_plus_chars, Bool.or_eq_true, beq_iff_eq, Verif.Sections.isWord, and_assoc, or_assoc]

theorem additional_iff {s : Str} : Additional s ↔ Matches (cat [lit "Additional Properties of ", plus dot]) s := by
  simp only [m_before, m_line, Additional]

theorem constructor_iff {s : Str} : ConstructorInfo s ↔ Matches (cat [lit "The ", plus w, lit " Constructor"]) s ∨ Matches (lit "The _NativeError_ Constructors") s ∨
    Matches (lit "The _TypedArray_ Constructors") s ∨ Matches (lit "The %TypedArray% Intrinsic Object") s := by
  simp only [m_between, m_word, m_lit, ConstructorInfo, List.mem_cons, List.not_mem_nil, or_false]

theorem loop_iff {s : Str} : Loop s ↔ Matches (lit "_NativeError_ Object Structure") s := by
  simp only [m_lit, Loop]

theorem group_iff {s : Str} : Group s ↔ Matches (lit "URI Handling Functions") s ∨
    Matches (cat [any [lit "Value", lit "Function", lit "Constructor", lit "Other"], lit " Properties of ", plus dot]) s ∨
    Matches (cat [lit "Legacy Object", dot, lit "prototype Accessor Methods"]) s := by
  unfold Group
  rw [m_between, m_lit, m_cat]
  refine or_congr .rfl (or_congr ?_ ?_)
  · simp only [m_any, m_before, m_line]
    constructor
    · rintro ⟨k, x, hk, hx, rfl⟩
      refine ⟨k, " Properties of ".toList ++ x, by simp, ?_, x, hx, rfl⟩
      simp only [List.mem_cons, List.not_mem_nil, or_false, exists_eq_or_imp, exists_eq_left, m_lit] at hk ⊢
      exact hk
    · rintro ⟨k, v, rfl, hk, x, hx, rfl⟩
      refine ⟨k, x, ?_, hx, by simp⟩
      simp only [List.mem_cons, List.not_mem_nil, or_false, exists_eq_or_imp, exists_eq_left, m_lit] at hk ⊢
      exact hk
  · simp only [m_dot]
    constructor
    · rintro ⟨c, hc, rfl⟩; exact ⟨[c], ⟨c, rfl, hc⟩, by simp⟩
    · rintro ⟨x, ⟨c, rfl, hc⟩, rfl⟩; exact ⟨c, hc, by simp⟩

theorem property_iff {s : Str} : Property s ↔ Matches propPath s ∨ Matches (any [cat [.char Char.isLower, plus w], lit "Infinity", lit "NaN"]) s ∨
    Matches (cat [lit "%Symbol.", plus w, lit "%"]) s := by
  simp only [m_propPath, m_between, m_word, m_any, List.mem_cons, List.not_mem_nil, or_false, exists_eq_or_imp, exists_eq_left, m_small, m_lit, Property, or_assoc]

end Verif.Kinds
