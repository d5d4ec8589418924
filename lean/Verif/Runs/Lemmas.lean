import Verif.Runs.Spec
namespace Verif.Runs

open Verif.Front

theorem occ_succ {m : Str} {i : Nat} {c : Char} {cs : Str} : Occ m (i + 1) (c :: cs) ↔ Occ m i cs := Iff.rfl

theorem finds_sound {m : Str} : ∀ {cs : Str} {i k j : Nat}, j ∈ finds m i k cs → i + k ≤ j ∧ Occ m (j - i) cs
  | [], i, k, j, h => by cases k <;> (rw [finds] at h; exact nomatch h)
  | c :: cs, i, k + 1, j, h => by
    rw [finds] at h
    obtain ⟨h1, h2⟩ := finds_sound h
    refine ⟨by omega, ?_⟩
    have : j - i = (j - (i + 1)) + 1 := by omega
    rw [this]; exact h2
  | c :: cs, i, 0, j, h => by
    rw [finds] at h
    split at h
    · next hp =>
      rcases List.mem_cons.1 h with rfl | h
      · exact ⟨by omega, by rw [Nat.sub_self]; exact List.isPrefixOf_iff_prefix.1 hp⟩
      · obtain ⟨h1, h2⟩ := finds_sound h
        refine ⟨by omega, ?_⟩
        have : j - i = (j - (i + 1)) + 1 := by omega
        rw [this]; exact h2
    · obtain ⟨h1, h2⟩ := finds_sound h
      refine ⟨by omega, ?_⟩
      have : j - i = (j - (i + 1)) + 1 := by omega
      rw [this]; exact h2

theorem finds_complete {m : Str} (hm : m ≠ []) : ∀ {cs : Str} {i k j : Nat}, k ≤ j → Occ m j cs → ∃ a ∈ finds m i k cs, a ≤ i + j ∧ i + j < a + m.length
  | [], i, k, j, _, h => by
    exfalso
    unfold Occ at h
    rw [List.drop_nil] at h
    exact hm (List.prefix_nil.1 h)
  | c :: cs, i, k + 1, 0, hk, _ => absurd hk (by omega)
  | c :: cs, i, k + 1, j + 1, hk, h => by
    obtain ⟨a, h1, h2, h3⟩ := finds_complete hm (i := i + 1) (Nat.le_of_succ_le_succ hk) (occ_succ.1 h)
    exact ⟨a, by rw [finds]; exact h1, by omega, by omega⟩
  | c :: cs, i, 0, 0, _, h => by
    have hp : m.isPrefixOf (c :: cs) = true := List.isPrefixOf_iff_prefix.2 h
    have hl : 0 < m.length := List.length_pos_iff.2 hm
    exact ⟨i, by rw [finds, if_pos hp]; exact .head _, by omega, by omega⟩
  | c :: cs, i, 0, j + 1, _, h => by
    rw [finds]
    split
    · by_cases hj : m.length - 1 ≤ j
      · obtain ⟨a, h1, h2, h3⟩ := finds_complete hm (i := i + 1) hj (occ_succ.1 h)
        exact ⟨a, .tail _ h1, by omega, by omega⟩
      · exact ⟨i, .head _, by omega, by omega⟩
    · obtain ⟨a, h1, h2, h3⟩ := finds_complete hm (i := i + 1) (Nat.zero_le j) (occ_succ.1 h)
      exact ⟨a, h1, by omega, by omega⟩

theorem finds_apart {m : Str} : ∀ {cs : Str} {i k : Nat}, (finds m i k cs).Pairwise (fun a b => a < b ∧ a + m.length ≤ b)
  | [], i, k => by cases k <;> (rw [finds]; exact .nil)
  | c :: cs, i, k + 1 => by rw [finds]; exact finds_apart
  | c :: cs, i, 0 => by
    rw [finds]
    split
    · refine .cons (fun b hb => ?_) finds_apart
      have := (finds_sound hb).1
      omega
    · exact finds_apart

/-- There is one match just if all occurrences begin within it. -/
theorem finds_single {m : Str} (hm : m ≠ []) {t : Str} {a : Nat} :
    finds m 0 0 t = [a] ↔ Occ m a t ∧ ∀ i, Occ m i t → a ≤ i ∧ i < a + m.length := by
  constructor
  · intro h
    refine ⟨(finds_sound (m := m) (cs := t) (i := 0) (k := 0) (j := a) (by rw [h]; exact .head _)).2, fun i hi => ?_⟩
    obtain ⟨b, h1, h2, h3⟩ := finds_complete hm (i := 0) (Nat.zero_le i) hi
    rw [h] at h1
    obtain rfl := List.mem_singleton.1 h1
    omega
  · rintro ⟨h1, h2⟩
    have hall : ∀ x ∈ finds m 0 0 t, a ≤ x ∧ x < a + m.length := fun x hx => h2 x (finds_sound hx).2
    obtain ⟨b, hb, hb1, hb2⟩ := finds_complete hm (i := 0) (Nat.zero_le a) h1
    have hp := finds_apart (m := m) (cs := t) (i := 0) (k := 0)
    generalize finds m 0 0 t = l at *
    cases l with
    | nil => exact nomatch hb
    | cons x l =>
      have hx := hall x (.head _)
      have hl : l = [] := by
        cases l with
        | nil => rfl
        | cons z l =>
          have h3 := (List.pairwise_cons.1 hp).1 z (.head _)
          have h4 := hall z (.tail _ (.head _))
          omega
      subst hl
      obtain rfl := List.mem_singleton.1 hb
      have := hall b (.head _)
      rw [show b = a by omega]

theorem parse_empty (word space : Char → Bool) : parseFrontmatter word space [] = none := by
  unfold parseFrontmatter
  rfl

theorem drop_occ {m t : Str} {a : Nat} (h : Occ m a t) : t.drop a = m ++ t.drop (a + m.length) := by
  obtain ⟨r, h⟩ := h
  rw [← List.drop_drop, ← h, List.drop_left]

theorem occ_le {m t : Str} {a : Nat} (hm : m ≠ []) (h : Occ m a t) : a ≤ t.length := by
  have h1 := h.length_le
  rw [List.length_drop] at h1
  have := List.length_pos_iff.2 hm
  omega

theorem opening_ne : opening ≠ [] := by decide
theorem closing_ne : closing ≠ [] := by decide
theorem opening_len : opening.length = 7 := by decide
theorem closing_len : closing.length = 7 := by decide

/-- The sections that are found, if they are in order. -/
theorem sections_sound {text c f b : Str} (h : sections text = some (c, f, b)) (hf : f ≠ []) : Sectioned text c f b := by
  unfold sections at h
  split at h
  · next a q ha hq =>
    obtain ⟨a1, a2⟩ := (finds_single opening_ne).1 ha
    obtain ⟨q1, q2⟩ := (finds_single closing_ne).1 hq
    rw [opening_len] at a2 h
    rw [closing_len] at q2 h
    have h := Option.some.inj h
    obtain ⟨h1, h2⟩ := Prod.mk.inj h
    obtain ⟨h2, h3⟩ := Prod.mk.inj h2
    have hlt : a + 7 < q := by
      refine Classical.byContradiction fun hn => hf ?_
      rw [← h2, show q - (a + 7) = 0 by omega, List.take_zero]
    have hc : c.length = a := by rw [← h1, List.length_take, Nat.min_eq_left (occ_le opening_ne a1)]
    have hq' := occ_le closing_ne q1
    have hfl : f.length = q - (a + 7) := by rw [← h2, List.length_take, List.length_drop]; omega
    refine ⟨?_, ?_, ?_⟩
    · have e1 := drop_occ a1
      have e2 := drop_occ q1
      rw [opening_len] at e1
      rw [closing_len] at e2
      conv => lhs; rw [← List.take_append_drop a text, e1, ← List.take_append_drop (q - (a + 7)) (text.drop (a + 7)), List.drop_drop, show a + 7 + (q - (a + 7)) = q by omega, e2]
      rw [h1, h2, h3]
    · rw [hc]; exact a2
    · rw [hc, hfl, show a + 7 + (q - (a + 7)) = q by omega]; exact q2
  · exact nomatch h

theorem sections_complete {text c f b : Str} (h : Sectioned text c f b) : sections text = some (c, f, b) := by
  have hw := h.whole
  have d1 : text.drop c.length = opening ++ (f ++ (closing ++ b)) := by rw [hw, List.drop_left]
  have d2 : text.drop (c.length + 7) = f ++ (closing ++ b) := by rw [← List.drop_drop, d1, ← opening_len, List.drop_left]
  have d3 : text.drop (c.length + 7 + f.length) = closing ++ b := by rw [← List.drop_drop, d2, List.drop_left]
  have d4 : text.drop (c.length + 7 + f.length + 7) = b := by rw [← List.drop_drop, d3]; conv => lhs; rw [← closing_len]
                                                              exact List.drop_left
  have ha : finds opening 0 0 text = [c.length] := (finds_single opening_ne).2 ⟨by unfold Occ; rw [d1]; exact List.prefix_append _ _, by rw [opening_len]; exact h.opening⟩
  have hq : finds closing 0 0 text = [c.length + 7 + f.length] :=
    (finds_single closing_ne).2 ⟨by unfold Occ; rw [d3]; exact List.prefix_append _ _, by rw [closing_len]; exact h.closing⟩
  unfold sections
  rw [ha, hq]
  dsimp only
  rw [opening_len, closing_len, d4, d2, show c.length + 7 + f.length - (c.length + 7) = f.length by omega, List.take_left]
  rw [hw, List.take_left]

theorem copyright_iff (path c : Str) : okCopyright path c = true ↔ Copyright path c := by
  unfold okCopyright Copyright
  rw [Bool.or_eq_true, Bool.or_eq_true, Bool.or_eq_true, List.all_eq_true]
  simp only [Bool.or_eq_true, List.isPrefixOf_iff_prefix, List.isEmpty_iff]
  constructor
  · rintro (((h | h) | h) | h)
    · exact .inl fun l hl => (h l hl).symm
    · exact .inr ⟨_, .head _, h⟩
    · exact .inr ⟨_, .tail _ (.head _), h⟩
    · exact .inr ⟨_, .tail _ (.tail _ (.head _)), h⟩
  · rintro (h | ⟨p, hp, h⟩)
    · exact .inl (.inl (.inl fun l hl => (h l hl).symm))
    · rcases List.mem_cons.1 hp with rfl | hp
      · exact .inl (.inl (.inr h))
      rcases List.mem_cons.1 hp with rfl | hp
      · exact .inl (.inr h)
      · rw [List.mem_singleton.1 hp] at h; exact .inr h

theorem noDups_iff (l : List Str) : noDups l = true ↔ l.Nodup := by
  induction l with
  | nil => exact ⟨fun _ => .nil, fun _ => rfl⟩
  | cons s l ih =>
    rw [noDups, Bool.and_eq_true, ih, List.nodup_cons]
    simp

theorem checkStr_iff (d : Dict) (k : Str) : checkStr d k = true ↔ ∀ v, d.lookup k = some v → ∃ s, v = .scalar s := by
  unfold checkStr
  split
  · next h => rw [h]; exact ⟨fun _ _ e => (nomatch e), fun _ => rfl⟩
  · next s h => rw [h]; exact ⟨fun _ _ e => ⟨s, (Option.some.inj e).symm⟩, fun _ => rfl⟩
  · next v hn h =>
    rw [h]
    refine ⟨fun e => (nomatch e), fun hh => ?_⟩
    obtain ⟨s, e⟩ := hh v rfl
    exact absurd e (hn s)

theorem among_iff (v : Option Val) (l : List Str) : among v l = true ↔ ∃ s ∈ l, v = some (.scalar s) := by
  unfold among
  split
  · next s =>
    rw [List.contains_iff_mem]
    exact ⟨fun h => ⟨s, h, rfl⟩, fun ⟨s', h, e⟩ => by injection e with e; injection e with e; rw [e]; exact h⟩
  · next hn => exact ⟨fun e => (nomatch e), fun ⟨s, _, e⟩ => absurd e (hn s)⟩

theorem okInclude_iff (word : Char → Bool) (s : Str) :
    okInclude word s = true ↔ ∃ stem, stem ≠ [] ∧ s = stem ++ ".js".toList ∧ ∀ c ∈ stem, word c = true ∨ c = '-' := by
  unfold okInclude
  rw [Bool.and_eq_true, Bool.and_eq_true, decide_eq_true_iff, decide_eq_true_iff, List.all_eq_true]
  constructor
  · rintro ⟨⟨h1, h2⟩, h3⟩
    refine ⟨s.take (s.length - 3), ?_, ?_, fun c hc => by simpa using h3 c hc⟩
    · intro e
      have := congrArg List.length e
      rw [List.length_take, List.length_nil] at this
      omega
    · rw [← h2, List.take_append_drop]
  · rintro ⟨stem, h1, rfl, h3⟩
    have h4 := List.length_pos_iff.2 h1
    have h5 : (stem ++ ".js".toList).length = stem.length + 3 := by rw [List.length_append]; rfl
    rw [h5, show stem.length + 3 - 3 = stem.length by omega, List.drop_left, List.take_left]
    exact ⟨⟨by omega, rfl⟩, fun c hc => by simpa using h3 c hc⟩

theorem num_le (a b c : Bool) : num a + num b + num c ≤ 1 ↔ ¬ (a = true ∧ b = true) ∧ ¬ (a = true ∧ c = true) ∧ ¬ (b = true ∧ c = true) := by
  cases a <;> cases b <;> cases c <;> decide

theorem okDict_iff (word : Char → Bool) (d : Dict) : okDict word d = true ↔ Valid word d := by
  have hneg : okNegative d = true ↔ ∀ v, d.lookup "negative".toList = some v → ∃ neg, v = .map neg ∧ (∀ p ∈ neg, p.1 = "type".toList ∨ p.1 = "phase".toList) ∧
    (∃ s ∈ ["RangeError".toList, "ReferenceError".toList, "SyntaxError".toList, "Test262Error".toList, "TypeError".toList], neg.lookup "type".toList = some (.scalar s)) ∧
    (∃ s ∈ ["parse".toList, "resolution".toList, "runtime".toList], neg.lookup "phase".toList = some (.scalar s)) := by
    unfold okNegative
    split
    · next h => rw [h]; exact ⟨fun _ _ e => (nomatch e), fun _ => rfl⟩
    · next neg h =>
      rw [h, Bool.and_eq_true, Bool.and_eq_true, among_iff, among_iff, List.all_eq_true]
      constructor
      · rintro ⟨⟨h1, h2⟩, h3⟩ v e
        exact ⟨neg, (Option.some.inj e).symm, fun p hp => by simpa using h1 p hp, h2, h3⟩
      · intro hh
        obtain ⟨neg', e, h1, h2, h3⟩ := hh _ rfl
        injection e with e
        subst e
        exact ⟨⟨fun p hp => by simpa using h1 p hp, h2⟩, h3⟩
    · next v hn h =>
      rw [h]
      refine ⟨fun e => (nomatch e), fun hh => ?_⟩
      obtain ⟨neg, e, _⟩ := hh v rfl
      exact absurd e (hn neg)
  have hinc : okIncludes word d = true ↔ ∀ v, d.lookup "includes".toList = some v → ∃ l, v = .list l ∧ l ≠ [] ∧
    ∀ s ∈ l, ∃ stem, stem ≠ [] ∧ s = stem ++ ".js".toList ∧ ∀ c ∈ stem, word c = true ∨ c = '-' := by
    unfold okIncludes
    split
    · next h => rw [h]; exact ⟨fun _ _ e => (nomatch e), fun _ => rfl⟩
    · next l h =>
      rw [h, Bool.and_eq_true, List.all_eq_true]
      simp only [okInclude_iff, Bool.not_eq_true', List.isEmpty_eq_false_iff]
      constructor
      · rintro ⟨h1, h2⟩ v e
        exact ⟨l, (Option.some.inj e).symm, h1, h2⟩
      · intro hh
        obtain ⟨l', e, h1, h2⟩ := hh _ rfl
        injection e with e
        subst e
        exact ⟨h1, h2⟩
    · next v hn h =>
      rw [h]
      refine ⟨fun e => (nomatch e), fun hh => ?_⟩
      obtain ⟨l, e, _⟩ := hh v rfl
      exact absurd e (hn l)
  have hfl : okFlags d = true ↔ ∀ v, d.lookup "flags".toList = some v → ∃ l, v = .list l ∧ l.Nodup ∧ ¬ ("onlyStrict".toList ∈ l ∧ "noStrict".toList ∈ l) ∧
    ¬ ("onlyStrict".toList ∈ l ∧ "raw".toList ∈ l) ∧ ¬ ("noStrict".toList ∈ l ∧ "raw".toList ∈ l) := by
    unfold okFlags
    split
    · next h => rw [h]; exact ⟨fun _ _ e => (nomatch e), fun _ => rfl⟩
    · next l h =>
      rw [h, Bool.and_eq_true, noDups_iff, decide_eq_true_iff, num_le]
      simp only [List.contains_iff_mem]
      constructor
      · rintro ⟨h1, h2⟩ v e
        exact ⟨l, (Option.some.inj e).symm, h1, h2⟩
      · intro hh
        obtain ⟨l', e, h1, h2⟩ := hh _ rfl
        injection e with e
        subst e
        exact ⟨h1, h2⟩
    · next v hn h =>
      rw [h]
      refine ⟨fun e => (nomatch e), fun hh => ?_⟩
      obtain ⟨l, e, _⟩ := hh v rfl
      exact absurd e (hn l)
  have hfe : okFeatures d = true ↔ ∀ v, d.lookup "features".toList = some v → ∃ l, v = .list l ∧ l ≠ [] ∧ l.Nodup := by
    unfold okFeatures
    split
    · next h => rw [h]; exact ⟨fun _ _ e => (nomatch e), fun _ => rfl⟩
    · next l h =>
      rw [h, Bool.and_eq_true, noDups_iff, Bool.not_eq_true', List.isEmpty_eq_false_iff]
      constructor
      · rintro ⟨h1, h2⟩ v e
        exact ⟨l, (Option.some.inj e).symm, h1, h2⟩
      · intro hh
        obtain ⟨l', e, h1, h2⟩ := hh _ rfl
        injection e with e
        subst e
        exact ⟨h1, h2⟩
    · next v hn h =>
      rw [h]
      refine ⟨fun e => (nomatch e), fun hh => ?_⟩
      obtain ⟨l, e, _⟩ := hh v rfl
      exact absurd e (hn l)
  unfold okDict
  simp only [Bool.and_eq_true, checkStr_iff, hneg, hinc, hfl, hfe]
  constructor
  · rintro ⟨⟨⟨⟨⟨⟨⟨⟨⟨⟨a1, a2⟩, a3⟩, a4⟩, a5⟩, a6⟩, a7⟩, a8⟩, a9⟩, a10⟩, a11⟩
    refine ⟨?_, fun k hk => ?_, a5, a6, a8, a9⟩
    · obtain ⟨v, hv⟩ := Option.isSome_iff_exists.1 a1
      obtain ⟨s, rfl⟩ := a2 v hv
      exact ⟨s, hv⟩
    · rcases List.mem_cons.1 hk with rfl | hk
      · exact a3
      rcases List.mem_cons.1 hk with rfl | hk
      · exact a4
      rcases List.mem_cons.1 hk with rfl | hk
      · exact a7
      rcases List.mem_cons.1 hk with rfl | hk
      · exact a10
      · rw [List.mem_singleton.1 hk]; exact a11
  · rintro ⟨⟨s, b1⟩, b2, b3, b4, b5, b6⟩
    refine ⟨⟨⟨⟨⟨⟨⟨⟨⟨⟨?_, ?_⟩, b2 _ (.head _)⟩, b2 _ (.tail _ (.head _))⟩, b3⟩, b4⟩, b2 _ (.tail _ (.tail _ (.head _)))⟩, b5⟩, b6⟩,
      b2 _ (.tail _ (.tail _ (.tail _ (.head _))))⟩, b2 _ (.tail _ (.tail _ (.tail _ (.tail _ (.head _)))))⟩
    · rw [b1]; rfl
    · intro v hv
      rw [b1] at hv
      exact ⟨s, (Option.some.inj hv).symm⟩

theorem flag_iff (d : Dict) (f : Str) : (flagset d).contains f = true ↔ Flag d f := by
  unfold flagset Flag
  split
  · next l h =>
    rw [h, List.contains_iff_mem]
    exact ⟨fun hf => ⟨l, rfl, hf⟩, fun ⟨l', e, hf⟩ => by injection e with e; injection e with e; rw [e]; exact hf⟩
  · next hn => exact ⟨fun e => (nomatch e), fun ⟨l, e, _⟩ => absurd e (hn l)⟩

end Verif.Runs
