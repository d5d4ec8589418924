import Verif.Paths.Lemmas
namespace Verif.Paths
open Verif.Sections (isWord)
open Spec (Base Key Path Word Phrase)

theorem word_ne {w : Str} (h : Word w) {c : Char} (hc : isWord c = false) : c ∉ w := fun hm => by
  rw [word_all h c hm] at hc; cases hc

/-! ## Splitting at spaces and hyphens -/

/-- Neither empty nor with a space or hyphen. -/
def Part (w : Str) : Prop := w ≠ [] ∧ '-' ∉ w ∧ ' ' ∉ w

theorem splitWords_part : ∀ {w : Str} (s : Str), '-' ∉ w → ' ' ∉ w → splitWords (w ++ s) = (w ++ (splitWords s).1, (splitWords s).2)
  | [], s, _, _ => rfl
  | c :: w, s, h1, h2 => by
    have := splitWords_part (w := w) s (fun h => h1 (by simp [h])) (fun h => h2 (by simp [h]))
    have hc : ¬ (c = '-' ∨ c = ' ') := by
      rintro (rfl | rfl)
      · exact h1 (by simp)
      · exact h2 (by simp)
    simp only [List.cons_append, splitWords, this, if_neg hc]

theorem splitWords_join (w : Str) (hw : Part w) : ∀ ws : List (Bool × Str), (∀ x ∈ ws, Part x.2) →
    splitWords (w ++ ws.flatMap (fun x => Spec.sep x.1 :: x.2)) = (w, ws.map (·.2))
  | [], _ => by
    have := splitWords_part [] hw.2.1 hw.2.2
    simpa [splitWords] using this
  | x :: ws, h => by
    have ih := splitWords_join x.2 (h x (by simp)) ws (fun y hy => h y (by simp [hy]))
    rw [splitWords_part _ hw.2.1 hw.2.2]
    simp only [List.flatMap_cons, List.cons_append, splitWords, ih, List.map_cons]
    have : Spec.sep x.1 = '-' ∨ Spec.sep x.1 = ' ' := by cases x.1 <;> simp [Spec.sep]
    simp [this]

theorem splitWords_back : ∀ s : Str, ∃ ws : List (Bool × Str), (splitWords s).2 = ws.map (·.2) ∧ s = (splitWords s).1 ++ ws.flatMap (fun x => Spec.sep x.1 :: x.2) ∧
    ('-' ∉ (splitWords s).1 ∧ ' ' ∉ (splitWords s).1) ∧ ∀ x ∈ ws, '-' ∉ x.2 ∧ ' ' ∉ x.2
  | [] => ⟨[], by simp [splitWords]⟩
  | c :: s => by
    obtain ⟨ws, h1, h2, h3, h4⟩ := splitWords_back s
    by_cases hc : c = '-' ∨ c = ' '
    · refine ⟨(c = '-', (splitWords s).1) :: ws, ?_⟩
      have hs : Spec.sep (decide (c = '-')) = c := by
        rcases hc with rfl | rfl <;> rfl
      simp only [splitWords, if_pos hc, h1, List.map_cons, List.flatMap_cons, hs, List.nil_append, List.cons_append, ← h2, true_and]
      refine ⟨by simp, ?_⟩
      intro x hx
      rcases List.mem_cons.1 hx with rfl | hx
      · exact h3
      · exact h4 x hx
    · refine ⟨ws, ?_⟩
      simp only [splitWords, if_neg hc, List.cons_append, ← h2, List.mem_cons, not_or, true_and]
      have : c ≠ '-' ∧ c ≠ ' ' := ⟨fun h => hc (.inl h), fun h => hc (.inr h)⟩
      exact ⟨h1, ⟨⟨fun h => this.1 h.symm, h3.1⟩, fun h => this.2 h.symm, h3.2⟩, h4⟩

theorem capital_some {w r : Str} : capital w = some r ↔ w ≠ [] ∧ r = Spec.capital w := by
  cases w with
  | nil => simp [capital]
  | cons c w => simp [capital, Spec.capital, eq_comm]

theorem mapM_capital : ∀ {ws rs : List Str}, ws.mapM capital = some rs ↔ (∀ w ∈ ws, w ≠ []) ∧ rs = ws.map Spec.capital
  | [], rs => by simp [eq_comm]
  | w :: ws, rs => by
    rw [List.mapM_cons]
    simp only [Option.bind_eq_bind, Option.bind_eq_some_iff, capital_some, mapM_capital, Option.pure_def, Option.some.injEq]
    constructor
    · rintro ⟨a, ⟨h1, rfl⟩, b, ⟨h2, rfl⟩, rfl⟩
      refine ⟨?_, rfl⟩
      intro x hx
      rcases List.mem_cons.1 hx with rfl | hx
      · exact h1
      · exact h2 x hx
    · rintro ⟨h, rfl⟩
      exact ⟨_, ⟨h w (by simp), rfl⟩, _, ⟨fun x hx => h x (by simp [hx]), rfl⟩, rfl⟩

/-! ## Names with dots -/

theorem dotted_word : ∀ {w : Str} (b : Bool) (s : Str), (∀ c ∈ w, isWord c = true) → dottedFrom b (w ++ s) = dottedFrom (b || !w.isEmpty) s
  | [], b, s, _ => by simp
  | c :: w, b, s, h => by
    have hc := h c (by simp)
    have hd : c ≠ '.' := by rintro rfl; exact absurd hc (by decide)
    rw [List.cons_append, dottedFrom, if_neg hd, hc, dotted_word true s (fun x hx => h x (by simp [hx]))]
    simp

theorem dotted_join : ∀ {w : Str} (ws : List Str), Word w → (∀ x ∈ ws, Word x) → dottedFrom false (w ++ ws.flatMap (fun x => '.' :: x)) = true
  | w, [], hw, _ => by
    have h1 := hw.1
    rw [dotted_word _ _ (word_all hw)]
    simp [dottedFrom, h1]
  | w, x :: ws, hw, h => by
    have h1 := hw.1
    have := dotted_join (w := x) ws (h x (by simp)) (fun y hy => h y (by simp [hy]))
    rw [dotted_word _ _ (word_all hw)]
    simp only [List.flatMap_cons, List.cons_append, dottedFrom, if_true, this]
    simp [h1]

theorem dotted_back : ∀ (s : Str) (b : Bool), dottedFrom b s = true → ∃ (w : Str) (ws : List Str), s = w ++ ws.flatMap (fun x => '.' :: x) ∧ (∀ c ∈ w, isWord c = true) ∧ (b = false → w ≠ []) ∧ ∀ x ∈ ws, Word x
  | [], b, h => ⟨[], [], by simp, by simp, by simp [dottedFrom] at h; simp [h], by simp⟩
  | c :: s, b, h => by
    rw [dottedFrom] at h
    by_cases hc : c = '.'
    · rw [if_pos hc, Bool.and_eq_true] at h
      obtain ⟨w, ws, rfl, h2, h3, h4⟩ := dotted_back s false h.2
      refine ⟨[], w :: ws, by simp [hc], by simp, by simp [h.1], ?_⟩
      intro x hx
      rcases List.mem_cons.1 hx with rfl | hx
      · exact word_mk (h3 rfl) h2
      · exact h4 x hx
    · rw [if_neg hc, Bool.and_eq_true] at h
      obtain ⟨w, ws, rfl, h2, h3, h4⟩ := dotted_back s true h.2
      refine ⟨c :: w, ws, rfl, ?_, by simp, h4⟩
      intro x hx
      rcases List.mem_cons.1 hx with rfl | hx
      · exact h.1
      · exact h2 x hx

/-! ## What each pattern matches -/

theorem pdnInner_iff {s u : Str} : pdnInner s = some u ↔ s = '%' :: u ++ ['%'] ∧ u ≠ [] ∧ '%' ∉ u := by
  simp only [pdnInner, Option.bind_eq_bind, Option.bind_eq_some_iff, strip_prefix, strip_suffix]
  constructor
  · rintro ⟨t, rfl, v, rfl, e⟩
    split at e
    · cases e
    · rename_i h
      cases e
      simp only [Bool.or_eq_true, List.isEmpty_iff, List.contains_iff_mem, not_or] at h
      exact ⟨rfl, h⟩
  · rintro ⟨rfl, h⟩
    refine ⟨u ++ ['%'], rfl, u, rfl, ?_⟩
    rw [if_neg]
    simpa using h

theorem iterators_iff {s u : Str} : iterators s = some u ↔ u ≠ [] ∧ (s = "the prototype of ".toList ++ (u ++ " iterator objects".toList) ∨ s = "the prototype of ".toList ++ (u ++ " Iterator objects".toList)) := by
  simp only [iterators, Option.bind_eq_bind, Option.bind_eq_some_iff, strip_prefix, Option.or_eq_some_iff, strip_suffix_none, strip_suffix]
  constructor
  · rintro ⟨t, rfl, v, h, e⟩
    split at e
    · cases e
    · rename_i hn
      cases e
      refine ⟨by simpa using hn, ?_⟩
      rcases h with rfl | ⟨-, rfl⟩
      · exact .inl rfl
      · exact .inr rfl
  · rintro ⟨hn, h⟩
    have hne : ∀ t : Str, u ++ " Iterator objects".toList ≠ t ++ " iterator objects".toList := by
      intro t e
      have := congrArg (fun l : Str => l.reverse.take 17) e
      simp at this
    rcases h with rfl | rfl
    · exact ⟨_, rfl, u, .inl rfl, by rw [if_neg (by simpa using hn)]⟩
    · exact ⟨_, rfl, u, .inr ⟨hne, rfl⟩, by rw [if_neg (by simpa using hn)]⟩

theorem percentProto_iff {s w : Str} : percentProto s = some w ↔ Word w ∧ ∃ a : Bool, s = (Phrase.percentProto a w).text := by
  simp only [percentProto, Option.bind_eq_bind, Option.bind_eq_some_iff, strip_suffix, percentWord_iff]
  have e1 : (Phrase.percentProto true w).text = "the ".toList ++ ('%' :: w ++ "% prototype object".toList) := rfl
  have e2 : (Phrase.percentProto false w).text = '%' :: w ++ "% prototype object".toList := rfl
  constructor
  · rintro ⟨t, h, rfl, hw⟩
    refine ⟨hw, ?_⟩
    cases e : stripPrefix "the ".toList s with
    | none =>
      rw [e, Option.getD_none] at h
      exact ⟨false, by rw [h, e2]; simp⟩
    | some v =>
      rw [e, Option.getD_some] at h
      exact ⟨true, by rw [strip_prefix.1 e, h, e1]; simp⟩
  · rintro ⟨hw, a, rfl⟩
    refine ⟨'%' :: w ++ ['%'], ?_, rfl, hw⟩
    cases a with
    | true => rw [e1, strip_prefix.2 rfl]; simp
    | false =>
      rw [e2, strip_prefix_none.2]
      · simp
      · intro t; simp

theorem wordProto_iff {s w : Str} : wordProto s = some w ↔ Word w ∧ ∃ o : Bool, s = (Phrase.proto false w o).text := by
  simp only [wordProto, Option.or_eq_some_iff, Option.bind_eq_some_iff, strip_suffix, asWord_iff, Option.bind_eq_none_iff]
  have e1 : (Phrase.proto false w true).text = w ++ " prototype".toList ++ " object".toList := rfl
  have e2 : (Phrase.proto false w false).text = w ++ " prototype".toList ++ [] := rfl
  constructor
  · rintro (⟨t, rfl, rfl, hw⟩ | ⟨-, t, rfl, rfl, hw⟩)
    · exact ⟨hw, true, by rw [e1]; simp⟩
    · exact ⟨hw, false, by rw [e2]; simp⟩
  · rintro ⟨hw, o, rfl⟩
    cases o with
    | true => exact .inl ⟨w, by rw [e1]; simp, rfl, hw⟩
    | false =>
      refine .inr ⟨?_, w, by rw [e2]; simp, rfl, hw⟩
      intro t e
      have := congrArg (fun l : Str => l.reverse.take 2) e
      rw [e2] at this
      simp at this

theorem the_word {w t : Str} {s : Str} (hw : Word w) (h : w ++ ' ' :: s = "the ".toList ++ t) : w = "the".toList ∧ s = t := by
  have hw' := word_all hw
  match w, hw.1, h with
  | [a], _, h => simp at h
  | [a, b], _, h => simp at h
  | [a, b, c], _, h => simp at h; exact ⟨by simp [h], h.2.2.2⟩
  | a :: b :: c :: d :: w, _, h =>
    simp at h
    have := hw' d (by simp)
    rw [h.2.2.2.1] at this
    exact absurd this (by decide)

theorem proto_text_false (w : Str) (o : Bool) : (Phrase.proto false w o).text = w ++ ' ' :: ("prototype".toList ++ if o then " object".toList else []) := by
  have : (Phrase.proto false w o).text = w ++ " prototype".toList ++ (if o then " object".toList else []) := rfl
  rw [this]; simp

theorem proto_text_true (w : Str) (o : Bool) : (Phrase.proto true w o).text = "the ".toList ++ (Phrase.proto false w o).text := by
  have : (Phrase.proto true w o).text = "the ".toList ++ w ++ " prototype".toList ++ (if o then " object".toList else []) := rfl
  rw [this, proto_text_false]; simp

/-- A word with something after a space is not `prototype` or `prototype object`. -/
theorem proto_short {v : Str} (hv : Word v) (o o' : Bool) : "prototype".toList ++ (if o then " object".toList else []) ≠ (Phrase.proto false v o').text := by
  intro e
  rw [proto_text_false] at e
  have h1 := hv.1
  have hl := congrArg List.length e
  cases o <;> cases o' <;> simp at hl
  all_goals first
    | (exfalso; exact h1 (List.length_eq_zero_iff.1 (by omega)))
    | omega
    | (have := congrArg (fun l : Str => l.reverse.take 1) e
       simp at this)

theorem proto_iff {s w : Str} : proto s = some w ↔ Word w ∧ ∃ a o : Bool, s = (Phrase.proto a w o).text := by
  simp only [proto, Option.or_eq_some_iff, Option.bind_eq_some_iff, strip_prefix, wordProto_iff, Option.bind_eq_none_iff]
  constructor
  · rintro (⟨t, rfl, hw, o, rfl⟩ | ⟨-, hw, o, rfl⟩)
    · exact ⟨hw, true, o, (proto_text_true w o).symm⟩
    · exact ⟨hw, false, o, rfl⟩
  · rintro ⟨hw, a, o, rfl⟩
    cases a with
    | true => exact .inl ⟨_, proto_text_true w o, hw, o, rfl⟩
    | false =>
      refine .inr ⟨?_, hw, o, rfl⟩
      intro t ht
      rw [proto_text_false] at ht
      obtain ⟨rfl, rfl⟩ := the_word hw ht
      rw [Option.eq_none_iff_forall_ne_some]
      intro v hv
      obtain ⟨hv, o', e⟩ := wordProto_iff.1 hv
      exact proto_short hv o o' e

theorem thing_text (w : Str) (s : Spec.Sort') : (Phrase.thing w s).text = "the ".toList ++ (w ++ ' ' :: s.text) := by
  have : (Phrase.thing w s).text = "the ".toList ++ w ++ ' ' :: s.text := rfl
  rw [this]; simp only [List.append_assoc, List.cons_append, List.nil_append]

theorem thing_iff {s w : Str} : thing s = some w ↔ Word w ∧ (s = (Phrase.thing w .constructor).text ∨ s = (Phrase.thing w .object).text) := by
  simp only [thing, Option.bind_eq_bind, Option.or_eq_some_iff, Option.bind_eq_some_iff, strip_prefix, strip_suffix, asWord_iff, Option.bind_eq_none_iff, thing_text]
  have e1 : Spec.Sort'.constructor.text = "constructor".toList := rfl
  have e2 : Spec.Sort'.object.text = "object".toList := rfl
  rw [e1, e2]
  constructor
  · rintro ⟨t, rfl, ⟨u, rfl, rfl, hw⟩ | ⟨-, u, rfl, rfl, hw⟩⟩
    · exact ⟨hw, .inl (by simp)⟩
    · exact ⟨hw, .inr (by simp)⟩
  · rintro ⟨hw, rfl | rfl⟩
    · exact ⟨_, rfl, .inl ⟨w, by simp, rfl, hw⟩⟩
    · refine ⟨_, rfl, .inr ⟨?_, w, by simp, rfl, hw⟩⟩
      intro t e
      have := congrArg (fun l : Str => l.reverse.take 2) e
      simp at this

theorem theFunction_iff {s w : Str} : theFunction s = some w ↔ Word w ∧ s = (Phrase.thing w .function).text := by
  simp only [theFunction, Option.bind_eq_bind, Option.bind_eq_some_iff, strip_prefix, strip_suffix, asWord_iff, thing_text]
  have e1 : Spec.Sort'.function.text = "function".toList := rfl
  rw [e1]
  constructor
  · rintro ⟨t, rfl, u, rfl, rfl, hw⟩
    exact ⟨hw, by simp⟩
  · rintro ⟨hw, rfl⟩
    exact ⟨_, rfl, w, by simp, rfl, hw⟩

theorem dotted_text (w : Str) (ws : List Str) (i : Bool) : (Phrase.dotted w ws i).text = "the %".toList ++ (w ++ ws.flatMap (fun x => '.' :: x) ++ if i then "% intrinsic object".toList else "% object".toList) := by
  have : (Phrase.dotted w ws i).text = "the %".toList ++ w ++ ws.flatMap (fun x => '.' :: x) ++ (if i then "% intrinsic object".toList else "% object".toList) := rfl
  rw [this]; simp only [List.append_assoc, List.cons_append, List.nil_append]

theorem dotted_iff {s u : Str} : dotted s = some u ↔ ∃ w ws i, (Word w ∧ ∀ x ∈ ws, Word x) ∧ u = w ++ ws.flatMap (fun x => '.' :: x) ∧ s = (Phrase.dotted w ws i).text := by
  simp only [dotted, Option.bind_eq_bind, Option.or_eq_some_iff, Option.bind_eq_some_iff, strip_prefix, strip_suffix, strip_suffix_none, dotted_text]
  constructor
  · rintro ⟨t, rfl, v, h, e⟩
    split at e
    · rename_i hd
      cases e
      obtain ⟨w, ws, rfl, h2, h3, h4⟩ := dotted_back _ _ hd
      rcases h with rfl | ⟨-, rfl⟩
      · exact ⟨w, ws, false, ⟨word_mk (h3 rfl) h2, h4⟩, rfl, rfl⟩
      · exact ⟨w, ws, true, ⟨word_mk (h3 rfl) h2, h4⟩, rfl, rfl⟩
    · cases e
  · rintro ⟨w, ws, i, ⟨hw, hws⟩, rfl, rfl⟩
    refine ⟨_, rfl, w ++ ws.flatMap (fun x => '.' :: x), ?_, by rw [if_pos (dotted_join ws hw hws)]⟩
    cases i with
    | true =>
      refine .inr ⟨?_, rfl⟩
      intro t e
      have := congrArg (fun l : Str => l.reverse.take 8) e
      simp at this
    | false => exact .inl rfl

theorem accessor_iff {s g p : Str} : accessor s = some (g, p) ↔ p ≠ [] ∧ (g = "get".toList ∧ s = "get ".toList ++ p ∨ g = "set".toList ∧ s = "set ".toList ++ p) := by
  rw [accessor]
  constructor
  · intro h
    split at h
    · rename_i c t hs
      cases h
      exact ⟨by simp, .inl ⟨rfl, strip_prefix.1 hs⟩⟩
    · split at h
      · rename_i c t hs
        cases h
        exact ⟨by simp, .inr ⟨rfl, strip_prefix.1 hs⟩⟩
      · cases h
  · rintro ⟨hp, ⟨rfl, rfl⟩ | ⟨rfl, rfl⟩⟩
    · rw [strip_prefix.2 rfl]
      cases p with
      | nil => exact absurd rfl hp
      | cons c p => rfl
    · rw [show stripPrefix "get ".toList ("set ".toList ++ p) = none from strip_prefix_none.2 (by intro t; simp), strip_prefix.2 rfl]
      cases p with
      | nil => exact absurd rfl hp
      | cons c p => rfl

theorem fixed_iff {s r : Str} : fixed s = some r ↔ ∃ i, i < Spec.idioms.length ∧ s = (Phrase.fixed i).text ∧ r = pc (Phrase.fixed i).name := by
  have key : fixed s = ((Spec.idioms).find? (fun e => s = e.1)).map (fun e => pc e.2) := by
    have : Spec.idioms.map (fun e => (e.1, pc e.2)) = fixedPhrases.map (fun e => (e.1.toList, e.2.toList)) := by decide +kernel
    have h1 : fixed s = ((fixedPhrases.map (fun e => (e.1.toList, e.2.toList))).find? (fun e => decide (s = e.1))).map (·.2) := by
      rw [List.find?_map, Option.map_map]; rfl
    rw [h1, ← this, List.find?_map, Option.map_map]; rfl
  have nd : ∀ i j : Fin Spec.idioms.length, (Spec.idioms[i]).1 = (Spec.idioms[j]).1 → i = j := by decide +kernel
  have tx : ∀ i (h : i < Spec.idioms.length), (Phrase.fixed i).text = (Spec.idioms[i]).1 ∧ (Phrase.fixed i).name = (Spec.idioms[i]).2 := by
    have : ∀ i : Fin Spec.idioms.length, (Phrase.fixed i).text = (Spec.idioms[i]).1 ∧ (Phrase.fixed i).name = (Spec.idioms[i]).2 := by decide +kernel
    exact fun i h => this ⟨i, h⟩
  rw [key, Option.map_eq_some_iff]
  constructor
  · rintro ⟨e, he, rfl⟩
    obtain ⟨i, hi, hg⟩ := List.mem_iff_getElem.1 (List.mem_of_find?_eq_some he)
    have := List.find?_some he
    obtain ⟨t1, t2⟩ := tx i hi
    refine ⟨i, hi, ?_, ?_⟩
    · rw [t1, hg]; simpa using this
    · rw [t2, hg]
  · rintro ⟨i, hi, rfl, rfl⟩
    obtain ⟨t1, t2⟩ := tx i hi
    rw [t1, t2]
    refine ⟨Spec.idioms[i], ?_, rfl⟩
    rw [List.find?_eq_some_iff_getElem]
    refine ⟨by simp, i, hi, rfl, ?_⟩
    intro j hj
    have := nd ⟨i, hi⟩ ⟨j, by omega⟩
    simp only [Fin.mk.injEq] at this
    have h2 := fun e => (show i ≠ j by omega) (this e)
    simpa using h2

end Verif.Paths
