import Verif.Paths.PhraseLemmas
namespace Verif.Paths
open Verif.Sections (isWord)
open Spec (Base Key Path Word Phrase)

theorem none_of {α : Type} {o : Option α} (h : ∀ a, o = some a → False) : o = none := by
  cases o with
  | none => rfl
  | some a => exact (h a rfl).elim

/-! ## No two patterns match -/

theorem fixed_text : ∀ i : Fin Spec.idioms.length, (Phrase.fixed i).text = (Spec.idioms[i]).1 := by decide +kernel

theorem fixed_excl {α : Type} (X : Str → Option α) (h : ∀ i : Fin Spec.idioms.length, (X (Spec.idioms[i]).1).isNone = true) {s : Str} {a : α} (hx : X s = some a) : fixed s = none := by
  apply none_of
  intro r hr
  obtain ⟨i, hi, rfl, -⟩ := fixed_iff.1 hr
  have := h ⟨i, hi⟩
  have e : (Phrase.fixed i).text = (Spec.idioms[i]).1 := fixed_text ⟨i, hi⟩
  rw [e] at hx
  rw [show (Spec.idioms[(⟨i, hi⟩ : Fin Spec.idioms.length)]).1 = (Spec.idioms[i]).1 from rfl, hx] at this
  cases this

theorem word_split : ∀ {w v x y : Str}, (∀ c ∈ w, isWord c = true) → (∀ c ∈ v, isWord c = true) → w ++ ' ' :: x = v ++ ' ' :: y → w = v ∧ x = y
  | [], [], _, _, _, _, h => by simpa using h
  | [], c :: v, _, _, _, hv, h => by
    have hc := hv c (by simp)
    simp at h
    rw [← h.1] at hc; exact absurd hc (by decide)
  | c :: w, [], _, _, hw, _, h => by
    have hc := hw c (by simp)
    simp at h
    rw [h.1] at hc; exact absurd hc (by decide)
  | c :: w, d :: v, _, _, hw, hv, h => by
    simp only [List.cons_append, List.cons.injEq] at h
    obtain ⟨h1, h2⟩ := word_split (fun c hc => hw c (by simp [hc])) (fun c hc => hv c (by simp [hc])) h.2
    exact ⟨by rw [h.1, h1], h2⟩

/-- What follows the article, if there is one. -/
def core (s : Str) : Str := (stripPrefix "the ".toList s).getD s

theorem core_the (t : Str) : core ("the ".toList ++ t) = t := by rw [core, strip_prefix.2 rfl, Option.getD_some]

theorem core_head {c : Char} {s : Str} (h : c ≠ 't') : core (c :: s) = c :: s := by
  rw [core, strip_prefix_none.2, Option.getD_none]
  intro t e
  simp at e
  exact h e.1

theorem word_head {w : Str} (h : Word w) : ∃ c r, w = c :: r ∧ isWord c = true := by
  cases w with
  | nil => exact absurd rfl h.1
  | cons c r => exact ⟨c, r, rfl, word_all h c (by simp)⟩

theorem head_percentProto {s w : Str} (h : percentProto s = some w) : (core s).head? = some '%' := by
  obtain ⟨hw, a, rfl⟩ := percentProto_iff.1 h
  cases a with
  | true =>
    have : (Phrase.percentProto true w).text = "the ".toList ++ ('%' :: w ++ "% prototype object".toList) := rfl
    rw [this, core_the]; rfl
  | false =>
    have : (Phrase.percentProto false w).text = '%' :: (w ++ "% prototype object".toList) := rfl
    rw [this, core_head (by decide)]; rfl

theorem head_proto {s w : Str} (h : proto s = some w) : ∃ c, (core s).head? = some c ∧ isWord c = true := by
  obtain ⟨hw, a, o, rfl⟩ := proto_iff.1 h
  obtain ⟨c, r, hcr, hc⟩ := word_head hw
  cases a with
  | true => rw [proto_text_true, core_the, proto_text_false, hcr]; exact ⟨c, rfl, hc⟩
  | false =>
    rw [proto_text_false, core]
    cases e : stripPrefix "the ".toList (w ++ ' ' :: ("prototype".toList ++ if o = true then " object".toList else [])) with
    | none => rw [Option.getD_none, hcr]; exact ⟨c, rfl, hc⟩
    | some t =>
      obtain ⟨-, rfl⟩ := the_word hw (strip_prefix.1 e)
      exact ⟨'p', rfl, by decide⟩

theorem head_thing {w : Str} (s : Spec.Sort') (hw : Word w) : ∃ c, (core (Phrase.thing w s).text).head? = some c ∧ isWord c = true := by
  obtain ⟨c, r, hcr, hc⟩ := word_head hw
  rw [thing_text, core_the, hcr]; exact ⟨c, rfl, hc⟩

theorem head_dotted {s u : Str} (h : dotted s = some u) : (core s).head? = some '%' := by
  obtain ⟨w, ws, i, -, -, rfl⟩ := dotted_iff.1 h
  rw [dotted_text]
  have : ∀ x : Str, "the %".toList ++ x = "the ".toList ++ '%' :: x := fun _ => rfl
  rw [this, core_the]; rfl

theorem head_accessor {s : Str} {x : Str × Str} (h : accessor s = some x) : s.head? = some 'g' ∨ s.head? = some 's' := by
  obtain ⟨-, ⟨-, rfl⟩ | ⟨-, rfl⟩⟩ := accessor_iff.1 (show accessor s = some (x.1, x.2) from h)
  · exact .inl rfl
  · exact .inr rfl

theorem core_accessor {s : Str} (h : s.head? = some 'g' ∨ s.head? = some 's') : core s = s := by
  cases s with
  | nil => simp at h
  | cons c s =>
    apply core_head
    rintro rfl
    rcases h with h | h <;> simp at h

theorem head_the {s : Str} (h : (∃ u, iterators s = some u) ∨ (∃ u, thing s = some u) ∨ (∃ u, dotted s = some u) ∨ (∃ u, theFunction s = some u)) : s.head? = some 't' := by
  rcases h with ⟨u, h⟩ | ⟨u, h⟩ | ⟨u, h⟩ | ⟨u, h⟩
  · obtain ⟨-, rfl | rfl⟩ := iterators_iff.1 h <;> rfl
  · obtain ⟨-, rfl | rfl⟩ := thing_iff.1 h <;> (rw [thing_text]; rfl)
  · obtain ⟨w, ws, i, -, -, rfl⟩ := dotted_iff.1 h
    rw [dotted_text]; rfl
  · obtain ⟨-, rfl⟩ := theFunction_iff.1 h
    rw [thing_text]; rfl

/-! How the phrases end. -/

theorem ends_after (a : Str) (w : String) (hw : w.toList.all isWord = true) : Ends (a ++ ' ' :: w.toList) = (w.toList, some ' ') := ends_text a ' ' w.toList (by decide) hw

theorem ends_iterators {s u : Str} (h : iterators s = some u) : Ends s = ("objects".toList, some ' ') := by
  obtain ⟨-, rfl | rfl⟩ := iterators_iff.1 h
  · exact (congrArg Ends (by simp)).trans (ends_after ("the prototype of ".toList ++ u ++ " iterator".toList) "objects" (by decide))
  · exact (congrArg Ends (by simp)).trans (ends_after ("the prototype of ".toList ++ u ++ " Iterator".toList) "objects" (by decide))

theorem ends_percentProto {s u : Str} (h : percentProto s = some u) : Ends s = ("object".toList, some ' ') := by
  obtain ⟨-, a, rfl⟩ := percentProto_iff.1 h
  have : (Phrase.percentProto a u).text = (if a then "the ".toList else []) ++ '%' :: u ++ "% prototype object".toList := rfl
  rw [this]
  exact (congrArg Ends (by simp)).trans (ends_after ((if a then "the ".toList else []) ++ '%' :: u ++ "% prototype".toList) "object" (by decide))

theorem ends_proto {s u : Str} (h : proto s = some u) : Ends s = ("object".toList, some ' ') ∨ Ends s = ("prototype".toList, some ' ') := by
  obtain ⟨-, a, o, rfl⟩ := proto_iff.1 h
  have : (Phrase.proto a u o).text = (if a then "the ".toList else []) ++ u ++ " prototype".toList ++ (if o then " object".toList else []) := rfl
  rw [this]
  cases o with
  | true => exact .inl ((congrArg Ends (by simp)).trans (ends_after ((if a then "the ".toList else []) ++ u ++ " prototype".toList) "object" (by decide)))
  | false => exact .inr ((congrArg Ends (by simp)).trans (ends_after ((if a then "the ".toList else []) ++ u) "prototype" (by decide)))

theorem ends_thing (w : Str) (s : Spec.Sort') : Ends (Phrase.thing w s).text = (s.text, some ' ') := by
  rw [thing_text]
  cases s with
  | constructor => exact (congrArg Ends (by rw [← List.append_assoc]; rfl)).trans (ends_after ("the ".toList ++ w) "constructor" (by decide))
  | object => exact (congrArg Ends (by rw [← List.append_assoc]; rfl)).trans (ends_after ("the ".toList ++ w) "object" (by decide))
  | function => exact (congrArg Ends (by rw [← List.append_assoc]; rfl)).trans (ends_after ("the ".toList ++ w) "function" (by decide))

theorem ends_dotted {s u : Str} (h : dotted s = some u) : Ends s = ("object".toList, some ' ') := by
  obtain ⟨w, ws, i, -, -, rfl⟩ := dotted_iff.1 h
  rw [dotted_text]
  cases i with
  | true => exact (congrArg Ends (by rw [if_pos rfl]; simp)).trans (ends_after ("the %".toList ++ (w ++ ws.flatMap (fun x => '.' :: x)) ++ "% intrinsic".toList) "object" (by decide))
  | false => exact (congrArg Ends (by rw [if_neg (by decide)]; simp)).trans (ends_after ("the %".toList ++ (w ++ ws.flatMap (fun x => '.' :: x)) ++ "%".toList) "object" (by decide))

theorem thing_object {s w : Str} (h : thing s = some w) : Ends s = ("constructor".toList, some ' ') ∨ Ends s = ("object".toList, some ' ') := by
  obtain ⟨-, rfl | rfl⟩ := thing_iff.1 h
  · exact .inl (ends_thing _ _)
  · exact .inr (ends_thing _ _)

/-- How a text ends if a path ends it after a space. -/
theorem ends_space {p : Path} (hp : p.Ok) {w : Str} (h : Ends p.text = (w, some ' ')) : w = "objects".toList ∧ (p.base = .generators ∨ p.base = .asyncGenerators) ∧ p.keys = [] := by
  rcases ends_path hp with ⟨hk, ⟨v, -, e⟩ | ⟨v, -, e⟩ | ⟨hb, e⟩⟩ | ⟨ks, v, -, e⟩ | ⟨ks, v, -, e⟩
  · rw [e] at h; simp at h
  · rw [e] at h; simp at h
  · rw [e] at h; exact ⟨(Prod.mk.inj h).1.symm, hb, hk⟩
  · rw [e] at h; simp at h
  · rw [e] at h; simp at h

theorem pdnInner_head {s : Str} (h : s.head? ≠ some '%') : pdnInner s = none := none_of fun u hu => by
  obtain ⟨rfl, -⟩ := pdnInner_iff.1 hu
  exact h rfl

theorem pdnInner_last {s : Str} (h : (Ends s).2 ≠ some '%') : pdnInner s = none := none_of fun u hu => by
  obtain ⟨rfl, -⟩ := pdnInner_iff.1 hu
  exact h (by rw [show ('%' :: u ++ ['%'] : Str) = ('%' :: u) ++ '%' :: [] from rfl, ends_text ('%' :: u) '%' []])

/-- How the bytes before `object` differ. -/
theorem tail_dotted {s u : Str} (h : dotted s = some u) : s.reverse.take 8 = "tcejbo %".toList ∨ s.reverse.take 8 = "tcejbo c".toList := by
  obtain ⟨w, ws, i, -, -, rfl⟩ := dotted_iff.1 h
  rw [dotted_text]
  cases i with
  | true => exact .inr (by rw [if_pos rfl]; simp)
  | false => exact .inl (by rw [if_neg (by decide)]; simp)

theorem tail_percentProto {s u : Str} (h : percentProto s = some u) : s.reverse.take 8 = "tcejbo e".toList := by
  obtain ⟨-, a, rfl⟩ := percentProto_iff.1 h
  have : (Phrase.percentProto a u).text = (if a then "the ".toList else []) ++ '%' :: u ++ "% prototype object".toList := rfl
  rw [this]
  simp

end Verif.Paths
