import Verif.Paths.Model
import Verif.Paths.Spec
namespace Verif.Paths
open Verif.Sections (isWord)
open Spec (Base Key Path Word Phrase)

theorem bt_word (w : Str) : (Base.word w).text = w := rfl
theorem bt_percent (w : Str) : (Base.percent w).text = '%' :: w ++ ['%'] := rfl
theorem bn_word (w : Str) : (Base.word w).name = w := rfl
theorem bn_percent (w : Str) : (Base.percent w).name = w := rfl
theorem kt_string (w : Str) : (Key.string w).text = '.' :: w := rfl
theorem kt_symbol (w : Str) : (Key.symbol w).text = " [ %Symbol.".toList ++ w ++ "% ]".toList := rfl
theorem kn_string (w : Str) : (Key.string w).name = '.' :: w := rfl
theorem kn_symbol (w : Str) : (Key.symbol w).name = "[%Symbol.".toList ++ w ++ "%]".toList := rfl

theorem strip_prefix {p s t : Str} : stripPrefix p s = some t ↔ s = p ++ t := by
  rw [stripPrefix]
  split
  · rename_i h
    obtain ⟨r, rfl⟩ := List.isPrefixOf_iff_prefix.1 h
    simp
  · rename_i h
    constructor
    · intro e; cases e
    · rintro rfl; exact absurd (List.isPrefixOf_iff_prefix.2 (List.prefix_append _ _)) h

theorem strip_suffix {p s t : Str} : stripSuffix p s = some t ↔ s = t ++ p := by
  rw [stripSuffix]
  split
  · rename_i h
    obtain ⟨r, rfl⟩ := List.isSuffixOf_iff_suffix.1 h
    simp
  · rename_i h
    constructor
    · intro e; cases e
    · rintro rfl; exact absurd (List.isSuffixOf_iff_suffix.2 (List.suffix_append _ _)) h

theorem strip_prefix_none {p s : Str} : stripPrefix p s = none ↔ ∀ t, s ≠ p ++ t := by
  cases h : stripPrefix p s with
  | none => simp only [true_iff]; intro t e; rw [strip_prefix.2 e] at h; cases h
  | some t => simp only [reduceCtorEq, false_iff]; intro k; exact k t (strip_prefix.1 h)

theorem strip_suffix_none {p s : Str} : stripSuffix p s = none ↔ ∀ t, s ≠ t ++ p := by
  cases h : stripSuffix p s with
  | none => simp only [true_iff]; intro t e; rw [strip_suffix.2 e] at h; cases h
  | some t => simp only [reduceCtorEq, false_iff]; intro k; exact k t (strip_suffix.1 h)

theorem wordy_iff {s : Str} : wordy s = true ↔ Word s := by
  simp only [wordy, Bool.and_eq_true, Bool.not_eq_true', List.isEmpty_eq_false_iff, List.all_eq_true, Word, isWord, Bool.or_eq_true, beq_iff_eq]

theorem word_all {w : Str} (h : Word w) : ∀ c ∈ w, isWord c = true := by
  intro c hc
  have := h.2 c hc
  simpa [isWord] using this

theorem asWord_iff {s w : Str} : asWord s = some w ↔ s = w ∧ Word w := by
  rw [asWord]
  by_cases h : wordy s = true
  · rw [if_pos h]
    have := wordy_iff.1 h
    constructor
    · intro e; cases e; exact ⟨rfl, this⟩
    · rintro ⟨rfl, -⟩; rfl
  · rw [if_neg h]
    constructor
    · intro e; cases e
    · rintro ⟨rfl, hw⟩; exact absurd (wordy_iff.2 hw) h

theorem percentWord_iff {s w : Str} : percentWord s = some w ↔ s = '%' :: w ++ ['%'] ∧ Word w := by
  simp only [percentWord, Option.bind_eq_bind, Option.bind_eq_some_iff, strip_prefix, strip_suffix, asWord_iff]
  constructor
  · rintro ⟨t, rfl, u, rfl, rfl, hw⟩; exact ⟨rfl, hw⟩
  · rintro ⟨rfl, hw⟩; exact ⟨w ++ ['%'], rfl, w, rfl, rfl, hw⟩

theorem before_last (s : Str) : beforeWord s ++ lastWord s = s := by
  rw [beforeWord, lastWord, ← List.reverse_append, List.takeWhile_append_dropWhile, List.reverse_reverse]

theorem lastWord_all (s : Str) : ∀ c ∈ lastWord s, isWord c = true := by
  intro c hc
  rw [lastWord, List.mem_reverse] at hc
  exact List.all_eq_true.1 List.all_takeWhile c hc

theorem rev_split {c : Char} (hc : isWord c = false) (r : Str) : ∀ w : Str, (∀ d ∈ w, isWord d = true) →
    (w ++ c :: r).takeWhile isWord = w ∧ (w ++ c :: r).dropWhile isWord = c :: r
  | [], _ => by simp [hc]
  | d :: w, h => by
    have := rev_split hc r w (fun x hx => h x (by simp [hx]))
    have hd := h d (by simp)
    simp [hd, this]

/-- The last word, and what is before it. -/
theorem split_word {h w : Str} {c : Char} (hc : isWord c = false) (hw : ∀ d ∈ w, isWord d = true) :
    lastWord (h ++ c :: w) = w ∧ beforeWord (h ++ c :: w) = h ++ [c] := by
  have := rev_split hc h.reverse w.reverse (fun d hd => hw d (List.mem_reverse.1 hd))
  simp [lastWord, beforeWord, this]

theorem all_word {w : Str} (hw : ∀ d ∈ w, isWord d = true) : lastWord w = w ∧ beforeWord w = [] := by
  have h1 : w.reverse.takeWhile isWord = w.reverse := by
    simpa using List.takeWhile_append_of_pos (l₂ := []) (p := isWord) (l₁ := w.reverse) (fun d hd => hw d (List.mem_reverse.1 hd))
  have h2 : w.reverse.dropWhile isWord = [] := by
    simpa using List.dropWhile_append_of_pos (l₂ := []) (p := isWord) (l₁ := w.reverse) (fun d hd => hw d (List.mem_reverse.1 hd))
  simp [lastWord, beforeWord, h1, h2]

theorem word_mk {w : Str} (h : w ≠ []) (ha : ∀ c ∈ w, isWord c = true) : Word w := wordy_iff.1 (by simp [wordy, h]; exact fun c hc => ha c hc)

theorem splitDot_iff {s h t : Str} : splitDot s = some (h, t) ↔ h ≠ [] ∧ ∃ w, Word w ∧ t = '.' :: w ∧ s = h ++ '.' :: w := by
  simp only [splitDot, Option.bind_eq_bind, Option.bind_eq_some_iff, strip_suffix]
  constructor
  · rintro ⟨g, hg, e⟩
    split at e
    · cases e
    · rename_i hn
      simp only [Bool.or_eq_true, List.isEmpty_iff, not_or] at hn
      cases e
      refine ⟨hn.1, _, word_mk hn.2 (lastWord_all s), rfl, ?_⟩
      have := before_last s
      rw [hg] at this
      simpa using this.symm
  · rintro ⟨hh, w, hw, rfl, rfl⟩
    obtain ⟨e1, e2⟩ := split_word (c := '.') (h := h) (by decide) (word_all hw)
    refine ⟨h, by rw [e2], ?_⟩
    rw [e1, if_neg (by simp [hh, hw.1])]

theorem splitSym_iff {s h t : Str} : splitSym s = some (h, t) ↔ h ≠ [] ∧ ∃ w, Word w ∧ t = "%Symbol.".toList ++ w ++ ['%'] ∧ s = h ++ Key.text (.symbol w) := by
  simp only [splitSym, Option.bind_eq_bind, Option.bind_eq_some_iff, strip_suffix]
  constructor
  · rintro ⟨u, hu, g, hg, e⟩
    split at e
    · cases e
    · rename_i hn
      simp only [Bool.or_eq_true, List.isEmpty_iff, not_or] at hn
      cases e
      refine ⟨hn.1, _, word_mk hn.2 (lastWord_all u), rfl, ?_⟩
      have := before_last u
      rw [hg] at this
      rw [hu, kt_symbol]
      conv => lhs; rw [← this]
      simp only [List.append_assoc]
  · rintro ⟨hh, w, hw, rfl, rfl⟩
    obtain ⟨e1, e2⟩ := split_word (c := '.') (h := h ++ " [ %Symbol".toList) (by decide) (word_all hw)
    refine ⟨h ++ " [ %Symbol.".toList ++ w, by simp [kt_string, kt_symbol], h, ?_, ?_⟩
    · have : h ++ " [ %Symbol.".toList ++ w = h ++ " [ %Symbol".toList ++ '.' :: w := by simp
      rw [this, e2]; simp
    · have : h ++ " [ %Symbol.".toList ++ w = h ++ " [ %Symbol".toList ++ '.' :: w := by simp
      rw [this, e1, if_neg (by simp [hh, hw.1])]

theorem special_iff {s r : Str} : special s = some r ↔ ∃ b : Base, (b = .generators ∨ b = .asyncGenerators) ∧ s = b.text ∧ r = b.name := by
  rw [special]
  constructor
  · intro h
    split at h
    · exact ⟨.generators, .inl rfl, by assumption, (Option.some.inj h).symm⟩
    · split at h
      · exact ⟨.asyncGenerators, .inr rfl, by assumption, (Option.some.inj h).symm⟩
      · cases h
  · rintro ⟨b, hb, rfl, rfl⟩
    rcases hb with hb | hb
    · subst hb
      exact if_pos rfl
    · subst hb
      exact (if_neg (by decide +kernel)).trans (if_pos rfl)

/-- The last word is preceded by something else, or by nothing. -/
def Ends (s : Str) : Str × Option Char := (lastWord s, (beforeWord s).getLast?)

theorem ends_sep {h w : Str} {c : Char} (hc : isWord c = false) (hw : ∀ d ∈ w, isWord d = true) : Ends (h ++ c :: w) = (w, some c) := by
  obtain ⟨e1, e2⟩ := split_word hc hw (h := h)
  rw [Ends, e1, e2]; simp

theorem ends_word {w : Str} (hw : ∀ d ∈ w, isWord d = true) : Ends w = (w, none) := by
  obtain ⟨e1, e2⟩ := all_word hw
  rw [Ends, e1, e2]; rfl

theorem ends_text (h : Str) (c : Char) (w : Str) (hc : isWord c = false := by decide) (hw : w.all isWord = true := by decide) : Ends (h ++ c :: w) = (w, some c) :=
  ends_sep hc (List.all_eq_true.1 hw)

theorem ends_gen : Ends Base.generators.text = ("objects".toList, some ' ') := by decide +kernel
theorem ends_async : Ends Base.asyncGenerators.text = ("objects".toList, some ' ') := by decide +kernel

/-- How the text of a path ends. -/
theorem ends_path {p : Path} (hp : p.Ok) :
    (p.keys = [] ∧ ((∃ w, p.base = .word w ∧ Ends p.text = (w, none)) ∨ (∃ w, p.base = .percent w ∧ Ends p.text = ([], some '%')) ∨
      ((p.base = .generators ∨ p.base = .asyncGenerators) ∧ Ends p.text = ("objects".toList, some ' ')))) ∨
    (∃ ks w, p.keys = ks ++ [.string w] ∧ Ends p.text = (w, some '.')) ∨ (∃ ks w, p.keys = ks ++ [.symbol w] ∧ Ends p.text = ([], some ']')) := by
  obtain ⟨b, ks⟩ := p
  rcases List.eq_nil_or_concat ks with rfl | ⟨ks', k, rfl⟩
  · left
    refine ⟨rfl, ?_⟩
    have ht : Path.text ⟨b, []⟩ = b.text := by simp [Path.text]
    rw [ht]
    cases b with
    | word w => exact .inl ⟨w, rfl, ends_word (word_all hp.1)⟩
    | percent w => exact .inr (.inl ⟨w, rfl, by simpa [bt_word, bt_percent] using ends_text ('%' :: w) '%' []⟩)
    | generators => exact .inr (.inr ⟨.inl rfl, ends_gen⟩)
    | asyncGenerators => exact .inr (.inr ⟨.inr rfl, ends_async⟩)
  · right
    simp only [List.concat_eq_append] at hp ⊢
    have hk := hp.2 k (by simp)
    cases k with
    | string w =>
      left
      refine ⟨ks', w, rfl, ?_⟩
      have : Path.text ⟨b, ks' ++ [.string w]⟩ = Path.text ⟨b, ks'⟩ ++ '.' :: w := by simp [Path.text, kt_string, kt_symbol]
      rw [this]
      exact ends_sep (by decide) (word_all hk)
    | symbol w =>
      right
      refine ⟨ks', w, rfl, ?_⟩
      have : Path.text ⟨b, ks' ++ [.symbol w]⟩ = (Path.text ⟨b, ks'⟩ ++ " [ %Symbol.".toList ++ w ++ "% ".toList) ++ ']' :: [] := by simp [Path.text, kt_string, kt_symbol]
      rw [this]
      exact ends_text _ _ _

theorem base_text_ne {b : Base} (h : b.Ok) : b.text ≠ [] := by
  cases b with
  | word w => exact h.1
  | percent w => simp [bt_word, bt_percent]
  | generators => decide +kernel
  | asyncGenerators => decide +kernel

theorem path_text_ne {p : Path} (h : p.Ok) : p.text ≠ [] := by
  have := base_text_ne h.1
  simp [Path.text, this]

theorem special_none {s : Str} (h : Ends s ≠ ("objects".toList, some ' ')) : special s = none := by
  cases e : special s with
  | none => rfl
  | some r =>
    obtain ⟨b, hb, rfl, -⟩ := special_iff.1 e
    rcases hb with hb | hb
    · subst hb; exact absurd ends_gen h
    · subst hb; exact absurd ends_async h

theorem wordy_none {s : Str} (h : (Ends s).2 ≠ none) : wordy s = false := by
  cases e : wordy s with
  | false => rfl
  | true => rw [ends_word (word_all (wordy_iff.1 e))] at h; exact absurd rfl h

theorem percentWord_none {s : Str} (h : (Ends s).2 ≠ some '%') : percentWord s = none := by
  cases e : percentWord s with
  | none => rfl
  | some w =>
    obtain ⟨rfl, hw⟩ := percentWord_iff.1 e
    exact absurd (by rw [show ('%' :: w ++ ['%'] : Str) = ('%' :: w) ++ '%' :: [] from rfl, ends_text ('%' :: w) '%' []]) h

theorem splitDot_none {s : Str} (h : (Ends s).2 ≠ some '.') : splitDot s = none := by
  cases e : splitDot s with
  | none => rfl
  | some x =>
    obtain ⟨-, w, hw, -, rfl⟩ := splitDot_iff.1 (show splitDot s = some (x.1, x.2) from e)
    exact absurd (by rw [ends_sep (by decide) (word_all hw)]) h

theorem normalizeN_ok : ∀ (n : Nat) (s r : Str), s.length < n → (normalizeN n s = some r ↔ ∃ p : Path, p.Ok ∧ s = p.text ∧ r = p.name)
  | 0, _, _, h => absurd h (by omega)
  | n + 1, s, r, hlen => by
    constructor
    · intro h
      rw [normalizeN] at h
      split at h
      · rename_i r' hs
        cases h
        obtain ⟨b, hb, rfl, rfl⟩ := special_iff.1 hs
        exact ⟨⟨b, []⟩, ⟨by rcases hb with rfl | rfl <;> trivial, by simp⟩, by simp [Path.text], by simp [Path.name]⟩
      · split at h
        · rename_i hw
          cases h
          exact ⟨⟨.word s, []⟩, ⟨wordy_iff.1 hw, by simp⟩, by simp [Path.text, bt_word, bt_percent], by simp [Path.name, bn_word, bn_percent]⟩
        · split at h
          · rename_i w hw
            cases h
            obtain ⟨rfl, hw'⟩ := percentWord_iff.1 hw
            exact ⟨⟨.percent r, []⟩, ⟨hw', by simp⟩, by simp [Path.text, bt_word, bt_percent], by simp [Path.name, bn_word, bn_percent]⟩
          · split at h
            · rename_i g t hd
              obtain ⟨hg, w, hw, rfl, rfl⟩ := splitDot_iff.1 hd
              rw [Option.map_eq_some_iff] at h
              obtain ⟨a, ha, rfl⟩ := h
              obtain ⟨p, hp, rfl, rfl⟩ := (normalizeN_ok n g a (by simp at hlen; omega)).1 ha
              refine ⟨⟨p.base, p.keys ++ [.string w]⟩, ⟨hp.1, ?_⟩, by simp [Path.text, kt_string, kt_symbol], by simp [Path.name, kn_string, kn_symbol]⟩
              intro k hk
              rcases List.mem_append.1 hk with hk | hk
              · exact hp.2 k hk
              · rw [List.mem_singleton.1 hk]; exact hw
            · split at h
              · rename_i g t hd
                obtain ⟨hg, w, hw, rfl, rfl⟩ := splitSym_iff.1 hd
                rw [Option.map_eq_some_iff] at h
                obtain ⟨a, ha, rfl⟩ := h
                obtain ⟨p, hp, rfl, rfl⟩ := (normalizeN_ok n g a (by simp [kt_string, kt_symbol] at hlen; omega)).1 ha
                refine ⟨⟨p.base, p.keys ++ [.symbol w]⟩, ⟨hp.1, ?_⟩, by simp [Path.text], by simp [Path.name, kn_string, kn_symbol]⟩
                intro k hk
                rcases List.mem_append.1 hk with hk | hk
                · exact hp.2 k hk
                · rw [List.mem_singleton.1 hk]; exact hw
              · cases h
    · rintro ⟨p, hp, rfl, rfl⟩
      rw [normalizeN]
      rcases ends_path hp with ⟨hk, h⟩ | ⟨ks, w, hk, he⟩ | ⟨ks, w, hk, he⟩
      · obtain ⟨b, ks⟩ := p
        cases hk
        have ht : Path.text ⟨b, []⟩ = b.text := by simp [Path.text]
        have hn : Path.name ⟨b, []⟩ = b.name := by simp [Path.name]
        rw [ht] at h
        rw [ht, hn]
        rcases h with ⟨w, hb, he⟩ | ⟨w, hb, he⟩ | ⟨hb, he⟩
        · have hb' : b = .word w := hb
          subst hb'
          rw [special_none (by rw [he]; simp), if_pos ((wordy_iff (s := (Base.word w).text)).2 hp.1)]
          rfl
        · have hb' : b = .percent w := hb
          subst hb'
          rw [special_none (by rw [he]; simp), if_neg (by rw [wordy_none (by rw [he]; simp)]; simp), (percentWord_iff (s := (Base.percent w).text)).2 ⟨rfl, hp.1⟩]
          rfl
        · rw [special_iff.2 ⟨b, hb, rfl, rfl⟩]
      · obtain ⟨b, ks'⟩ := p
        have hk' : ks' = ks ++ [.string w] := hk
        subst hk'
        have hok : Path.Ok ⟨b, ks⟩ := ⟨hp.1, fun k h => hp.2 k (by simp [show k ∈ ks from h])⟩
        have hw : Word w := hp.2 (.string w) (by simp)
        have ht : Path.text ⟨b, ks ++ [.string w]⟩ = Path.text ⟨b, ks⟩ ++ '.' :: w := by simp [Path.text, kt_string, kt_symbol]
        have hd := splitDot_iff.2 ⟨path_text_ne hok, w, hw, rfl, ht⟩
        rw [special_none (by rw [he]; simp), if_neg (by rw [wordy_none (by rw [he]; simp)]; simp), percentWord_none (by rw [he]; simp), hd]
        show Option.map _ _ = _
        rw [(normalizeN_ok n _ _ (by rw [ht] at hlen; simp at hlen; omega)).2 ⟨_, hok, rfl, rfl⟩]
        simp [Path.name, kn_string, kn_symbol]
      · obtain ⟨b, ks'⟩ := p
        have hk' : ks' = ks ++ [.symbol w] := hk
        subst hk'
        have hok : Path.Ok ⟨b, ks⟩ := ⟨hp.1, fun k h => hp.2 k (by simp [show k ∈ ks from h])⟩
        have hw : Word w := hp.2 (.symbol w) (by simp)
        have ht : Path.text ⟨b, ks ++ [.symbol w]⟩ = Path.text ⟨b, ks⟩ ++ Key.text (.symbol w) := by simp [Path.text]
        have hd := splitSym_iff.2 ⟨path_text_ne hok, w, hw, rfl, ht⟩
        rw [special_none (by rw [he]; simp), if_neg (by rw [wordy_none (by rw [he]; simp)]; simp), percentWord_none (by rw [he]; simp), splitDot_none (by rw [he]; simp), hd]
        show Option.map _ _ = _
        rw [(normalizeN_ok n _ _ (by rw [ht] at hlen; simp [kt_string, kt_symbol] at hlen; omega)).2 ⟨_, hok, rfl, rfl⟩]
        simp [Path.name, kn_string, kn_symbol]

theorem normalize_ok (s r : Str) : normalize s = some r ↔ ∃ p : Path, p.Ok ∧ s = p.text ∧ r = p.name := normalizeN_ok _ s r (by omega)

end Verif.Paths
