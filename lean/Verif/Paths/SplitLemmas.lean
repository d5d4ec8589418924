import Verif.Paths.Lemmas
namespace Verif.Paths
open Verif.Sections (isWord)
open Spec (Base Key Path Word Piece Plain loose)

/-! ## Names are told apart -/

/-- Empty, or begins with something other than a letter. -/
def Apart (x : Str) : Prop := ∀ c, x.head? = some c → isWord c = false

theorem cut : ∀ {a b x y : Str}, (∀ c ∈ a, isWord c = true) → (∀ c ∈ b, isWord c = true) → Apart x → Apart y → a ++ x = b ++ y → a = b ∧ x = y
  | [], [], _, _, _, _, _, _, h => ⟨rfl, h⟩
  | [], c :: b, x, y, _, hb, hx, _, h => by
    have hc := hb c (by simp)
    have := hx c (by simp at h; rw [h]; rfl)
    rw [hc] at this; cases this
  | c :: a, [], x, y, ha, _, _, hy, h => by
    have hc := ha c (by simp)
    have := hy c (by simp at h; rw [← h]; rfl)
    rw [hc] at this; cases this
  | c :: a, d :: b, x, y, ha, hb, hx, hy, h => by
    simp only [List.cons_append, List.cons.injEq] at h
    obtain ⟨h1, h2⟩ := cut (fun c hc => ha c (by simp [hc])) (fun c hc => hb c (by simp [hc])) hx hy h.2
    exact ⟨by rw [h.1, h1], h2⟩

theorem keys_apart (ks : List Key) : Apart (ks.flatMap Key.name) := by
  intro c hc
  cases ks with
  | nil => simp at hc
  | cons k ks =>
    cases k with
    | string w => rw [List.flatMap_cons, kn_string] at hc; cases hc; decide
    | symbol w => rw [List.flatMap_cons, kn_symbol] at hc; cases hc; decide

theorem keys_inj : ∀ {ks ls : List Key}, (∀ k ∈ ks, k.Ok) → (∀ k ∈ ls, k.Ok) → ks.flatMap Key.name = ls.flatMap Key.name → ks = ls
  | [], [], _, _, _ => rfl
  | [], l :: ls, _, _, h => by cases l <;> simp [kn_string, kn_symbol] at h
  | k :: ks, [], _, _, h => by cases k <;> simp [kn_string, kn_symbol] at h
  | k :: ks, l :: ls, hk, hl, h => by
    have k1 := hk k (by simp)
    have l1 := hl l (by simp)
    have ih := fun e => keys_inj (fun k h => hk k (by simp [h])) (fun k h => hl k (by simp [h])) (show ks.flatMap Key.name = ls.flatMap Key.name from e)
    rw [List.flatMap_cons, List.flatMap_cons] at h
    cases k with
    | string w =>
      cases l with
      | string v =>
        rw [kn_string, kn_string] at h
        obtain ⟨rfl, e⟩ := cut (word_all k1) (word_all l1) (keys_apart ks) (keys_apart ls) (List.cons.inj h).2
        rw [ih e]
      | symbol v => rw [kn_string, kn_symbol] at h; simp at h
    | symbol w =>
      cases l with
      | string v => rw [kn_string, kn_symbol] at h; simp at h
      | symbol v =>
        rw [kn_symbol, kn_symbol, List.append_assoc, List.append_assoc, List.append_assoc, List.append_assoc] at h
        have h := List.append_cancel_left h
        have ha : ∀ z : Str, Apart ("%]".toList ++ z) := by intro z c hc; simp at hc; rw [← hc]; decide
        obtain ⟨rfl, e⟩ := cut (word_all k1) (word_all l1) (ha _) (ha _) h
        rw [ih (List.append_cancel_left e)]

theorem base_name {b : Base} (h : b.Ok) : ∀ c ∈ b.name, isWord c = true := by
  cases b with
  | word w => exact word_all h
  | percent w => exact word_all h
  | generators => decide
  | asyncGenerators => decide

theorem name_inj {p q : Path} (hp : p.Ok) (hq : q.Ok) : p.name = q.name ↔ p.base.name = q.base.name ∧ p.keys = q.keys := by
  constructor
  · intro h
    obtain ⟨e1, e2⟩ := cut (base_name hp.1) (base_name hq.1) (keys_apart _) (keys_apart _) h
    exact ⟨e1, keys_inj hp.2 hq.2 e2⟩
  · rintro ⟨h1, h2⟩
    rw [Path.name, Path.name, h1, h2]

/-! ## Splitting -/

theorem dropSpace_eq (s : Str) : (s = dropSpace s ++ [' ']) ∨ (dropSpace s = s ∧ s.getLast? ≠ some ' ') := by
  rw [dropSpace]
  cases h : stripSuffix [' '] s with
  | some t => exact .inl (strip_suffix.1 h)
  | none =>
    refine .inr ⟨rfl, ?_⟩
    intro e
    obtain ⟨t, ht⟩ := List.getLast?_eq_some_iff.1 e
    exact strip_suffix_none.1 h t ht

theorem dropSpace_snoc (s : Str) : dropSpace (s ++ [' ']) = s := by rw [dropSpace, strip_suffix.2 rfl, Option.getD_some]

theorem dropSpace_none {s : Str} (h : s.getLast? ≠ some ' ') : dropSpace s = s := by
  rcases dropSpace_eq s with e | e
  · rw [e] at h; simp at h
  · exact e.1

theorem dropSpace_space {s : Str} (b : Bool) (h : s.getLast? ≠ some ' ') : dropSpace (s ++ Spec.space b) = s := by
  cases b with
  | true => exact dropSpace_snoc s
  | false => rw [Spec.space, if_neg (by decide), List.append_nil, dropSpace_none h]

theorem dropSpace_some (s : Str) : ∃ b, s = dropSpace s ++ Spec.space b ∧ (b = false → (dropSpace s).getLast? ≠ some ' ') := by
  rcases dropSpace_eq s with e | ⟨e1, e2⟩
  · exact ⟨true, e, by simp⟩
  · exact ⟨false, by rw [e1]; simp [Spec.space], by rw [e1]; exact fun _ => e2⟩

theorem piece_string (w : Str) (b a l : Bool) : Piece.text ⟨.string w, b, a, l⟩ = '.' :: w := rfl
theorem piece_symbol (w : Str) (b a l : Bool) : Piece.text ⟨.symbol w, b, a, l⟩ = Spec.space b ++ ['['] ++ Spec.space a ++ "%Symbol.".toList ++ w ++ ['%'] ++ Spec.space l ++ [']'] := rfl
theorem literal_string (w : Str) : (Key.string w).literal = stringLiteral w := rfl
theorem literal_symbol (w : Str) : (Key.symbol w).literal = "%Symbol.".toList ++ w ++ ['%'] := rfl

theorem splitSymLoose_some {s h k : Str} (e : splitSymLoose s = some (h, k)) : ∃ w b a l, Word w ∧ k = (Key.symbol w).literal ∧ s = h ++ Piece.text ⟨.symbol w, b, a, l⟩ := by
  simp only [splitSymLoose, Option.bind_eq_bind, Option.bind_eq_some_iff, strip_suffix] at e
  obtain ⟨t, rfl, u, hu, v, hv, g, hg, e⟩ := e
  split at e
  · cases e
  · rename_i hn
    simp only [Bool.or_eq_true, List.isEmpty_iff, not_or] at hn
    cases e
    obtain ⟨l, hl, -⟩ := dropSpace_some t
    obtain ⟨a, ha, -⟩ := dropSpace_some v
    obtain ⟨b, hb, -⟩ := dropSpace_some g
    refine ⟨lastWord u, b, a, l, word_mk hn.2 (lastWord_all u), rfl, ?_⟩
    have hb' := before_last u
    rw [piece_symbol]
    conv => lhs; rw [hl, hu, ← hb', hv, ha, hg, hb]
    simp only [List.append_assoc]

theorem splitSymLoose_ok {h w : Str} (b a l : Bool) (hw : Word w) (hh : h ≠ []) (hs : h.getLast? ≠ some ' ') : splitSymLoose (h ++ Piece.text ⟨.symbol w, b, a, l⟩) = some (h, (Key.symbol w).literal) := by
  have e1 : h ++ Piece.text ⟨.symbol w, b, a, l⟩ = (((h ++ Spec.space b ++ ['[']) ++ Spec.space a ++ "%Symbol.".toList ++ w ++ ['%']) ++ Spec.space l) ++ [']'] := by
    rw [piece_symbol]; simp only [List.append_assoc]
  have e2 : dropSpace (((h ++ Spec.space b ++ ['[']) ++ Spec.space a ++ "%Symbol.".toList ++ w ++ ['%']) ++ Spec.space l) = (h ++ Spec.space b ++ ['[']) ++ Spec.space a ++ "%Symbol.".toList ++ w ++ ['%'] :=
    dropSpace_space l (by rw [List.getLast?_append]; simp)
  obtain ⟨s1, s2⟩ := split_word (c := '.') (h := (h ++ Spec.space b ++ ['[']) ++ Spec.space a ++ "%Symbol".toList) (by decide) (word_all hw)
  have e3 : (h ++ Spec.space b ++ ['[']) ++ Spec.space a ++ "%Symbol".toList ++ '.' :: w = (h ++ Spec.space b ++ ['[']) ++ Spec.space a ++ "%Symbol.".toList ++ w := by simp
  rw [e3] at s1 s2
  have e4 : (h ++ Spec.space b ++ ['[']) ++ Spec.space a ++ "%Symbol".toList ++ ['.'] = (h ++ Spec.space b ++ ['[']) ++ Spec.space a ++ "%Symbol.".toList := by simp
  rw [e4] at s2
  have e5 : dropSpace ((h ++ Spec.space b ++ ['[']) ++ Spec.space a) = h ++ Spec.space b ++ ['['] := dropSpace_space a (by simp)
  have e6 : dropSpace (h ++ Spec.space b) = h := dropSpace_space b hs
  simp only [splitSymLoose, Option.bind_eq_bind, Option.bind_eq_some_iff]
  refine ⟨_, strip_suffix.2 e1, _, strip_suffix.2 e2, _, strip_suffix.2 s2, _, strip_suffix.2 e5, ?_⟩
  rw [e6, s1, if_neg (by simp [hh, hw.1])]
  rfl

/-! How a path ends. -/

theorem plain_ends {b : Base} (hb : Plain b) : (∃ w, b = .word w ∧ Ends b.text = (w, none)) ∨ (∃ w, b = .percent w ∧ Ends b.text = ([], some '%')) := by
  cases b with
  | word w => exact .inl ⟨w, rfl, ends_word (word_all hb)⟩
  | percent w =>
    refine .inr ⟨w, rfl, ?_⟩
    rw [bt_percent]
    exact ends_text ('%' :: w) '%' []
  | generators => exact hb.elim
  | asyncGenerators => exact hb.elim

theorem piece_ends {h : Str} {x : Piece} (hx : x.key.Ok) : (∃ w, x.key = .string w ∧ Ends (h ++ x.text) = (w, some '.')) ∨ (∃ w, x.key = .symbol w ∧ Ends (h ++ x.text) = ([], some ']')) := by
  obtain ⟨k, b, a, l⟩ := x
  cases k with
  | string w => exact .inl ⟨w, rfl, by rw [piece_string]; exact ends_sep (by decide) (word_all hx)⟩
  | symbol w =>
    refine .inr ⟨w, rfl, ?_⟩
    rw [piece_symbol, ← List.append_assoc]
    exact ends_text _ ']' []

theorem loose_snoc (b : Base) (xs : List Piece) (x : Piece) : loose b (xs ++ [x]) = loose b xs ++ x.text := by simp [loose]

theorem loose_nil (b : Base) : loose b [] = b.text := by simp [loose]

theorem plain_ok {b : Base} (hb : Plain b) : b.Ok := by cases b <;> first | exact hb | exact hb.elim

theorem loose_ne {b : Base} (hb : Plain b) (xs : List Piece) : loose b xs ≠ [] := by
  have := base_text_ne (plain_ok hb)
  simp [loose, this]

theorem last_of_ends {s : Str} {w : Str} {o : Option Char} (h : Ends s = (w, o)) : s.getLast? = (w.getLast?).or o := by
  rw [Ends, Prod.mk.injEq] at h
  have := before_last s
  rw [← this, List.getLast?_append, h.1, h.2]

theorem word_last {w : Str} (hw : Word w) : w.getLast? ≠ some ' ' := fun e => word_ne' hw (List.mem_of_getLast? e)
where word_ne' {w : Str} (h : Word w) : ' ' ∉ w := fun hm => absurd (word_all h ' ' hm) (by decide)

theorem loose_last {b : Base} (hb : Plain b) {xs : List Piece} (hx : ∀ x ∈ xs, x.key.Ok) : (loose b xs).getLast? ≠ some ' ' := by
  rcases List.eq_nil_or_concat xs with rfl | ⟨ys, x, rfl⟩
  · rw [loose_nil]
    rcases plain_ends hb with ⟨w, rfl, e⟩ | ⟨w, rfl, e⟩
    · rw [bt_word]; exact word_last hb
    · rw [last_of_ends e]; simp
  · simp only [List.concat_eq_append] at hx ⊢
    have hk := hx x (by simp)
    rw [loose_snoc]
    rcases piece_ends (h := loose b ys) hk with ⟨w, e1, e⟩ | ⟨w, e1, e⟩
    · rw [last_of_ends e]
      rw [e1] at hk
      have := word_last hk
      cases h : w.getLast? with
      | none => simp
      | some c => rw [h] at this; simpa using this
    · rw [last_of_ends e]; simp

theorem splitSymLoose_none {s : Str} (h : (Ends s).2 ≠ some ']') : splitSymLoose s = none := by
  cases e : splitSymLoose s with
  | none => rfl
  | some x =>
    obtain ⟨w, b, a, l, hw, -, rfl⟩ := splitSymLoose_some (show splitSymLoose s = some (x.1, x.2) from e)
    rcases piece_ends (h := x.1) (x := ⟨.symbol w, b, a, l⟩) hw with ⟨v, e1, -⟩ | ⟨v, -, e1⟩
    · cases e1
    · rw [e1] at h; exact absurd rfl h

theorem lastComponent_base {b : Base} (hb : Plain b) : lastComponent b.text = none := by
  rcases plain_ends hb with ⟨w, -, e⟩ | ⟨w, -, e⟩
  · rw [lastComponent, splitDot_none (by rw [e]; simp), splitSymLoose_none (by rw [e]; simp)]
  · rw [lastComponent, splitDot_none (by rw [e]; simp), splitSymLoose_none (by rw [e]; simp)]

theorem lastComponent_snoc {h : Str} {x : Piece} (hx : x.key.Ok) (hh : h ≠ []) (hl : h.getLast? ≠ some ' ') : lastComponent (h ++ x.text) = some (h, x.key.literal) := by
  obtain ⟨k, b, a, l⟩ := x
  cases k with
  | string w =>
    rw [lastComponent, (splitDot_iff (s := h ++ Piece.text ⟨.string w, b, a, l⟩)).2 ⟨hh, w, hx, rfl, rfl⟩]
    rfl
  | symbol w =>
    have : splitDot (h ++ Piece.text ⟨.symbol w, b, a, l⟩) = none := by
      rcases piece_ends (h := h) (x := ⟨.symbol w, b, a, l⟩) hx with ⟨v, e1, -⟩ | ⟨v, -, e1⟩
      · cases e1
      · exact splitDot_none (by rw [e1]; simp)
    rw [lastComponent, this, splitSymLoose_ok b a l hx hh hl]

theorem lastComponent_some {s h k : Str} (e : lastComponent s = some (h, k)) : ∃ x : Piece, x.key.Ok ∧ k = x.key.literal ∧ s = h ++ x.text := by
  rw [lastComponent] at e
  split at e
  · rename_i g t hd
    cases e
    obtain ⟨-, w, hw, rfl, rfl⟩ := splitDot_iff.1 hd
    exact ⟨⟨.string w, false, false, false⟩, hw, rfl, rfl⟩
  · obtain ⟨w, b, a, l, hw, rfl, rfl⟩ := splitSymLoose_some e
    exact ⟨⟨.symbol w, b, a, l⟩, hw, rfl, rfl⟩

theorem piece_text_pos (x : Piece) : 0 < x.text.length := by
  obtain ⟨k, b, a, l⟩ := x
  cases k with
  | string w => rw [piece_string]; simp
  | symbol w => rw [piece_symbol, List.length_append]; simp only [List.length_cons]; omega

theorem pathLike_iff : ∀ (n : Nat) (s : Str), s.length < n → (pathLike n s = true ↔ ∃ b xs, Plain b ∧ (∀ y ∈ xs, y.key.Ok) ∧ s = loose b xs)
  | 0, _, h => absurd h (by omega)
  | n + 1, s, hlen => by
    rw [pathLike]
    constructor
    · intro h
      rw [Bool.or_eq_true, Bool.or_eq_true] at h
      rcases h with (h | h) | h
      · exact ⟨.word s, [], wordy_iff.1 h, by simp, by rw [loose_nil]; rfl⟩
      · obtain ⟨w, hw⟩ := Option.isSome_iff_exists.1 h
        obtain ⟨rfl, hw'⟩ := percentWord_iff.1 hw
        exact ⟨.percent w, [], hw', by simp, by rw [loose_nil]; rfl⟩
      · split at h
        · rename_i g k e
          obtain ⟨x, hx, -, rfl⟩ := lastComponent_some e
          have hp := piece_text_pos x
          obtain ⟨b, xs, hb, hxs, rfl⟩ := (pathLike_iff n g (by simp at hlen; omega)).1 h
          refine ⟨b, xs ++ [x], hb, ?_, by rw [loose_snoc]⟩
          intro y hy
          rcases List.mem_append.1 hy with hy | hy
          · exact hxs y hy
          · rw [List.mem_singleton.1 hy]; exact hx
        · cases h
    · rintro ⟨b, xs, hb, hxs, rfl⟩
      rw [Bool.or_eq_true, Bool.or_eq_true]
      rcases List.eq_nil_or_concat xs with rfl | ⟨ys, x, rfl⟩
      · left
        rw [loose_nil]
        cases b with
        | word w => exact .inl (wordy_iff.2 hb)
        | percent w => exact .inr (by rw [(percentWord_iff (s := (Base.percent w).text)).2 ⟨rfl, hb⟩]; rfl)
        | generators => exact hb.elim
        | asyncGenerators => exact hb.elim
      · right
        simp only [List.concat_eq_append] at hxs hlen ⊢
        rw [loose_snoc] at hlen ⊢
        have hys : ∀ y ∈ ys, y.key.Ok := fun y hy => hxs y (by simp [hy])
        rw [lastComponent_snoc (hxs x (by simp)) (loose_ne hb ys) (loose_last hb hys)]
        have hp := piece_text_pos x
        exact (pathLike_iff n _ (by simp at hlen; omega)).2 ⟨b, ys, hb, hys, rfl⟩

theorem isSymbol_iff {s : Str} : isSymbol s = true ↔ ∃ w, Word w ∧ s = (Key.symbol w).literal := by
  simp only [isSymbol, Option.any_eq_true, Option.bind_eq_some_iff, strip_prefix, strip_suffix, wordy_iff, literal_symbol]
  constructor
  · rintro ⟨w, ⟨t, rfl, rfl⟩, hw⟩; exact ⟨w, hw, by simp⟩
  · rintro ⟨w, hw, rfl⟩; exact ⟨w, ⟨w ++ ['%'], by simp, rfl⟩, hw⟩

theorem isQuoted_iff {s : Str} : isQuoted s = true ↔ ∃ w, Word w ∧ s = (Key.string w).literal := by
  simp only [isQuoted, Option.any_eq_true, Option.bind_eq_some_iff, strip_prefix, strip_suffix, wordy_iff, literal_string, stringLiteral]
  constructor
  · rintro ⟨w, ⟨t, rfl, rfl⟩, hw⟩; exact ⟨w, hw, by simp⟩
  · rintro ⟨w, hw, rfl⟩; exact ⟨w, ⟨w ++ "\"*".toList, by simp, rfl⟩, hw⟩

theorem literal_ends {k : Key} (hk : k.Ok) : Ends k.literal = ([], some '%') ∨ Ends k.literal = ([], some '*') := by
  cases k with
  | string w =>
    refine .inr ?_
    rw [literal_string, stringLiteral]
    exact (congrArg Ends (by simp)).trans (ends_text ("*\"".toList ++ w ++ ['"']) '*' [])
  | symbol w =>
    refine .inl ?_
    rw [literal_symbol]
    exact ends_text ("%Symbol.".toList ++ w) '%' []

theorem literal_iff {s : Str} : (isSymbol s || isQuoted s) = true ↔ ∃ k : Key, k.Ok ∧ s = k.literal := by
  rw [Bool.or_eq_true, isSymbol_iff, isQuoted_iff]
  constructor
  · rintro (⟨w, hw, rfl⟩ | ⟨w, hw, rfl⟩)
    · exact ⟨.symbol w, hw, rfl⟩
    · exact ⟨.string w, hw, rfl⟩
  · rintro ⟨k, hk, rfl⟩
    cases k with
    | string w => exact .inr ⟨w, hk, rfl⟩
    | symbol w => exact .inl ⟨w, hk, rfl⟩

theorem splitPath_iff {s k : Str} {c : Option Str} : splitPath s = some (c, k) ↔ Spec.Names s c k := by
  constructor
  · intro h
    rw [splitPath] at h
    by_cases hl : (isSymbol s || isQuoted s) = true
    · rw [if_pos hl] at h
      obtain ⟨k', hk, rfl⟩ := literal_iff.1 hl
      cases h
      exact .literal hk
    · rw [if_neg hl] at h
      by_cases hp : pathLike (s.length + 1) s = true
      · rw [if_pos hp] at h
        by_cases hw : wordy s = true
        · rw [if_pos hw] at h
          cases h
          exact .word (wordy_iff.1 hw)
        · rw [if_neg hw, Option.map_eq_some_iff] at h
          obtain ⟨x, hx, e⟩ := h
          cases e
          obtain ⟨b, xs, hb, hxs, rfl⟩ := (pathLike_iff _ s (by omega)).1 hp
          rcases List.eq_nil_or_concat xs with rfl | ⟨ys, y, rfl⟩
          · rw [loose_nil, lastComponent_base hb] at hx; cases hx
          · simp only [List.concat_eq_append] at hxs hx ⊢
            rw [loose_snoc] at hx
            have hys : ∀ y ∈ ys, y.key.Ok := fun y hy => hxs y (by simp [hy])
            rw [lastComponent_snoc (hxs y (by simp)) (loose_ne hb ys) (loose_last hb hys)] at hx
            cases hx
            exact .path hb hys (hxs y (by simp))
      · rw [if_neg hp] at h; cases h
  · intro h
    cases h with
    | literal hk => rw [splitPath, if_pos (literal_iff.2 ⟨_, hk, rfl⟩)]
    | word hw =>
      have e := ends_word (word_all hw)
      have h1 : ¬ (isSymbol s || isQuoted s) = true := by
        rw [literal_iff]
        rintro ⟨k, hk, rfl⟩
        rcases literal_ends hk with e' | e' <;> (rw [e'] at e; simp at e)
      rw [splitPath, if_neg h1, if_pos ((pathLike_iff _ s (by omega)).2 ⟨.word s, [], hw, by simp, by rw [loose_nil]; rfl⟩), if_pos (wordy_iff.2 hw)]
      rfl
    | @path b xs x hb hxs hx =>
      have hE : (Ends (loose b (xs ++ [x]))).2 = some '.' ∨ (Ends (loose b (xs ++ [x]))).2 = some ']' := by
        rw [loose_snoc]
        rcases piece_ends (h := loose b xs) hx with ⟨w, -, e⟩ | ⟨w, -, e⟩
        · exact .inl (by rw [e])
        · exact .inr (by rw [e])
      have h1 : ¬ (isSymbol (loose b (xs ++ [x])) || isQuoted (loose b (xs ++ [x]))) = true := by
        rw [literal_iff]
        rintro ⟨k, hk, e⟩
        rw [e] at hE
        rcases literal_ends hk with e' | e' <;> (rw [e'] at hE; simp at hE)
      have h2 : wordy (loose b (xs ++ [x])) = false := wordy_none (by intro e; rw [e] at hE; simp at hE)
      have h3 := (pathLike_iff ((loose b (xs ++ [x])).length + 1) (loose b (xs ++ [x])) (by omega)).2 ⟨b, xs ++ [x], hb, by
        intro y hy
        rcases List.mem_append.1 hy with hy | hy
        · exact hxs y hy
        · rw [List.mem_singleton.1 hy]; exact hx, rfl⟩
      rw [splitPath, if_neg h1, if_pos h3, if_neg (by rw [h2]; simp), loose_snoc, lastComponent_snoc hx (loose_ne hb xs) (loose_last hb hxs)]
      rfl

end Verif.Paths
