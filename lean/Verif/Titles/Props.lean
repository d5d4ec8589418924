import Verif.Titles.IdProps
import Verif.Titles.CheckLemmas
/-!
# C67: what is said about titles, `aoid` and the order of sections
-/
namespace Verif.Titles
open Verif.Sections

/-- A title is only given up on if it has two opening or two closing parentheses. -/
theorem c67_title_stops (terms : Bool) (t : Str) : checkTitle terms t = none ↔ 1 < t.count '(' ∨ 1 < t.count ')' := by
  unfold checkTitle
  by_cases h : t.count '(' ≤ 1 ∧ t.count ')' ≤ 1
  · rw [if_pos h]
    exact ⟨fun h => (by cases h), fun hh => by omega⟩
  · rw [if_neg h]
    exact ⟨fun _ => by omega, fun _ => rfl⟩

theorem opens_spec (t : Str) (i : Nat) : t[i]? = some '(' ↔ i ≤ t.length ∧ opens (t.drop i) = true := by
  constructor
  · intro h
    obtain ⟨hlt, hg⟩ := List.getElem?_eq_some_iff.1 h
    refine ⟨by omega, ?_⟩
    rw [List.drop_eq_getElem_cons hlt, hg, opens]
  · rintro ⟨h, hp⟩
    obtain ⟨a, ha, rfl⟩ := drop_form h
    generalize t.drop a.length = u at hp ha
    unfold opens at hp
    split at hp
    · rw [ha]; simp
    · cases hp

/-- At most one opening parenthesis: only one place. -/
theorem count_unique : ∀ {t : Str} {i j : Nat}, t.count '(' ≤ 1 → t[i]? = some '(' → t[j]? = some '(' → i = j
  | [], i, j, _, h, _ => by simp at h
  | c :: t, 0, 0, _, _, _ => rfl
  | c :: t, 0, j + 1, h, h1, h2 => by
    rw [List.getElem?_cons_zero] at h1
    rw [List.getElem?_cons_succ] at h2
    cases h1
    have : 0 < t.count '(' := List.count_pos_iff.2 (List.mem_of_getElem? h2)
    rw [List.count_cons_self] at h
    omega
  | c :: t, i + 1, 0, h, h1, h2 => by
    rw [List.getElem?_cons_zero] at h2
    rw [List.getElem?_cons_succ] at h1
    cases h2
    have : 0 < t.count '(' := List.count_pos_iff.2 (List.mem_of_getElem? h1)
    rw [List.count_cons_self] at h
    omega
  | c :: t, i + 1, j + 1, h, h1, h2 => by
    rw [List.getElem?_cons_succ] at h1 h2
    rw [count_unique (i := i) (j := j) (Nat.le_trans (List.count_le_count_cons ..) h) h1 h2]

theorem firstWord (t : Str) (k : Nat) (w : Str) : (findPos lowWord t = some k ∧ w = (t.drop (k + 1)).takeWhile isWord) ↔ LowWord t (k + 1) w ∧ ∀ j v, LowWord t j v → k + 1 ≤ j := by
  rw [findPos_some, lowWord_spec]
  constructor
  · rintro ⟨⟨h1, h2, h3⟩, h4⟩
    refine ⟨⟨h1, h2, h4⟩, fun j v hj => ?_⟩
    obtain ⟨m, rfl⟩ := lowWord_pos hj
    have hm := (lowWord_spec t m v).1 hj
    refine Nat.le_of_not_lt fun hlt => ?_
    have := h3 m (by omega)
    rw [hm.2.1] at this
    cases this
  · rintro ⟨⟨h1, h2, h3⟩, h4⟩
    refine ⟨⟨h1, h2, fun j hj => ?_⟩, h3⟩
    cases hp : lowWord (t.drop j) with
    | false => rfl
    | true => have := h4 (j + 1) _ ((lowWord_spec t j _).2 ⟨by omega, hp, rfl⟩); omega

/-- Otherwise the messages about a title are exactly those that are to be said. -/
theorem c67_title (terms : Bool) (t : Str) (ms : List (Nat × TitleMsg)) (h : checkTitle terms t = some ms) (i : Nat) (m : TitleMsg) :
    (i, m) ∈ ms ↔ TitleSays terms t i m := by
  unfold checkTitle at h
  by_cases hc : t.count '(' ≤ 1 ∧ t.count ')' ≤ 1
  · rw [if_pos hc] at h
    cases h
    rw [List.mem_append, List.mem_append]
    constructor
    · rintro ((h | h) | h)
      · cases terms with
        | true => cases h
        | false =>
          simp only [Bool.false_eq_true, if_false] at h
          cases hf : findPos lowWord t with
          | none => rw [hf] at h; cases h
          | some k =>
            rw [hf] at h
            simp only [List.mem_singleton, Prod.mk.injEq] at h
            obtain ⟨rfl, rfl⟩ := h
            obtain ⟨g1, g2⟩ := (firstWord t k _).1 ⟨hf, rfl⟩
            exact .word rfl g1 g2
      · cases hf : findPos atSign t with
        | none => rw [hf] at h; cases h
        | some k =>
          rw [hf] at h
          dsimp only at h
          by_cases hs : symbolRef t = true
          · rw [if_pos hs] at h; cases h
          · rw [if_neg hs, List.mem_singleton, Prod.mk.injEq] at h
            obtain ⟨rfl, rfl⟩ := h
            exact .symbol ((found_iff (atSign_spec t) i).1 hf) (fun hh => hs ((symbolRef_spec t).2 hh))
      · cases hf : findPos opens t with
        | none => rw [hf] at h; cases h
        | some k =>
          rw [hf] at h
          dsimp only at h
          by_cases hs : ((findPos listHere t).isSome || decide (t = "RegExp (Regular Expression) Objects".toList)) = true
          · rw [if_pos hs] at h; cases h
          · rw [if_neg hs, List.mem_singleton, Prod.mk.injEq] at h
            obtain ⟨rfl, rfl⟩ := h
            rw [Bool.or_eq_true, decide_eq_true_eq, endsWithList_spec] at hs
            exact .parens ((found_iff (opens_spec t) i).1 hf).1 (fun hh => hs (.inl hh)) (fun hh => hs (.inr hh))
    · intro h
      cases h with
      | word h1 h2 h3 =>
        obtain ⟨k, rfl⟩ := lowWord_pos h2
        obtain ⟨g1, g2⟩ := (firstWord t k _).2 ⟨h2, h3⟩
        left; left
        rw [h1, g1, g2]
        simp
      | symbol h1 h2 =>
        left; right
        rw [(found_iff (atSign_spec t) i).2 h1]
        dsimp only
        rw [if_neg (fun hh => h2 ((symbolRef_spec t).1 hh))]
        exact List.mem_singleton.2 rfl
      | parens h1 h2 h3 =>
        right
        rw [(found_iff (opens_spec t) i).2 ⟨h1, fun j hj => by rw [count_unique hc.1 h1 hj]; exact Nat.le_refl _⟩]
        dsimp only
        rw [if_neg, List.mem_singleton]
        rw [Bool.or_eq_true, decide_eq_true_eq, endsWithList_spec]
        exact fun hh => hh.elim h2 h3
  · rw [if_neg hc] at h; cases h

/-- Each kind of message comes at most once. -/
theorem c67_title_few (terms : Bool) (t : Str) (ms : List (Nat × TitleMsg)) (h : checkTitle terms t = some ms) : ms.length ≤ 3 := by
  unfold checkTitle at h
  split at h
  · cases h
    rw [List.length_append, List.length_append]
    have h2 : (match findPos atSign t with | some i => if symbolRef t then [] else [(i, TitleMsg.symbol)] | none => []).length ≤ 1 := by
      cases findPos atSign t with
      | none => simp
      | some i => dsimp only; cases symbolRef t <;> simp
    have h3 : (match findPos opens t with | some i => if (findPos listHere t).isSome || t = "RegExp (Regular Expression) Objects".toList then [] else [(i, TitleMsg.parens)] | none => []).length ≤ 1 := by
      cases findPos opens t with
      | none => simp
      | some i =>
        dsimp only
        by_cases hh : ((findPos listHere t).isSome || decide (t = "RegExp (Regular Expression) Objects".toList)) = true
        · rw [if_pos hh]; simp
        · rw [if_neg hh]; simp
    have h4 : (if terms = true then [] else match findPos lowWord t with | some i => [(i + 1, TitleMsg.word ((t.drop (i + 1)).takeWhile isWord))] | none => []).length ≤ 1 := by
      cases terms with
      | true => simp
      | false => cases findPos lowWord t <;> simp
    exact Nat.add_le_add (Nat.add_le_add h4 h2) h3
  · cases h

/-- The words that may be small are only compared with the beginning of a word: a small word is passed over if it begins like one of them. -/
theorem c67_title_prefix_witness : checkTitle false "Objects intended otherwise".toList = some [(17, .word "otherwise".toList)] ∧ checkTitle false "Objects interned".toList = some [] := by
  constructor <;> decide +kernel

/-- The attribute `aoid`: given up on exactly for a section without operations by its kind that has some. -/
theorem c67_aoid_stops (s : AoidSec) : checkAoid s = none ↔ (s.kind = "shorthand".toList ∨ s.kind = "catchall".toList) ∧ s.opNames ≠ [] := by
  unfold checkAoid
  by_cases h1 : s.kind = "shorthand".toList
  · rw [if_pos h1]
    by_cases h2 : s.opNames = []
    · rw [if_pos h2]; exact ⟨fun h => (by cases h), fun h => absurd h2 h.2⟩
    · rw [if_neg h2]; exact ⟨fun _ => ⟨.inl h1, h2⟩, fun _ => rfl⟩
  · rw [if_neg h1]
    dsimp only
    by_cases h2 : s.kind = "catchall".toList ∧ s.opNames ≠ []
    · rw [if_pos h2]; exact ⟨fun _ => ⟨.inr h2.1, h2.2⟩, fun _ => rfl⟩
    · rw [if_neg h2]
      constructor
      · intro h
        generalize (if s.kind = "catchall".toList then if s.parentTitle = "Relations of Candidate Executions".toList then some s.title else none else none) = e at h
        by_cases he : s.aoid ≠ e
        · rw [if_pos he] at h
          cases ha : s.aoid <;> cases e <;> rw [ha] at h <;> cases h
        · rw [if_neg he] at h; cases h
      · rintro ⟨h3 | h3, h4⟩
        · exact absurd h3 h1
        · exact absurd ⟨h3, h4⟩ h2

/-- Otherwise what is said about the attribute is what is to be said. -/
theorem c67_aoid (s : AoidSec) (r : Option AoidMsg) (h : checkAoid s = some r) (m : AoidMsg) : r = some m ↔ AoidSays s m := by
  unfold checkAoid at h
  by_cases h1 : s.kind = "shorthand".toList
  · have hr : r = none := by
      rw [if_pos h1] at h
      by_cases h2 : s.opNames = []
      · rw [if_pos h2] at h; cases h; rfl
      · rw [if_neg h2] at h; cases h
    subst hr
    have hn : ¬ Relation s := by
      rintro ⟨hk, _⟩
      rw [h1] at hk
      revert hk; decide +kernel
    constructor
    · intro hh; cases hh
    · intro hh
      cases hh with
      | missing a _ => exact absurd a hn
      | wrong a _ _ => exact absurd a hn
      | unexpected _ a _ => exact absurd h1 a
  · rw [if_neg h1] at h
    dsimp only at h
    by_cases h2 : s.kind = "catchall".toList ∧ s.opNames ≠ []
    · rw [if_pos h2] at h; cases h
    · rw [if_neg h2] at h
      by_cases hr : Relation s
      · rw [if_pos hr.1, if_pos hr.2] at h
        cases ha : s.aoid with
        | none =>
          rw [ha] at h
          simp only [ne_eq, reduceCtorEq, not_false_eq_true, if_true, Option.some.injEq] at h
          subst h
          constructor
          · intro hh; cases hh; exact .missing hr ha
          · intro hh
            cases hh with
            | missing => rfl
            | wrong _ a _ => rw [ha] at a; cases a
            | unexpected a _ _ => exact absurd hr a
        | some a =>
          rw [ha] at h
          by_cases he : a = s.title
          · simp only [he, ne_eq, not_true_eq_false, if_false, Option.some.injEq] at h
            subst h
            constructor
            · intro hh; cases hh
            · intro hh
              cases hh with
              | missing _ a => rw [ha] at a; cases a
              | wrong _ b c => rw [ha] at b; cases b; exact absurd he c
              | unexpected a _ _ => exact absurd hr a
          · simp only [ne_eq, Option.some.injEq, he, not_false_eq_true, if_true] at h
            subst h
            constructor
            · intro hh; cases hh; exact .wrong hr ha he
            · intro hh
              cases hh with
              | missing _ a => rw [ha] at a; cases a
              | wrong => rfl
              | unexpected a _ _ => exact absurd hr a
      · have he : (if s.kind = "catchall".toList then if s.parentTitle = "Relations of Candidate Executions".toList then some s.title else none else none) = none := by
          by_cases hk : s.kind = "catchall".toList
          · rw [if_pos hk, if_neg (fun hp => hr ⟨hk, hp⟩)]
          · rw [if_neg hk]
        rw [he] at h
        cases ha : s.aoid with
        | none =>
          rw [ha] at h
          simp only [ne_eq, not_true_eq_false, if_false, Option.some.injEq] at h
          subst h
          constructor
          · intro hh; cases hh
          · intro hh
            cases hh with
            | missing a _ => exact absurd a hr
            | wrong a _ _ => exact absurd a hr
            | unexpected _ _ a => rw [ha] at a; cases a
        | some a =>
          rw [ha] at h
          simp only [ne_eq, reduceCtorEq, not_false_eq_true, if_true, Option.some.injEq] at h
          subst h
          constructor
          · intro hh; cases hh; exact .unexpected hr h1 ha
          · intro hh
            cases hh with
            | missing a _ => exact absurd a hr
            | wrong a _ _ => exact absurd a hr
            | unexpected => rfl

/-- The key by which the properties of an object are sorted. -/
abbrev keyOf (title : Str) : Str → Str := sortKey (title = "Properties of the RegExp Prototype Object".toList)

/-- The order of sections is given up on exactly if a section about properties has a child of a kind that doesn't belong there. -/
theorem c67_order_stops (kind title : Str) (cs : List (Str × Str)) :
    checkOrder kind title cs = none ↔ (∃ a, kind = a ++ "// properties".toList) ∧ ∃ c ∈ cs, ¬ IsProp c ∧ ¬ Between title c := by
  unfold checkOrder
  by_cases h : "// properties".toList.isSuffixOf kind = true
  · rw [if_pos h, (orderLoop_spec title cs none 0).1]
    obtain ⟨a, ha⟩ := List.isSuffixOf_iff_suffix.1 h
    exact ⟨fun hh => ⟨⟨a, ha.symm⟩, hh⟩, fun hh => hh.2⟩
  · rw [if_neg h]
    refine ⟨fun h => (by cases h), fun ⟨⟨a, ha⟩, _⟩ => absurd ?_ h⟩
    exact List.isSuffixOf_iff_suffix.2 ⟨a, ha.symm⟩

/-- Otherwise exactly the properties are reported that are misplaced, with the one before. -/
theorem c67_order (kind title : Str) (cs : List (Str × Str)) (ms : List (Nat × Str)) (h : checkOrder kind title cs = some ms) (i : Nat) (b : Str) :
    (i, b) ∈ ms ↔ (∃ a, kind = a ++ "// properties".toList) ∧ Misplaced (keyOf title) cs i b := by
  unfold checkOrder at h
  by_cases hs : "// properties".toList.isSuffixOf kind = true
  · rw [if_pos hs] at h
    obtain ⟨a, ha⟩ := List.isSuffixOf_iff_suffix.1 hs
    rw [((orderLoop_spec title cs none 0).2 ms h).1]
    constructor
    · rintro ⟨j, c, h1, h2, h3, k, h4, h5⟩
      obtain rfl : i = j := by omega
      refine ⟨⟨a, ha.symm⟩, c, h2, h3, ?_⟩
      rcases h4 with ⟨j, d, g1, g2, g3, g4, g5⟩ | ⟨g1, _⟩
      · cases g5
        exact ⟨j, d, g1, g2, g3, g4, rfl, h5⟩
      · cases g1
    · rintro ⟨_, c, h2, h3, j, d, g1, g2, g3, g4, rfl, h5⟩
      exact ⟨i, c, by omega, h2, h3, _, .inl ⟨j, d, g1, g2, g3, g4, rfl⟩, h5⟩
  · rw [if_neg hs] at h
    cases h
    refine ⟨fun h => (by cases h), fun ⟨⟨a, ha⟩, _⟩ => absurd ?_ hs⟩
    exact List.isSuffixOf_iff_suffix.2 ⟨a, ha.symm⟩

/-- Nothing is reported exactly if the keys of the properties increase strictly. -/
theorem c67_sorted (kind title : Str) (cs : List (Str × Str)) (h : ∃ a, kind = a ++ "// properties".toList) (ms : List (Nat × Str)) (hm : checkOrder kind title cs = some ms) :
    ms = [] ↔ ((cs.filter (fun c => IsProp c)).map (fun c => keyOf title c.2)).Pairwise (· < ·) := by
  obtain ⟨a, rfl⟩ := h
  unfold checkOrder at hm
  rw [if_pos (List.isSuffixOf_iff_suffix.2 ⟨a, rfl⟩)] at hm
  rw [((orderLoop_spec title cs none 0).2 ms hm).2]
  exact Iff.rfl

/-- The key of a title without "int8" and "__": in small letters. -/
theorem c67_key (r : Bool) (t : Str) (hs : ' ' ∉ t.map Char.toLower) (h8 : ¬ Part "int8".toList (t.map Char.toLower)) (hz : ¬ Part "__".toList (t.map Char.toLower)) : sortKey r t = t.map Char.toLower := by
  unfold sortKey lower
  rw [replace_none _ h8]
  have hd : dropGet (t.map Char.toLower) = t.map Char.toLower := by
    generalize t.map Char.toLower = u at hs
    unfold dropGet
    split
    · exact absurd (by simp) hs
    · rfl
  rw [hd, zz_none _ _ hz]
  have := symbols_plain (if r then ".".toList else ".zz_".toList) (t.map Char.toLower) [] hs
  rw [List.append_nil] at this
  rw [this, symbols, List.append_nil]

/-- A getter is sorted by the name of the property. -/
theorem c67_key_get (r : Bool) (t : Str) (hs : ' ' ∉ t.map Char.toLower) (h8 : ¬ Part "int8".toList (t.map Char.toLower)) (hz : ¬ Part "__".toList (t.map Char.toLower)) : sortKey r ("get ".toList ++ t) = sortKey r t := by
  rw [c67_key r t hs h8 hz]
  unfold sortKey lower
  rw [List.map_append]
  have e : "get ".toList.map Char.toLower = "get ".toList := by decide +kernel
  rw [e]
  have h8' : ¬ Part "int8".toList ("get ".toList ++ t.map Char.toLower) := by
    rintro ⟨a, b, h⟩
    have e1 : "get ".toList = ['g', 'e', 't', ' '] := rfl
    have e2 : "int8".toList = ['i', 'n', 't', '8'] := rfl
    rw [e1, e2] at h
    rcases a with _ | ⟨a1, _ | ⟨a2, _ | ⟨a3, _ | ⟨a4, a⟩⟩⟩⟩ <;> simp only [List.nil_append, List.cons_append, List.cons.injEq] at h
    · exact absurd h.1 (by decide)
    · exact absurd h.2.1 (by decide)
    · exact absurd h.2.2.1 (by decide)
    · exact absurd h.2.2.2.1 (by decide)
    · exact h8 ⟨a, b, by rw [h.2.2.2.2, e2]⟩
  rw [replace_none _ h8']
  have hd : dropGet ("get ".toList ++ t.map Char.toLower) = t.map Char.toLower := rfl
  rw [hd, zz_none _ _ hz]
  have := symbols_plain (if r then ".".toList else ".zz_".toList) (t.map Char.toLower) [] hs
  rw [List.append_nil] at this
  rw [this, symbols, List.append_nil]

/-- A property whose key is a well-known symbol is sorted by the word of the symbol, and after the other ones unless the object is the prototype of regular expressions. -/
theorem c67_key_symbol (r : Bool) (t w : Str) (hs : ' ' ∉ t.map Char.toLower) (hg : t.map Char.toLower ≠ "get".toList) (hw : w ≠ []) (hc : ∀ c ∈ w.map Char.toLower, c.isAlphanum = true ∨ c = '_')
    (h8 : ¬ Part "int8".toList ((t ++ " [ %Symbol.".toList ++ w ++ "% ]".toList).map Char.toLower)) (hz : ¬ Part "__".toList ((t ++ " [ %Symbol.".toList ++ w ++ "% ]".toList).map Char.toLower)) :
    sortKey r (t ++ " [ %Symbol.".toList ++ w ++ "% ]".toList) = t.map Char.toLower ++ (if r then ".".toList else ".zz_".toList) ++ w.map Char.toLower := by
  unfold sortKey lower
  rw [replace_none _ h8]
  have e : (t ++ " [ %Symbol.".toList ++ w ++ "% ]".toList).map Char.toLower = t.map Char.toLower ++ (" [ %symbol.".toList ++ w.map Char.toLower ++ "% ]".toList ++ []) := by
    have e1 : " [ %Symbol.".toList.map Char.toLower = " [ %symbol.".toList := by decide +kernel
    have e2 : "% ]".toList.map Char.toLower = "% ]".toList := by decide +kernel
    rw [List.map_append, List.map_append, List.map_append, e1, e2]
    simp
  have hd : dropGet ((t ++ " [ %Symbol.".toList ++ w ++ "% ]".toList).map Char.toLower) = (t ++ " [ %Symbol.".toList ++ w ++ "% ]".toList).map Char.toLower := by
    rw [e]
    generalize t.map Char.toLower = u at hs hg
    have e1 : " [ %symbol.".toList = [' ', '[', ' ', '%', 's', 'y', 'm', 'b', 'o', 'l', '.'] := rfl
    unfold dropGet
    split
    · rename_i cs hh
      rw [e1] at hh
      exfalso
      rcases u with _ | ⟨a1, _ | ⟨a2, _ | ⟨a3, _ | ⟨a4, a⟩⟩⟩⟩ <;> simp only [List.nil_append, List.cons_append, List.cons.injEq] at hh
      · exact absurd hh.1 (by decide)
      · exact absurd hh.2.1 (by decide)
      · exact absurd hh.2.2.1 (by decide)
      · exact hg (by rw [hh.1, hh.2.1, hh.2.2.1]; rfl)
      · exact hs (by simp [hh.2.2.2.1])
    · rfl
  rw [hd, zz_none _ _ hz, e, symbols_plain _ _ _ hs, symbols_symbol _ _ _ (by simpa using hw) (fun c h => (isWord_iff c).2 (hc c h)), symbols]
  simp

/-- **C67.** For the order, `int8` in a title counts as `int08`. -/
theorem c67_key_int8 {regexp : Bool} {t t' : Str} (h : Int8 t t') : sortKey regexp t = sortKey regexp t' := by
  rw [sortKey, sortKey, replace_same h]

/-- One of the titles in question. -/
example : Int8 "DataView.prototype.getInt8 ( byteOffset )".toList "DataView.prototype.getint08 ( byteOffset )".toList :=
  .more (p := "DataView.prototype.get".toList) (x := "Int8".toList) (by rw [← hasSub_iff]; decide +kernel) (by decide +kernel)
    (.plain (p := " ( byteOffset )".toList) (by rw [← hasSub_iff]; decide +kernel))

/-- **C67.** A property whose name begins with two underscores is sorted as if it began with two letters z. -/
theorem c67_key_underscores (r : Bool) (a b : Str) (hs : ' ' ∉ (a ++ ".__".toList ++ b).map Char.toLower)
    (h8 : ¬ Part "int8".toList ((a ++ ".__".toList ++ b).map Char.toLower)) (ha : ¬ Part "__".toList (a.map Char.toLower)) (hb : ¬ Part ".__".toList (b.map Char.toLower)) :
    sortKey r (a ++ ".__".toList ++ b) = a.map Char.toLower ++ ".zz__".toList ++ b.map Char.toLower := by
  unfold sortKey lower
  rw [replace_none _ h8]
  have e : (a ++ ".__".toList ++ b).map Char.toLower = a.map Char.toLower ++ '.' :: '_' :: '_' :: b.map Char.toLower := by
    have e1 : ".__".toList.map Char.toLower = ".__".toList := by decide +kernel
    rw [List.map_append, List.map_append, e1]
    simp
  rw [e] at hs ⊢
  have hd : dropGet (a.map Char.toLower ++ '.' :: '_' :: '_' :: b.map Char.toLower) = a.map Char.toLower ++ '.' :: '_' :: '_' :: b.map Char.toLower := by
    unfold dropGet
    split
    · rename_i cs hh
      rw [hh] at hs
      simp at hs
    · rfl
  have hz : zz true ('_' :: '_' :: b.map Char.toLower) = 'z' :: 'z' :: '_' :: '_' :: b.map Char.toLower := by
    rw [zz, zz_inner _ _ hb (by simp)]
  have hs' : ' ' ∉ a.map Char.toLower ++ '.' :: 'z' :: 'z' :: '_' :: '_' :: b.map Char.toLower := by
    simp only [List.mem_append, List.mem_cons, not_or] at hs ⊢
    exact ⟨hs.1, by decide, by decide, by decide, by decide, by decide, hs.2.2.2.2⟩
  rw [hd, zz_upto _ _ ha, hz]
  have := symbols_plain (if r then ".".toList else ".zz_".toList) _ [] hs'
  rw [List.append_nil] at this
  rw [this, symbols]
  simp

/-- One of the titles in question. -/
example : sortKey false ("Object.prototype".toList ++ ".__".toList ++ "proto__".toList) = "object.prototype".toList ++ ".zz__".toList ++ "proto__".toList := by
  rw [c67_key_underscores] <;> first | decide +kernel | (rw [← hasSub_iff]; decide +kernel)

/-- The kinds of sections for properties. -/
theorem c67_names : propKinds = ["accessor_property", "function_property", "function_property_xref", "other_property", "other_property_xref"] ∧ small = ["an", "and", "for", "in", "of", "on", "the", "to", "with"] := ⟨rfl, rfl⟩

/-! ### Examples -/

example : checkTitle false "Properties of the value undefined".toList = some [(18, .word "value".toList)] := by decide +kernel
example : checkTitle true "primitive value".toList = some [] := by decide +kernel
example : checkTitle false "Array.prototype [ @@iterator ] ( )".toList = some [(16, .symbol)] := by decide +kernel
example : checkTitle false "Array.prototype [ %Symbol.iterator% ] ( )".toList = some [] := by decide +kernel
example : checkTitle false "Call (F)".toList = some [(5, .parens)] := by decide +kernel
example : checkTitle false "Call ( F )".toList = some [] := by decide +kernel
example : checkTitle false "ResolveExport ( _name_ ) Concrete Method".toList = some [] := by decide +kernel
example : checkTitle false "RegExp (Regular Expression) Objects".toList = some [] := by decide +kernel
example : checkTitle false "A ( ( b ) )".toList = none := by decide +kernel
example : LowWord "Properties of the value x".toList 18 "value".toList := ⟨"Properties of the".toList, 'v', 'a', "lue".toList, " x".toList, rfl, rfl, rfl, rfl, by decide +kernel, by intro x y h; cases h; decide, by
  intro x hx y h
  simp only [List.mem_cons, List.not_mem_nil, or_false] at hx
  rcases hx with rfl | rfl | rfl | rfl | rfl | rfl | rfl | rfl <;> cases h⟩
example : EndsWithList "Call ( F )".toList := ⟨"Call".toList, " F".toList, [], rfl, .inr ⟨"F".toList, by decide +kernel, rfl⟩, .inl rfl⟩

example : checkAoid ⟨"catchall".toList, "happens-before".toList, "Relations of Candidate Executions".toList, none, []⟩ = some (some (.missing "happens-before".toList)) := by decide +kernel
example : checkAoid ⟨"catchall".toList, "happens-before".toList, "Relations of Candidate Executions".toList, some "before".toList, []⟩ = some (some (.wrong "happens-before".toList)) := by decide +kernel
example : checkAoid ⟨"catchall".toList, "happens-before".toList, "Relations of Candidate Executions".toList, some "happens-before".toList, []⟩ = some none := by decide +kernel
example : checkAoid ⟨"abstract_operation".toList, "Call ( F )".toList, "Operations".toList, some "Call".toList, ["Call".toList]⟩ = some (some .unexpected) := by decide +kernel
example : checkAoid ⟨"catchall".toList, "Call ( F )".toList, "Operations".toList, none, ["Call".toList]⟩ = none := by decide +kernel
example : checkAoid ⟨"shorthand".toList, "ReturnIfAbrupt".toList, "Operations".toList, some "x".toList, []⟩ = some none := by decide +kernel

example : sortKey false "Array.prototype [ %Symbol.iterator% ]".toList = "array.prototype.zz_iterator".toList := by decide +kernel
example : sortKey true "RegExp.prototype [ %Symbol.match% ]".toList = "regexp.prototype.match".toList := by decide +kernel
example : sortKey false "get Map.prototype.size".toList = "map.prototype.size".toList := by decide +kernel
example : sortKey false "Object.prototype.__proto__".toList = "object.prototype.zz__proto__".toList := by decide +kernel
example : sortKey false "DataView.prototype.getInt8".toList = "dataview.prototype.getint08".toList := by decide +kernel
example : checkOrder "properties_of_an_intrinsic_object // properties".toList "P".toList [("function_property".toList, "P.b ( )".toList), ("catchall".toList, "Notes".toList), ("other_property".toList, "P.a".toList), ("accessor_property".toList, "get P.c".toList)] = some [(2, "P.b ( )".toList)] := by decide +kernel
example : checkOrder "x // properties".toList "P".toList [("abstract_operation".toList, "Q".toList)] = none := by decide +kernel
example : checkOrder "x // properties".toList "URI Handling Functions".toList [("abstract_operation".toList, "Q".toList)] = some [] := by decide +kernel
example : checkOrder "catchall".toList "P".toList [("abstract_operation".toList, "Q".toList)] = some [] := by decide +kernel
example : Misplaced (keyOf []) [("function_property".toList, "P.b ( )".toList), ("other_property".toList, "P.a".toList)] 1 "P.b ( )".toList :=
  ⟨_, rfl, by decide +kernel, 0, _, by omega, rfl, by decide +kernel, fun k e h1 h2 => by omega, rfl, by decide +kernel⟩

end Verif.Titles
