import Verif.Objs.DfnLemmas
import Verif.Tables.Lemmas
/-!
# C86: what the list at the start of the section of a built-in object says
-/
namespace Verif.Objs
open Verif.Paths.Spec (Word)
open Verif.Kinds.Spec (Line Some' NoTags Capital)
open Verif.Tables (strip strip_iff)
open Spec

variable {space : Char → Bool} {subject sid : Str}

theorem items_iff : ∀ {bs : List Block} {fs : List Fact}, items space subject sid bs = some fs ↔ Items space subject sid bs fs
  | [], fs => by
    rw [items]
    constructor
    · intro h; obtain rfl := Option.some.inj h; exact .nil
    · intro h; cases h; rfl
  | b :: bs, fs => by
    rw [items]
    by_cases hw : b.white = true
    · rw [if_pos hw]
      constructor
      · intro h; exact .white hw (items_iff.1 h)
      · intro h
        cases h with
        | white _ h => exact items_iff.2 h
        | item h => rw [hw] at h; cases h
    · rw [if_neg hw]
      by_cases hn : b.name ≠ "li"
      · rw [if_pos hn]
        constructor
        · intro h; cases h
        · intro h
          cases h with
          | white h => exact absurd h hw
          | item _ h => exact absurd h hn
      · rw [if_neg hn]
        have hn := Decidable.not_not.1 hn
        constructor
        · intro h
          cases hi : item subject sid (strip space b.text) with
          | none => rw [hi] at h; cases h
          | some gs =>
            rw [hi] at h
            dsimp only at h
            cases hr : items space subject sid bs with
            | none => rw [hr] at h; cases h
            | some rs =>
              rw [hr] at h
              obtain rfl := Option.some.inj h
              exact .item (by simpa using hw) hn ((strip_iff (cfg := ⟨[], space, fun _ => none⟩) _ _).1 rfl) (item_iff.1 hi) (items_iff.1 hr)
        · intro h
          cases h with
          | white h => exact absurd h hw
          | item _ _ hs hi hr =>
            rw [(strip_iff (cfg := ⟨[], space, fun _ => none⟩) _ _).2 hs, item_iff.2 hi, items_iff.2 hr]
            rfl

theorem starts_iff (t : Str) : restStarts.any (fun s => s.toList.isPrefixOf t) = true ↔ ∃ s ∈ restStarts, ∃ r, t = s.toList ++ r := by
  simp only [List.any_eq_true, List.isPrefixOf_iff_prefix]
  constructor
  · rintro ⟨s, h, r, e⟩; exact ⟨s, h, r, e.symm⟩
  · rintro ⟨s, h, r, e⟩; exact ⟨s, h, r, e.symm⟩

theorem phrase_text : "The phrase “this Number value” within the specification of a method refers to" = "The phrase “this " ++ "Number" ++ " value” within the specification of a method refers to" ∧
    "The phrase “this BigInt value” within the specification of a method refers to" = "The phrase “this " ++ "BigInt" ++ " value” within the specification of a method refers to" := by
  constructor <;> decide +kernel

theorem follows_iff (t : Str) : (restStarts.any (fun s => s.toList.isPrefixOf t) ||
    decide (t = "Whenever a host does not provide concurrent access to SharedArrayBuffers it may omit the *\"SharedArrayBuffer\"* property of the global object.".toList)) = true ↔ Follows t := by
  rw [Bool.or_eq_true, starts_iff, decide_eq_true_iff]
  have hm : ∀ s, s ∈ restStarts ↔ (∃ d ∈ ["defined", "stated"], ∃ x ∈ ["Date", "Number", "String"], "Unless explicitly " ++ d ++ " otherwise, the methods of the " ++ x ++
      " prototype object defined below are not generic and the *this* value passed to them must be " = s) ∨ s ∈ ["The abstract operation <dfn",
   "In following descriptions of functions that are properties of the Date prototype object, the phrase “<dfn id=\"this-Date-object\">this Date object</dfn>” refers to",
   "The phrase “this Number value” within the specification of a method refers to",
   "The phrase “this BigInt value” within the specification of a method refers to",
   "The Atomics object provides functions that",
   "The JSON Data Interchange Format is defined in ECMA-404."] := by
    intro s
    rw [restStarts, List.mem_append, List.mem_flatMap]
    simp only [List.mem_map]
  constructor
  · rintro (⟨s, hs, r, rfl⟩ | h)
    · rcases (hm s).1 hs with ⟨d, hd, x, hx, rfl⟩ | h
      · rw [String.toList_append, String.toList_append, String.toList_append, String.toList_append]
        exact .generic hd hx
      · simp only [List.mem_cons, List.not_mem_nil, or_false] at h
        rcases h with rfl | rfl | rfl | rfl | rfl | rfl
        · exact .operation
        · exact .date
        · rw [phrase_text.1, String.toList_append, String.toList_append]; exact .phrase (by simp)
        · rw [phrase_text.2, String.toList_append, String.toList_append]; exact .phrase (by simp)
        · exact .atomics
        · exact .json
    · rw [h]; exact .shared
  · intro h
    cases h with
    | generic hd hx =>
      rename_i d x r
      exact .inl ⟨_, (hm _).2 (.inl ⟨_, hd, _, hx, rfl⟩), r, by simp only [String.toList_append]⟩
    | operation => exact .inl ⟨_, (hm _).2 (.inr (by simp only [List.mem_cons, true_or])), _, rfl⟩
    | date => exact .inl ⟨_, (hm _).2 (.inr (by simp only [List.mem_cons, true_or, or_true])), _, rfl⟩
    | phrase hx =>
      rename_i x r
      simp only [List.mem_cons, List.not_mem_nil, or_false] at hx
      rcases hx with rfl | rfl
      · exact .inl ⟨_, (hm "The phrase “this Number value” within the specification of a method refers to").2 (.inr (by simp only [List.mem_cons, true_or, or_true])), r, by rw [phrase_text.1, String.toList_append, String.toList_append]⟩
      · exact .inl ⟨_, (hm "The phrase “this BigInt value” within the specification of a method refers to").2 (.inr (by simp only [List.mem_cons, true_or, or_true])), r, by rw [phrase_text.2, String.toList_append, String.toList_append]⟩
    | atomics => exact .inl ⟨_, (hm _).2 (.inr (by simp only [List.mem_cons, true_or, or_true])), _, rfl⟩
    | json => exact .inl ⟨_, (hm _).2 (.inr (by simp only [List.mem_cons, true_or, or_true])), _, rfl⟩
    | shared => exact .inr rfl

theorem restOk_iff (b : Block) : restOk b = true ↔ (b.name = "p" ∧ Follows b.text) ∨ b.name = "emu-alg" ∨ b.name = "emu-note" := by
  unfold restOk
  by_cases h : b.name = "p"
  · rw [if_pos h, follows_iff, h]; simp
  · rw [if_neg h]; simp [h]

/-! ## The property -/

/-- C86: the attributes between braces are read as fields, each a name in double brackets and a value, and otherwise an error is raised. -/
theorem c86_attrs (s : Str) (fs : List (Str × Str)) : attrFields s = some fs ↔ Attrs fs s := attrs_iff

/-- C86: what is taken from an item of the list is what its sentence says, and an item is refused exactly when its sentence is none that is known. -/
theorem c86_item (subject sid t : Str) (fs : List Fact) : item subject sid t = some fs ↔ Says subject sid t fs := item_iff

/-- C86: the section's title fixes the subject, and the first sentence has to name it; a phrase that is marked in the sentence is another name for the subject. -/
theorem c86_begins (t p s : Str) (fs : List Fact) : intro t p = some (s, fs) ↔ ∃ d, Begins t p s d ∧ fs = d.toList.map (Fact.aka s) := intro_iff t p s fs

/-- C86: what is put from a section is what its sentences say, in their order, and the section is refused exactly when its title, first sentence, one of its items or one of
the blocks that follow is not of a known kind. -/
theorem c86_section (space : Char → Bool) (title sid p : Str) (ul rest : List Block) (fs : List Fact) :
    extract space title sid p ul rest = some fs ↔ Tells space title sid p ul rest fs := by
  unfold extract Tells
  have hrest : rest.all restOk = true ↔ ∀ b ∈ rest, (b.name = "p" ∧ Follows b.text) ∨ b.name = "emu-alg" ∨ b.name = "emu-note" := by
    simp only [List.all_eq_true, restOk_iff]
  constructor
  · intro h
    cases hi : intro title p with
    | none => rw [hi] at h; cases h
    | some q =>
      obtain ⟨s, as⟩ := q
      rw [hi] at h
      dsimp only at h
      obtain ⟨d, hb, rfl⟩ := (intro_iff _ _ _ _).1 hi
      cases hl : items space s sid ul with
      | none => rw [hl] at h; cases h
      | some gs =>
        rw [hl] at h
        dsimp only at h
        by_cases hr : rest.all restOk = true
        · rw [if_pos hr] at h
          exact ⟨s, d, gs, hb, items_iff.1 hl, (Option.some.inj h).symm, hrest.1 hr⟩
        · rw [if_neg hr] at h; cases h
  · rintro ⟨s, d, gs, hb, hi, rfl, hr⟩
    rw [(intro_iff _ _ _ _).2 ⟨d, hb, rfl⟩]
    dsimp only
    rw [items_iff.2 hi]
    dsimp only
    rw [if_pos (hrest.2 hr)]

/-- C86: no section can be read in two ways. -/
theorem c86_one_reading (space : Char → Bool) (title sid p : Str) (ul rest : List Block) (fs gs : List Fact)
    (h1 : Tells space title sid p ul rest fs) (h2 : Tells space title sid p ul rest gs) : fs = gs := by
  rw [← c86_section] at h1 h2
  exact Option.some.inj (h1.symm.trans h2)

theorem plain_about {t : String} {fs : List Fact} (h : (t, fs) ∈ plain subject sid) : ∀ f ∈ fs, About subject f := by
  have key : ∀ q ∈ plain subject sid, ∀ f ∈ q.2, About subject f := by
    unfold plain About
    simp only [List.forall_mem_append, List.forall_mem_map, List.forall_mem_cons]
    simp
  exact key _ h

/-- C86: everything that is put is about the subject that the title names. -/
theorem c86_about (space : Char → Bool) (title sid p : Str) (ul rest : List Block) (fs : List Fact) (h : extract space title sid p ul rest = some fs) :
    ∃ s e, Subject title s e ∧ ∀ f ∈ fs, About s f := by
  obtain ⟨s, d, gs, hb, hi, rfl, _⟩ := (c86_section _ _ _ _ _ _ _).1 h
  have hs : ∃ e, Subject title s e := by
    cases hb with
    | unmarked hsb => exact ⟨_, hsb⟩
    | marked hsb => exact ⟨_, hsb⟩
  obtain ⟨e, he⟩ := hs
  refine ⟨s, e, he, fun f hf => ?_⟩
  rcases List.mem_append.1 hf with hf | hf
  · obtain ⟨n, _, rfl⟩ := List.mem_map.1 hf
    exact .inl ⟨n, rfl⟩
  · clear hb he h
    induction hi with
    | nil => cases hf
    | white _ _ ih => exact ih (List.mem_append_right _ hf) hf
    | item _ _ _ hsay _ ih =>
      rcases List.mem_append.1 hf with hf | hf
      · unfold About
        cases hsay with
        | plain h => exact plain_about h _ hf
        | _ => simp_all
      · exact ih (List.mem_append_right _ hf) hf

/-! ## Cases -/

def exSpace (c : Char) : Bool := c == ' ' || c == '\n'

def exS : Str := "the ".toList ++ "Map".toList ++ " ".toList ++ "constructor".toList
def exSlot : Str := "has a ".toList ++ "[[".toList ++ "Prototype".toList ++ "]] internal slot whose value is ".toList ++ "%Function.prototype%".toList ++ ".".toList
def exHead : Str := "has a ".toList ++ "*\"length\"*".toList ++ " property whose value is ".toList
def exValue : Str := "0".toList ++ " and whose attributes are {".toList ++ " [[Writable]]: *false*, [[Value]]: 1 ".toList ++ "}.".toList

def exUl : List Block :=
  [⟨true, "#LITERAL", "\n".toList⟩,
   ⟨false, "li", " ".toList ++ ("is <dfn>".toList ++ "%Map%".toList ++ "</dfn>.".toList) ++ "\n".toList⟩,
   ⟨false, "li", exSlot⟩,
   ⟨false, "li", exHead ++ exValue⟩,
   ⟨false, "li", "is not intended to be called as a function and will throw an exception when called in that manner.".toList⟩]

def exFacts : List Fact :=
  [.aka exS "%Map%".toList, .slot exS ("[[".toList ++ "Prototype".toList ++ "]]".toList) "%Function.prototype%".toList,
   .prop exS "*\"length\"*".toList [("[[Value]]".toList, "1".toList), ("[[Writable]]".toList, "*false*".toList)], .is exS "a constructor".toList]

theorem ex_strip {s t : Str} (h : strip exSpace s = t) : Tables.Stripped ⟨[], exSpace, fun _ => none⟩ s t := (strip_iff (cfg := ⟨[], exSpace, fun _ => none⟩) _ _).1 h

theorem ex_word {s : Str} (h : s ≠ [] ∧ ∀ c ∈ s, Sections.isWord c = true) : Word s := Preambles.word_chars.2 h

/-- A list that is read: one value is given twice, and the last counts. -/
theorem ex_items : Items exSpace exS "sec-map-constructor".toList exUl exFacts := by
  refine .white rfl (.item (gs := exFacts.drop 1) rfl rfl (t := "is <dfn>".toList ++ "%Map%".toList ++ "</dfn>.".toList) (ex_strip (by decide +kernel))
    (.aka ⟨"Map".toList, [], ex_word (by decide), by simp, by decide⟩) ?_)
  refine .item (gs := exFacts.drop 2) rfl rfl (t := exSlot) (ex_strip (by decide +kernel))
    (.slot (.inl rfl) (ex_word (by decide)) (.inl ⟨"Function".toList, ["prototype".toList], ex_word (by decide), ?_, by decide⟩)) ?_
  · simp only [List.mem_cons, List.not_mem_nil, or_false, forall_eq]; exact ex_word (by decide)
  refine .item (fs := [.prop exS "*\"length\"*".toList [("[[Value]]".toList, "1".toList), ("[[Writable]]".toList, "*false*".toList)]]) (gs := exFacts.drop 3) rfl rfl (t := exHead ++ exValue) (ex_strip (by decide +kernel)) ?_ ?_
  · obtain ⟨a, h1, h2, h3⟩ := (attrs_greedy exValue "0".toList "{ [[Writable]]: *false*, [[Value]]: 1 }".toList).1 (by decide +kernel)
    refine .prop (fs := [("[[Writable]]".toList, "*false*".toList), ("[[Value]]".toList, "1".toList)]) ⟨"length".toList, ex_word (by decide), by decide, .inl rfl⟩ h1 h2
      (attrs_iff.1 ?_) (dict_iff.2 (by decide +kernel))
    rw [← h3]; decide +kernel
  · refine .item (fs := [.is exS "a constructor".toList]) (gs := []) rfl rfl
      (t := "is not intended to be called as a function and will throw an exception when called in that manner.".toList) (ex_strip (by decide +kernel)) (.plain ?_) .nil
    unfold plain
    simp only [List.mem_append, List.mem_map, List.mem_cons, true_or, or_true, exists_eq_or_imp]

/-- A section in which a phrase is marked. -/
theorem ex_section : extract exSpace ("The ".toList ++ "Map".toList ++ " ".toList ++ "Constructor".toList) "sec-map-constructor".toList
    ("The ".toList ++ "<dfn id=\"map\">".toList ++ "Map".toList ++ "</dfn>".toList ++ " constructor:".toList) exUl
    [⟨false, "emu-note", []⟩, ⟨false, "p", "The abstract operation <dfn".toList ++ ">X</dfn>".toList⟩] = some (.aka exS "Map".toList :: exFacts) := by
  refine (c86_section _ _ _ _ _ _ _).2 ⟨exS, some "Map".toList, exFacts, .marked (e := "The ".toList ++ "Map".toList ++ " ".toList ++ "constructor".toList ++ ":".toList)
    (.one (.inr rfl) (.inr (.inr ⟨'M', "ap".toList, by decide, by decide, ex_word (by decide)⟩)) (by simp [kinds]) (.inr ⟨by decide, rfl⟩)) (by decide) (by decide) (by decide) (by decide)
    ⟨" id=\"map\"".toList, ⟨by decide, by decide⟩, ?_, by decide⟩, ex_items, rfl, ?_⟩
  · intro c hc
    obtain rfl : ' ' = c := by simpa using hc
    rw [not_word_char]; rfl
  · intro b hb
    simp only [List.mem_cons, List.not_mem_nil, or_false] at hb
    rcases hb with rfl | rfl
    · exact .inr (.inr rfl)
    · exact .inl ⟨rfl, .operation⟩

example : ∃ s e, Subject ("The ".toList ++ "Map".toList ++ " ".toList ++ "Constructor".toList) s e ∧ ∀ f ∈ Fact.aka exS "Map".toList :: exFacts, About s f :=
  c86_about _ _ _ _ _ _ _ ex_section

/-- An attribute given twice is read twice; a value with `, ` in it is an error. -/
example : attrFields "{ [[A]]: x, [[B]]: y, [[A]]: z }".toList = some [("[[A]]".toList, "x".toList), ("[[B]]".toList, "y".toList), ("[[A]]".toList, "z".toList)] ∧
    attrFields "{ [[A]]: x, y }".toList = none := by decide +kernel

/-- The first sentence has to name what the title names. -/
example : intro "The Global Object".toList "The global object:".toList = some ("the global object".toList, []) ∧
    intro "The Map Constructor".toList "The Set constructor:".toList = none ∧
    intro "Properties of the _TypedArray_ Constructors".toList "Each _TypedArray_ constructor:".toList = some ("each _TypedArray_ constructor".toList, []) := by decide +kernel

end Verif.Objs
