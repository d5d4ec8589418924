import Verif.Wki.Lemmas
/-! # C82: the tables of well-known intrinsics, and what is checked against them -/
namespace Verif.Wki
open Verif.Paths.Spec (Word)
open Spec

/-! ## The tables -/

/-- Reading the tables succeeds if and only if they have the right captions and columns, and all rows are correct and have different names; then the intrinsics that are known are those of
the rows, and the properties of the global object are those of the rows with a second column. -/
theorem c82_tables (ts : List Table) (k : Known) : tables ⟨[], [], []⟩ ts = some k ↔
    (∀ t ∈ ts, TableOk t) ∧ ∃ ns, RowsOk (ts.flatMap Table.rows) ns ∧ (ns.map Prod.fst).Nodup ∧
      k.names = ns.map (fun n => "%".toList ++ n.1 ++ "%".toList) ∧ k.globals = (ns.filter (fun n => n.2)).map Prod.fst ∧
      k.others = (ns.filter (fun n => !n.2)).map (fun n => "%".toList ++ n.1 ++ "%".toList) := by
  rw [tables_iff (by simp) (by simp)]
  refine and_congr Iff.rfl (exists_congr fun ns => and_congr Iff.rfl ?_)
  obtain ⟨h1, h2, h3⟩ := withAll_eq ns ⟨[], [], []⟩
  simp only [List.nil_append] at h1 h2 h3
  have hinj : ∀ a b : Str, "%".toList ++ a ++ "%".toList = "%".toList ++ b ++ "%".toList → a = b := by
    intro a b h
    rw [List.append_cancel_right_eq, List.append_cancel_left_eq] at h
    exact h
  have hnd : (ns.map (fun n => "%".toList ++ n.1 ++ "%".toList)).Nodup ↔ (ns.map Prod.fst).Nodup := by
    unfold List.Nodup
    rw [List.pairwise_map, List.pairwise_map]
    constructor
    · exact List.Pairwise.imp fun h e => h (by rw [e])
    · exact List.Pairwise.imp fun h e => h (hinj _ _ e)
  rw [h1, hnd]
  refine and_congr Iff.rfl ⟨?_, ?_⟩
  · rintro rfl; exact ⟨h1, h2, h3⟩
  · rintro ⟨e1, e2, e3⟩
    cases k
    simp only at e1 e2 e3
    rw [← h1] at e1
    rw [← h2] at e2
    rw [← h3] at e3
    subst e1 e2 e3
    rfl

/-- No property of the global object is listed twice, although the check for that compares different things. -/
theorem c82_globals_once (ts : List Table) (k : Known) (h : tables ⟨[], [], []⟩ ts = some k) : k.globals.Nodup ∧ k.names.Nodup := by
  obtain ⟨_, ns, _, hd, h1, h2, _⟩ := (c82_tables ts k).mp h
  rw [h1, h2]
  constructor
  · exact List.Pairwise.sublist (List.filter_sublist.map _) hd
  · have hd' : ns.Pairwise (fun a b => a.1 ≠ b.1) := List.pairwise_map.mp hd
    refine List.pairwise_map.mpr (hd'.imp fun hab e => hab ?_)
    rw [List.append_cancel_right_eq, List.append_cancel_left_eq] at e
    exact e

/-- The phrase for an intrinsic is what the last column says before the reference. -/
theorem c82_phrase (a ph : Str) : phrase a = some ph ↔ Assoc a ph := phrase_iff

def exampleTable : Table where
  caption := "Well-Known Intrinsic Objects".toList
  header := ["Intrinsic Name".toList, "Global Name".toList, "ECMAScript Language Association".toList]
  rows := [["%Array%".toList, "*\"Array\"*".toList, "The Array constructor (<emu-xref href=\"#sec-array-constructor\"></emu-xref>)".toList],
    ["%ThrowTypeError%".toList, [], "A function object that throws".toList]]

example : tables ⟨[], [], []⟩ [exampleTable] = some ⟨["%Array%".toList, "%ThrowTypeError%".toList], ["Array".toList], ["%ThrowTypeError%".toList]⟩ := by decide +kernel
example : tables ⟨[], [], []⟩ [exampleTable, exampleTable] = none := by decide +kernel
example : tables ⟨[], [], []⟩ [{ exampleTable with rows := [["%Array%".toList, "*\"Map\"*".toList, "An object that is".toList]] }] = none := by decide +kernel
example : phrase "The Array constructor (<emu-xref href=\"#sec-array-constructor\"></emu-xref>)".toList = some "the Array constructor".toList := by decide +kernel
example : RowOk ["%".toList ++ "Map".toList ++ "%".toList, [], "An object that ".toList ++ "is".toList] "Map".toList false := .plain ⟨by simp, by decide⟩ .object

/-! ## References -/

/-- What is taken for references in a text: from the left, each percent sign with something and a percent sign after it, without spaces. -/
theorem c82_refs (i : Nat) (s : Str) (rs : List (Nat × Str)) : refs 0 i s = rs ↔ Refs i s rs := refs_iff

example : refs 0 10 "see %Array% or 5% of %Map.prototype%".toList = [(14, "Array".toList), (31, "Map.prototype".toList)] := by decide +kernel

/-- There is a message at a position just if a reference is there, other than placeholders, whose intrinsic is not in the tables; it has the name of that intrinsic. -/
theorem c82_messages (names : List Str) (lits : List (Nat × Str)) (p : Nat) (t : Str) : (p, t) ∈ check names lits ↔
    ∃ l ∈ lits, ∃ rs r b, Refs l.1 l.2 rs ∧ (p, r) ∈ rs ∧ ¬ Placeholder r ∧ Base r b ∧ t = "%".toList ++ b ++ "%".toList ∧ t ∉ names := by
  unfold check
  rw [List.mem_flatMap]
  refine exists_congr fun l => and_congr Iff.rfl ?_
  rw [List.mem_filterMap]
  constructor
  · rintro ⟨⟨q, r⟩, hm, h⟩
    split at h
    · cases h
    · next hs =>
      split at h
      · cases h
      · next hn =>
        cases h
        exact ⟨_, r, _, refs_iff.mp rfl, hm, fun hp => hs (skipped_iff.mpr hp), base_iff.mp rfl, rfl, hn⟩
  · rintro ⟨rs, r, b, h1, h2, h3, h4, rfl, h5⟩
    refine ⟨(p, r), refs_iff.mpr h1 ▸ h2, ?_⟩
    simp only
    rw [if_neg (fun hs => h3 (skipped_iff.mp hs)), base_iff.mpr h4, if_neg h5]

/-- A message is at a percent sign after which there is the name that it has. -/
theorem c82_sound (names : List Str) (lits : List (Nat × Str)) (p : Nat) (t : Str) (h : (p, t) ∈ check names lits) :
    t ∉ names ∧ ∃ l ∈ lits, ∃ a r b c, RefAt l.2 a r b ∧ p = l.1 + a.length ∧ Base r c ∧ t = "%".toList ++ c ++ "%".toList := by
  obtain ⟨l, hl, rs, r, c, h1, h2, _, h4, h5, h6⟩ := (c82_messages names lits p t).mp h
  obtain ⟨a, b, hr, e⟩ := refs_sound h1 _ h2
  exact ⟨h6, l, hl, a, r, b, c, hr, e, h4, h5⟩

/-- References do not overlap, and are found in order. -/
theorem c82_ordered (i : Nat) (s : Str) : (refs 0 i s).Pairwise (fun p q => p.1 + p.2.length + 2 ≤ q.1) := refs_sorted (refs_iff.mp rfl)

/-- A reference is not missed if no percent sign is before it in its text. -/
theorem c82_not_missed (i : Nat) (s a r b : Str) (h : RefAt s a r b) (ha : '%' ∉ a) : (i + a.length, r) ∈ refs 0 i s := by
  rw [refs_at h]
  · exact List.mem_cons_self ..
  · intro a' r' b' h'
    rcases Nat.lt_or_ge a'.length a.length with hl | hl
    · exfalso
      have e := h.1.symm.trans h'.1
      have : (a ++ "%".toList ++ r ++ "%".toList ++ b)[a'.length]? = some '%' := by
        rw [e]
        simp only [List.append_assoc]
        rw [List.getElem?_append_right (Nat.le_refl _)]
        simp
      simp only [List.append_assoc] at this
      rw [List.getElem?_append_left hl] at this
      exact ha (List.mem_of_getElem? this)
    · exact hl

/-- If all intrinsics that are referred to are in the tables, there are no messages. -/
theorem c82_quiet (names : List Str) (lits : List (Nat × Str)) (h : ∀ l ∈ lits, ∀ a r b c, RefAt l.2 a r b → Base r c → "%".toList ++ c ++ "%".toList ∈ names) : check names lits = [] := by
  rw [List.eq_nil_iff_forall_not_mem]
  rintro ⟨p, t⟩ hm
  obtain ⟨hn, l, hl, a, r, b, c, hr, _, hb, rfl⟩ := c82_sound names lits p t hm
  exact hn (h l hl a r b c hr hb)

example : check ["%Array%".toList] [(0, "%Array.from% and %Foo.bar% and %name%".toList), (50, "100%".toList), (60, "%Bar%%Foo.%".toList)] =
    [(17, "%Foo%".toList), (60, "%Bar%".toList), (65, "%Foo.%".toList)] := by decide +kernel
example : RefAt "see %Map%.".toList "see ".toList "Map".toList ".".toList := ⟨by decide +kernel, by decide, by decide, by decide⟩
example : Base "Map.prototype".toList "Map".toList := .dotted (a := "Map".toList) (t := "prototype".toList) (by decide) (by decide)

/-! ## The global object -/

/-- The comparison with the section about the global object stops just if a section for a property has a title of another form. -/
theorem c82_globals_stop (secs : List Sec) (globals : List Str) : checkGlobals secs globals = none ↔ ∃ s ∈ secs, IsProp s ∧ ∀ n, ¬ Title s.title n := by
  unfold checkGlobals
  rw [Option.map_eq_none_iff, names_none]

/-- What is shown is exactly the difference, both ways, sorted and each name once. -/
theorem c82_globals (secs : List Sec) (globals a b : List Str) (h : checkGlobals secs globals = some (a, b)) :
    (a.Pairwise (· < ·) ∧ ∀ n, n ∈ a ↔ Listed secs n ∧ n ∉ globals) ∧ (b.Pairwise (· < ·) ∧ ∀ n, n ∈ b ↔ n ∈ globals ∧ ¬ Listed secs n) := by
  unfold checkGlobals at h
  obtain ⟨ns, hn, e⟩ := Option.map_eq_some_iff.mp h
  cases e
  have hl := names_some hn
  obtain ⟨h1, h2⟩ := minus_spec ns globals
  obtain ⟨h3, h4⟩ := minus_spec globals ns
  exact ⟨⟨h1, fun n => by rw [h2, hl]⟩, h3, fun n => by rw [h4, hl]⟩

example : checkGlobals [⟨"function_property".toList, "parseInt ( _string_, _radix_ )".toList, "Function Properties".toList⟩, ⟨"other_property".toList, "NaN".toList,
      "Value Properties of the Global Object".toList⟩, ⟨"group_of_properties1".toList, "Some Properties".toList, []⟩, ⟨"other_property".toList, "Atomics".toList, []⟩]
    ["JSON".toList, "Atomics".toList, "Array".toList] = some (["parseInt".toList], ["Array".toList, "JSON".toList]) := by decide +kernel
example : checkGlobals [⟨"other_property".toList, "Get it".toList, []⟩] [] = none := by decide +kernel

end Verif.Wki
