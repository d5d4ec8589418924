import Verif.Checks.Spec
import Verif.Kinds.TitleLemmas
import Verif.Titles.IdLemmas
/-! # Lemmas for C85 -/
namespace Verif.Checks
open Verif.Kinds (full full_iff Matches lit plus cat any dot m_cat m_cat_nil m_lit m_line m_any m_empty m_plus_chars)
open Verif.Kinds.Spec (Line Some')
open Verif.Sections (isWord)
open Verif.Titles (hasSub hasSub_iff takeWhile_all)
open Spec

theorem in_iff {x : String} {s : Str} : hasSub x.toList s = true ↔ In x s := hasSub_iff _ _

theorem slots_iff {s : Str} : (full (cat [lit "Internal Slots of ", plus dot]) s || full (cat [lit "Internal Slots of ", plus dot, lit "\n"]) s) = true ↔
    ∃ x, (s = "Internal Slots of ".toList ++ x ∨ s = "Internal Slots of ".toList ++ x ++ ['\n']) ∧ Some' x := by
  simp only [Bool.or_eq_true, full_iff, m_cat, m_cat_nil, m_lit, m_line]
  constructor
  · rintro (⟨_, _, rfl, rfl, x, _, rfl, hx, rfl⟩ | ⟨_, _, rfl, rfl, x, _, rfl, hx, _, _, rfl, rfl, rfl⟩)
    · exact ⟨x, .inl (by simp), hx⟩
    · exact ⟨x, .inr (by simp), hx⟩
  · rintro ⟨x, rfl | rfl, hx⟩
    · exact .inl ⟨_, _, rfl, rfl, x, [], by simp, hx, rfl⟩
    · exact .inr ⟨_, x ++ ['\n'], by simp, rfl, x, ['\n'], rfl, hx, _, [], by simp, rfl, rfl⟩

theorem interface_iff {s : Str} : full (cat [plus (.char (fun c => isWord c || c == ' ')), lit " Interface", any [.empty, lit " Required", lit " Optional"], lit " Properties"]) s = true ↔
    InterfaceCaption s := by
  simp only [full_iff, m_cat, m_cat_nil, m_lit, m_any, m_plus_chars, InterfaceCaption, List.mem_cons, List.not_mem_nil, or_false, exists_eq_or_imp, exists_eq_left, m_empty]
  have hc : ∀ c : Char, (isWord c || c == ' ') = true ↔ (c.isAlphanum = true ∨ c = '_') ∨ c = ' ' := by
    intro c; simp [isWord]
  simp only [hc]
  constructor
  · rintro ⟨a, _, rfl, ⟨h1, h2⟩, _, _, rfl, rfl, m, _, rfl, hm, _, _, rfl, rfl, rfl⟩
    exact ⟨a, m, h1, h2, hm, by simp⟩
  · rintro ⟨a, m, h1, h2, hm, rfl⟩
    exact ⟨a, " Interface".toList ++ (m ++ " Properties".toList), by simp, ⟨h1, h2⟩, _, _, rfl, rfl, m, " Properties".toList, rfl, hm, _, [], by simp, rfl, rfl⟩

theorem interface_has {s : Str} (h : InterfaceCaption s) : In "Properties" s := by
  obtain ⟨a, m, _, _, _, rfl⟩ := h
  exact ⟨a ++ " Interface".toList ++ m ++ [' '], [], by simp⟩

theorem cut_semi {x y r t : Str} (hx : ';' ∉ x) (hy : ';' ∉ y) (h : x ++ ';' :: r = y ++ ';' :: t) : x = y ∧ r = t := by
  have h1 := takeWhile_all (p := (· != ';')) (w := x) (r := ';' :: r) (by intro c hc; simp; rintro rfl; exact hx hc) (by simp)
  have h2 := takeWhile_all (p := (· != ';')) (w := y) (r := ';' :: t) (by intro c hc; simp; rintro rfl; exact hy hc) (by simp)
  rw [h] at h1
  have e1 := h1.1.symm.trans h2.1
  have e2 := h1.2.symm.trans h2.2
  exact ⟨e1, by simpa using e2⟩

theorem join_cons (x y : Str) (l : List Str) : "; ".toList.intercalate (x :: y :: l) = x ++ ';' :: ' ' :: "; ".toList.intercalate (y :: l) := by
  simp [List.intercalate]

theorem join_one (x : Str) : "; ".toList.intercalate [x] = x := by simp [List.intercalate]

theorem join_inj : ∀ {as bs : List Str}, (∀ a ∈ as, ';' ∉ a) → (∀ b ∈ bs, ';' ∉ b) → "; ".toList.intercalate as = "; ".toList.intercalate bs → as ≠ [] → bs ≠ [] → as = bs
  | [], _, _, _, _, h, _ => absurd rfl h
  | _, [], _, _, _, _, h => absurd rfl h
  | [a], [b], _, _, h, _, _ => by rw [join_one, join_one] at h; rw [h]
  | [a], b :: b' :: bs, ha, _, h, _, _ => by
    rw [join_one, join_cons] at h
    exact absurd (by rw [h]; simp) (ha a (by simp))
  | a :: a' :: as, [b], _, hb, h, _, _ => by
    rw [join_one, join_cons] at h
    exact absurd (by rw [← h]; simp) (hb b (by simp))
  | a :: a' :: as, b :: b' :: bs, ha, hb, h, _, _ => by
    rw [join_cons, join_cons] at h
    obtain ⟨e1, e2⟩ := cut_semi (ha a (by simp)) (hb b (by simp)) h
    simp only [List.cons.injEq, true_and] at e2
    rw [e1, join_inj (fun x hx => ha x (List.mem_cons_of_mem _ hx)) (fun x hx => hb x (List.mem_cons_of_mem _ hx)) e2 (by simp) (by simp)]

theorem header_iff {t : Table} (hp : Plain t) {cs : List String} {line : String} (hl : line.toList = "; ".toList.intercalate (cs.map String.toList))
    (hc : ∀ c ∈ cs, ';' ∉ c.toList) (hne : cs ≠ []) (hn : line.toList ≠ []) : headerLine t = line.toList ↔ Columns t cs := by
  unfold headerLine Columns
  rw [hl]
  constructor
  · intro h
    refine join_inj hp ?_ h ?_ (by simpa using hne)
    · intro b hb
      obtain ⟨c, hm, rfl⟩ := List.mem_map.mp hb
      exact hc c hm
    · rintro e
      rw [e] at h
      rw [hl, ← h] at hn
      exact hn rfl
  · intro h; rw [h]

theorem column_iff {t : Table} {i : Nat} (hi : i < t.header.length) {ns : List Nat} : column t i = some ns ↔ t.rows.map (fun r => r[i]?) = ns.map some := by
  unfold column
  simp only [hi, if_true]
  induction t.rows generalizing ns with
  | nil => cases ns <;> simp
  | cons r rs ih =>
    rw [List.mapM_cons]
    cases e : r[i]? with
    | none => cases ns <;> simp [e]
    | some n =>
      cases ns with
      | nil => cases List.mapM (fun r => r[i]?) rs <;> simp [e]
      | cons m ns =>
        have := ih (ns := ns)
        simp only [List.map_cons, e, List.cons.injEq, Option.some.injEq]
        rw [← this]
        cases List.mapM (fun r => r[i]?) rs with
        | none => simp
        | some x => simp

theorem columns_length {t : Table} {cs : List String} (h : Columns t cs) : t.header.length = cs.length := by
  rw [h, List.length_map]

/-- The captions that are spelled out. -/
theorem not_in {x : String} {s : Str} (h : hasSub x.toList s = false) : ¬ In x s := fun hi => by rw [in_iff.mpr hi] at h; cases h

theorem caption_slots {x s : Str} (h : s = "Internal Slots of ".toList ++ x ∨ s = "Internal Slots of ".toList ++ x ++ ['\n']) : In "Slot" s := by
  rcases h with rfl | rfl
  · exact ⟨"Internal ".toList, "s of ".toList ++ x, by simp⟩
  · exact ⟨"Internal ".toList, "s of ".toList ++ x ++ ['\n'], by simp⟩

theorem asked_fields {t : Table} (h : In "Field" t.caption ∨ (In "Method" t.caption ∧ In "Record" t.caption)) {o : Option (List String × Option Nat)} (ha : Asked t o) : o = none := by
  cases ha with
  | fields => rfl
  | slots h1 h2 => exact absurd h (by simp [h1, h2])
  | methods hc =>
    exfalso
    rcases hc with hc | hc <;> rw [hc] at h <;> rcases h with h | ⟨_, h⟩ <;> revert h <;> exact not_in (by decide +kernel)
  | proxy hc =>
    exfalso
    rw [hc] at h; rcases h with h | ⟨_, h⟩ <;> revert h <;> exact not_in (by decide +kernel)
  | interface h1 h2 => exact absurd h (by simp [h1, h2])
  | attributes hc =>
    exfalso
    rw [hc] at h; rcases h with h | ⟨_, h⟩ <;> revert h <;> exact not_in (by decide +kernel)
  | other => rfl

theorem asked_slots {t : Table} (h : ¬ (In "Field" t.caption ∨ (In "Method" t.caption ∧ In "Record" t.caption))) (hs : In "Slot" t.caption)
    {o : Option (List String × Option Nat)} (ha : Asked t o) : o = some (["Internal Slot", "Type", "Description"], some 1) ∧
    ∃ x, (t.caption = "Internal Slots of ".toList ++ x ∨ t.caption = "Internal Slots of ".toList ++ x ++ ['\n']) ∧ Some' x := by
  cases ha with
  | fields h' => exact absurd h' h
  | slots _ _ h3 h4 => exact ⟨rfl, _, h3, h4⟩
  | methods hc =>
    exfalso
    rcases hc with hc | hc <;> rw [hc] at hs <;> revert hs <;> exact not_in (by decide +kernel)
  | proxy hc => exfalso; rw [hc] at hs; revert hs; exact not_in (by decide +kernel)
  | interface _ _ h3 => exact absurd hs h3
  | attributes hc => exfalso; rw [hc] at hs; revert hs; exact not_in (by decide +kernel)
  | other _ h2 => exact absurd hs h2

theorem asked_methods {t : Table} (h : ¬ (In "Field" t.caption ∨ (In "Method" t.caption ∧ In "Record" t.caption))) (hs : ¬ In "Slot" t.caption) (hm : In "Method" t.caption)
    {o : Option (List String × Option Nat)} (ha : Asked t o) :
    (o = some (["Internal Method", "Signature", "Description"], none) ∧
      (t.caption = "Essential Internal Methods".toList ∨ t.caption = "Additional Essential Internal Methods of Function Objects".toList)) ∨
    (o = some (["Internal Method", "Handler Method"], none) ∧ t.caption = "Proxy Handler Methods".toList) := by
  cases ha with
  | fields h' => exact absurd h' h
  | slots _ _ h3 => exact absurd (caption_slots h3) hs
  | methods hc => exact .inl ⟨rfl, hc⟩
  | proxy hc => exact .inr ⟨rfl, hc⟩
  | interface _ h2 => exact absurd hm h2
  | attributes hc => exfalso; rw [hc] at hm; revert hm; exact not_in (by decide +kernel)
  | other _ _ h3 => exact absurd hm h3

theorem asked_properties {t : Table} (h : ¬ (In "Field" t.caption ∨ (In "Method" t.caption ∧ In "Record" t.caption))) (hs : ¬ In "Slot" t.caption) (_hm : ¬ In "Method" t.caption)
    (hp : In "Properties" t.caption) {o : Option (List String × Option Nat)} (ha : Asked t o) :
    o = some (["Property", "Value", "Requirements"], some 1) ∧ InterfaceCaption t.caption := by
  cases ha with
  | fields h' => exact absurd h' h
  | slots _ _ h3 => exact absurd (caption_slots h3) hs
  | methods hc =>
    exfalso
    rcases hc with hc | hc <;> rw [hc] at hp <;> revert hp <;> exact not_in (by decide +kernel)
  | proxy hc => exfalso; rw [hc] at hp; revert hp; exact not_in (by decide +kernel)
  | interface _ _ _ h4 => exact ⟨rfl, h4⟩
  | attributes hc => exfalso; rw [hc] at hp; revert hp; exact not_in (by decide +kernel)
  | other _ _ _ h4 => exact absurd hp h4

theorem asked_rest {t : Table} (h : ¬ (In "Field" t.caption ∨ (In "Method" t.caption ∧ In "Record" t.caption))) (hs : ¬ In "Slot" t.caption) (hm : ¬ In "Method" t.caption)
    (hp : ¬ In "Properties" t.caption) {o : Option (List String × Option Nat)} (ha : Asked t o) :
    (t.caption = "Attributes of an Object property".toList ∧
      o = some (["Attribute Name", "Types of property for which it is present", "Value Domain", "Default Value", "Description"], some 2)) ∨
    (t.caption ≠ "Attributes of an Object property".toList ∧ o = none) := by
  cases ha with
  | fields h' => exact absurd h' h
  | slots _ _ h3 => exact absurd (caption_slots h3) hs
  | methods hc =>
    exfalso
    rcases hc with hc | hc <;> rw [hc] at hm <;> exact hm (in_iff.mp (by decide +kernel))
  | proxy hc => exfalso; rw [hc] at hm; exact hm (in_iff.mp (by decide +kernel))
  | interface _ _ _ h4 => exact absurd (interface_has h4) hp
  | attributes hc => exact .inl ⟨hc, rfl⟩
  | other _ _ _ _ h5 => exact .inr ⟨h5, rfl⟩

theorem ok_none {t : Table} {ns : List Nat} (hu : ∀ o, Asked t o → o = none) (ha : Asked t none) : TableOk t ns ↔ ns = [] := by
  constructor
  · intro h
    cases h with
    | free => rfl
    | shape h => cases hu _ h
    | values h => cases hu _ h
  · rintro rfl; exact .free ha

theorem ok_shape {t : Table} {ns : List Nat} {cs : List String} (hu : ∀ o, Asked t o → o = some (cs, none)) (ha : Asked t (some (cs, none))) :
    TableOk t ns ↔ Columns t cs ∧ ns = [] := by
  constructor
  · intro h
    cases h with
    | free h => cases hu _ h
    | shape h hc => cases hu _ h; exact ⟨hc, rfl⟩
    | values h => cases hu _ h
  · rintro ⟨hc, rfl⟩; exact .shape ha hc

theorem ok_values {t : Table} {ns : List Nat} {cs : List String} {i : Nat} (hu : ∀ o, Asked t o → o = some (cs, some i)) (ha : Asked t (some (cs, some i))) (hi : i < cs.length) :
    TableOk t ns ↔ Columns t cs ∧ column t i = some ns := by
  constructor
  · intro h
    cases h with
    | free h => cases hu _ h
    | shape h => cases hu _ h
    | values h hc hr => cases hu _ h; exact ⟨hc, (column_iff (by rw [columns_length hc]; exact hi)).mpr hr⟩
  · rintro ⟨hc, hr⟩; exact .values ha hc ((column_iff (by rw [columns_length hc]; exact hi)).mp hr)

theorem ok_never {t : Table} {ns : List Nat} (hu : ∀ o, ¬ Asked t o) : ¬ TableOk t ns := by
  intro h
  cases h with
  | free h => exact hu _ h
  | shape h => exact hu _ h
  | values h => exact hu _ h

theorem table_iff {t : Table} (hp : Plain t) {ns : List Nat} : checkTable t = some ns ↔ TableOk t ns := by
  unfold checkTable
  by_cases h : In "Field" t.caption ∨ (In "Method" t.caption ∧ In "Record" t.caption)
  · rw [if_pos (by simpa only [Bool.or_eq_true, Bool.and_eq_true, in_iff] using h)]
    rw [ok_none (fun o => asked_fields h) (.fields h)]
    simp [eq_comm]
  · rw [if_neg (by simpa only [Bool.or_eq_true, Bool.and_eq_true, in_iff] using h)]
    have h1 : ¬ In "Field" t.caption := fun h' => h (.inl h')
    have h2 : ¬ (In "Method" t.caption ∧ In "Record" t.caption) := fun h' => h (.inr h')
    by_cases hs : In "Slot" t.caption
    · rw [if_pos (in_iff.mpr hs)]
      by_cases hx : ∃ x, (t.caption = "Internal Slots of ".toList ++ x ∨ t.caption = "Internal Slots of ".toList ++ x ++ ['\n']) ∧ Some' x
      · rw [if_pos (slots_iff.mpr hx)]
        obtain ⟨x, hx1, hx2⟩ := hx
        rw [ok_values (fun o ha => (asked_slots h hs ha).1) (.slots h1 h2 hx1 hx2) (by simp)]
        rw [← header_iff hp (line := "Internal Slot; Type; Description") (by decide +kernel) (by decide +kernel) (by simp) (by simp)]
        by_cases hh : headerLine t = "Internal Slot; Type; Description".toList
        · rw [if_pos hh]; simp [hh]
        · rw [if_neg hh]; exact iff_of_false (by simp) (fun h => hh h.1)
      · rw [if_neg (fun h => hx (slots_iff.mp h))]
        refine iff_of_false (by simp) (ok_never fun o ha => hx (asked_slots h hs ha).2)
    · rw [if_neg (fun h => hs (in_iff.mp h))]
      by_cases hm : In "Method" t.caption
      · rw [if_pos (in_iff.mpr hm)]
        by_cases hi : In "Internal Methods" t.caption
        · rw [if_pos (in_iff.mpr hi)]
          have hnp : t.caption ≠ "Proxy Handler Methods".toList := by
            intro hc; rw [hc] at hi; revert hi; exact not_in (by decide +kernel)
          by_cases hc : t.caption = "Essential Internal Methods".toList ∨ t.caption = "Additional Essential Internal Methods of Function Objects".toList
          · rw [ok_shape (cs := ["Internal Method", "Signature", "Description"]) (fun o ha => by
              rcases asked_methods h hs hm ha with h | h
              · exact h.1
              · exact absurd h.2 hnp) (.methods hc)]
            rw [← header_iff hp (line := "Internal Method; Signature; Description") (by decide +kernel) (by decide +kernel) (by simp) (by simp)]
            by_cases hh : headerLine t = "Internal Method; Signature; Description".toList
            · rw [if_pos ⟨hc, hh⟩]; simp [hh, eq_comm]
            · rw [if_neg (fun h => hh h.2)]; exact iff_of_false (by simp) (fun h => hh h.1)
          · rw [if_neg (fun h => hc h.1)]
            refine iff_of_false (by simp) (ok_never fun o ha => ?_)
            rcases asked_methods h hs hm ha with h | h
            · exact hc h.2
            · exact hnp h.2
        · rw [if_neg (fun h => hi (in_iff.mp h))]
          have hne : ¬ (t.caption = "Essential Internal Methods".toList ∨ t.caption = "Additional Essential Internal Methods of Function Objects".toList) := by
            rintro (hc | hc) <;> rw [hc] at hi <;> exact hi (in_iff.mp (by decide +kernel))
          by_cases hc : t.caption = "Proxy Handler Methods".toList
          · rw [if_pos hc]
            rw [ok_shape (cs := ["Internal Method", "Handler Method"]) (fun o ha => by
              rcases asked_methods h hs hm ha with h | h
              · exact absurd h.2 hne
              · exact h.1) (.proxy hc)]
            rw [← header_iff hp (line := "Internal Method; Handler Method") (by decide +kernel) (by decide +kernel) (by simp) (by simp)]
            by_cases hh : headerLine t = "Internal Method; Handler Method".toList
            · rw [if_pos hh]; simp [hh, eq_comm]
            · rw [if_neg hh]; exact iff_of_false (by simp) (fun h => hh h.1)
          · rw [if_neg hc]
            refine iff_of_false (by simp) (ok_never fun o ha => ?_)
            rcases asked_methods h hs hm ha with h | h
            · exact hne h.2
            · exact hc h.2
      · rw [if_neg (fun h => hm (in_iff.mp h))]
        by_cases hq : In "Properties" t.caption
        · rw [if_pos (in_iff.mpr hq)]
          by_cases hc : InterfaceCaption t.caption
          · rw [ok_values (fun o ha => (asked_properties h hs hm hq ha).1) (.interface h1 hm hs hc) (by simp)]
            rw [← header_iff hp (line := "Property; Value; Requirements") (by decide +kernel) (by decide +kernel) (by simp) (by simp)]
            by_cases hh : headerLine t = "Property; Value; Requirements".toList
            · rw [if_pos (by simp only [Bool.and_eq_true, beq_iff_eq]; exact ⟨interface_iff.mpr hc, hh⟩)]; simp [hh]
            · rw [if_neg (by simp only [Bool.and_eq_true, beq_iff_eq]; exact fun h => hh h.2)]; exact iff_of_false (by simp) (fun h => hh h.1)
          · rw [if_neg (by simp only [Bool.and_eq_true, beq_iff_eq]; exact fun h => hc (interface_iff.mp h.1))]
            exact iff_of_false (by simp) (ok_never fun o ha => hc (asked_properties h hs hm hq ha).2)
        · rw [if_neg (fun h => hq (in_iff.mp h))]
          by_cases hc : t.caption = "Attributes of an Object property".toList
          · rw [if_pos hc]
            rw [ok_values (cs := ["Attribute Name", "Types of property for which it is present", "Value Domain", "Default Value", "Description"]) (i := 2) (fun o ha => by
              rcases asked_rest h hs hm hq ha with h | h
              · exact h.2
              · exact absurd hc h.1) (.attributes hc) (by simp)]
            rw [← header_iff hp (line := "Attribute Name; Types of property for which it is present; Value Domain; Default Value; Description")
              (by decide +kernel) (by decide +kernel) (by simp) (by simp)]
            by_cases hh : headerLine t = "Attribute Name; Types of property for which it is present; Value Domain; Default Value; Description".toList
            · rw [if_pos hh]; simp [hh]
            · rw [if_neg hh]; exact iff_of_false (by simp) (fun h => hh h.1)
          · rw [if_neg hc]
            rw [ok_none (fun o ha => by
              rcases asked_rest h hs hm hq ha with h | h
              · exact absurd h.1 hc
              · exact h.2) (.other h1 hs hm hq hc)]
            simp [eq_comm]

theorem tables_iff : ∀ {ts : List Table} {ns : List Nat}, (∀ t ∈ ts, Plain t) → (checkTables ts = some ns ↔ TablesOk ts ns)
  | [], ns, _ => by
    unfold checkTables
    constructor
    · intro h
      simp at h
      rw [h]; exact .nil
    · intro h; cases h; rfl
  | t :: ts, ns, h => by
    have ih := fun ns => tables_iff (ts := ts) (ns := ns) fun t ht => h t (List.mem_cons_of_mem _ ht)
    have ht := fun ns => table_iff (t := t) (h t (by simp)) (ns := ns)
    unfold checkTables at ih ⊢
    rw [List.mapM_cons]
    constructor
    · intro hc
      cases e1 : checkTable t with
      | none => simp [e1] at hc
      | some x =>
        cases e2 : ts.mapM checkTable with
        | none => simp [e1, e2] at hc
        | some xs =>
          simp [e1, e2] at hc
          subst hc
          exact .cons ((ht _).mp e1) ((ih _).mp (by rw [e2]; rfl))
    · intro hc
      cases hc with
      | cons h1 h2 =>
        have e1 := (ht _).mpr h1
        obtain ⟨xs, e2, rfl⟩ := Option.map_eq_some_iff.mp ((ih _).mpr h2)
        simp [e1, e2]

end Verif.Checks
