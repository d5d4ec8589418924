import Verif.Checks.OrderLemmas
import Verif.Checks.TableLemmas
/-! # C84 and C85: checks that go through the whole document -/
namespace Verif.Checks
open Spec

/-! ## C84 -/

/-- The check succeeds if and only if it can always be said which right-hand side is defined first, and no grammar belongs to a nested section; then there is a message for each right-hand side
that is defined before the one just before it in its section, in order, and no other. -/
theorem c84_order (ss : List Sec) (ms : List Msg) : checkOrder ss = some ms ↔ AllComplaints ss ms := order_iff

/-- If all right-hand sides are numbered, there is no message just if they are in the order of their definitions, from the first to the last of each section. -/
theorem c84_quiet (rs : List Rhs) (h : ∀ r ∈ rs, r.di ≠ none) : Complaints rs [] ↔ rs.Pairwise (fun a b => ¬ Before b a) := quiet_iff h

/-- A right-hand side that matches no definition, next to one of the same production that does, stops the whole check. -/
theorem c84_stops (s : Sec) (ss : List Sec) (rs ts : List Rhs) (a b : Rhs) (hs : s ∈ ss) (hk : s.kind = "syntax_directed_operation")
    (hc : Counted s.grammars (rs ++ a :: b :: ts)) (hd : a.doc = b.doc) (hn : ¬ (a.di = none ↔ b.di = none)) : checkOrder ss = none := by
  have hno : ∀ (rs : List Rhs) (ms : List Msg), ¬ Complaints (rs ++ a :: b :: ts) ms := by
    intro rs
    induction rs with
    | nil =>
      intro ms h
      cases h with
      | fine hc => exact hn (hc hd.symm).symm
      | lhs h => omega
      | rhs _ hx hy => exact hn (by simp [hx, hy])
    | cons r rs ih =>
      intro ms h
      cases rs with
      | nil =>
        cases h with
        | fine _ _ h => exact ih _ h
        | lhs _ h => exact ih _ h
        | rhs _ _ _ _ h => exact ih _ h
      | cons r' rs =>
        cases h with
        | fine _ _ h => exact ih _ h
        | lhs _ h => exact ih _ h
        | rhs _ _ _ _ h => exact ih _ h
  have hu : ∀ {gs : List Grammar} {x y : List Rhs}, Counted gs x → Counted gs y → x = y := by
    intro gs x y hx
    induction hx generalizing y with
    | nil => intro hy; cases hy; rfl
    | within hg _ ih =>
      intro hy
      cases hy with
      | within _ hy => exact ih hy
      | own hg' _ => rw [hg] at hg'; cases hg'
    | own hg _ ih =>
      intro hy
      cases hy with
      | within hg' _ => rw [hg] at hg'; cases hg'
      | own _ hy => rw [ih hy]
  cases e : checkOrder ss with
  | none => rfl
  | some ms =>
    exfalso
    have h := order_iff.mp e
    clear e
    induction h with
    | nil => cases hs
    | other hk' _ ih =>
      rcases List.mem_cons.mp hs with rfl | hs
      · exact hk' hk
      · exact ih hs
    | sdo _ _ hc' hx _ ih =>
      rcases List.mem_cons.mp hs with rfl | hs
      · rw [hu hc' hc] at hx
        exact hno _ _ hx
      · exact ih hs

def exRhs (n d : Nat) (i : Option Nat) : Rhs := ⟨n, "Statement", d, i⟩

/-- Two grammars, and one in an algorithm, which does not count. -/
def exSec : Sec := ⟨"syntax_directed_operation", [⟨true, false, [[exRhs 1 4 (some 0), exRhs 2 4 (some 2)], [exRhs 3 4 (some 1)]]⟩,
  ⟨true, true, [[exRhs 4 0 (some 0)]]⟩, ⟨true, false, [[exRhs 5 4 (some 1), exRhs 6 2 (some 7), exRhs 7 5 none]]⟩]⟩

example : checkOrder [exSec] = some [.rhs 3 "Statement" (some 1) (some 2), .lhs 6 "Statement" 2 4] := by decide +kernel

example : AllComplaints [exSec] [.rhs 3 "Statement" (some 1) (some 2), .lhs 6 "Statement" 2 4] := (c84_order _ _).mp (by decide +kernel)

example : (∀ r ∈ [exRhs 1 4 (some 0), exRhs 2 4 (some 0), exRhs 3 5 (some 0)], r.di ≠ none) ∧ Complaints [exRhs 1 4 (some 0), exRhs 2 4 (some 0), exRhs 3 5 (some 0)] [] := by
  have h : ∀ r ∈ [exRhs 1 4 (some 0), exRhs 2 4 (some 0), exRhs 3 5 (some 0)], r.di ≠ none := by decide
  exact ⟨h, (c84_quiet _ h).mpr (by simp [Before, exRhs])⟩

/-- The hypotheses of `c84_stops`. -/
example : Counted [⟨true, false, [[exRhs 1 4 (some 0), exRhs 2 4 none]]⟩] ([] ++ exRhs 1 4 (some 0) :: exRhs 2 4 none :: []) ∧
    (exRhs 1 4 (some 0)).doc = (exRhs 2 4 none).doc ∧ ¬ ((exRhs 1 4 (some 0)).di = none ↔ (exRhs 2 4 none).di = none) ∧
    checkOrder [⟨"syntax_directed_operation", [⟨true, false, [[exRhs 1 4 (some 0), exRhs 2 4 none]]⟩]⟩] = none :=
  ⟨.own (g := ⟨true, false, [[exRhs 1 4 (some 0), exRhs 2 4 none]]⟩) rfl .nil, rfl, by simp [exRhs], by decide +kernel⟩

/-! ## C85 -/

/-- If no title of a column has a semicolon, the tables pass if and only if each has the columns that its caption asks for; and the cells that are parsed are just those of the column
with values in each row. -/
theorem c85_tables (ts : List Table) (hp : ∀ t ∈ ts, Plain t) (ns : List Nat) : checkTables ts = some ns ↔ TablesOk ts ns := tables_iff hp

/-- What is asked of a table depends on its caption only, and is one thing at most. -/
theorem c85_asked (t u : Table) (h : t.caption = u.caption) (o p : Option (List String × Option Nat)) (ht : Asked t o) (hu : Asked u p) : o = p := by
  have hu' : Asked t p := by
    cases hu with
    | fields h' => rw [← h] at h'; exact .fields h'
    | slots h1 h2 h3 h4 => rw [← h] at h1 h2 h3; exact .slots h1 h2 h3 h4
    | methods h' => rw [← h] at h'; exact .methods h'
    | proxy h' => rw [← h] at h'; exact .proxy h'
    | interface h1 h2 h3 h4 => rw [← h] at h1 h2 h3 h4; exact .interface h1 h2 h3 h4
    | attributes h' => rw [← h] at h'; exact .attributes h'
    | other h1 h2 h3 h4 h5 => rw [← h] at h1 h2 h3 h4 h5; exact .other h1 h2 h3 h4 h5
  by_cases h1 : In "Field" t.caption ∨ (In "Method" t.caption ∧ In "Record" t.caption)
  · rw [asked_fields h1 ht, asked_fields h1 hu']
  by_cases h2 : In "Slot" t.caption
  · rw [(asked_slots h1 h2 ht).1, (asked_slots h1 h2 hu').1]
  by_cases h3 : In "Method" t.caption
  · rcases asked_methods h1 h2 h3 ht with ⟨a, b⟩ | ⟨a, b⟩ <;> rcases asked_methods h1 h2 h3 hu' with ⟨c, d⟩ | ⟨c, d⟩
    · rw [a, c]
    · rw [d] at b; exact absurd b (by decide)
    · rw [b] at d; exact absurd d (by decide)
    · rw [a, c]
  by_cases h4 : In "Properties" t.caption
  · rw [(asked_properties h1 h2 h3 h4 ht).1, (asked_properties h1 h2 h3 h4 hu').1]
  rcases asked_rest h1 h2 h3 h4 ht with ⟨a, b⟩ | ⟨a, b⟩ <;> rcases asked_rest h1 h2 h3 h4 hu' with ⟨c, d⟩ | ⟨c, d⟩
  · rw [b, d]
  · exact absurd a c
  · exact absurd c a
  · rw [b, d]

/-- The equations pass if and only if those that define something are parsed, in clauses of no special kind, and the others are not. -/
theorem c85_equations (es : List Eqn) : eqnsOk es = true ↔ ∀ e ∈ es, (e.parsed = true ↔ Defines e) ∧ (Defines e → e.parent = "emu-clause" ∧ e.parentKind = "catchall") := by
  unfold eqnsOk
  rw [List.all_eq_true]
  refine forall_congr' fun e => imp_congr Iff.rfl ?_
  unfold eqnOk Defines
  by_cases h1 : '=' ∈ e.text
  · rw [if_neg (by simpa using h1)]
    cases h2 : e.aoid <;> cases h3 : e.parsed <;> simp [h1]
  · rw [if_pos h1]
    cases h3 : e.parsed <;> simp [h1]

/-- The algorithms pass if and only if all are parsed, and are in clauses, annexes, notes, cells or items. -/
theorem c85_algorithms (as : List Alg) : algsOk as = true ↔
    ∀ a ∈ as, a.parsed = true ∧ (a.parent = "emu-clause" ∨ a.parent = "emu-annex" ∨ a.parent = "emu-note" ∨ a.parent = "td" ∨ a.parent = "li") := by
  unfold algsOk
  simp only [List.all_eq_true, Bool.and_eq_true, List.contains_iff_mem, List.mem_cons, List.not_mem_nil, or_false]
  exact forall_congr' fun a => imp_congr Iff.rfl and_comm

def exTable : Table := ⟨"Internal Slots of Foos".toList, ["Internal Slot".toList, "Type".toList, "Description".toList], [[1, 2, 3], [4, 5, 6]]⟩

theorem exPlain : ∀ t ∈ [exTable], Plain t := by
  have h : ∀ h ∈ exTable.header, ';' ∉ h := by decide +kernel
  intro t ht
  cases List.mem_singleton.mp ht
  exact h

example : (∀ t ∈ [exTable], Plain t) ∧ checkTables [exTable] = some [2, 5] ∧ checkTables [{ exTable with caption := "Slots".toList }] = none ∧
    checkTables [{ exTable with caption := "Other things".toList }] = some [] ∧ checkTables [{ exTable with header := [] }] = none ∧
    checkTables [⟨"IteratorResult Interface Properties".toList, ["Property".toList, "Value".toList, "Requirements".toList], [[7, 8]]⟩] = some [8] := by
  refine ⟨exPlain, by decide +kernel, by decide +kernel, by decide +kernel, by decide +kernel, by decide +kernel⟩

example : TablesOk [exTable] [2, 5] := (c85_tables _ exPlain _).mp (by decide +kernel)

/-- Without the hypothesis of `c85_tables`: two columns that look like three. -/
example : checkTables [{ exTable with header := ["Internal Slot; Type".toList, "Description".toList] }] = some [2, 5] := by decide +kernel

example : Asked exTable (some (["Internal Slot", "Type", "Description"], some 1)) := by
  refine .slots (x := "Foos".toList) (not_in (by decide +kernel)) (fun h => not_in (x := "Method") (by decide +kernel) h.1) (.inl (by decide +kernel)) ⟨by simp, by simp [Kinds.Spec.Line]⟩

example : eqnsOk [⟨"f(_x_) = 1".toList, true, "emu-clause", "catchall", true⟩, ⟨"1 = 1".toList, false, "p", "", false⟩] = true ∧
    eqnsOk [⟨"f(_x_) = 1".toList, true, "emu-clause", "catchall", false⟩] = false ∧ algsOk [⟨"td", true⟩] = true ∧ algsOk [⟨"p", true⟩] = false := by decide +kernel

end Verif.Checks
