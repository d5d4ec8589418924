import Verif.Checks.Model
import Verif.Kinds.Spec
/-!
# Specification for C84 and C85

Independent of the functions of the model: what it means that right-hand sides are in order, and which tables and cells there should be.
-/
namespace Verif.Checks.Spec
open Verif.Checks (Rhs Grammar Sec Msg Table Eqn Alg)
open Verif.Kinds.Spec (Line Some')

/-! ## The order of right-hand sides -/

/-- The right-hand sides of a section that count, in order. -/
inductive Counted : List Grammar → List Rhs → Prop
  | nil : Counted [] []
  | within {g gs rs} : g.inAlg = true → Counted gs rs → Counted (g :: gs) rs
  | own {g gs rs} : g.inAlg = false → Counted gs rs → Counted (g :: gs) (g.prods.flatten ++ rs)

/-- One is defined before the other. -/
def Before (a b : Rhs) : Prop := a.doc < b.doc ∨ a.doc = b.doc ∧ ∃ x y, a.di = some x ∧ b.di = some y ∧ x < y

/-- It can be said which one is defined first. -/
def Comparable (a b : Rhs) : Prop := a.doc = b.doc → (a.di = none ↔ b.di = none)

/-- The messages for a sequence: one for each that is defined before the one just before it. -/
inductive Complaints : List Rhs → List Msg → Prop
  | nil : Complaints [] []
  | one {a} : Complaints [a] []
  | fine {a b rs ms} : Comparable b a → ¬ Before b a → Complaints (b :: rs) ms → Complaints (a :: b :: rs) ms
  | lhs {a b rs ms} : b.doc < a.doc → Complaints (b :: rs) ms → Complaints (a :: b :: rs) (.lhs b.node b.name b.doc a.doc :: ms)
  | rhs {a b rs ms} {x y : Nat} : b.doc = a.doc → b.di = some x → a.di = some y → x < y → Complaints (b :: rs) ms →
      Complaints (a :: b :: rs) (.rhs b.node b.name (some (x : Int)) (some (y : Int)) :: ms)

/-- The messages for all sections. -/
inductive AllComplaints : List Sec → List Msg → Prop
  | nil : AllComplaints [] []
  | other {s ss ms} : s.kind ≠ "syntax_directed_operation" → AllComplaints ss ms → AllComplaints (s :: ss) ms
  | sdo {s ss rs ms ns} : s.kind = "syntax_directed_operation" → (∀ g ∈ s.grammars, g.own = true) → Counted s.grammars rs → Complaints rs ms → AllComplaints ss ns →
      AllComplaints (s :: ss) (ms ++ ns)

/-! ## Tables -/

/-- One text is in another. -/
def In (x : String) (s : Str) : Prop := ∃ a b, s = a ++ x.toList ++ b

/-- The header has these columns. -/
def Columns (t : Table) (cs : List String) : Prop := t.header = cs.map String.toList

/-- The titles of columns have no semicolons in them. -/
def Plain (t : Table) : Prop := ∀ h ∈ t.header, ';' ∉ h

/-- A caption for the properties of an interface. -/
def InterfaceCaption (s : Str) : Prop :=
  ∃ a m, a ≠ [] ∧ (∀ c ∈ a, (c.isAlphanum = true ∨ c = '_') ∨ c = ' ') ∧ (m = [] ∨ m = " Required".toList ∨ m = " Optional".toList) ∧
    s = a ++ " Interface".toList ++ m ++ " Properties".toList

/-- What is asked of a table by its caption: nothing, or that it has some columns, of which one is to be parsed or none. -/
inductive Asked : Table → Option (List String × Option Nat) → Prop
  | fields {t} : In "Field" t.caption ∨ (In "Method" t.caption ∧ In "Record" t.caption) → Asked t none
  | slots {t x} : ¬ In "Field" t.caption → ¬ (In "Method" t.caption ∧ In "Record" t.caption) →
      t.caption = "Internal Slots of ".toList ++ x ∨ t.caption = "Internal Slots of ".toList ++ x ++ ['\n'] → Some' x →
      Asked t (some (["Internal Slot", "Type", "Description"], some 1))
  | methods {t} : t.caption = "Essential Internal Methods".toList ∨ t.caption = "Additional Essential Internal Methods of Function Objects".toList →
      Asked t (some (["Internal Method", "Signature", "Description"], none))
  | proxy {t} : t.caption = "Proxy Handler Methods".toList → Asked t (some (["Internal Method", "Handler Method"], none))
  | interface {t} : ¬ In "Field" t.caption → ¬ In "Method" t.caption → ¬ In "Slot" t.caption → InterfaceCaption t.caption → Asked t (some (["Property", "Value", "Requirements"], some 1))
  | attributes {t} : t.caption = "Attributes of an Object property".toList →
      Asked t (some (["Attribute Name", "Types of property for which it is present", "Value Domain", "Default Value", "Description"], some 2))
  | other {t} : ¬ In "Field" t.caption → ¬ In "Slot" t.caption → ¬ In "Method" t.caption → ¬ In "Properties" t.caption → t.caption ≠ "Attributes of an Object property".toList → Asked t none

/-- A table is right, and these are its cells that are to be parsed. -/
inductive TableOk (t : Table) : List Nat → Prop
  | free : Asked t none → TableOk t []
  | shape {cs} : Asked t (some (cs, none)) → Columns t cs → TableOk t []
  | values {cs i ns} : Asked t (some (cs, some i)) → Columns t cs → t.rows.map (fun r => r[i]?) = ns.map some → TableOk t ns

/-- All tables are right. -/
inductive TablesOk : List Table → List Nat → Prop
  | nil : TablesOk [] []
  | cons {t ts ns ms} : TableOk t ns → TablesOk ts ms → TablesOk (t :: ts) (ns ++ ms)

/-! ## Whether everything was parsed -/

/-- An equation that defines something. -/
def Defines (e : Eqn) : Prop := '=' ∈ e.text ∧ e.aoid = true

end Verif.Checks.Spec
