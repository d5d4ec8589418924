import Verif.Tables.Model
/-!
# What a table says
-/
namespace Verif.Tables
open Verif.HTML (Str Node litName)
open Verif.Validate (nStart nStop nName nAttrs nInner nKids slice)
open Verif.Ids (attr preorder)

variable (cfg : Cfg)

/-- `t` is `s` without the white space around it. -/
def Stripped (s t : Str) : Prop :=
  ∃ a b, s = a ++ t ++ b ∧ (∀ c ∈ a, cfg.space c = true) ∧ (∀ c ∈ b, cfg.space c = true) ∧
    (∀ c r, t = c :: r → cfg.space c = false) ∧ (∀ c r, t = r ++ [c] → cfg.space c = false)

/-- Text that is white space and not empty. -/
def White (n : Node) : Prop :=
  nName n = litName ∧ slice cfg.text (nStart n) (nStop n) ≠ [] ∧ ∀ c ∈ slice cfg.text (nStart n) (nStop n), cfg.space c = true

/-! ## Marked-up text -/

/-- A backslash stands for the next character, unless that is a line end. -/
inductive Unescaped : Str → Str → Prop
  | nil : Unescaped [] []
  | esc {c s t} : c ≠ '\n' → Unescaped s t → Unescaped ('\\' :: c :: s) (c :: t)
  | keep {c s t} : (c = '\\' → s = [] ∨ ∃ q, s = '\n' :: q) → Unescaped s t → Unescaped (c :: s) (c :: t)

/-- The entities for angle brackets, all at once. -/
inductive Decoded : Str → Str → Prop
  | nil : Decoded [] []
  | lt {s t} : Decoded s t → Decoded ("&lt;".toList ++ s) ('<' :: t)
  | gt {s t} : Decoded s t → Decoded ("&gt;".toList ++ s) ('>' :: t)
  | keep {c s t} : (¬ ∃ q, c :: s = "&lt;".toList ++ q) → (¬ ∃ q, c :: s = "&gt;".toList ++ q) → Decoded s t → Decoded (c :: s) (c :: t)

/-- The text between backquotes, if the text is quoted as a whole. -/
def Body (s b : Str) : Prop := (s = '`' :: b ++ ['`'] ∧ '`' ∉ b) ∨ (s = b ∧ ¬ ∃ m, s = '`' :: m ++ ['`'] ∧ '`' ∉ m)

/-- What a cell says. -/
def Means (s t : Str) : Prop := ∃ b u, Body s b ∧ Unescaped b u ∧ Decoded u t

/-! ## Captions -/

/-- The caption: an attribute or an element but not both; for a table of abstract methods it may be derived from what they are of. -/
inductive Caption (t : Node) : Str → Prop
  | given {a} : attr t aType = none → attr t aCaption = some (some a) → a ≠ [] →
      ((¬ ∃ c ∈ nKids t, nName c = sCap) ∨
        ∃ c s, (nKids t).filter (fun c => nName c = sCap) = [c] ∧ inner cfg c = some s ∧ Stripped cfg s []) → Caption t a
  | element {c s e} : attr t aType = none → (¬ ∃ a, attr t aCaption = some (some a) ∧ a ≠ []) →
      (nKids t).filter (fun c => nName c = sCap) = [c] → inner cfg c = some s → Stripped cfg s e → e ≠ [] → Caption t e
  | methods {a} : attr t aType = some (some sAbstract) → (¬ ∃ c ∈ nKids t, nName c = sCap) →
      attr t aCaption = some (some a) → a ≠ [] → Caption t a
  | methodsOf {o} : attr t aType = some (some sAbstract) → (¬ ∃ c ∈ nKids t, nName c = sCap) →
      (¬ ∃ a, attr t aCaption = some (some a) ∧ a ≠ []) → attr t aOf = some (some o) → Caption t (sAbstractOf ++ o)

/-! ## Rows -/

/-- How many columns a cell takes: only in one table may it be other than one. -/
def Spans (cap : Str) (c : Node) (k : Int) : Prop :=
  (attr c aColspan = none ∧ k = 1) ∨
  ∃ v, attr c aColspan = some (some v) ∧ cfg.toInt v = some k ∧ (k = 1 ∨ cap = capImport)

/-- The texts of the columns: a cell's text once for each column it takes. -/
inductive Columns (cap : Str) : List Node → List Str → Prop
  | nil : Columns cap [] []
  | cell {c cs s t k ts} : inner cfg c = some s → Stripped cfg s t → Spans cfg cap c k → Columns cap cs ts →
      Columns cap (c :: cs) (List.replicate k.toNat t ++ ts)

/-- The cells among the children of a row; there is nothing else but white space. -/
inductive Cells : List Node → List Node → Prop
  | nil : Cells [] []
  | white {c cs ds} : White cfg c → Cells cs ds → Cells (c :: cs) ds
  | cell {c cs ds} : (nName c = sTh ∨ nName c = sTd) → Cells cs ds → Cells (c :: cs) (c :: ds)

/-- A row with its cells and the texts of its columns. -/
structure IsRow (cap : Str) (tr : Node) (cs : List Node) (ts : List Str) : Prop where
  attrs : (nAttrs tr).map (·.1) = [] ∨ (nAttrs tr).map (·.1) = ["id".toList]
  cells : Cells cfg (nKids tr) cs
  columns : Columns cfg cap cs ts

/-- A dict from the texts of the header to what the cells say.  Where two columns have the same header the later counts. -/
structure Maps (hs ts : List Str) (d : List (Str × Str)) : Prop where
  distinct : (d.map (·.1)).Nodup
  entry : ∀ k v, (k, v) ∈ d ↔ ∃ (i : Nat) (t : Str), hs[i]? = some k ∧ ts[i]? = some t ∧ Means t v ∧ ∀ (j : Nat), i < j → hs[j]? ≠ some k

/-- A data row below a header. -/
structure IsData (cap : Str) (hs : List Str) (tr : Node) (r : Row) : Prop where
  self : r.tr = tr
  row : IsRow cfg cap tr r.cells r.texts
  data : ∃ c ∈ r.cells, nName c ≠ sTh
  dict : (r.texts.length = hs.length ∧ ∃ d, r.asDict = some d ∧ Maps hs r.texts d) ∨
    (r.texts.length ≠ hs.length ∧ cap = capNumeric ∧ r.asDict = none)

/-- The rows in order. -/
inductive AllData (cap : Str) (hs : List Str) : List Node → List Row → Prop
  | nil : AllData cap hs [] []
  | cons {tr trs r rs} : IsData cfg cap hs tr r → AllData cap hs trs rs → AllData cap hs (tr :: trs) (r :: rs)

/-- One header row and then data rows; or no rows. -/
inductive IsTable (cap : Str) : List Node → Option Row → List Row → Prop
  | empty : IsTable cap [] none []
  | rows {tr trs h data} : h.tr = tr → IsRow cfg cap tr h.cells h.texts → (∀ c ∈ h.cells, nName c = sTh) → h.asDict = none →
      AllData cfg cap h.texts trs data → IsTable cap (tr :: trs) (some h) data

end Verif.Tables
