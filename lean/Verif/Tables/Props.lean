import Verif.Tables.Lemmas
import Verif.Ids.Props
/-! # C52: what tables say is read completely -/
namespace Verif.Tables
open Verif.HTML (Str Node litName)
open Verif.Validate (nStart nStop nName nAttrs nInner nKids slice)
open Verif.Ids (attr preorder)

variable (cfg : Cfg)

/-- What is found out about a table is what it says: its caption, whether its id is missing, its header and its data rows, each with the
cells, the texts of the columns, and a dict from the header. -/
theorem c52_reads (t : Node) (r : Info) (h : analyzeTable cfg t = some r) :
    Caption cfg t r.caption ∧ (r.noId = true ↔ attr t "id".toList = none) ∧
    IsTable cfg r.caption ((preorder t).filter (fun n => nName n = sTr)) r.header r.data := by
  unfold analyzeTable at h
  cases hc : captionOf cfg t with
  | none => rw [hc] at h; cases h
  | some cap =>
    simp only [hc] at h
    cases hr : rowsLoop cfg cap ((preorder t).filter (fun n => nName n = sTr)) (none, []) with
    | none => rw [hr] at h; cases h
    | some p =>
      obtain ⟨hd, data⟩ := p
      simp only [hr] at h
      injection h with h
      subst h
      exact ⟨(caption_iff t cap).1 hc, by rw [Option.isNone_iff_eq_none]; rfl, rowsLoop_spec cap _ hd data hr⟩

/-- Every table that says something is read. -/
theorem c52_finishes (t : Node) : analyzeTable cfg t ≠ none ↔
    ∃ cap hd data, Caption cfg t cap ∧ IsTable cfg cap ((preorder t).filter (fun n => nName n = sTr)) hd data := by
  constructor
  · intro h
    cases hr : analyzeTable cfg t with
    | none => exact absurd hr h
    | some r =>
      have := c52_reads cfg t r hr
      exact ⟨_, _, _, this.1, this.2.2⟩
  · rintro ⟨cap, hd, data, h1, h2⟩
    have h3 := rowsLoop_complete0 cap _ hd data h2
    unfold analyzeTable
    rw [(caption_iff t cap).2 h1]
    simp only
    cases hr : rowsLoop cfg cap ((preorder t).filter (fun n => nName n = sTr)) (none, []) with
    | none => exact absurd hr h3
    | some p => simp

/-- The caption is unique. -/
theorem c52_caption_unique (t : Node) (a b : Str) (h : Caption cfg t a) (h' : Caption cfg t b) : a = b := by
  rw [← caption_iff] at h h'
  rw [h] at h'
  injection h'

/-- In every row that has a dict, a column whose header text no later column has is found under that text. -/
theorem c52_cell (t : Node) (r : Info) (h : analyzeTable cfg t = some r) (hd : Row) (hh : r.header = some hd) (row : Row) (hr : row ∈ r.data)
    (d : List (Str × Str)) (hd' : row.asDict = some d) (i : Nat) (k : Str) (hi : hd.texts[i]? = some k)
    (hl : ∀ (j : Nat), i < j → hd.texts[j]? ≠ some k) :
    ∃ c v, row.texts[i]? = some c ∧ Means c v ∧ d.lookup k = some v := by
  obtain ⟨_, _, ht⟩ := c52_reads cfg t r h
  rw [hh] at ht
  generalize (preorder t).filter (fun n => nName n = sTr) = trs at ht
  cases ht with
  | rows h1 h2 h3 h4 h5 =>
    have : ∀ {trs rows}, AllData cfg r.caption hd.texts trs rows → row ∈ rows → ∃ tr, IsData cfg r.caption hd.texts tr row := by
      intro trs rows ha
      induction ha with
      | nil => intro hx; cases hx
      | @cons tr trs q qs hq _ ih =>
        intro hx
        rcases List.mem_cons.1 hx with rfl | hx
        · exact ⟨tr, hq⟩
        · exact ih hx
    obtain ⟨tr, hD⟩ := this h5 hr
    rcases hD.dict with ⟨h6, d', h7, h8⟩ | ⟨_, _, h7⟩
    · rw [hd'] at h7; injection h7 with h7; subst h7
      have hlt : i < row.texts.length := by rw [h6]; exact (List.getElem?_eq_some_iff.1 hi).1
      refine ⟨row.texts[i], cook row.texts[i], List.getElem?_eq_getElem hlt, (cook_iff _ _).1 rfl, ?_⟩
      rw [← mem_lookup _ h8.distinct]
      exact (h8.entry _ _).2 ⟨i, _, hi, List.getElem?_eq_getElem hlt, (cook_iff _ _).1 rfl, hl⟩
    · rw [hd'] at h7; cases h7

/-- What a text says is unique, and every text says something. -/
theorem c52_text (s : Str) : ∃ t, Means s t ∧ ∀ u, Means s u → u = t := by
  refine ⟨cook s, (cook_iff _ _).1 rfl, ?_⟩
  intro u hu
  exact ((cook_iff _ _).2 hu).symm

/-- How to write a text so that a cell says it. -/
def write : Str → Str
  | [] => []
  | c :: s =>
    if c = '<' then "&lt;".toList ++ write s
    else if c = '>' then "&gt;".toList ++ write s
    else if c = '\n' then c :: write s
    else '\\' :: c :: write s

/-- Any text without ampersands can be written in a cell: there is a way to write it so that the cell says it. -/
theorem c52_round_trip (s : Str) (h : '&' ∉ s) : Means (write s) s := by
  -- no text is written as a quotation, since backquotes are escaped
  have hb : Body (write s) (write s) := by
    refine .inr ⟨rfl, ?_⟩
    rintro ⟨m, hm, _⟩
    cases s with
    | nil => simp [write] at hm
    | cons c s =>
      have : (write (c :: s)).head? ≠ some '`' := by
        rw [write]
        split
        · simp
        · split
          · simp
          · split
            · rename_i h3; simp [h3]
            · simp
      rw [hm] at this
      simp at this
  have key : ∀ s : Str, '&' ∉ s → ∃ u, Unescaped (write s) u ∧ Decoded u s ∧ (s = [] ↔ write s = []) := by
    intro s
    induction s with
    | nil => intro _; exact ⟨[], .nil, .nil, by simp [write]⟩
    | cons c s ih =>
      intro h
      rw [List.mem_cons, not_or] at h
      obtain ⟨u, h1, h2, _⟩ := ih h.2
      rw [write]
      by_cases e1 : c = '<'
      · rw [if_pos e1]
        subst e1
        refine ⟨"&lt;".toList ++ u, ?_, .lt h2, by simp⟩
        refine .keep ?_ (.keep ?_ (.keep ?_ (.keep ?_ h1))) <;> exact fun h => absurd h (by decide)
      · rw [if_neg e1]
        by_cases e2 : c = '>'
        · rw [if_pos e2]
          subst e2
          refine ⟨"&gt;".toList ++ u, ?_, .gt h2, by simp⟩
          refine .keep ?_ (.keep ?_ (.keep ?_ (.keep ?_ h1))) <;> exact fun h => absurd h (by decide)
        · rw [if_neg e2]
          have hk : Decoded (c :: u) (c :: s) := by
            refine .keep ?_ ?_ h2
            · rintro ⟨q, hq⟩
              have : c :: u = '&' :: ('l' :: 't' :: ';' :: q) := hq
              injection this with e _
              exact h.1 e.symm
            · rintro ⟨q, hq⟩
              have : c :: u = '&' :: ('g' :: 't' :: ';' :: q) := hq
              injection this with e _
              exact h.1 e.symm
          by_cases e3 : c = '\n'
          · rw [if_pos e3]
            refine ⟨c :: u, .keep ?_ h1, hk, by simp⟩
            intro e; rw [e3] at e; exact absurd e (by decide)
          · rw [if_neg e3]
            exact ⟨c :: u, .esc e3 h1, hk, by simp⟩
  obtain ⟨u, h1, h2, _⟩ := key s h
  exact ⟨_, u, hb, h1, h2⟩

/-! ## Cases -/

def S (s : String) : Str := s.toList

/-- `int` for one digit. -/
def digit : Str → Option Int
  | [c] => if c.isDigit then some (c.toNat - 48 : Nat) else none
  | _ => none

def text0 : Str := S "<tr><th>A</th> <th> B </th></tr><tr><th>`x`</th><td>\\&lt;y</td></tr>"
def cfg0 : Cfg := ⟨text0, (· = ' '), digit⟩

def th (a b c d : Nat) : Node := .mk a d sTh [] (some (b, c)) []
def td (a b c d : Nat) : Node := .mk a d sTd [] (some (b, c)) []
def row1 : Node := .mk 0 32 sTr [] (some (4, 27)) [th 4 8 9 14, .mk 14 15 litName [] none [], th 15 19 22 27]
def row2 : Node := .mk 32 68 sTr [] (some (36, 63)) [th 36 40 43 48, td 48 52 58 63]
def tab (rows : List Node) : Node := .mk 0 68 (S "emu-table") [(aCaption, some (S "C"))] (some (0, 68)) [.mk 0 68 (S "table") [] (some (0, 68)) rows]

structure Shown where
  caption : Str
  noId : Bool
  header : Option (List Str)
  data : List (List Str × Option (List (Str × Str)))
  deriving DecidableEq

def show' (r : Option Info) : Option Shown :=
  r.map (fun i => ⟨i.caption, i.noId, i.header.map (·.texts), i.data.map (fun r => (r.texts, r.asDict))⟩)

/-- A header and a data row, which has a `th` too. -/
example : show' (analyzeTable cfg0 (tab [row1, row2])) = some ⟨S "C", true, some [S "A", S "B"],
    [([S "`x`", S "\\&lt;y"], some [(S "A", S "x"), (S "B", S "<y")])]⟩ := by decide +kernel

/-- No header after data, and no data without a header. -/
example : analyzeTable cfg0 (tab [row2, row1]) = none := by rfl
example : analyzeTable cfg0 (tab [row1, row2, row1]) = none := by rfl
example : analyzeTable cfg0 (tab [row1, row1]) = none := by rfl
example : analyzeTable cfg0 (tab [row2]) = none := by rfl

/-- A row that is too short, and one with a cell over two columns, where that is allowed. -/
def short : Node := .mk 32 68 sTr [] (some (36, 63)) [td 36 40 43 48]
def wide : Node := .mk 32 68 sTr [] (some (36, 63)) [.mk 36 48 sTd [(aColspan, some ['2'])] (some (40, 43)) []]
def tabC (c : Str) (rows : List Node) : Node := .mk 0 68 (S "emu-table") [(aCaption, some c), (aId, some (S "t"))] (some (0, 68)) rows
example : analyzeTable cfg0 (tab [row1, short]) = none := by rfl
example : show' (analyzeTable cfg0 (tabC capNumeric [row1, short])) = some ⟨capNumeric, false, some [S "A", S "B"], [([S "`x`"], none)]⟩ := by
  decide +kernel
example : analyzeTable cfg0 (tab [row1, wide]) = none := by rfl
example : show' (analyzeTable cfg0 (tabC capImport [row1, wide])) = some ⟨capImport, false, some [S "A", S "B"],
    [([S "`x`", S "`x`"], some [(S "A", S "x"), (S "B", S "x")])]⟩ := by decide +kernel

/-- Captions. -/
def capt (a b : Nat) : Node := .mk 0 68 sCap [] (some (a, b)) []
example : captionOf cfg0 (.mk 0 9 (S "emu-table") [] none [capt 19 22]) = some (S "B") := by decide +kernel
example : captionOf cfg0 (.mk 0 9 (S "emu-table") [(aCaption, some (S "C"))] none [capt 19 22]) = none := by decide +kernel
example : captionOf cfg0 (.mk 0 9 (S "emu-table") [(aCaption, some (S "C"))] none [capt 14 15]) = some (S "C") := by decide +kernel
example : captionOf cfg0 (.mk 0 9 (S "emu-table") [] none [capt 19 22, capt 19 22]) = none := by decide +kernel
example : captionOf cfg0 (.mk 0 9 (S "emu-table") [] none []) = none := by decide +kernel
example : captionOf cfg0 (.mk 0 9 (S "emu-table") [(aType, some sAbstract), (aOf, some (S "M"))] none []) = some (S "Abstract Methods of M") := by
  decide +kernel
example : captionOf cfg0 (.mk 0 9 (S "emu-table") [(aType, some sAbstract), (aCaption, some (S "C"))] none []) = some (S "C") := by decide +kernel
example : captionOf cfg0 (.mk 0 9 (S "emu-table") [(aType, some sAbstract), (aCaption, some (S "C"))] none [capt 14 15]) = none := by decide +kernel

example : cook (S "`a\\`") = S "a\\" := by decide +kernel
example : cook (S "`a` or `b`") = S "`a` or `b`" := by decide +kernel
example : cook (S "\\&lt;\\\\&gt;&&lt;") = S "<\\>&<" := by decide +kernel
example : cook (write (S "`a<b>\\c`")) = S "`a<b>\\c`" := by decide +kernel

/-- A row without cells counts as a header, so it is refused below the header and accepted above it. -/
theorem c52_empty_row_witness :
    show' (analyzeTable cfg0 (tab [row1, .mk 68 68 sTr [] (some (68, 68)) []])) = none ∧
    show' (analyzeTable cfg0 (tab [.mk 68 68 sTr [] (some (68, 68)) []])) = some ⟨S "C", true, some [], []⟩ := by
  decide +kernel

/-- Two columns with the same header: the first is lost from the dict, without a message. -/
theorem c52_same_header_witness :
    show' (analyzeTable cfg0 (tab [.mk 0 32 sTr [] (some (4, 27)) [th 4 8 9 14, th 4 8 9 14], row2])) = some ⟨S "C", true, some [S "A", S "A"],
      [([S "`x`", S "\\&lt;y"], some [(S "A", S "<y")])]⟩ := by
  decide +kernel

/-- A table without rows is read (with no header), although its user then fails. -/
theorem c52_no_rows_witness : show' (analyzeTable cfg0 (tab [])) = some ⟨S "C", true, none, []⟩ := by decide +kernel

end Verif.Tables
