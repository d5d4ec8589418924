import Verif.Preambles.Model
/-!
# Model of the tables of well-known intrinsics, and of what is checked against them (intrinsics.py, analyze_spec.py)

`\w` is restricted to ASCII.
-/
namespace Verif.Wki
open Verif.Kinds (full lit plus cat w dot)
open Verif.Preambles (after insert)
open Verif.Sections (isWord)
open Verif.Titles (hasSub)

abbrev Str := List Char

/-! ## The tables -/

/-- What of an `emu-table` matters (intrinsics.py:143-152). -/
structure Table where
  caption : Str
  header : List Str
  rows : List (List Str)

/-- What is before a text at the end. -/
def before (t : String) (s : Str) : Option Str := if t.toList.isSuffixOf s then some (s.take (s.length - t.toList.length)) else none

/-- The group in `(.+) \(<emu-xref href="[^"]+"></emu-xref>\)` (intrinsics.py:168); the place of the quote is the only one there can be. -/
def unlink (t : Str) : Option Str :=
  match before "\"></emu-xref>)" t with
  | none => none
  | some u =>
    if u.reverse.takeWhile (· != '"') = [] then none
    else match before " (<emu-xref href=\"" (u.reverse.dropWhile (· != '"')).reverse with
      | none => none
      | some x => if full (plus dot) x then some x else none

/-- The phrase in the last column (intrinsics.py:166-171); None is the failed assertion. -/
def phrase (assoc : Str) : Option Str :=
  if "A function object that ".toList.isPrefixOf assoc || "An object that ".toList.isPrefixOf assoc then some []
  else match after "The " assoc with
    | none => none
    | some t => (unlink t).map ("the ".toList ++ ·)

/-- What is known: `well_known_intrinsics` and `global_property_names` (intrinsics.py:138-139), and `non_global_wkis` (Section.py:2377). -/
structure Known where
  names : List Str
  globals : List Str
  others : List Str
deriving DecidableEq

/-- A row (intrinsics.py:151-164, Section.py:2385-2400); None is a failed assertion. -/
def row (k : Known) : List Str → Option Known
  | [p, g, assoc] =>
    if full (cat [lit "%", plus w, lit "%"]) p && decide (p ∉ k.names) then
      let m :=
        if g = [] then some { k with names := k.names ++ [p], others := k.others ++ [p] }
        else if full (cat [lit "*\"", plus w, lit "\"*"]) g && (g.drop 2).dropLast.dropLast == (p.drop 1).dropLast && decide (g ∉ k.globals) then
          some { k with names := k.names ++ [p], globals := k.globals ++ [(g.drop 2).dropLast.dropLast] }
        else none
      match phrase assoc with
      | none => none
      | some _ => m
    else none
  | _ => none

/-- All rows. -/
def rows (k : Known) : List (List Str) → Option Known
  | [] => some k
  | r :: rs => match row k r with
    | none => none
    | some k' => rows k' rs

/-- `each_row_in_wki_table` (intrinsics.py:143-175). -/
def table (k : Known) (t : Table) : Option Known :=
  if (t.caption = "Well-Known Intrinsic Objects".toList ∨ t.caption = "Additional Well-known Intrinsic Objects".toList) ∧
      t.header = ["Intrinsic Name".toList, "Global Name".toList, "ECMAScript Language Association".toList] then rows k t.rows
  else none

/-- The tables, in the order of their sections (Section.py:2361-2367, 2379-2385). -/
def tables (k : Known) : List Table → Option Known
  | [] => some k
  | t :: ts => match table k t with
    | none => none
    | some k' => tables k' ts

/-! ## References -/

/-- `[^% ]` (intrinsics.py:804). -/
def inside (c : Char) : Bool := c != '%' && c != ' '

/-- `re.compile(r'%[^% ]+%').finditer` (intrinsics.py:804-806): the position of each match, and what is between the percent signs; the first argument is how much to pass over. -/
def refs : Nat → Nat → Str → List (Nat × Str)
  | _, _, [] => []
  | n + 1, i, _ :: s => refs n (i + 1) s
  | 0, i, c :: s =>
    if c = '%' ∧ s.takeWhile inside ≠ [] ∧ (s.dropWhile inside).head? = some '%' then (i, s.takeWhile inside) :: refs ((s.takeWhile inside).length + 1) (i + 1) s
    else refs 0 (i + 1) s

/-- `re.sub(r'\.[^%]+', '', itext)` (intrinsics.py:814), without the percent signs. -/
def base (r : Str) : Str := if 1 < (r.dropWhile (· != '.')).length then r.takeWhile (· != '.') else r

/-- Placeholders and metavariables (intrinsics.py:807-812), without the percent signs. -/
def skipped : List String := ["name", "name.a.b", "_NativeError_", "_TypedArray_"]

/-- `check_references_to_intrinsics` (intrinsics.py:795-817), given the position and the text of each literal: where a message is, and the name in it. -/
def check (names : List Str) (lits : List (Nat × Str)) : List (Nat × Str) :=
  lits.flatMap (fun l => (refs 0 l.1 l.2).filterMap (fun r =>
    if r.2 ∈ skipped.map String.toList then none
    else if "%".toList ++ base r.2 ++ "%".toList ∈ names then none
    else some (r.1, "%".toList ++ base r.2 ++ "%".toList)))

/-! ## The global object -/

/-- A section under `sec-global-object` (analyze_spec.py:627-633). -/
structure Sec where
  kind : Str
  title : Str
  parent : Str

/-- `(\w+)( \(.*\))?` (analyze_spec.py:631): the first group. -/
def titleName (t : Str) : Option Str :=
  let n := t.takeWhile isWord
  let r := t.dropWhile isWord
  if n ≠ [] ∧ (r = [] ∨ full (cat [lit " (", .star dot, lit ")"]) r = true) then some n else none

/-- The names of properties of the global object (analyze_spec.py:625-635); None is the failed assertion. -/
def globalNames : List Sec → Option (List Str)
  | [] => some []
  | s :: ss =>
    if hasSub "_property".toList s.kind then
      match titleName s.title with
      | none => none
      | some n => (globalNames ss).map (fun ns => if s.parent ≠ "Value Properties of the Global Object".toList then n :: ns else ns)
    else globalNames ss

/-- `sorted(a - b)` (analyze_spec.py:636-642). -/
def minus (a b : List Str) : List Str := (a.filter (fun x => decide (x ∉ b))).foldr insert []

/-- `check_globals` (analyze_spec.py:623-642): the names in the section only, and those in the tables only. -/
def checkGlobals (secs : List Sec) (globals : List Str) : Option (List Str × List Str) :=
  (globalNames secs).map (fun ns => (minus ns globals, minus globals ns))

end Verif.Wki
