import Verif.Preambles.Model
/-!
# Model of checks that go through the whole document (emu_grammars.py:1360-1395, analyze_spec.py:567-619, Pseudocode.py:208-259)

`\w` is restricted to ASCII.
-/
namespace Verif.Checks
open Verif.Kinds (full lit plus cat any dot)
open Verif.Sections (isWord)
open Verif.Titles (hasSub)

abbrev Str := List Char

/-! ## The order of right-hand sides -/

/-- A right-hand side that is used in a section (emu_grammars.py:1379-1382): where it is, the nonterminal and the number of the defining production, and the number of the defining
right-hand side, which is None if none matches (emu_grammars.py:1165-1178). -/
structure Rhs where
  node : Nat
  name : String
  doc : Nat
  di : Option Nat
deriving DecidableEq, Repr

/-- An `emu-grammar` under a section (emu_grammars.py:1368-1380): whether the section is the closest one, whether it is in an `emu-alg`, and the right-hand sides of its productions. -/
structure Grammar where
  own : Bool
  inAlg : Bool
  prods : List (List Rhs)

/-- A section (emu_grammars.py:1363-1364, 1368). -/
structure Sec where
  kind : String
  grammars : List Grammar

/-- A key (emu_grammars.py:1366, 1382). -/
abbrev Key := Int × Option Int

def Rhs.key (r : Rhs) : Key := (r.doc, r.di.map Int.ofNat)

/-- `key < prev_key` (emu_grammars.py:1383) for tuples; None is the TypeError from comparing None with a number. -/
def less (k p : Key) : Option Bool :=
  if k.1 = p.1 then match k.2, p.2 with
    | some x, some y => some (decide (x < y))
    | none, none => some false
    | _, _ => none
  else some (decide (k.1 < p.1))

/-- The messages (emu_grammars.py:1384-1388): where, the nonterminal, its number, and the number before. -/
inductive Msg where
  | rhs (node : Nat) (name : String) (di : Option Int) (prev : Option Int)
  | lhs (node : Nat) (name : String) (doc : Int) (prev : Int)
deriving DecidableEq, Repr

/-- The loop over the right-hand sides (emu_grammars.py:1380-1395): the messages, and the last key. -/
def eachRhs : Key → List Rhs → Option (List Msg × Key)
  | p, [] => some ([], p)
  | p, r :: rs => match less r.key p with
    | none => none
    | some b =>
      let m := if b then [if r.key.1 = p.1 then Msg.rhs r.node r.name r.key.2 p.2 else Msg.lhs r.node r.name r.key.1 p.1] else []
      (eachRhs r.key rs).map (fun x => (m ++ x.1, x.2))

/-- The loop over the grammars of a section (emu_grammars.py:1368-1395). -/
def eachGrammar : Key → List Grammar → Option (List Msg)
  | _, [] => some []
  | p, g :: gs =>
    if !g.own then none
    else if g.inAlg then eachGrammar p gs
    else match eachRhs p g.prods.flatten with
      | none => none
      | some (ms, p') => (eachGrammar p' gs).map (ms ++ ·)

/-- `check_order_of_RHSs_within_each_SDO_clause` (emu_grammars.py:1360-1395); None is a failed assertion or a TypeError. -/
def checkOrder : List Sec → Option (List Msg)
  | [] => some []
  | s :: ss =>
    if s.kind ≠ "syntax_directed_operation" then checkOrder ss
    else match eachGrammar (-1, some (-1)) s.grammars with
      | none => none
      | some ms => (checkOrder ss).map (ms ++ ·)

/-! ## Tables -/

/-- What of an analyzed table matters (analyze_spec.py:570-573): its caption, its header, and its rows of cells. -/
structure Table where
  caption : Str
  header : List Str
  rows : List (List Nat)

/-- `check_value_descriptions_in_column` (analyze_spec.py:575-579): the cells that are parsed; None is an IndexError. -/
def column (t : Table) (i : Nat) : Option (List Nat) :=
  t.rows.mapM (fun r => if i < t.header.length then r[i]? else none)

/-- `header_line` (analyze_spec.py:573). -/
def headerLine (t : Table) : Str := "; ".toList.intercalate t.header

/-- `check_tables` for a table (analyze_spec.py:581-619): the cells that are parsed; None is a failed assertion. -/
def checkTable (t : Table) : Option (List Nat) :=
  if hasSub "Field".toList t.caption || (hasSub "Method".toList t.caption && hasSub "Record".toList t.caption) then some []
  else if hasSub "Slot".toList t.caption then
    if full (cat [lit "Internal Slots of ", plus dot]) t.caption || full (cat [lit "Internal Slots of ", plus dot, lit "\n"]) t.caption then
      if headerLine t = "Internal Slot; Type; Description".toList then column t 1 else none
    else none
  else if hasSub "Method".toList t.caption then
    if hasSub "Internal Methods".toList t.caption then
      if (t.caption = "Essential Internal Methods".toList ∨ t.caption = "Additional Essential Internal Methods of Function Objects".toList) ∧
        headerLine t = "Internal Method; Signature; Description".toList then some [] else none
    else if t.caption = "Proxy Handler Methods".toList then
      if headerLine t = "Internal Method; Handler Method".toList then some [] else none
    else none
  else if hasSub "Properties".toList t.caption then
    if full (cat [plus (.char (fun c => isWord c || c == ' ')), lit " Interface", any [.empty, lit " Required", lit " Optional"], lit " Properties"]) t.caption &&
      headerLine t == "Property; Value; Requirements".toList then column t 1 else none
  else if t.caption = "Attributes of an Object property".toList then
    if headerLine t = "Attribute Name; Types of property for which it is present; Value Domain; Default Value; Description".toList then column t 2 else none
  else some []

/-- `check_tables` (analyze_spec.py:567-619): the cells that are parsed, in order. -/
def checkTables (ts : List Table) : Option (List Nat) := (ts.mapM checkTable).map List.flatten

/-! ## Whether everything was parsed -/

/-- An `emu-eqn` (Pseudocode.py:212-242): its text, whether it has an aoid, the name of its parent and the kind of that as a section, and whether it has a syntax tree. -/
structure Eqn where
  text : Str
  aoid : Bool
  parent : String
  parentKind : String
  parsed : Bool

/-- `check_emu_eqn_coverage` for one equation (Pseudocode.py:213-242): whether no assertion fails. -/
def eqnOk (e : Eqn) : Bool :=
  if '=' ∉ e.text then !e.parsed
  else if !e.aoid then !e.parsed
  else e.parent == "emu-clause" && e.parentKind == "catchall" && e.parsed

/-- `check_emu_eqn_coverage` (Pseudocode.py:208-242). -/
def eqnsOk (es : List Eqn) : Bool := es.all eqnOk

/-- An `emu-alg` (Pseudocode.py:249-259): the name of its parent, and whether it has a syntax tree. -/
structure Alg where
  parent : String
  parsed : Bool

/-- `check_emu_alg_coverage` (Pseudocode.py:246-259): whether no assertion fails. -/
def algsOk (as : List Alg) : Bool := as.all (fun a => ["emu-clause", "emu-annex", "emu-note", "td", "li"].contains a.parent && a.parsed)

end Verif.Checks
