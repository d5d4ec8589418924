import Verif.Ids.Model
/-!
# Model of the analysis of tables (emu_tables.py)
-/
namespace Verif.Tables
open Verif.HTML (Str Node litName)
open Verif.Validate (nStart nStop nName nAttrs nInner nKids slice)
open Verif.Ids (attr preorder)

/-- The text of the document; Python's white space (`\s`, `str.strip`); `int` of a string (none where it raises). -/
structure Cfg where
  text : Str
  space : Char → Bool
  toInt : Str → Option Int

def sTr : Str := ['t', 'r']
def sTh : Str := ['t', 'h']
def sTd : Str := ['t', 'd']
def sCap : Str := "emu-caption".toList
def aCaption : Str := "caption".toList
def aType : Str := "type".toList
def aOf : Str := "of".toList
def aId : Str := "id".toList
def aColspan : Str := "colspan".toList
def sAbstract : Str := "abstract methods".toList
def sAbstractOf : Str := "Abstract Methods of ".toList
def capImport : Str := "Import Forms Mappings to ImportEntry Records".toList
def capNumeric : Str := "Numeric Type Operations".toList

/-- `str.strip`. -/
def strip (space : Char → Bool) (s : Str) : Str := ((s.dropWhile space).reverse.dropWhile space).reverse

/-- `node.inner_source_text()`; None if the node has no end-tag. -/
def inner (cfg : Cfg) (n : Node) : Option Str := (nInner n).map (fun p => slice cfg.text p.1 p.2)

/-- `node.is_whitespace()` (HTML.py:208-209, 271-274). -/
def isWhite (cfg : Cfg) (n : Node) : Bool :=
  let s := slice cfg.text (nStart n) (nStop n)
  nName n = litName && (s ≠ [] && s.all cfg.space)

/-! ## `quasi_ecmarkdown` (emu_tables.py:121-126) -/

/-- The backquotes around all of the text. -/
def unquote (s : Str) : Str :=
  match s with
  | '`' :: r => if r.getLast? = some '`' ∧ '`' ∉ r.dropLast then r.dropLast else s
  | _ => s

/-- The substitution of `\\(.)`; the dot doesn't match a line end. -/
def unesc : Str → Str
  | [] => []
  | [c] => [c]
  | '\\' :: c :: r => if c = '\n' then '\\' :: c :: unesc r else c :: unesc r
  | c :: d :: r => c :: unesc (d :: r)

def replLt : Str → Str
  | '&' :: 'l' :: 't' :: ';' :: r => '<' :: replLt r
  | c :: r => c :: replLt r
  | [] => []

def replGt : Str → Str
  | '&' :: 'g' :: 't' :: ';' :: r => '>' :: replGt r
  | c :: r => c :: replGt r
  | [] => []

def cook (s : Str) : Str := replGt (replLt (unesc (unquote s)))

/-! ## The caption (emu_tables.py:24-52) -/

/-- `e_caption`: outer None for a failed assertion or an unclosed caption. -/
def eCaption (cfg : Cfg) (t : Node) : Option (Option Str) :=
  match (nKids t).filter (fun c => nName c = sCap) with
  | [] => some none
  | [c] => (inner cfg c).map (fun s => some (strip cfg.space s))
  | _ => none

/-- Truth of a string or None. -/
def truthy : Option Str → Option Str
  | some (c :: cs) => some (c :: cs)
  | _ => none

/-- `a_caption`, if it is there and not empty. -/
def aCap (t : Node) : Option Str := truthy ((attr t aCaption).bind id)

def captionOf (cfg : Cfg) (t : Node) : Option Str :=
  match eCaption cfg t with
  | none => none
  | some e =>
    match attr t aType with
    | some tt =>
      if tt = some sAbstract then
        if e = none then
          match aCap t with
          | some a => some a
          | none => match attr t aOf with
            | some (some o) => some (sAbstractOf ++ o)
            | _ => none
        else none
      else none
    | none =>
      match aCap t, truthy e with
      | some a, none => some a
      | none, some e => some e
      | _, _ => none

/-! ## Rows (emu_tables.py:60-116) -/

/-- The loop over the children of a row (emu_tables.py:66-73). -/
def cellsOf (cfg : Cfg) : List Node → Option (List Node)
  | [] => some []
  | c :: cs =>
    if isWhite cfg c then cellsOf cfg cs
    else if nName c = sTh ∨ nName c = sTd then (cellsOf cfg cs).map (c :: ·)
    else none

/-- `colspan` of a cell (emu_tables.py:81-82). -/
def colspan (cfg : Cfg) (cap : Str) (c : Node) : Option Int :=
  match attr c aColspan with
  | none => some 1
  | some none => none
  | some (some v) => match cfg.toInt v with
    | none => none
    | some i => if i ≠ 1 ∧ cap ≠ capImport then none else some i

/-- The loop over cells (emu_tables.py:75-85); the cooked texts are `cook` of these. -/
def textsOf (cfg : Cfg) (cap : Str) : List Node → Option (List Str)
  | [] => some []
  | c :: cs => match inner cfg c, colspan cfg cap c, textsOf cfg cap cs with
    | some s, some k, some ts => some (List.replicate k.toNat (strip cfg.space s) ++ ts)
    | _, _, _ => none

/-- `TableRow` (emu_tables.py:128-133). -/
structure Row where
  tr : Node
  cells : List Node
  texts : List Str
  asDict : Option (List (Str × Str))

/-- `d[k] = v`. -/
def put (d : List (Str × Str)) (x v : Str) : List (Str × Str) :=
  match d with
  | [] => [(x, v)]
  | (y, w) :: r => if y = x then (x, v) :: r else (y, w) :: put r x v

/-- `dict(zip(ks, vs))`. -/
def dictZip (ks vs : List Str) : List (Str × Str) := (ks.zip vs).foldl (fun d p => put d p.1 p.2) []

/-- One row, up to the test for a header (emu_tables.py:64-85). -/
def readRow (cfg : Cfg) (cap : Str) (tr : Node) : Option (List Node × List Str) :=
  if (nAttrs tr).map (·.1) = [] ∨ (nAttrs tr).map (·.1) = [aId] then
    match cellsOf cfg (nKids tr) with
    | none => none
    | some cs => (textsOf cfg cap cs).map (fun ts => (cs, ts))
  else none

/-- The loop over rows (emu_tables.py:63-116). -/
def rowsLoop (cfg : Cfg) (cap : Str) : List Node → Option Row × List Row → Option (Option Row × List Row)
  | [], st => some st
  | tr :: trs, (hdr, data) =>
    match readRow cfg cap tr with
    | none => none
    | some (cs, ts) =>
      if cs.all (fun c => nName c = sTh) then
        match hdr, data with
        | none, [] => rowsLoop cfg cap trs (some ⟨tr, cs, ts, none⟩, [])
        | _, _ => none
      else match hdr with
        | none => none
        | some h =>
          if (ts.map cook).length = h.texts.length then
            rowsLoop cfg cap trs (hdr, data ++ [⟨tr, cs, ts, some (dictZip h.texts (ts.map cook))⟩])
          else if cap = capNumeric then
            rowsLoop cfg cap trs (hdr, data ++ [⟨tr, cs, ts, none⟩])
          else none

/-- What is found out about a table: the caption, whether a message about a missing id is issued, and the rows. -/
structure Info where
  caption : Str
  noId : Bool
  header : Option Row
  data : List Row

/-- `analyze_table` (emu_tables.py:16-116), on an `emu-table`. -/
def analyzeTable (cfg : Cfg) (t : Node) : Option Info :=
  match captionOf cfg t with
  | none => none
  | some cap =>
    match rowsLoop cfg cap ((preorder t).filter (fun n => nName n = sTr)) (none, []) with
    | none => none
    | some (h, d) => some ⟨cap, (attr t aId).isNone, h, d⟩

end Verif.Tables
