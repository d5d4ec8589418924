import Verif.Shared.Model
/-!
# Specifications for `shared.py`, independent of how the code computes
-/
namespace Verif.Shared

/-- 1-based line number of offset `p`: one more than the number of newlines before it. -/
def specLine (text : List Char) (p : Nat) : Nat := 1 + (text.take p).count '\n'

/-- 1-based column of offset `p`: one more than the number of characters since the last
newline before it (or the start of the text). -/
def specCol (text : List Char) (p : Nat) : Nat :=
  1 + ((text.take p).reverse.takeWhile (· ≠ '\n')).length

/-- The offset `p` is at or before some newline of the text. -/
def OnTerminatedLine (text : List Char) (p : Nat) : Prop :=
  ∃ j, p ≤ j ∧ text[j]? = some '\n'

end Verif.Shared

namespace Verif.Shared

/-! ## Replacements -/

/-- One stretch of the text: a kept part, then a removed part and what replaces it. -/
structure Piece where
  kept : List Char
  removed : List Char
  inserted : List Char

/-- The original text made of pieces and a final kept part. -/
def original (ps : List Piece) (tail : List Char) : List Char :=
  ps.flatMap (fun p => p.kept ++ p.removed) ++ tail

/-- The same text with every removed part replaced. -/
def edited (ps : List Piece) (tail : List Char) : List Char :=
  ps.flatMap (fun p => p.kept ++ p.inserted) ++ tail

/-- The edits that pieces stand for, when the first piece starts at offset `pos`. -/
def editsOf : List Piece → Nat → List Repl
  | [], _ => []
  | p :: ps, pos =>
    ⟨pos + p.kept.length, pos + p.kept.length + p.removed.length, p.inserted⟩ ::
      editsOf ps (pos + p.kept.length + p.removed.length)

/-- An edit of a text of length `n`: a range inside the text. -/
def Repl.InText (n : Nat) (r : Repl) : Prop := r.start ≤ r.stop ∧ r.stop ≤ n

/-- Two ranges do not overlap: one ends before (or where) the other starts. -/
def Repl.Disjoint (a b : Repl) : Prop := a.stop ≤ b.start ∨ b.stop ≤ a.start

/-! ## Definition lists -/

/-- One thing inside `<ul>`. -/
inductive LiItem | li (l r : String) | comment (s : String)

/-- A `<dt>` with what follows it. -/
inductive DLItem
  | simple (dt dd : String)
  | bulleted (dt : String) (lefts : List String) (lis : List LiItem)

/-- The lines of a `<ul>` entry. -/
def LiItem.lines : LiItem → List DLLine
  | .li l r => [.li l r]
  | .comment s => [.carets, .note s, .blank]

/-- The lines of a `<dt>` and its `<dd>`. -/
def DLItem.lines : DLItem → List DLLine
  | .simple t d => [.blank, .dt t, .dd d]
  | .bulleted t _ lis => [.blank, .dt t, .ddOpen, .ulOpen] ++ lis.flatMap LiItem.lines ++ [.ulClose, .ddClose]

/-- A complete definition list. -/
def docLines (items : List DLItem) : List DLLine :=
  [.dlOpen] ++ items.flatMap DLItem.lines ++ [.dlClose]

/-- The call for a `<ul>` entry. -/
def LiItem.call : LiItem → DLCall
  | .li l r => .li l r
  | .comment s => .liComment s

/-- The calls for a `<dt>` and its `<dd>`. -/
def DLItem.calls : DLItem → List DLCall
  | .simple t d => [.dt t, .dd d]
  | .bulleted t lefts lis => [.dt t, .ddUlStart lefts] ++ lis.map LiItem.call ++ [.ulEnd]

/-- The calls for a complete definition list. -/
def docCalls (items : List DLItem) : List DLCall :=
  [.start] ++ items.flatMap DLItem.calls ++ [.finish]

/-- A line opens (+1) or closes (-1) an element, or is self-contained (0). -/
def DLLine.weight : DLLine → Int
  | .dlOpen | .ddOpen | .ulOpen => 1
  | .dlClose | .ddClose | .ulClose => -1
  | _ => 0

/-! ## Entities -/

/-- `e` is a way to write the character `c` in HTML text. -/
inductive Written : Char → List Char → Prop
  | plain (c : Char) : c ≠ '&' → c ≠ '<' → Written c [c]
  | amp : Written '&' ['&', 'a', 'm', 'p', ';']
  | lt : Written '<' ['&', 'l', 't', ';']
  | gt : Written '>' ['&', 'g', 't', ';']
  | ldquo : Written '“' ['&', 'l', 'd', 'q', 'u', 'o', ';']
  | rdquo : Written '”' ['&', 'r', 'd', 'q', 'u', 'o', ';']

/-- `e` is a way to write the string `s` in HTML text. -/
inductive Encodes : List Char → List Char → Prop
  | nil : Encodes [] []
  | cons {c s e e'} : Written c e → Encodes s e' → Encodes (c :: s) (e ++ e')

end Verif.Shared

namespace Verif.Shared

/-! ## Message listing -/

/-- The messages (with their columns) that belong to line `l`, in recording order. -/
def messagesAt (text : List Char) (calls : List (Int × List Char)) (l : Nat) : List Msg :=
  (calls.filter (fun c => specLine text c.1.toNat = l)).map
    (fun c => ((specCol text c.1.toNat : Int), c.2))

/-- A listing: every line followed by the renderings of its messages. -/
def listing (groups : List (List Char × List Msg)) : List (List Char) :=
  groups.flatMap (fun g => g.1 :: g.2.flatMap renderMsg)

/-- `lines` are the lines of `text`: no line contains a newline, and joining them with
newlines gives the text. -/
def LinesOf (text : List Char) (lines : List (List Char)) : Prop :=
  (∀ l ∈ lines, '\n' ∉ l) ∧ ['\n'].intercalate lines = text ∧ lines ≠ []

/-- `a` comes no later than `b` in (column, message) order (messages compare
lexicographically by code point). -/
def Msg.Before (a b : Msg) : Prop := a.1 < b.1 ∨ (a.1 = b.1 ∧ a.2 ≤ b.2)

end Verif.Shared

namespace Verif.Shared

/-- The lines of a text as `write_spec_with_extras` understands them: a final newline does
not start a further line. -/
def visibleLines (lines : List (List Char)) : List (List Char) :=
  if lines.getLast? = some [] then lines.dropLast else lines

/-- The targeted messages whose node ends on line `l`, in recording order, each with its
start column (0 when the node starts on another line) and end column. -/
def targetedAt (text : List Char) (calls : List (Int × Int × List Char)) (l : Nat) :
    List (Int × Int × List Char) :=
  (calls.filter (fun c => specLine text c.2.1.toNat = l)).map (fun c =>
    ((if specLine text c.1.toNat = specLine text c.2.1.toNat then (specCol text c.1.toNat : Int) else 0),
     (specCol text c.2.1.toNat : Int), c.2.2))

end Verif.Shared
