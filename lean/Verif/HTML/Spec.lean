import Verif.HTML.Model
import Verif.Shared.Spec
/-!
# Specification of the HTML parser

A document is described abstractly as a forest, and written out as text.  The parser is to be
the inverse of the writing.
-/
namespace Verif.HTML

/-- An abstract document: a sequence of texts, comments, doctype declarations, stray end-tags, void
elements, `style` elements with raw content, and elements with contents. -/
inductive Forest where
  | nil
  | text (s : Str) (rest : Forest)
  | comment (s : Str) (rest : Forest)
  | decl (rest : Forest)
  | stray (name : Str) (rest : Forest)
  | void (name : Str) (attrs : Attrs) (rest : Forest)
  | style (attrs : Attrs) (content : Str) (rest : Forest)
  | elem (name : Str) (attrs : Attrs) (kids : Forest) (rest : Forest)

def renderAttr : Str × Option Str → Str
  | (n, none) => ' ' :: n
  | (n, some v) => ' ' :: (n ++ '=' :: '"' :: (v ++ ['"']))
def startTag (name : Str) (attrs : Attrs) : Str := '<' :: (name ++ attrs.flatMap renderAttr ++ ['>'])
def endTag (name : Str) : Str := '<' :: '/' :: (name ++ ['>'])
def commentText (s : Str) : Str := ['<', '!', '-', '-'] ++ s ++ ['-', '-', '>']
def declText : Str := ['<', '!', 'D', 'O', 'C', 'T', 'Y', 'P', 'E', ' ', 'h', 't', 'm', 'l', '>']

/-- The text of a document. -/
def src : Forest → Str
  | .nil => []
  | .text s r => s ++ src r
  | .comment s r => commentText s ++ src r
  | .decl r => declText ++ src r
  | .stray n r => endTag n ++ src r
  | .void n as r => startTag n as ++ src r
  | .style as c r => startTag styleName as ++ c ++ endTag styleName ++ src r
  | .elem n as k r => startTag n as ++ src k ++ endTag n ++ src r

/-- A tag or attribute name: a lower-case letter, then lower-case letters, digits and hyphens. -/
def NameOk (n : Str) : Prop := ∃ c r, n = c :: r ∧ isLower c = true ∧ ∀ x ∈ r, isNameChar x = true

/-- An element's name does not end in a hyphen. -/
def ElemNameOk (n : Str) : Prop := NameOk n ∧ n.getLast? ≠ some '-'

/-- Attributes have good, distinct names, and values without double quotes. -/
def AttrsOk (as : Attrs) : Prop :=
  (as.map (·.1)).Nodup ∧ ∀ a ∈ as, NameOk a.1 ∧ ∀ v, a.2 = some v → '"' ∉ v

/-- The elements that never have contents. -/
def voidElems : List Str := [['h', 't', 'm', 'l'], ['m', 'e', 't', 'a'], ['l', 'i', 'n', 'k'], ['i', 'm', 'g'], ['b', 'r']]

/-- `pat` does not occur in `c` followed by `pat` except at the very end. -/
def EndsAtFirst (pat c : Str) : Prop := ∀ u v, c ++ pat = u ++ pat ++ v → v = []

/-- `WF n b f`: `f` can be the contents of an element named `n`; `b` says that it comes right after
a text.  Texts are maximal, a comment ends at the first `-->`, raw content at the first
`</style>`, and an end-tag is stray only where it cannot close the element it stands in. -/
def WF (n : Str) : Bool → Forest → Prop
  | _, .nil => True
  | b, .text s r => b = false ∧ s ≠ [] ∧ '<' ∉ s ∧ WF n true r
  | _, .comment s r => EndsAtFirst ['-', '-', '>'] s ∧ WF n false r
  | _, .decl r => WF n false r
  | _, .stray m r => NameOk m ∧ m ≠ n ∧ WF n false r
  | _, .void m as r => m ∈ voidElems ∧ AttrsOk as ∧ WF n false r
  | _, .style as c r => AttrsOk as ∧ EndsAtFirst ['<', '/', 's', 't', 'y', 'l', 'e', '>'] c ∧ WF n false r
  | _, .elem m as k r => ElemNameOk m ∧ m ∉ voidElems ∧ m ≠ styleName ∧ AttrsOk as ∧ WF m false k ∧ WF n false r

/-- The nodes a document starting at offset `p` should become. -/
def nodesOf : Nat → Forest → List Node
  | _, .nil => []
  | p, .text s r => .mk p (p + s.length) litName [] none [] :: nodesOf (p + s.length) r
  | p, .comment s r => .mk p (p + (commentText s).length) commentName [] none [] :: nodesOf (p + (commentText s).length) r
  | p, .decl r => .mk p (p + declText.length) declName [] none [] :: nodesOf (p + declText.length) r
  | p, .stray n r => nodesOf (p + (endTag n).length) r
  | p, .void n as r => .mk p (p + (startTag n as).length) n as none [] :: nodesOf (p + (startTag n as).length) r
  | p, .style as c r =>
    let i := p + (startTag styleName as).length
    let j := i + c.length
    let e := j + (endTag styleName).length
    .mk p e styleName as (some (i, j)) [.mk i j litName [] none []] :: nodesOf e r
  | p, .elem n as k r =>
    let i := p + (startTag n as).length
    let j := i + (src k).length
    let e := j + (endTag n).length
    .mk p e n as (some (i, j)) (nodesOf i k) :: nodesOf e r

/-- The stray end-tags of a document starting at offset `p`, with their offsets, in order. -/
def strays : Nat → Forest → List (Nat × Str)
  | _, .nil => []
  | p, .text s r => strays (p + s.length) r
  | p, .comment s r => strays (p + (commentText s).length) r
  | p, .decl r => strays (p + declText.length) r
  | p, .stray n r => (p, n) :: strays (p + (endTag n).length) r
  | p, .void n as r => strays (p + (startTag n as).length) r
  | p, .style as c r => strays (p + (startTag styleName as).length + c.length + (endTag styleName).length) r
  | p, .elem n as k r =>
    strays (p + (startTag n as).length) k ++
      strays (p + (startTag n as).length + (src k).length + (endTag n).length) r

/-- No stray end-tag anywhere. -/
def Balanced : Forest → Prop
  | .nil => True
  | .text _ r | .comment _ r | .decl r | .void _ _ r | .style _ _ r => Balanced r
  | .stray _ _ => False
  | .elem _ _ k r => Balanced k ∧ Balanced r

/-- What is assumed of Python's `\w`. -/
structure WordOk (isWord : Char → Bool) : Prop where
  lower : ∀ c, isLower c = true → isWord c = true
  digit : ∀ c, '0' ≤ c → c ≤ '9' → isWord c = true
  space : isWord ' ' = false
  gt : isWord '>' = false
  hyphen : isWord '-' = false

/-! ### Extents -/

def Node.start : Node → Nat | .mk s _ _ _ _ _ => s
def Node.stop : Node → Nat | .mk _ e _ _ _ _ => e

mutual
/-- A node's extent, inner extent and children fit together: a node without inner extent has no
children; otherwise the children tile the inner extent, which lies strictly inside. -/
inductive Tiled : Node → Prop
  | leaf {s e n as} : s ≤ e → Tiled (.mk s e n as none [])
  | elem {s e n as i j kids} : s < i → j < e → TiledSeq i kids j → Tiled (.mk s e n as (some (i, j)) kids)
/-- The nodes lie end to end from the first offset to the second. -/
inductive TiledSeq : Nat → List Node → Nat → Prop
  | nil {a} : TiledSeq a [] a
  | cons {a n ns b} : n.start = a → Tiled n → TiledSeq n.stop ns b → TiledSeq a (n :: ns) b
end

mutual
/-- As `Tiled`, but gaps between the children are allowed. -/
inductive Nested : Node → Prop
  | leaf {s e n as} : s ≤ e → Nested (.mk s e n as none [])
  | elem {s e n as i j kids} : s < i → j < e → NestedSeq i kids j → Nested (.mk s e n as (some (i, j)) kids)
/-- The nodes lie in order, without overlap, between the two offsets. -/
inductive NestedSeq : Nat → List Node → Nat → Prop
  | nil {a b} : a ≤ b → NestedSeq a [] b
  | cons {a n ns b} : a ≤ n.start → Nested n → NestedSeq n.stop ns b → NestedSeq a (n :: ns) b
end

mutual
/-- The source text of a node, put together from its tags and leaves in document order. -/
def pieces (text : Str) : Node → Str
  | .mk s e _ _ none _ => Verif.Shared.slice text s e
  | .mk s e _ _ (some (i, j)) kids =>
    Verif.Shared.slice text s i ++ piecesList text kids ++ Verif.Shared.slice text j e
def piecesList (text : Str) : List Node → Str
  | [] => []
  | n :: ns => pieces text n ++ piecesList text ns
end

/-- Elements opened one inside the other and never closed, each with some complete contents. -/
def openSrc (es : List (Str × Attrs × Forest)) : Str := es.flatMap (fun e => startTag e.1 e.2.1 ++ src e.2.2)

def OpenOk (e : Str × Attrs × Forest) : Prop :=
  ElemNameOk e.1 ∧ e.1 ∉ voidElems ∧ e.1 ≠ styleName ∧ AttrsOk e.2.1 ∧ WF e.1 false e.2.2 ∧ Balanced e.2.2

end Verif.HTML
