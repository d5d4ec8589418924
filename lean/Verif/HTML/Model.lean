import Verif.Shared.Model
/-!
# Model of the HTML parser (`HTML.py:_parse`)

Text is a list of characters; `isWord` is Python's `\w` (used only through `\b`).
-/
namespace Verif.HTML
open Verif.Shared (dropPrefix? convertPosnToLinecol)

abbrev Str := List Char
/-- `attrs`: an ordered dict from names to values (None when there is no `="..."`). -/
abbrev Attrs := List (Str × Option Str)

/-- `HNode` (HTML.py:189-194, 75-77): extent, name, attributes, inner extent (set when the element
is closed) and children.  The `parent` link is left out. -/
inductive Node where
  | mk (start stop : Nat) (name : Str) (attrs : Attrs) (inner : Option (Nat × Nat)) (children : List Node)

/-- An open element: `tagEnd` is its `end_posn` while it is open (the end of the start-tag).
In the code an open element is already in its parent's `children`; here it is put there when
it is closed, which makes no difference because the parent gets no other child in between. -/
structure Frame where
  start : Nat
  tagEnd : Nat
  name : Str
  attrs : Attrs
  children : List Node

/-- The variables of `_parse` (HTML.py:31-33): the open elements, innermost first (the last is
the document), and the messages issued about end-tags (offset and name of the end-tag). -/
structure St where
  stack : List Frame
  msgs : List (Nat × Str)

/-- The elements that are complete after their start-tag (HTML.py:40). -/
def voidNames : List Str := [['h', 't', 'm', 'l'], ['m', 'e', 't', 'a'], ['l', 'i', 'n', 'k'], ['i', 'm', 'g'], ['b', 'r']]

def litName : Str := ['#', 'L', 'I', 'T', 'E', 'R', 'A', 'L']
def commentName : Str := ['#', 'C', 'O', 'M', 'M', 'E', 'N', 'T']
def declName : Str := ['#', 'D', 'E', 'C', 'L']
def docName : Str := ['#', 'D', 'O', 'C']
def styleName : Str := ['s', 't', 'y', 'l', 'e']

/-- Append a finished child to the innermost open element (HTML.py:38-42). -/
def addNode (c : Node) (st : St) : St :=
  match st.stack with
  | [] => st
  | f :: fs => { st with stack := { f with children := f.children ++ [c] } :: fs }

/-- `add_child` for a new element (HTML.py:35-46). -/
def addElement (start tagEnd : Nat) (name : Str) (attrs : Attrs) (st : St) : St :=
  if name.head? = some '#' ∨ name ∈ voidNames then addNode (.mk start tagEnd name attrs none []) st
  else { st with stack := ⟨start, tagEnd, name, attrs, []⟩ :: st.stack }

/-- `close_open_child` (HTML.py:48-78).  On a mismatch a message is issued, which fails if the
offset cannot be converted to a line and column. -/
def closeOpenChild (text : Str) (endStart endStop : Nat) (name : Str) (st : St) : Option St :=
  match st.stack with
  | [] => none
  | f :: fs =>
    if name ≠ f.name then
      match convertPosnToLinecol text endStart with
      | none => none
      | some _ => some { st with msgs := st.msgs ++ [(endStart, name)] }
    else
      match fs with
      | [] => none
      | _ :: _ => some (addNode (.mk f.start endStop f.name f.attrs (some (f.tagEnd, endStart)) f.children)
                  { st with stack := fs })

def isLower (c : Char) : Bool := 'a' ≤ c && c ≤ 'z'
/-- The class `[-a-z0-9]`. -/
def isNameChar (c : Char) : Bool := isLower c || ('0' ≤ c && c ≤ '9') || c = '-'

/-- `\b` between positions `k-1` and `k` of `s` (for `k ≥ 1`). -/
def boundary (isWord : Char → Bool) (s : Str) (k : Nat) : Bool :=
  let w (i : Nat) : Bool := match s[i]? with | some c => isWord c | none => false
  w (k - 1) != w k

/-- Back off from the longest candidate until the boundary condition holds. -/
def backOff (isWord : Char → Bool) (s : Str) : Nat → Option Nat
  | 0 => none
  | k + 1 => if boundary isWord s (k + 1) then some (k + 1) else backOff isWord s k

/-- The pattern `<([a-z][-a-z0-9]*)\b` (HTML.py:101), applied after the `<`: the name and what
follows. -/
def matchStartName (isWord : Char → Bool) (s : Str) : Option (Str × Str) :=
  match s with
  | [] => none
  | c :: r =>
    if isLower c then
      match backOff isWord s (1 + (r.takeWhile isNameChar).length) with
      | none => none
      | some k => some (s.take k, s.drop k)
    else none

/-- The pattern ` ([a-z][-a-z0-9]*)(?:="([^"]*)")?` (HTML.py:110). -/
def matchAttr (s : Str) : Option (Str × Option Str × Str) :=
  match s with
  | ' ' :: c :: r =>
    if isLower c then
      let name := c :: r.takeWhile isNameChar
      let after := r.dropWhile isNameChar
      match after with
      | '=' :: '"' :: v =>
        match v.dropWhile (· ≠ '"') with
        | '"' :: r' => some (name, some (v.takeWhile (· ≠ '"')), r')
        | _ => some (name, none, after)
      | _ => some (name, none, after)
    else none
  | _ => none

/-- The loop over attributes (HTML.py:104-118): the attributes and what follows the `>`.
`none` is a lexing error, a repeated attribute, or running off the end of the text. -/
def attrLoop : Nat → Str → Attrs → Option (Attrs × Str)
  | 0, _, _ => none
  | n + 1, s, attrs =>
    match s with
    | '>' :: r => some (attrs, r)
    | _ =>
      match matchAttr s with
      | none => none
      | some (name, value, r) =>
        if name ∈ attrs.map (·.1) then none
        else attrLoop n r (attrs ++ [(name, value)])

/-- `str.find`. -/
def find (pat : Str) : Str → Option Nat
  | [] => if pat = [] then some 0 else none
  | c :: s => match dropPrefix? pat (c :: s) with
    | some _ => some 0
    | none => (find pat s).map (· + 1)

/-- The handler for a start-tag (HTML.py:100-133), after the `<` at `posn`. -/
def doStartTag (isWord : Char → Bool) (posn : Nat) (s : Str) (st : St) : Option (Nat × Str × St) :=
  match matchStartName isWord s with
  | none => none
  | some (name, after) =>
    match attrLoop (after.length + 1) after [] with
    | none => none
    | some (attrs, r) =>
      let tagEnd := posn + 1 + (s.length - r.length)
      let st1 := addElement posn tagEnd name attrs st
      if name = styleName then
        match find ['<', '/', 's', 't', 'y', 'l', 'e', '>'] r with
        | none => none
        | some k => some (tagEnd + k, r.drop k, addNode (.mk tagEnd (tagEnd + k) litName [] none []) st1)
      else some (tagEnd, r, st1)

/-- The pattern `</([a-z][-a-z0-9]*)>` (HTML.py:136), applied after the `</`. -/
def matchEndTag (s : Str) : Option (Str × Str) :=
  match s with
  | c :: r =>
    if isLower c then
      match r.dropWhile isNameChar with
      | '>' :: r' => some (c :: r.takeWhile isNameChar, r')
      | _ => none
    else none
  | [] => none

/-- One iteration of the main loop (HTML.py:168-176, with the handlers 94-152): the new position, what
follows it, and the new state. -/
def step (isWord : Char → Bool) (text : Str) (posn : Nat) (s : Str) (st : St) : Option (Nat × Str × St) :=
  match s with
  | [] => none
  | '<' :: '/' :: r =>
    match matchEndTag r with
    | none => none
    | some (name, r') =>
      let e := posn + 2 + (r.length - r'.length)
      (closeOpenChild text posn e name st).map (fun st' => (e, r', st'))
  | '<' :: '!' :: r =>
    match dropPrefix? ['-', '-'] r with
    | some r2 =>
      match find ['-', '-', '>'] r2 with
      | none => none
      | some k => some (posn + 4 + k + 3, r2.drop (k + 3), addNode (.mk posn (posn + 4 + k + 3) commentName [] none []) st)
    | none =>
      match dropPrefix? ['D', 'O', 'C', 'T', 'Y', 'P', 'E', ' ', 'h', 't', 'm', 'l', '>'] r with
      | some r2 => some (posn + 15, r2, addNode (.mk posn (posn + 15) declName [] none []) st)
      | none => none
  | '<' :: r => doStartTag isWord posn r st
  | c :: r =>
    let t := c :: r.takeWhile (· ≠ '<')
    some (posn + t.length, r.dropWhile (· ≠ '<'), addNode (.mk posn (posn + t.length) litName [] none []) st)

/-- The main loop (HTML.py:168-176); every iteration consumes something, so fuel for the length of
the text is enough. -/
def loop (isWord : Char → Bool) (text : Str) : Nat → Nat → Str → St → Option St
  | _, _, [], st => some st
  | 0, _, _ :: _, _ => none
  | n + 1, posn, s, st =>
    match step isWord text posn s st with
    | none => none
    | some (posn', s', st') => loop isWord text n posn' s' st'

/-- `_parse` (HTML.py:28-185): the document node and the messages, or `none` when the program
exits with an error or crashes. -/
def parse (isWord : Char → Bool) (text : Str) : Option (Node × List (Nat × Str)) :=
  match loop isWord text text.length 0 text ⟨[⟨0, text.length, docName, [], []⟩], []⟩ with
  | some ⟨[f], msgs⟩ => some (.mk 0 text.length f.name f.attrs none f.children, msgs)
  | _ => none

end Verif.HTML
