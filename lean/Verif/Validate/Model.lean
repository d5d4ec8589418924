import Verif.HTML.Model
/-!
# Model of the validation of the markup (HTML.py:278-511)

Messages keep their offset, their kind, and the names they are about; their wording is left out.
-/
namespace Verif.Validate
open Verif.HTML (Str Attrs Node litName commentName)

/-- What a message says. -/
inductive Say where
  | spaces (n : Nat)              -- "n space characters"
  | literal (c : Char)            -- "literal c should be an entity"
  | entity (e : Str)              -- "entity e should be literal character"
  | startsSpace (name : Str)      -- "<name> content starts with space"
  | endsSpace (name : Str)        -- "<name> content ends with space"
  | missing (attrs : List Str)    -- "required attribute(s) are missing"
  | unexpected (attrs : List Str) -- "unexpected attribute(s)"
  | unknown (attr : Str)          -- "Unknown attribute"
  | noValue (attr v : Str)        -- "expected no value, but got v"
  | needValue (attr : Str)        -- "expected a value ..., but got nothing"
  | badValue (attr v : Str)       -- "expected a value ..., but got v"
  | kindless (name : Str)         -- "Is <name> block or inline?"
  | mixed                         -- "content includes both block-level items and inline-level items"
  | noModel (name : Str)          -- "No content model for <name>"
  | content (names : List Str)    -- "has content ..., expected ..."
deriving DecidableEq

structure Msg where
  posn : Nat
  say : Say
deriving DecidableEq

/-- The first column of `element_info` (HTML.py:513-610). -/
inductive Kind where | block | inline | either | other
deriving DecidableEq

/-- The tables (HTML.py:513-682, and HTML.py:317-352 for entities).  A pattern is given by what it matches in full; a content
model by the sequences of names it matches. -/
structure Cfg where
  word : Char → Bool
  white : Char → Bool
  kind : Str → Option Kind
  attrs : Str → Option (List Str × List Str)
  pattern : Str → Option (Option (Str → Bool))
  model : Str → Option (List Str → Bool)
  entities : Str → List (Str × Option Char)

def nStart : Node → Nat | .mk s _ _ _ _ _ => s
def nStop : Node → Nat | .mk _ e _ _ _ _ => e
def nName : Node → Str | .mk _ _ n _ _ _ => n
def nAttrs : Node → Attrs | .mk _ _ _ a _ _ => a
def nInner : Node → Option (Nat × Nat) | .mk _ _ _ _ i _ => i
def nKids : Node → List Node | .mk _ _ _ _ _ c => c

/-- `text[a:b]`. -/
def slice (text : Str) (a b : Nat) : Str := (text.take b).drop a

/-- `string_is_whitespace` (HTML.py:271-274): `^\s+$`. -/
def isWhite (cfg : Cfg) (s : Str) : Bool := !s.isEmpty && s.all cfg.white

/-- `HNode.is_whitespace` (HTML.py:208-209). -/
def nodeWhite (cfg : Cfg) (text : Str) (n : Node) : Bool :=
  nName n = litName && isWhite cfg (slice text (nStart n) (nStop n))

/-! ## Literals -/

/-- The matches of ` {2,}` (HTML.py:299): offset and length.  `k` is the number of spaces just before `p`. -/
def runs : Nat → Nat → Str → List (Nat × Nat)
  | p, k, [] => if 2 ≤ k then [(p - k, k)] else []
  | p, k, c :: cs =>
    if c = ' ' then runs (p + 1) (k + 1) cs
    else if 2 ≤ k then (p - k, k) :: runs (p + 1) 0 cs
    else runs (p + 1) 0 cs

/-- `text[p-1]`: the last character if `p` is 0 (HTML.py:302). -/
def charBefore (text : Str) : Nat → Option Char
  | 0 => text.getLast?
  | p + 1 => text[p]?

/-- The pattern `\w+;`, with what was matched before it. -/
def entityWord (cfg : Cfg) (h r : Str) : Option Str :=
  match r.takeWhile cfg.word, r.dropWhile cfg.word with
  | c :: cs, ';' :: _ => some (h ++ (c :: cs) ++ [';'])
  | _, _ => none

/-- The pattern `#?\w+;` after an `&`: what it matches (HTML.py:362). -/
def entityTail (cfg : Cfg) (s : Str) : Option Str :=
  match s with
  | '#' :: r => entityWord cfg ['#'] r
  | _ => entityWord cfg [] s

/-- The checks of the matches of `&#?\w+;|.` (HTML.py:362-380); `k` characters are still to be skipped. -/
def entityMsgs (cfg : Cfg) (ents : List (Str × Option Char)) : Nat → Nat → Str → List Msg
  | _, _, [] => []
  | k + 1, p, _ :: cs => entityMsgs cfg ents k (p + 1) cs
  | 0, p, c :: cs =>
    match (if c = '&' then entityTail cfg cs else none) with
    | some e =>
      if ('&' :: e) ∈ ents.map (·.1) then entityMsgs cfg ents e.length (p + 1) cs
      else ⟨p, .entity ('&' :: e)⟩ :: entityMsgs cfg ents e.length (p + 1) cs
    | none =>
      if c ≠ '\n' ∧ c ∈ ents.filterMap (·.2) then ⟨p, .literal c⟩ :: entityMsgs cfg ents 0 (p + 1) cs
      else entityMsgs cfg ents 0 (p + 1) cs

def thName : Str := ['t', 'h']
def tdName : Str := ['t', 'd']
def tableName : Str := ['t', 'a', 'b', 'l', 'e']
def className : Str := ['c', 'l', 'a', 's', 's']
def lightName : Str := "lightweight-table".toList

/-- `is_loose_about_spaces` (HTML.py:282-295), on a node with those around it, innermost first.  None if there is no table around a cell, when
the code looks for the attributes of None. -/
def isLoose (chain : List Node) : Option Bool :=
  match chain with
  | [] => some false
  | x :: _ =>
    if nName x = thName ∨ nName x = tdName then
      match chain.find? (fun a => nName a = tableName) with
      | none => none
      | some t => some (decide ((nAttrs t).lookup className = some (some lightName)))
    else some false

/-- The loop over runs of spaces (HTML.py:299-312).  `is_loose_about_spaces` is only called for a run that isn't indentation. -/
def runMsgs (text : Str) (chain : List Node) : List (Nat × Nat) → Option (List Msg)
  | [] => some []
  | (p, k) :: rs =>
    if charBefore text p = some '\n' then runMsgs text chain rs
    else match isLoose chain with
      | none => none
      | some true => runMsgs text chain rs
      | some false => match runMsgs text chain rs with
        | none => none
        | some ms => some (⟨p, .spaces k⟩ :: ms)

/-- The part for a literal (HTML.py:297-383); `chain` starts with its parent. -/
def literalMsgs (cfg : Cfg) (text : Str) (chain : List Node) (n : Node) : Option (List Msg) :=
  let lit := slice text (nStart n) (nStop n)
  match chain with
  | [] => none
  | parent :: _ =>
    match runMsgs text chain (runs (nStart n) 0 lit) with
    | none => none
    | some ms => some (ms ++ entityMsgs cfg (cfg.entities (nName parent)) 0 (nStart n) lit)

/-! ## Elements -/

/-- `\n +` at the end of a reversed string. -/
def nlSpaces (r : Str) : Bool :=
  match r with
  | ' ' :: r => (r.dropWhile (· = ' ')).head? = some '\n'
  | _ => false

/-- `re.search('\n +$', ist)`: `$` is the end or just before a newline that ends the string (HTML.py:393). -/
def indentedEnd (ist : Str) : Bool :=
  match ist.reverse with
  | '\n' :: r => nlSpaces r
  | r => nlSpaces r

/-- The checks of spaces at the ends of the content (HTML.py:388-397); `chain` starts with the node. -/
def edgeMsgs (text : Str) (chain : List Node) (n : Node) : Option (List Msg) :=
  match nInner n with
  | none => some []
  | some (a, b) =>
    match isLoose chain with
    | none => none
    | some true => some []
    | some false =>
      let ist := slice text a b
      some ((if ist.head? = some ' ' then [⟨a, .startsSpace (nName n)⟩] else []) ++
        (if indentedEnd ist then []
         else if ist.getLast? = some ' ' then [⟨b, .endsSpace (nName n)⟩] else []))

/-- The checks of the set of attributes (HTML.py:402-414). -/
def attrSetMsgs (cfg : Cfg) (n : Node) : List Msg :=
  match cfg.attrs (nName n) with
  | none => []
  | some (req, opt) =>
    let have_ := (nAttrs n).map (·.1)
    (if req.all (· ∈ have_) then [] else [⟨nStart n, .missing (req.filter (· ∉ have_))⟩]) ++
    (if have_.all (fun a => a ∈ req ∨ a ∈ opt) then []
     else [⟨nStart n, .unexpected (have_.filter (fun a => ¬ (a ∈ req ∨ a ∈ opt)))⟩])

/-- The first of the two keys that is in `attribute_info` (HTML.py:418-424). -/
def patternFor (cfg : Cfg) (name attr : Str) : Option (Option (Str → Bool)) :=
  match cfg.pattern (name ++ '.' :: attr) with
  | some p => some p
  | none => cfg.pattern attr

/-- The check of one attribute (HTML.py:416-450). -/
def attrMsg (cfg : Cfg) (n : Node) (a : Str × Option Str) : List Msg :=
  match patternFor cfg (nName n) a.1 with
  | none => [⟨nStart n, .unknown a.1⟩]
  | some none => match a.2 with
    | none => []
    | some v => [⟨nStart n, .noValue a.1 v⟩]
  | some (some p) => match a.2 with
    | none => [⟨nStart n, .needValue a.1⟩]
    | some v => if p v then [] else [⟨nStart n, .badValue a.1 v⟩]

/-- The first pass over the children (HTML.py:456-472): the block-level names, the inline-level names, and the messages. -/
def childKinds (cfg : Cfg) (text : Str) : List Node → List Str × List Str × List Msg
  | [] => ([], [], [])
  | c :: cs =>
    match childKinds cfg text cs with
    | (bs, is, ms) =>
      if nName c = commentName then (bs, is, ms)
      else if nName c = litName then
        if nodeWhite cfg text c then (bs, is, ms) else (bs, litName :: is, ms)
      else match cfg.kind (nName c) with
        | some .block => (nName c :: bs, is, ms)
        | some .inline => (bs, nName c :: is, ms)
        | some _ => (bs, is, ms)
        | none => (bs, is, ⟨nStart c, .kindless (nName c)⟩ :: ms)

def wsTok : Str := ['#', 'W', 'S']
def textTok : Str := ['#', 'T', 'E', 'X', 'T']

/-- The names of the children (HTML.py:482-492); None if the assertion fails. -/
def childToks (cfg : Cfg) (text : Str) (inline : Bool) : List Node → Option (List Str)
  | [] => some []
  | c :: cs =>
    match childToks cfg text inline cs with
    | none => none
    | some ts =>
      if nName c = litName then
        if inline then some (textTok :: ts)
        else if nodeWhite cfg text c then some (wsTok :: ts)
        else none
      else some (nName c :: ts)

/-- `re.sub('#WS;#COMMENT;#WS;', '#WS;', children_names)` (HTML.py:495), on the names between semicolons, none of which has a semicolon or, after its start, a `#`. -/
def subComments : List Str → List Str
  | a :: b :: c :: r =>
    if a = wsTok ∧ b = commentName ∧ c = wsTok then wsTok :: subComments r
    else a :: subComments (b :: c :: r)
  | ts => ts

/-- The check of the content model (HTML.py:497-504). -/
def modelMsgs (cfg : Cfg) (n : Node) (toks : List Str) : List Msg :=
  match cfg.model (nName n) with
  | none => [⟨nStart n, .noModel (nName n)⟩]
  | some m => if m (subComments toks) then [] else [⟨nStart n, .content (subComments toks)⟩]

/-- What is checked at a node that isn't a literal (HTML.py:388-504); `anc` are the nodes around it, innermost first. -/
def elementMsgs (cfg : Cfg) (text : Str) (anc : List Node) (n : Node) : Option (List Msg) :=
  match edgeMsgs text (n :: anc) n with
  | none => none
  | some em =>
    match childKinds cfg text (nKids n) with
    | (bs, is, km) =>
      match childToks cfg text (!is.isEmpty) (nKids n) with
      | none => none
      | some toks =>
        some (em ++ attrSetMsgs cfg n ++ (nAttrs n).flatMap (attrMsg cfg n) ++ km ++
          (if bs ≠ [] ∧ is ≠ [] then [⟨nStart n, .mixed⟩] else []) ++ modelMsgs cfg n toks)

mutual
/-- `_validate` (HTML.py:278-511). -/
def validate (cfg : Cfg) (text : Str) (anc : List Node) : Node → Option (List Msg)
  | .mk s e name attrs inner kids =>
    if name = litName then literalMsgs cfg text anc (.mk s e name attrs inner kids)
    else match elementMsgs cfg text anc (.mk s e name attrs inner kids) with
      | none => none
      | some ms => match validateKids cfg text (.mk s e name attrs inner kids :: anc) kids with
        | none => none
        | some ks => some (ms ++ ks)
/-- The loop over the children (HTML.py:510-511). -/
def validateKids (cfg : Cfg) (text : Str) (anc : List Node) : List Node → Option (List Msg)
  | [] => some []
  | c :: cs => match validate cfg text anc c with
    | none => none
    | some ms => match validateKids cfg text anc cs with
      | none => none
      | some ks => some (ms ++ ks)
end

end Verif.Validate
