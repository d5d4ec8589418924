import Verif.Validate.Model
/-!
# Model of the checks of the layout (analyze_spec.py:103-334)

`white` is Python's class of white space (`isspace`, `\s`); `kind` is the first column of `element_info`.
-/
namespace Verif.Layout
open Verif.HTML (Str Attrs Node litName commentName docName)
open Verif.Validate (nStart nStop nName nAttrs nInner nKids slice className Kind)

/-! ### Indentation (analyze_spec.py:103-284) -/

inductive Say where
  | indent (expected got : Nat)  -- "expected indent=..., got ..." (analyze_spec.py:144, 269)
  | below (top got : Nat)        -- "expected indent<..., got ..." (analyze_spec.py:275)
  | notFirst (name : Str)        -- "... tag isn't the first non-blank thing on the line" (analyze_spec.py:146)
deriving DecidableEq

structure Msg where
  posn : Nat
  say : Say
deriving DecidableEq

/-- The character after the last newline before `p`, or 0 (analyze_spec.py:125, 128). -/
def lastBreak : Nat → Nat → Str → Nat
  | _, best, [] => best
  | p, best, c :: cs => lastBreak (p + 1) (if c = '\n' then p + 1 else best) cs

def lineStart (text : Str) (p : Nat) : Nat := lastBreak 0 0 (text.take p)

/-- The first newline from `p` on, or the length of the text (analyze_spec.py:126, 129). -/
def lineEnd (text : Str) (p : Nat) : Nat := p + ((text.drop p).takeWhile (· ≠ '\n')).length

/-- `check_tag_indent` (analyze_spec.py:135-146). -/
def tagMsgs (white : Char → Bool) (text : Str) (lineS tagS : Nat) (name : Str) (expected : Nat) : List Msg :=
  let lead := slice text lineS tagS
  if lead = [] ∨ lead.all white then if lead.length = expected then [] else [⟨tagS, .indent expected lead.length⟩]
  else [⟨tagS, .notFirst name⟩]

/-- The matches of `\n( *)\S` (analyze_spec.py:257-261): the number of spaces and the position after them; `k` characters are still to be skipped. -/
def rows (white : Char → Bool) : Nat → Nat → Str → List (Nat × Nat)
  | _, _, [] => []
  | k + 1, p, _ :: cs => rows white k (p + 1) cs
  | 0, p, c :: cs =>
    if c = '\n' then
      let n := (cs.takeWhile (· = ' ')).length
      match cs.drop n with
      | [] => rows white 0 (p + 1) cs
      | d :: _ => if white d then rows white 0 (p + 1) cs else (n, p + 1 + n) :: rows white (n + 1) (p + 1) cs
    else rows white 0 (p + 1) cs

/-- The lines between those that are not deeper than `top` (analyze_spec.py:271-280). -/
def groups (top : Nat) : List (Nat × Nat) → List (List (Nat × Nat))
  | [] => [[]]
  | r :: rs => if r.1 ≤ top then [] :: groups top rs else match groups top rs with
    | [] => [[r]]
    | g :: gs => (r :: g) :: gs

/-- `check_lines` (analyze_spec.py:263-280), on the lines from `lo` to `hi`; the first number bounds the depth of the recursion, the length is enough. -/
def checkLines : Nat → Nat → List (Nat × Nat) → List Msg
  | _, _, [] => []
  | 0, _, _ :: _ => []
  | n + 1, emi, (top, x) :: rest =>
    (if top = emi then [] else [⟨x, .indent emi top⟩]) ++
    rest.flatMap (fun r => if r.1 < top then [⟨r.2, .below top r.1⟩] else []) ++
    (groups top rest).flatMap (checkLines n (top + 2))

/-- `check_inline_content` from `a` to `b` (analyze_spec.py:249-282). -/
def inlineMsgs (white : Char → Bool) (text : Str) (a b emi : Nat) : List Msg :=
  let rs := rows white 0 a (slice text a b)
  checkLines rs.length emi rs

def codeName : Str := "code".toList
def preName : Str := "pre".toList

/-- `<pre><code>` (analyze_spec.py:170). -/
def preCode (name : Str) (kids : List Node) : Option Node :=
  match kids with
  | [c] => if name = preName ∧ nName c = codeName then some c else none
  | _ => none

/-- `block_child_element_names` is not empty (HTML.py:455-466). -/
def hasBlocks (kind : Str → Option Kind) (kids : List Node) : Bool :=
  kids.any (fun c => nName c != commentName && nName c != litName && decide (kind (nName c) = some .block))

/-- `'br' in node.inline_child_element_names` (HTML.py:456-468). -/
def hasBreaks (kind : Str → Option Kind) (kids : List Node) : Bool :=
  kids.any (fun c => nName c == "br".toList && decide (kind (nName c) = some .inline))

/-- `child_expected_indent` (analyze_spec.py:193-220). -/
def childIndent (white : Char → Bool) (text : Str) (name : Str) (start indent : Nat) : Nat :=
  if name ∈ ["html".toList, "head".toList, "body".toList] then indent
  else if name ∈ ["thead".toList, "tbody".toList] then
    let next := lineEnd text start + 1
    let ahead := slice text next (next + indent + 2)
    if ahead ≠ [] ∧ ahead.all white then indent + 2 else indent
  else indent + 2

mutual
/-- `check_indentation_for_node` (analyze_spec.py:108-247) with an expected indent; None where an assertion fails or an attribute is missing. -/
def indentNode (white : Char → Bool) (kind : Str → Option Kind) (text : Str) (expected : Nat) : Node → Option (List Msg)
  | .mk s e name _ inner kids =>
    if name = docName then none
    else if name = litName then some []
    else
      let first := tagMsgs white text (lineStart text s) s name expected
      let indent := s - lineStart text s
      if lineStart text s = lineStart text e then some first
      else if name = commentName then some (first ++ inlineMsgs white text (s + 4) (e - 3) (indent + 2))
      else match preCode name kids with
        | some code =>
          if (nAttrs code).lookup className = some (some "javascript".toList) then match nInner code with
            | none => none
            | some (a, b) => some (first ++ inlineMsgs white text a b (indent + 2) ++ tagMsgs white text (lineStart text e) b codeName expected)
          else none
        | none => match inner with
          | none => none
          | some (a, b) =>
            match (if name ∈ ["emu-grammar".toList, "emu-alg".toList, "emu-eqn".toList] ∨ hasBlocks kind kids = false then some (inlineMsgs white text a b (indent + 2))
              else indentNodes white kind text (childIndent white text name s indent) kids) with
            | none => none
            | some body => some (first ++ body ++
              (if name = "p".toList ∧ hasBreaks kind kids = true ∧ (slice text a b).head? ≠ some '\n' then []
               else tagMsgs white text (lineStart text e) b name expected))
def indentNodes (white : Char → Bool) (kind : Str → Option Kind) (text : Str) (expected : Nat) : List Node → Option (List Msg)
  | [] => some []
  | n :: ns => match indentNode white kind text expected n with
    | none => none
    | some ms => match indentNodes white kind text expected ns with
      | none => none
      | some ks => some (ms ++ ks)
end

/-- `check_indentation` (analyze_spec.py:109-113, 284). -/
def checkIndentation (white : Char → Bool) (kind : Str → Option Kind) (text : Str) (doc : Node) : Option (List Msg) :=
  indentNodes white kind text 0 (nKids doc)

/-! ### Blank lines, trailing white space, characters (analyze_spec.py:288-334) -/

/-- The length of ` *\n` at the start. -/
def blankLine (s : Str) : Option Nat :=
  match s.drop (s.takeWhile (· = ' ')).length with
  | '\n' :: _ => some ((s.takeWhile (· = ' ')).length + 1)
  | _ => none

/-- The length and number of as many blank lines as there are at the start; the first number bounds it. -/
def blankLines : Nat → Str → Nat × Nat
  | 0, _ => (0, 0)
  | n + 1, s => match blankLine s with
    | none => (0, 0)
    | some k => match blankLines n (s.drop k) with
      | (l, c) => (k + l, c + 1)

/-- The matches of `\n( *\n){2,}` (analyze_spec.py:290-292): the position of the last newline. -/
def extraBlanks : Nat → Nat → Str → List Nat
  | _, _, [] => []
  | k + 1, p, _ :: cs => extraBlanks k (p + 1) cs
  | 0, p, c :: cs =>
    if c = '\n' then match blankLines cs.length cs with
      | (l, n) => if 2 ≤ n then (p + l) :: extraBlanks l (p + 1) cs else extraBlanks 0 (p + 1) cs
    else extraBlanks 0 (p + 1) cs

def endClause : Str := "</emu-clause>".toList

/-- The length of ` *\n *</emu-clause>` at the start. -/
def blankEnd (s : Str) : Option Nat :=
  match blankLine s with
  | none => none
  | some k =>
    let n := ((s.drop k).takeWhile (· = ' ')).length
    if endClause.isPrefixOf ((s.drop k).drop n) then some (k + n + endClause.length) else none

/-- The matches of `\n( *\n *</emu-clause>)` (analyze_spec.py:294-296). -/
def endBlanks : Nat → Nat → Str → List Nat
  | _, _, [] => []
  | k + 1, p, _ :: cs => endBlanks k (p + 1) cs
  | 0, p, c :: cs =>
    if c = '\n' then match blankEnd cs with
      | some l => (p + 1) :: endBlanks l (p + 1) cs
      | none => endBlanks 0 (p + 1) cs
    else endBlanks 0 (p + 1) cs

def isBlank (c : Char) : Bool := c = ' ' || c = '\t'

/-- The matches of `(?m)[ \t]+$` (analyze_spec.py:298-302). -/
def trailing : Nat → Nat → Str → List Nat
  | _, _, [] => []
  | k + 1, p, _ :: cs => trailing k (p + 1) cs
  | 0, p, c :: cs =>
    if isBlank c then
      let n := (cs.takeWhile isBlank).length
      match cs.drop n with
      | [] => p :: trailing n (p + 1) cs
      | d :: _ => if d = '\n' then p :: trailing n (p + 1) cs else trailing 0 (p + 1) cs
    else trailing 0 (p + 1) cs

/-- The characters that are not unusual (analyze_spec.py:308-329): in a class, the flag `x` does not take away white space and comments, but these only have characters that are in the class anyway. -/
def usual (c : Char) : Bool :=
  c = '\n' || (0x20 ≤ c.toNat && c.toNat ≤ 0x7e) ||
  c.toNat ∈ [0xab, 0xbb, 0xd7, 0x3c0, 0x2014, 0x201c, 0x201d, 0x2026, 0x211d, 0x2124, 0x2192, 0x221e, 0x2260, 0x2264, 0x2265, 0x1d53d]

/-- `check_characters` (analyze_spec.py:330-334): the position and the number of the character. -/
def unusual : Nat → Str → List (Nat × Nat)
  | _, [] => []
  | p, c :: cs => if usual c then unusual (p + 1) cs else (p, c.toNat) :: unusual (p + 1) cs

end Verif.Layout
