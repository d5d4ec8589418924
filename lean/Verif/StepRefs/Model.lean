import Verif.Tables.Model
/-!
# Model of the report on references to steps (Pseudocode.py:35-129)

The document is the tree of `HTML.py`; the nodes have no `parent` links here, so a node that is looked up comes with its
ancestors, nearest first.
-/
namespace Verif.StepRefs
open Verif.HTML (Str Attrs Node)
open Verif.Validate (nStart nStop nName nAttrs nInner nKids slice)
open Verif.Tables (strip)

/-- What isn't modelled: Python's `\w` (used only through `\b`) and `str.isspace`; `spec.node_with_id_`, each node with its ancestors (C51). -/
structure Cfg where
  text : Str
  isWord : Char → Bool
  space : Char → Bool
  nodeWithId : Str → Option (List Node)

/-- Two characters match under `re.IGNORECASE` if their `fold`s agree, when one is a lower-case ASCII letter: besides the capital
letters there are the Kelvin sign, the long s, and the Turkish i's. -/
def fold (c : Char) : Char :=
  if 'A' ≤ c ∧ c ≤ 'Z' then Char.ofNat (c.toNat + 32)
  else if c = 'K' then 'k' else if c = 'ſ' then 's' else if c = 'İ' ∨ c = 'ı' then 'i' else c

def isDigit (c : Char) : Bool := '0' ≤ c && c ≤ '9'

/-- The rest of the pattern after `step` (Pseudocode.py:72): `s* [0-9<]`.  The number of characters matched. -/
def afterStep : Str → Option Nat
  | [] => none
  | c :: r =>
    if fold c = 's' then (afterStep r).map (· + 1)
    else if c = ' ' then
      match r with
      | d :: _ => if isDigit d || d = '<' then some 2 else none
      | [] => none
    else none

/-- `(?i)steps* [0-9<]` (Pseudocode.py:72), without the `\b`. -/
def matchKw : Str → Option Nat
  | a :: b :: c :: d :: r =>
    if fold a = 's' ∧ fold b = 't' ∧ fold c = 'e' ∧ fold d = 'p' then (afterStep r).map (· + 4) else none
  | _ => none

/-- `\b` before a word character: the previous character isn't one. -/
def boundary (isWord : Char → Bool) : Option Char → Bool
  | none => true
  | some c => !isWord c

/-- `re.finditer` (Pseudocode.py:72-73): the offsets of the matches.  `skip` counts the characters that belong to the last match. -/
def starts (isWord : Char → Bool) : Nat → Option Char → Nat → Str → List Nat
  | _, _, _, [] => []
  | p, _, skip + 1, c :: r => starts isWord (p + 1) (some c) skip r
  | p, prev, 0, c :: r =>
    if boundary isWord prev then
      match matchKw (c :: r) with
      | some k => p :: starts isWord (p + 1) (some c) (k - 1) r
      | none => starts isWord (p + 1) (some c) 0 r
    else starts isWord (p + 1) (some c) 0 r

/-- The line containing an offset (Pseudocode.py:75): `rindex` and `index` fail if there is no newline before or after it. -/
def lineAt (cfg : Cfg) (st : Nat) : Option Str :=
  let before := (cfg.text.take st).reverse
  let after := cfg.text.drop st
  if '\n' ∈ before ∧ '\n' ∈ after then
    some (strip cfg.space ((before.takeWhile (· ≠ '\n')).reverse ++ after.takeWhile (· ≠ '\n')))
  else none

mutual
/-- `find_deepest_node_covering_posn` (Pseudocode.py:117-129): the node, and its ancestors after it. -/
def deepest (p : Nat) (anc : List Node) : Node → Option (List Node)
  | .mk s e n a i kids =>
    if s ≤ p ∧ p ≤ e then
      match kids with
      | [] => some (.mk s e n a i [] :: anc)
      | c :: cs => deepestL p (.mk s e n a i (c :: cs) :: anc) (c :: cs)
    else none
/-- The loop over the children (Pseudocode.py:121-125). -/
def deepestL (p : Nat) (anc : List Node) : List Node → Option (List Node)
  | [] => none
  | c :: cs => if nStart c ≤ p ∧ p ≤ nStop c then deepest p anc c else deepestL p anc cs
end

/-- `is_a_section` (HTML.py:218-219). -/
def isSection (n : Node) : Bool := nName n ∈ ["emu-intro".toList, "emu-clause".toList, "emu-annex".toList]

/-- `closest_containing_section` (HTML.py:254-263), for a node followed by its ancestors. -/
def closest (path : List Node) : Option Node := path.find? isSection

/-- Match a literal under `re.IGNORECASE`; the pattern is in lower case. -/
def lit : Str → Str → Option Str
  | [], s => some s
  | _ :: _, [] => none
  | p :: ps, c :: s => if fold c = p then lit ps s else none

/-- The class `[-a-z0-9]` under `re.IGNORECASE`. -/
def idChar (c : Char) : Bool := let d := fold c; Verif.HTML.isLower d || isDigit d || d = '-'

/-- `x` (Pseudocode.py:82): the group, and what follows the match. -/
def matchXref (s : Str) : Option (Str × Str) :=
  match lit "<emu-xref href=\"#".toList s with
  | none => none
  | some r =>
    if r.takeWhile idChar = [] then none
    else match lit "\"></emu-xref>".toList (r.dropWhile idChar) with
      | none => none
      | some r' => some (r.takeWhile idChar, r')

/-- The rest of a pattern: separators, each followed by an `x`. -/
def matchTail : List Str → Str → Option (List Str)
  | [], _ => some []
  | sep :: seps, s =>
    match lit sep s with
    | none => none
    | some r => match matchXref r with
      | none => none
      | some (x, r') => (matchTail seps r').map (x :: ·)

/-- One of the patterns, as its first word (with a space) and the separators. -/
def matchPat (pat : Str × List Str) (s : Str) : Option (List Str) :=
  match lit pat.1 s with
  | none => none
  | some r => match matchXref r with
    | none => none
    | some (x, r') => (matchTail pat.2 r').map (x :: ·)

/-- `patterns` (Pseudocode.py:83-92). -/
def patterns : List (Str × List Str) :=
  [("steps ".toList, [", ".toList, ", and ".toList]),
   ("steps ".toList, ["-".toList]),
   ("steps ".toList, ["–".toList]),
   ("steps ".toList, [" and ".toList]),
   ("step ".toList, [", ".toList, ", ".toList, ", ".toList, ", ".toList]),
   ("step ".toList, [", ".toList, ", ".toList, ", ".toList]),
   ("step ".toList, [])]

/-- `step_ids` (Pseudocode.py:93-100): the groups of the first pattern that matches. -/
def stepIds (s : Str) : Option (List Str) := patterns.findSome? (fun pat => matchPat pat s)

/-- What is yielded (Pseudocode.py:113): the section and line of the reference, and of the step.  A section may be None. -/
structure Entry where
  sec : Option Node
  line : Str
  refdSec : Option Node
  refdLine : Str

/-- Does `pat` occur in `s`? -/
def occursIn (pat : Str) : Str → Bool
  | [] => pat.isEmpty
  | c :: s => pat.isPrefixOf (c :: s) || occursIn pat s

/-- The lines of a text. -/
def linesOf : Str → List Str
  | [] => [[]]
  | c :: s =>
    if c = '\n' then [] :: linesOf s
    else match linesOf s with
      | [] => [[c]]
      | l :: ls => (c :: l) :: ls

/-- The search for `.*id="..".*` (Pseudocode.py:109-111): `.` doesn't match a newline, and `.*` takes all it can, so this gives the first
line that contains the id.  (The characters of an id have no special meaning in a pattern.) -/
def refdLine (cfg : Cfg) (src : Str) (x : Str) : Option Str :=
  ((linesOf src).find? (occursIn ("id=\"".toList ++ x ++ ['"']))).map (·.dropWhile cfg.space)

/-- The body of the loop over the ids (Pseudocode.py:102-113). -/
def entry (cfg : Cfg) (sec : Option Node) (line : Str) (x : Str) : Option Entry :=
  match cfg.nodeWithId x with
  | some (alg :: anc) =>
    if nName alg = "emu-alg".toList then
      (refdLine cfg (slice cfg.text (nStart alg) (nStop alg)) x).map (fun l => ⟨sec, line, closest (alg :: anc), l⟩)
    else none
  | _ => none

/-- `text_n.parent.element_name in ['p', 'li', 'emu-alg', 'dd']` (Pseudocode.py:78). -/
def parentOk : List Node → Bool
  | _ :: parent :: _ => nName parent ∈ ["p".toList, "li".toList, "emu-alg".toList, "dd".toList]
  | _ => false

/-- The body of the loop over the matches (Pseudocode.py:72-113). -/
def atMatch (cfg : Cfg) (doc : Node) (st : Nat) : Option (List Entry) :=
  match lineAt cfg st with
  | none => none
  | some line => match deepest st [] doc with
    | none => none
    | some path =>
      if parentOk path then
        match stepIds (cfg.text.drop st) with
        | none => none
        | some ids => ids.mapM (entry cfg (closest path) line)
      else none

/-- `each_step_ref` (Pseudocode.py:71-113), run to its end. -/
def eachStepRef (cfg : Cfg) (doc : Node) : Option (List Entry) :=
  ((starts cfg.isWord 0 none 0 cfg.text).mapM (atMatch cfg doc)).map List.flatten

/-- The lines of the report, without the empty ones and the rules: the number and title of the referring section, the referring line,
the heading for the same or another section, and the line referred to. -/
inductive Out where
  | section (s : Node)
  | line (l : Str)
  | same
  | other (s : Node)
  | refd (l : Str)

/-- The loop of `check_step_references` (Pseudocode.py:43-66).  `cur` is `curr_referring_section` with `curr_referring_line`.  A None section
makes it fail: it has no number (and at the start, `curr_referring_line` is unbound).  Sections are told apart by where they start. -/
def reportLoop : Option (Node × Option Str) → List Entry → Option (List Out)
  | _, [] => some []
  | cur, e :: es =>
    match e.sec, e.refdSec with
    | some s, some r =>
      let (head, l?) : List Out × Option Str :=
        match cur with
        | some (s', l') => if nStart s = nStart s' then ([], l') else ([.section s], none)
        | none => ([.section s], none)
      let lineOut : List Out := if l? = some e.line then [] else [.line e.line]
      let ref : List Out := [if nStart r = nStart s then .same else .other r, .refd e.refdLine]
      (reportLoop (some (s, some e.line)) es).map (head ++ lineOut ++ ref ++ ·)
    | _, _ => none

/-- `check_step_references` (Pseudocode.py:35-66). -/
def report (cfg : Cfg) (doc : Node) : Option (List Out) := (eachStepRef cfg doc).bind (reportLoop none)

end Verif.StepRefs
