/-!
# Model of `shared.py` (positions, messages, replacements, DL builder, entities)

Texts are `List Char`; a Python offset is an `Int` (or a `Nat` where the code only ever has
non-negative ones).  A failed `assert` or an uncaught exception is `none`.
-/
namespace Verif.Shared

/-- The positions of the newline characters of `text`, when `text` starts at offset `k`.
Models the comprehension `[mo.start() for mo in re.finditer('\n', spec_text)]`
(shared.py:61). -/
def nlPosns : List Char → Nat → List Int
  | [], _ => []
  | c :: cs, k => if c = '\n' then (k : Int) :: nlPosns cs (k + 1) else nlPosns cs (k + 1)

/-- `_newline_posns` as set by `install_spec_text` (shared.py:57-65). -/
def newlinePosns (text : List Char) : List Int := -1 :: nlPosns text 0

/-- The `while True` bisection of `convert_posn_to_linecol` (shared.py:222-242), with its
assertions.  `np[i]` raising IndexError is `none`. -/
def bisect (text : List Char) (np : List Int) (posn : Int) (lo hi : Nat) : Option (Nat × Int) :=
  if _h : lo < hi then
    match np[lo]?, np[hi]? with
    | some plo, some phi =>
      if plo < posn ∧ posn ≤ phi then
        if _h1 : lo + 1 = hi then
          some (hi, posn - plo)
        else
          let mid := (lo + hi) / 2
          match np[mid]? with
          | some pmid =>
            if pmid < posn then bisect text np posn mid hi
            else if posn < pmid then bisect text np posn lo mid
            else if text[posn.toNat]? = some '\n' then bisect text np posn (mid - 1) mid
            else none
          | none => none
      else none
    | _, _ => none
  else none
termination_by hi - lo
decreasing_by all_goals omega

/-- `convert_posn_to_linecol` (shared.py:217-244). -/
def convertPosnToLinecol (text : List Char) (posn : Int) : Option (Nat × Int) :=
  let np := newlinePosns text
  bisect text np posn 0 (np.length - 1)

/-- `convert_HTMLParser_getpos_to_posn` (shared.py:213-215).  `line_num` is taken ≥ 1, as
HTMLParser's `getpos` guarantees. -/
def getposToPosn (text : List Char) (lineNum : Nat) (offset : Nat) : Option Int :=
  match (newlinePosns text)[lineNum - 1]? with
  | some p => some (p + 1 + offset)
  | none => none

/-- Python slice `s[a:b]` for non-negative `a`, `b`. -/
def slice {α} (s : List α) (a b : Nat) : List α := (s.take b).drop a

/-- `source_line_with_caret_marking_column` (shared.py:246-255): the two output lines. -/
def sourceLineWithCaret (text : List Char) (posn : Int) : Option (List Char × List Char) :=
  match convertPosnToLinecol text posn with
  | some (lineNum, col) =>
    match (newlinePosns text)[lineNum - 1]?, (newlinePosns text)[lineNum]? with
    | some a, some b =>
      some (slice text (a + 1).toNat b.toNat, List.replicate (col - 1).toNat '-' ++ ['^'])
    | _, _ => none
  | none => none

/-! ## Messages per line -/

/-- Lexicographic `≤` on character lists (Python string comparison). -/
def charsLe : List Char → List Char → Bool
  | [], _ => true
  | _ :: _, [] => false
  | a :: as, b :: bs => decide (a.val < b.val) || (decide (a = b) && charsLe as bs)

/-- One recorded message: `(col_num, msg)` (shared.py:272). -/
abbrev Msg := Int × List Char

/-- Python's tuple ordering on `(col, msg)`; strings compare by code points. -/
def msgLe (a b : Msg) : Bool :=
  decide (a.1 < b.1) || (decide (a.1 = b.1) && charsLe a.2 b.2)

/-- The state `msgs_for_line_`: a `defaultdict(list)`, as a function from line numbers
(shared.py:261-265). -/
abbrev MsgTable := Nat → List Msg

/-- `msg_at_posn` (shared.py:270-272). -/
def msgAtPosn (text : List Char) (tbl : MsgTable) (posn : Int) (msg : List Char) : Option MsgTable :=
  match convertPosnToLinecol text posn with
  | some (lineNum, col) =>
    some (fun l => if l = lineNum then tbl l ++ [(col, msg)] else tbl l)
  | none => none

/-- A history of `msg_at_posn` calls after `msg_at_posn_start()` (shared.py:263-272). -/
def msgHistory (text : List Char) (calls : List (Int × List Char)) : Option MsgTable :=
  calls.foldlM (fun tbl c => msgAtPosn text tbl c.1 c.2) (fun _ => [])

/-- Python `s.split('\n')`. -/
def splitLines : List Char → List (List Char)
  | [] => [[]]
  | c :: cs =>
    if c = '\n' then [] :: splitLines cs
    else match splitLines cs with
      | [] => [[c]]
      | l :: ls => (c :: l) :: ls

/-- The two lines printed for a message (shared.py:280-281). -/
def renderMsg (m : Msg) : List (List Char) :=
  [List.replicate (m.1 - 1).toNat '-' ++ ['^'], "-- ".toList ++ m.2]

/-- The loop of `msg_at_posn_finish` (shared.py:276-281) from line index `i` on. -/
def finishFrom (tbl : MsgTable) : List (List Char) → Nat → List (List Char)
  | [], _ => []
  | line :: rest, i =>
    line :: ((tbl (i + 1)).mergeSort msgLe).flatMap renderMsg ++ finishFrom tbl rest (i + 1)

/-- `msg_at_posn_finish`: the sequence of printed chunks (shared.py:274-282). -/
def msgAtPosnFinish (text : List Char) (tbl : MsgTable) : List (List Char) :=
  finishFrom tbl (splitLines text) 0

/-! ## Targeted messages and `write_spec_with_extras` -/

/-- `LineInfo` without `suppress`/`afters` (shared.py:138-146); simplification: the `afters`
and `suppress` features are not modelled. -/
structure LineInfo where
  start : Nat
  stop : Nat
  targeted : List (Int × Int × List Char)
deriving Repr, DecidableEq

/-- Line extents found by `re.finditer('(?m)^( *).*$')` (shared.py:152-163), from offset `k`:
one per line, except an empty line at the very end of the text. -/
def lineInfosFrom : List (List Char) → Nat → List LineInfo
  | [], _ => []
  | [l], k => if l = [] then [] else [⟨k, k + l.length, []⟩]
  | l :: ls, k => ⟨k, k + l.length, []⟩ :: lineInfosFrom ls (k + l.length + 1)

/-- `prep_for_line_info` (shared.py:148-163); index 0 of the result is "line #1". -/
def prepForLineInfo (text : List Char) : List LineInfo := lineInfosFrom (splitLines text) 0

/-- `put_targeted_msg` (shared.py:165-178); an out-of-range line number would raise. -/
def putTargetedMsg (text : List Char) (infos : List LineInfo) (startPosn endPosn : Int)
    (msg : List Char) : Option (List LineInfo) :=
  match convertPosnToLinecol text startPosn, convertPosnToLinecol text endPosn with
  | some (sl, sc), some (el, ec) =>
    let thing := if sl = el then (sc, ec, msg) else (0, ec, msg)
    match infos[el - 1]? with
    | some info => some (infos.set (el - 1) { info with targeted := info.targeted ++ [thing] })
    | none => none
  | _, _ => none

/-- A history of `put_targeted_msg` calls after `prep_for_line_info`. -/
def targetedHistory (text : List Char) (calls : List (Int × Int × List Char)) :
    Option (List LineInfo) :=
  calls.foldlM (fun infos c => putTargetedMsg text infos c.1 c.2.1 c.2.2) (prepForLineInfo text)

/-- The chunk printed for one targeted message (shared.py:201-206); the lines of the message
are kept together as one chunk. -/
def renderTargeted (t : Int × Int × List Char) : List (List Char) :=
  (List.replicate (t.1 - 1).toNat '-' ++ List.replicate (t.2.1 - t.1).toNat '^')
    :: ((splitLines t.2.2).map (fun l => ">>> ".toList ++ l) ++ [[]])

/-- `write_spec_with_extras(mode, True, f)` (shared.py:180-206), without `afters`. -/
def writeSpecWithExtras (text : List Char) (infos : List LineInfo) : List (List Char) :=
  infos.flatMap fun info =>
    slice text info.start info.stop ::
      (info.targeted.mergeSort (fun a b => decide (a.2.1 ≤ b.2.1))).flatMap renderTargeted

/-! ## Replacements -/

/-- A replacement tuple `(start_posn, end_posn, replacement_string)` (shared.py:286-289). -/
structure Repl where
  start : Nat
  stop : Nat
  str : List Char
deriving Repr, DecidableEq

/-- Python's ordering of replacement tuples, used by `replacements.sort()` (shared.py:295). -/
def replLe (a b : Repl) : Bool :=
  decide (a.start < b.start) ||
    (decide (a.start = b.start) &&
      (decide (a.stop < b.stop) || (decide (a.stop = b.stop) && charsLe a.str b.str)))

/-- The output loop of `write_spec_with_replacements` (shared.py:297-304). -/
def spliceFrom (text : List Char) : List Repl → Nat → Option (List Char)
  | [], prev => some (text.drop prev)
  | r :: rs, prev =>
    if prev ≤ r.start then
      match spliceFrom text rs r.stop with
      | some rest => some (slice text prev r.start ++ r.str ++ rest)
      | none => none
    else none

/-- `write_spec_with_replacements` (shared.py:291-306): what is written, or `none` if the
non-overlap assertion fails. -/
def writeSpecWithReplacements (text : List Char) (rs : List Repl) : Option (List Char) :=
  spliceFrom text (rs.mergeSort replLe) 0

/-! ## The DL builder -/

/-- Values of `DL.expecting` (shared.py:317,322,328,339,366). -/
inductive Expecting | dl | dt | dd | li | nothing
deriving Repr, DecidableEq

/-- Output lines, without indentation and padding (`_pwi`, shared.py:369-371). -/
inductive DLLine
  | dlOpen | blank | dt (s : String) | dd (s : String) | ddOpen | ulOpen
  | li (l r : String) | carets | note (s : String) | ulClose | ddClose | dlClose
deriving Repr, DecidableEq

/-- The builder's calls (shared.py:319-367). `ddUlStart` takes the list of lefts: `max` of an
empty sequence raises. -/
inductive DLCall
  | start | dt (s : String) | dd (s : String) | ddUlStart (lefts : List String)
  | li (l r : String) | liComment (s : String) | ulEnd | finish
deriving Repr, DecidableEq

/-- Builder state (shared.py:314-317); `hasRight` says whether `latest_right_len` has been
set (the attribute does not exist before the first `dd_ul_li`). -/
structure DLState where
  lines : List DLLine
  expecting : Expecting
  hasRight : Bool
deriving Repr, DecidableEq

/-- `DL.__init__` (shared.py:314-317). -/
def DLState.init : DLState := ⟨[], .dl, false⟩

/-- One call (shared.py:319-367); `none` is a failed assertion or a raised exception. -/
def dlStep (s : DLState) : DLCall → Option DLState
  | .start => if s.expecting = .dl then some { s with lines := s.lines ++ [.dlOpen], expecting := .dt } else none
  | .dt c => if s.expecting = .dt then
      some { s with lines := s.lines ++ [.blank, .dt c], expecting := .dd } else none
  | .dd c => if s.expecting = .dd then
      some { s with lines := s.lines ++ [.dd c], expecting := .dt } else none
  | .ddUlStart lefts => if s.expecting = .dd then
      if lefts = [] then none
      else some { s with lines := s.lines ++ [.ddOpen, .ulOpen], expecting := .li } else none
  | .li l r => if s.expecting = .li then
      some { s with lines := s.lines ++ [.li l r], hasRight := true } else none
  | .liComment m => if s.expecting = .li then
      if s.hasRight then some { s with lines := s.lines ++ [.carets, .note m, .blank] }
      else none else none
  | .ulEnd => if s.expecting = .li then
      some { s with lines := s.lines ++ [.ulClose, .ddClose], expecting := .dt } else none
  | .finish => if s.expecting = .dt then
      some { s with lines := s.lines ++ [.dlClose], expecting := .nothing } else none

/-- A sequence of calls on a fresh builder. -/
def dlRun (calls : List DLCall) : Option DLState := calls.foldlM dlStep DLState.init

/-! ## Entities -/

/-- If `pat` is a prefix of `s`, the rest of `s`. -/
def dropPrefix? : List Char → List Char → Option (List Char)
  | [], s => some s
  | _ :: _, [] => none
  | p :: ps, c :: cs => if p = c then dropPrefix? ps cs else none

/-- Python `s.replace(pat, rep)` for a one-character replacement: leftmost, non-overlapping. -/
def replaceAll (pat : List Char) (rep : Char) (s : List Char) : List Char :=
  go s s.length
where
  /-- Scan with fuel `n ≥ s.length`. -/
  go : List Char → Nat → List Char
    | [], _ => []
    | s, 0 => s
    | c :: cs, n + 1 =>
      match dropPrefix? pat (c :: cs) with
      | some rest => rep :: go rest n
      | none => c :: go cs n

/-- `decode_entities` (shared.py:375-385). -/
def decodeEntities (text : List Char) : Option (List Char) :=
  if '<' ∈ text then none
  else some <|
    replaceAll ['&', 'a', 'm', 'p', ';'] '&' <|
    replaceAll ['&', 'r', 'd', 'q', 'u', 'o', ';'] '”' <|
    replaceAll ['&', 'l', 'd', 'q', 'u', 'o', ';'] '“' <|
    replaceAll ['&', 'g', 't', ';'] '>' <|
    replaceAll ['&', 'l', 't', ';'] '<' text

/-! ## Preorder traversal -/

/-- A tree of `SpecNode`s. -/
inductive Tree (α : Type) where
  | node (a : α) (children : List (Tree α))

mutual
/-- `SpecNode.preorder_traversal` (shared.py:85-95): the sequence of visited nodes;
`prune a` is whether `visit` returned `'prune'`.  Simplification: `visit` has no effect on
the tree and only ever returns None or 'prune'. -/
def preorder {α} (prune : α → Bool) : Tree α → List α
  | .node a cs => if prune a then [a] else a :: preorderList prune cs
/-- The loop over children (shared.py:94-95). -/
def preorderList {α} (prune : α → Bool) : List (Tree α) → List α
  | [] => []
  | c :: cs => preorder prune c ++ preorderList prune cs
end

end Verif.Shared
