import Verif.Common
/-!
# Model of the parser of the frontmatter of tests (test262.py:222-372)
-/
namespace Verif.Front

/-- A line: the number of spaces at its start and the rest, between `b` and `c` (test262.py:223-226). -/
structure Line where
  indent : Nat
  rest : List Char
deriving DecidableEq, Repr

/-- The value of an entry: a string, a list of strings, or a dict, with its items in the order of insertion. -/
inductive Val where
  | scalar (s : List Char)
  | list (vs : List (List Char))
  | map (kvs : List (List Char × Val))

/-- The text split at newlines, which is what `finditer(r'(?m)^( *)(.*)$')` gives (test262.py:223-226). -/
def splitNl : List Char → List (List Char)
  | [] => [[]]
  | c :: cs =>
    if c = '\n' then [] :: splitNl cs
    else match splitNl cs with
      | [] => [[c]]
      | l :: ls => (c :: l) :: ls

/-- The groups of `^( *)(.*)$`. -/
def toLine (s : List Char) : Line := ⟨(s.takeWhile (· = ' ')).length, s.dropWhile (· = ' ')⟩

/-- `b == c`: nothing after the spaces (test262.py:264). -/
def Line.blank (l : Line) : Bool := l.rest.isEmpty

/-- The whole text of a line, from `a` to `c`. -/
def Line.text (l : Line) : List Char := List.replicate l.indent ' ' ++ l.rest

/-- The loop that trims empty lines from the end (test262.py:283-288). -/
def trim (ls : List Line) : List Line := (ls.reverse.dropWhile Line.blank).reverse

/-- The partition of lines into elements, each with its first line and the further ones (test262.py:260-288); with it, those lines before the first element.  None if
an assertion fails.  It goes from the last line to the first, which doesn't matter as it stops at nothing. -/
def groups (n : Nat) : List Line → Option (List Line × List (Line × List Line))
  | [] => some ([], [])
  | l :: ls =>
    match groups n ls with
    | none => none
    | some (pend, gs) =>
      if l.blank then some (l :: pend, gs)
      else if l.indent < n then none
      else if l.indent = n then some ([], (l, trim pend) :: gs)
      else some (l :: pend, gs)

/-- `': ' in text` (test262.py:244). -/
def hasColonSpace : List Char → Bool
  | ':' :: ' ' :: _ => true
  | _ :: cs => hasColonSpace cs
  | [] => false

/-- An element of a sequence (test262.py:295-300): `- (.+)`. -/
def seqItem (g : Line × List Line) : Option (List Char) :=
  match g.2 with
  | _ :: _ => none
  | [] => match g.1.rest with
    | '-' :: ' ' :: v :: vs => if v = ' ' ∨ v = '[' ∨ v = '{' then none else some (v :: vs)
    | _ => none

/-- The loop over the elements of a sequence. -/
def seqItems : List (Line × List Line) → Option (List (List Char))
  | [] => some []
  | g :: gs =>
    match seqItem g with
    | none => none
    | some v => match seqItems gs with
      | none => none
      | some vs => some (v :: vs)

/-- `(\w+):(.*)` (test262.py:303-307), with `\w` as a parameter. -/
def splitKey (word : Char → Bool) (s : List Char) : Option (List Char × List Char) :=
  match s.takeWhile word, s.dropWhile word with
  | k :: ks, ':' :: rest => some (k :: ks, rest)
  | _, _ => none

/-- `re.split(', *', text)` (test262.py:320); `skip` holds just after a comma and spaces. -/
def splitComma (skip : Bool) : List Char → List (List Char)
  | [] => [[]]
  | c :: cs =>
    if skip ∧ c = ' ' then splitComma true cs
    else if c = ',' then [] :: splitComma true cs
    else match splitComma false cs with
      | [] => [[c]]
      | l :: ls => (c :: l) :: ls

/-- A value on the line of the key (test262.py:311-324). -/
def inlineVal (rest : List Char) : Option Val :=
  match rest with
  | ' ' :: '{' :: _ => none
  | ' ' :: '[' :: s =>
    if s.getLast? = some ']' then
      if s.dropLast.all (· = ' ') then some (.list [])
      else some (.list (splitComma false s.dropLast))
    else none
  | ' ' :: s => some (.scalar s)
  | _ => none

/-- `'\n'.join`, as the slice of the text from the start of one line to the end of another (test262.py:330-334). -/
def joinLines : List Line → List Char
  | [] => []
  | [l] => l.text
  | l :: m :: ls => l.text ++ '\n' :: joinLines (m :: ls)

/-- The value for a key, from what follows it and the further lines (test262.py:309-366); `coll` parses a collection and `space` is `isspace` on
characters. -/
def entryVal (space : Char → Bool) (coll : List Line → Option Val) (rest : List Char) (body : List Line) : Option Val :=
  match body with
  | [] => inlineVal rest
  | l :: ls =>
    if rest = [' ', '|'] ∨ rest = [' ', '>'] then some (.scalar (joinLines (l :: ls)))
    else if rest.all space then coll (l :: ls)
    else none

/-- The loop over the elements of a mapping (test262.py:278-368); `seen` are the keys so far. -/
def mapItems (word space : Char → Bool) (coll : List Line → Option Val) :
    List (List Char) → List (Line × List Line) → Option (List (List Char × Val))
  | _, [] => some []
  | seen, g :: gs =>
    match splitKey word g.1.rest with
    | none => none
    | some (key, rest) =>
      if key ∈ seen then none
      else match entryVal space coll rest g.2 with
        | none => none
        | some v => match mapItems word space coll (key :: seen) gs with
          | none => none
          | some kvs => some ((key, v) :: kvs)

/-- `yaml_parse_block_collection` (test262.py:235-370) on the lines in the given range; the third argument is fuel for the
recursion. -/
def parseColl (word space : Char → Bool) : Nat → List Line → Option Val
  | 0, _ => none
  | k + 1, ls =>
    match ls with
    | [] => none
    | l :: _ =>
      match l.rest with
      | [] => none
      | c :: _ =>
        match groups l.indent ls with
        | none => none
        | some (_, gs) =>
          if c = '-' then (seqItems gs).map .list
          else if hasColonSpace l.rest then (mapItems word space (parseColl word space k) [] gs).map .map
          else none

/-- `parse_frontmatter` (test262.py:222-372). -/
def parseFrontmatter (word space : Char → Bool) (text : List Char) : Option Val :=
  let ls := (splitNl text).map toLine
  parseColl word space (ls.length + 1) ls

end Verif.Front
