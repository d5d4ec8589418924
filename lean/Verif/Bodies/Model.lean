import Verif.Util.Model
/-!
# Model of how sections of the specification are taken to define algorithms (Section.py)

`_set_section_kind` and the handlers it calls, as far as they find the blocks that define an algorithm, and have them parsed.
What is not about that is left out: titles and ids are checked elsewhere (`Verif.Titles`), and so are headers (`Verif.Heads`).
-/
namespace Verif.Bodies
open Verif.Util

abbrev Str := List Char

/-- What `_handle_structured_header` gets from the heading (Section.py:900-931, 986-990): the name of the operation, and the text of `for`. -/
structure Heading where
  name : String
  forPhrase : Option Str
deriving DecidableEq

/-- A section (Section.py:199-206, 880-886).  `up2` and `up3` are the ids of its parent's parent, and of the parent of that; `heading` is None if the heading cannot be parsed. -/
structure Sec where
  root : Bool
  title : String
  type : Option String
  id : String
  num : Str
  up2 : String
  up3 : String
  heading : Option Heading
  blocks : List HNode

/-- What is outside (Section.py:241-242, 873-874): `isHeader` tells the nodes with class="header", `kids` are the children of a node, `algs` all the
emu-algs in a block (`each_descendant_named`, HTML.py:235-245). -/
structure Doc where
  isHeader : HNode → Bool
  kids : HNode → List HNode
  algs : HNode → List HNode

/-- The subclasses of `AlgDefn` that are made, with the nodes they are made of (Section.py:324-379, 509-530, 566-601, 824-852). -/
inductive Defn where
  | early (grammar list : HNode) (rules : List HNode)
  | usual (grammar : Option HNode) (alg : HNode)
  | inline (item : HNode) (grammars : List HNode)
  | simple (alg : HNode)
  | typed (type : Str) (alg : HNode)
deriving DecidableEq

/-- What is parsed for a definition (Section.py:365, 524, 577, 832, 848). -/
def Defn.parses : Defn → List HNode
  | .early _ _ rules => rules
  | .usual _ alg => [alg]
  | .inline item _ => [item]
  | .simple alg => [alg]
  | .typed _ alg => [alg]

/-- The outcome (Section.py:199-233): `section_kind`, the definitions in `u_defns` of the section's header, the nodes that are parsed otherwise, and
the place of the message of `scan_section`, if there is one. -/
structure Out where
  kind : String
  defns : List Defn
  also : List HNode
  msg : Option Nat

/-! ## Texts -/

/-- The text without a prefix, for the regular expressions and for `startswith` (Section.py:248, 297, 459, 678). -/
def stripPrefix : Str → Str → Option Str
  | [], s => some s
  | _ :: _, [] => none
  | c :: p, d :: s => if c = d then stripPrefix p s else none

/-- The text without a suffix, for the regular expressions (Section.py:297, 459). -/
def stripSuffix (p s : Str) : Option Str := (stripPrefix p.reverse s.reverse).map List.reverse

/-- A regular expression of a text, some characters of a class (at least one), and another text (Section.py:297, 459, 467). -/
def around (pre post : String) (cls : Char → Bool) (s : Str) : Bool :=
  match stripPrefix pre.toList s with
  | none => false
  | some t => match stripSuffix post.toList t with
    | none => false
    | some w => !w.isEmpty && w.all cls

/-- `\w` (Section.py:459, 807), for ASCII. -/
def isWord (c : Char) : Bool := c.isAlphanum || c == '_'

/-! ## Early errors -/

/-- The regular expression of Section.py:297. -/
def extended (s : Str) : Bool := around "The semantics of <emu-xref href=\"#" "\"></emu-xref> is extended as follows:" (· != '"') s

/-- The text of Section.py:302. -/
def modified (s : Str) : Bool :=
  s == "Additionally, the rules for the following productions are modified with the addition of the <ins>highlighted</ins> text:".toList

/-- `element_name` (Section.py:360, 548). -/
def el : HNode → String := HNode.elementName

/-- `patterns` (Section.py:289-310). -/
def earlyUnits : List (NUnit (HNode × HNode)) :=
  [⟨[.name "emu-grammar", .name "ul"], fun ns => match ns with
      | [g, u] => [(g, u)]
      | _ => []⟩,
   ⟨[.content "p" extended], fun _ => []⟩,
   ⟨[.content "p" modified], fun _ => []⟩,
   ⟨[.name "emu-note"], fun _ => []⟩]

/-- The items of a list; blanks between them are left out (Section.py:359-375, 550-552).  Blanks are nodes named `#LITERAL`
with only white space (ASCII, and at least one character: there are no empty literals). -/
def items : List HNode → Option (List HNode)
  | [] => some []
  | k :: ks =>
    if el k = "#LITERAL" then if !k.innerText.isEmpty && k.innerText.all Char.isWhitespace then items ks else none
    else if el k = "li" then (items ks).map (k :: ·)
    else none

/-- `EarlyErrorAlgDefn` (Section.py:329-379). -/
def earlyDefn (d : Doc) (b : HNode × HNode) : Option Defn := (items (d.kids b.2)).map (Defn.early b.1 b.2)

/-- `_handle_early_errors_section` (Section.py:275-320). -/
def early (d : Doc) (s : Sec) : Option Out := do
  let r ← scanSection earlyUnits s.blocks s.blocks.length
  let ds ← r.results.mapM (earlyDefn d)
  return ⟨"early_errors", ds, [], r.msg⟩

/-! ## Syntax-directed operations -/

/-- The regular expression of Section.py:459. -/
def default (s : Str) : Bool :=
  around "Every grammar production alternative in this specification which is not listed below implicitly has the following default definition of " ":" isWord s

/-- The regular expression of Section.py:467. -/
def extendsAny (s : Str) : Bool := around "The semantics of <emu-xref " "></emu-xref> is extended as follows:" (fun c => c != '<' && c != '>') s

/-- `patterns` (Section.py:450-499). -/
def sdoUnits : List (NUnit (Option HNode × HNode)) :=
  [⟨[.name "emu-grammar", .name "emu-alg"], fun ns => match ns with
      | [g, a] => [(some g, a)]
      | _ => []⟩,
   ⟨[.content "p" default, .name "emu-alg"], fun ns => match ns with
      | [_, a] => [(none, a)]
      | _ => []⟩,
   ⟨[.content "p" extendsAny, .name "emu-grammar", .name "emu-alg"], fun ns => match ns with
      | [_, g, a] => [(some g, a)]
      | _ => []⟩,
   ⟨[.name "emu-note"], fun _ => []⟩,
   ⟨[.name "emu-table"], fun _ => []⟩,
   ⟨[.name "p"], fun _ => []⟩]

/-- `InlineSdoAlgDefn` (Section.py:566-601), for an item that is parsed without complaint. -/
def inlineDefn (d : Doc) (item : HNode) : Option Defn :=
  let gs := (d.kids item).filter (fun k => el k == "emu-grammar")
  if gs.isEmpty then none else some (.inline item gs)

/-- The loop of `handle_inline_sdo_section_body` (Section.py:545-564). -/
def inlineBlocks (d : Doc) : List HNode → Option (List Defn)
  | [] => some []
  | b :: bs =>
    if el b = "ul" then do
      let lis ← items (d.kids b)
      let ds ← lis.mapM (inlineDefn d)
      let rest ← inlineBlocks d bs
      return ds ++ rest
    else if el b = "emu-table" ∨ el b = "p" ∨ el b = "emu-note" then inlineBlocks d bs
    else none

/-- The body of `_handle_sdo_section` (Section.py:445-507). -/
def sdoBody (d : Doc) (blocks : List HNode) : Option Out :=
  if blocks.any (fun b => el b == "ul") then (inlineBlocks d blocks).map (fun ds => ⟨"syntax_directed_operation", ds, [], none⟩)
  else do
    let r ← scanSection sdoUnits blocks blocks.length
    return ⟨"syntax_directed_operation", r.results.map (fun b => .usual b.1 b.2), [], r.msg⟩

/-- The titles of Section.py:411-421. -/
def sdoTitles : List String :=
  ["Runtime Semantics: MV", "Static Semantics: MV", "Static Semantics: IsCharacterClass", "Static Semantics: CharacterValue"]

/-! ## Structured headers -/

/-- `section_kind` (Section.py:878-896). -/
def headerKind (s : Sec) (type : String) : Option String :=
  if type = "concrete method" then
    if s.up2 = "sec-the-environment-record-type-hierarchy" then some "env_rec_method"
    else if s.up3 = "sec-module-semantics" then some "module_rec_method"
    else none
  else [("abstract operation", "abstract_operation"), ("numeric method", "numeric_method"), ("internal method", "internal_method"),
    ("sdo", "syntax_directed_operation"), ("host-defined abstract operation", "host-defined_abstract_operation"),
    ("implementation-defined abstract operation", "implementation-defined_abstract_operation")].lookup type

/-- The start of `_handle_structured_header` (Section.py:869-896): the kind, and the blocks after the header. -/
def structured (d : Doc) (s : Sec) (type : String) : Option (String × List HNode) :=
  match s.blocks with
  | [] => none
  | dl :: rest => if el dl = "dl" ∧ d.isHeader dl = true then (headerKind s type).map (·, rest) else none

/-- `_handle_sdo_section` (Section.py:386-507); the outer None means that this is not the section of one.  If the heading cannot be
parsed, there is nothing more.  What else `_handle_structured_header` asserts of the header is left out. -/
def sdo (d : Doc) (s : Sec) : Option (Option Out) :=
  if s.type = some "sdo" then
    if s.title = "Runtime Semantics: Evaluation" then some (sdoBody d s.blocks)
    else some (do
      let (kind, blocks) ← structured d s "sdo"
      match s.heading with
      | none => return ⟨kind, [], [], none⟩
      | some _ => sdoBody d blocks)
  else if s.title ∈ sdoTitles then some (sdoBody d s.blocks)
  else none

/-! ## Other operations -/

/-- The ids of Section.py:618-623. -/
def unusedIds : List String :=
  ["sec-declarative-environment-records-getthisbinding", "sec-object-environment-records-createimmutablebinding-n-s",
   "sec-object-environment-records-getthisbinding", "sec-module-environment-records-deletebinding-n"]

/-- How the first paragraphs begin (Section.py:675-711); `source_text` is taken to start with `<p>` just for an element `p`. -/
def oddStart (s : Sec) : Option String :=
  if s.id = "sec-weakref-execution" then some "At any time, if a set of objects and/or symbols _objSet_ is not live,"
  else if s.title ∈ ["Valid Chosen Reads", "Coherent Reads", "Tear Free Reads"] then some "A candidate execution _execution_ has "
  else if s.title ∈ ["Races", "Data Races"] then
    some "For an execution _execution_ and events _eventA_ and _eventB_ that are contained in SharedDataBlockEventSet(_execution_)"
  else none

/-- `_handle_oddball_op_section` (Section.py:611-733).  `unusedText` tells the
paragraphs that name a method that is not used and the records it is for (Section.py:627-669). -/
def oddball (unusedText : Str → Bool) (s : Sec) : Option (Option Out) :=
  if s.id ∈ unusedIds then some (match s.blocks with
    | p :: _ => if el p = "p" ∧ unusedText p.innerText then some ⟨"env_rec_method_unused", [], [], none⟩ else none
    | [] => none)
  else (oddStart s).map (fun start => match s.blocks with
    | p :: alg :: _ =>
      if el p = "p" ∧ (stripPrefix start.toList p.innerText).isSome ∧ el alg = "emu-alg" then some ⟨"abstract_operation", [.simple alg], [], none⟩
      else none
    | _ => none)

/-- The text before the last space, and the text after it (for Section.py:807). -/
def lastSpace (s : Str) : Option (Str × Str) :=
  let w := (s.reverse.takeWhile (· != ' ')).reverse
  match (s.reverse.dropWhile (· != ' ')) with
  | [] => none
  | _ :: r => some (r.reverse, w)

/-- A word between underscores; `\w` includes those (Section.py:807). -/
def isVar (w : Str) : Bool :=
  match stripPrefix ['_'] w with
  | none => false
  | some t => match stripSuffix ['_'] t with
    | none => false
    | some u => !u.isEmpty && u.all isWord

/-- `re.fullmatch(r'an? (.+?)( _\w+_)?', for_phrase)` (Section.py:807-808), for a text without newlines. -/
def typeStr (f : Str) : Option Str :=
  match (stripPrefix "a ".toList f).or (stripPrefix "an ".toList f) with
  | none => none
  | some t =>
    if t.isEmpty then none
    else match lastSpace t with
      | some (r, w) => if isVar w ∧ r ≠ [] then some r else some t
      | none => some t

/-- The emu-algs among the blocks (Section.py:763-769, 1269-1291, 1391-1409). -/
def algBlocks (blocks : List HNode) : List HNode := blocks.filter (fun b => el b == "emu-alg")

/-- The body of `_handle_other_op_section` (Section.py:763-815), without the registration of methods of records. -/
def opBody (kind : String) (h : Heading) (blocks : List HNode) : Option Out :=
  match algBlocks blocks with
  | [] => if kind = "host-defined_abstract_operation" ∨ kind = "implementation-defined_abstract_operation" then some ⟨kind, [], [], none⟩ else none
  | [alg] =>
    if kind = "host-defined_abstract_operation" ∨ kind = "implementation-defined_abstract_operation" then some ⟨kind, [.simple alg], [], none⟩
    else match h.forPhrase with
      | none => some ⟨kind, [.simple alg], [], none⟩
      | some f => (typeStr f).map (fun t => ⟨kind, [.typed t alg], [], none⟩)
  | _ => none

/-- `_handle_other_op_section` (Section.py:737-822); type="sdo" does not get here. -/
def otherOp (d : Doc) (s : Sec) : Option (Option Out) :=
  match s.type with
  | none => none
  | some type =>
    if type = "built-in function" then none
    else some (do
      let (kind, blocks) ← structured d s type
      match s.heading with
      | none => return ⟨kind, [], [], none⟩
      | some h => opBody kind h blocks)

/-! ## Functions and other sections -/

/-- `See <emu-xref href="#[^"]+"></emu-xref>.` (Section.py:1209-1212); the last dot is any character but a newline. -/
def seeXref (s : Str) : Bool :=
  match s.reverse with
  | [] => false
  | c :: r => c != '\n' && around "See <emu-xref href=\"#" "\"></emu-xref>" (· != '"') r.reverse

/-- `_handle_function_xref_section` and `_handle_function_section` (Section.py:1202-1311).  `isXref` tells the titles of the former;
`fnKind` gives the kind of the latter by its title. -/
def function (isXref : String → Bool) (fnKind : String → Option String) (s : Sec) : Option (Option Out) :=
  if isXref s.title then some (match s.blocks with
    | [p] => if el p = "p" ∧ seeXref p.innerText then some ⟨"function_property_xref", [], [], none⟩ else none
    | _ => none)
  else if s.type = some "built-in function" then some (do
    let kind ← fnKind s.title
    match algBlocks s.blocks with
    | [] => return ⟨kind, [], [], none⟩
    | [alg] => return ⟨kind, [.simple alg], [], none⟩
    | _ => none)
  else none

/-- `_handle_changes_section` (Section.py:1528-1682).  `changes` gives the patterns for the section's number and title; the emu-algs in what they
match are parsed, and define nothing. -/
def changes (units : Sec → Option (List (NUnit Unit))) (s : Sec) : Option (Option Out) :=
  (units s).map (fun us => do
    let r ← scanSection us s.blocks s.blocks.length
    return ⟨"changes", [], algBlocks (r.used.flatMap (·.2)), r.msg⟩)

/-- `_handle_other_section` (Section.py:1315-1464); `kindOf` gives the kind by the titles of the section and of its parent.  Equations are not read here. -/
def other (kindOf : Sec → Option String) (s : Sec) : Option Out := do
  let kind ← kindOf s
  match algBlocks s.blocks with
  | [] => return ⟨kind, [], [], none⟩
  | [alg] =>
    if s.title = "Algorithm Conventions" ∨ s.title = "The Abstract Closure Specification Type" then return ⟨kind, [], [], none⟩
    else if s.title = "Array.prototype [ %Symbol.unscopables% ]" then return ⟨kind, [.simple alg], [], none⟩
    else none
  | _ =>
    if kind = "shorthand" ∨ s.title = "Evaluation Order" ∨ s.title = "Syntax-Directed Operations" then return ⟨kind, [], [], none⟩
    else none

/-- What the handlers tell by texts and titles; parameters here. -/
structure Titles where
  unusedText : Str → Bool
  isXref : String → Bool
  fnKind : String → Option String
  changes : Sec → Option (List (NUnit Unit))
  kindOf : Sec → Option String

/-- `_set_section_kind` up to `check_id` (Section.py:199-227, 269-271); None is an exception. -/
def handle (t : Titles) (d : Doc) (s : Sec) : Option Out :=
  if s.root then some ⟨"", [], [], none⟩
  else if s.title = "Static Semantics: Early Errors" then early d s
  else match sdo d s with
    | some r => r
    | none => match oddball t.unusedText s with
      | some r => r
      | none => match otherOp d s with
        | some r => r
        | none => match function t.isXref t.fnKind s with
          | some r => r
          | none => match changes t.changes s with
            | some r => r
            | none => other t.kindOf s

/-! ## Parsing -/

/-- `parse` is called for one node after another, and fails for one that is parsed already (Pseudocode.py:143). -/
def parseAll : List HNode → List HNode → Option (List HNode)
  | done, [] => some done
  | done, n :: ns => if n ∈ done then none else parseAll (done ++ [n]) ns

/-- The example that cannot be parsed (Section.py:248-260). -/
def exempt (n : HNode) : Bool := (stripPrefix "\n      1. Top-level step".toList n.innerText).isSome

/-- `ensure_every_emu_alg_in_section_is_parsed` (Section.py:237-263). -/
def ensureAlgs : List HNode → List HNode → List HNode
  | done, [] => done
  | done, n :: ns => if n ∈ done ∨ exempt n then ensureAlgs done ns else ensureAlgs (done ++ [n]) ns

/-- The nodes that are parsed in `_set_section_kind` (Section.py:199-233), in order: those of headers, equations and intrinsics are left out. -/
def parsed (t : Titles) (d : Doc) (s : Sec) : Option (Out × List HNode) := do
  let o ← handle t d s
  let done ← parseAll [] (o.defns.flatMap Defn.parses ++ o.also)
  return (o, ensureAlgs done (s.blocks.flatMap d.algs))

end Verif.Bodies
