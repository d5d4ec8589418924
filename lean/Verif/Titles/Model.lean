import Verif.Sections.Model
/-!
# Model of the titles and ids of sections

The title that `_handle_structured_header` makes (Section.py:904-950), the ids that `check_id` expects for some kinds of sections (Section.py:1755-2291), `check_section_title`
(Section.py:1697-1737), `_check_aoids` (Section.py:3628-3665) and `_check_section_order` (Section.py:3669-3708).  Titles are without newlines, and what is a letter is restricted to ASCII.
-/
namespace Verif.Titles
open Verif.Sections (isWord Step pipeline)

abbrev Str := List Char

/-! ## The title of a section with a structured header -/

/-- An `AlgParam` of a structured header: its name, and whether its `punct` is `[]` (Section.py:912-919). -/
structure Param where
  name : Str
  optional : Bool
deriving DecidableEq

/-- `brief_params` (Section.py:937-948); the flag says whether `param_i == 0`. -/
def brief : Bool → List Param → Str
  | _, [] => []
  | first, p :: ps =>
    if p.optional then
      " [".toList ++ (if first then " ".toList else " , ".toList) ++ p.name ++ brief false ps ++ " ]".toList
    else
      (if first then " ".toList else ", ".toList) ++ p.name ++ brief false ps

/-- `section.section_kind` of sections with structured headers. -/
inductive Kind where
  | numeric
  | internal
  | envRec
  | moduleRec
  | singular
  | hostDefined
  | implDefined
  | sdo
deriving DecidableEq

/-- `[A-Z][a-zA-Z]+::[a-z][a-zA-Z]+` (Section.py:926). -/
def numericOk (op : Str) : Bool :=
  match op.takeWhile Char.isAlpha, op.dropWhile Char.isAlpha with
  | u :: _ :: _, ':' :: ':' :: l :: m :: r => u.isUpper && l.isLower && m.isAlpha && r.all Char.isAlpha
  | _, _ => false

/-- `[A-Z][a-zA-Z]+\]\]`, reversed after the first character. -/
def bracketed (u : Char) : Str → Bool
  | ']' :: ']' :: x :: y => u.isUpper && (x :: y).all Char.isAlpha
  | _ => false

/-- `\[\[[A-Z][a-zA-Z]+\]\]` (Section.py:928). -/
def internalOk : Str → Bool
  | '[' :: '[' :: u :: r => bracketed u r.reverse
  | _ => false

/-- `[a-zA-Z][a-zA-Z0-9/]+` (Section.py:930). -/
def plainOk : Str → Bool
  | a :: b :: r => a.isAlpha && (b :: r).all (fun c => c.isAlphanum || c == '/')
  | _ => false

/-- `re.fullmatch(op_name_pattern, op_name)` (Section.py:925-931). -/
def opOk (k : Kind) (op : Str) : Bool :=
  match k with
  | .numeric => numericOk op
  | .internal => internalOk op
  | _ => plainOk op

/-- `section.section_title` (Section.py:933-950); None if the assertion about the name fails. -/
def title (k : Kind) (which op : Str) (ps : List Param) : Option Str :=
  if opOk k op then
    some (which ++ op ++ if k = .sdo then [] else " (".toList ++ brief true ps ++ " )".toList)
  else none

/-! ## Ids -/

/-- `remove_param_list`: `re.sub(r' \(.+', '', s)` (Section.py:1756). -/
def removeParams : Str → Str
  | ' ' :: '(' :: _ :: _ => []
  | c :: cs => c :: removeParams cs
  | [] => []

/-- What follows ` (`. -/
def parenRest : Str → Option Str
  | ' ' :: '(' :: r => some r
  | _ => none

/-- The groups of `re.fullmatch(r'(.+) \((.*)\)', s)`, without the final parenthesis: the last place with ` (`. -/
def splitLast : Str → Option (Str × Str)
  | [] => none
  | c :: cs => match splitLast cs with
    | some (a, b) => some (c :: a, b)
    | none => match parenRest (c :: cs) with
      | some r => some ([], r)
      | none => none

/-- `re.findall(r'\w+', s)`. -/
def words : Str → List Str
  | [] => []
  | c :: cs =>
    if isWord c then match cs with
      | [] => [[c]]
      | d :: _ => if isWord d then match words cs with
          | [] => [[c]]
          | w :: ws => (c :: w) :: ws
        else [c] :: words cs
    else words cs

/-- `back_converter` for environment records (Section.py:2262-2267). -/
def backEnv : List (String × String) := [("_name_", "_N_"), ("_strict_", "_S_"), ("_deletable_", "_D_"), ("_value_", "_V_")]

/-- `back_converter` otherwise, except for `_value_` (Section.py:2269-2280). -/
def backOther : List (String × String) := [("_argList_", "_argumentsList_"), ("_char_", "_ch_"), ("_obj_", "_O_"), ("_patternOrRegexp_", "_pattern_"), ("_propertyDesc_", "_desc_"),
  ("_propertyKey_", "_P_"), ("_proto_", "_V_"), ("_source_", "_X_"), ("_thisArg_", "_thisArgument_")]

/-- `back_converter.get(param_name, param_name)`. -/
def convert (t : List (String × String)) (n : Str) : Str :=
  match t.find? (fun e => e.1.toList = n) with
  | some e => e.2.toList
  | none => n

/-- Whether a string is part of another. -/
def hasSub (x : Str) : Str → Bool
  | [] => x.isEmpty
  | c :: cs => x.isPrefixOf (c :: cs) || hasSub x cs

/-- `back_converter` (Section.py:2261-2280). -/
def backTable (pre : Str) : List (String × String) :=
  if hasSub "Environment Records".toList pre then backEnv
  else backOther ++ [("_value_", if pre = "Set".toList then "_V_" else "_value_")]

/-- `pre + ' ' + ' '.join(param_names)` (Section.py:2286-2289). -/
def spaced (pre : Str) (ns : List Str) : Str := pre ++ ns.flatMap (fun n => ' ' :: n)

/-- `extract_param_names` (Section.py:2254-2291). -/
def extractNames (s : Str) : Str :=
  match s.reverse with
  | ')' :: r => match splitLast r.reverse with
    | some (c :: a, l) => spaced (c :: a) ((words l).map (convert (backTable (c :: a))))
    | _ => s
  | _ => s

/-- The rest after `[A-Za-z]+_\b`, with the letters. -/
def aliasRest (s : Str) : Option (Str × Str) :=
  let w := s.takeWhile Char.isAlpha
  match w, s.dropWhile Char.isAlpha with
  | _ :: _, '_' :: r => match r with
    | [] => some (w, [])
    | d :: r => if isWord d then none else some (w, d :: r)
  | _, _ => none

/-- `trim_underscores_from_aliases`: `re.sub(r'\b_([A-Za-z]+)_\b', r'\1', s)` (Section.py:1758).  The number of characters that are already replaced, and whether the last character is one of a word. -/
def trimFrom : Nat → Bool → Str → Str
  | _, _, [] => []
  | n + 1, _, c :: cs => trimFrom n (isWord c) cs
  | 0, inWord, c :: cs =>
    if c = '_' ∧ inWord = false then match aliasRest cs with
      | some (w, _) => w ++ trimFrom (w.length + 1) true cs
      | none => c :: trimFrom 0 true cs
    else c :: trimFrom 0 (isWord c) cs

def trim (s : Str) : Str := trimFrom 0 false s

/-- `convert_to_lowercase`. -/
def lower (s : Str) : Str := s.map Char.toLower

/-- `change_space_to_hyphen`. -/
def hyphens (s : Str) : Str := s.map (fun c => if c = ' ' then '-' else c)

/-- `prepend_sec`. -/
def sec (s : Str) : Str := "sec-".toList ++ s

/-- `re.sub(r'^\[\[(\w+)\]\]', r'\1', s)` (Section.py:2157). -/
def unbracket (s : Str) : Str :=
  match s with
  | '[' :: '[' :: r => match r.takeWhile isWord, r.dropWhile isWord with
    | c :: w, ']' :: ']' :: t => c :: w ++ t
    | _, _ => s
  | _ => s

/-- `re.sub(r'^(\w+)::(\w+)$', ...)` (Section.py:2102). -/
def numericName (s : Str) : Str :=
  match s.takeWhile isWord, s.dropWhile isWord with
  | c :: w, ':' :: ':' :: d :: r => if (d :: r).all isWord then lower (c :: w) ++ '-' :: d :: r else s
  | _, _ => s

/-- `exceptional` (Section.py:2116-2127). -/
def exceptional : List String := ["BindThisValue ", "GetSuperBase ", "HasVarDeclaration ", "HasLexicalDeclaration ", "HasRestrictedGlobalProperty ", "CanDeclareGlobalVar ", "CanDeclareGlobalFunction ",
  "CreateGlobalVarBinding ", "CreateGlobalFunctionBinding ", "CreateImportBinding "]

/-- `pipeline` (Section.py:2011-2019, 2099-2105, 2112-2149, 2154-2180); None for the kinds that aren't modelled. -/
def steps (k : Kind) (t parent : Str) : Option (List (Step Str)) :=
  match k with
  | .hostDefined | .implDefined => some [.one removeParams, .one lower, .one sec]
  | .numeric => some [.one removeParams, .one numericName, .one ("numeric-types-".toList ++ ·), .one sec]
  | .envRec => some ((if exceptional.any (fun x => x.toList.isPrefixOf t) then [.one removeParams] else [.one (fun s => parent ++ ' ' :: s), .one extractNames, .one trim]) ++
      [.one lower, .one hyphens, .one sec])
  | .internal => some (.one unbracket :: (if hasSub "TypedArray".toList parent then [.one removeParams, .one ("TypedArray ".toList ++ ·)]
      else [.one extractNames, .one trim, .one (fun s => parent ++ ' ' :: s)]) ++ [.one lower, .one hyphens, .one sec])
  | _ => none

/-- `failures` (Section.py:2020-2024, 2106-2109, 2150-2151, 2181-2182). -/
def failures : Kind → List String
  | .hostDefined | .implDefined => ["sec-host-cleanup-finalization-registry", "sec-HostLoadImportedModule", "sec-host-promise-rejection-tracker"]
  | .numeric => ["sec-numeric-types-number-tostring", "sec-numeric-types-bigint-tostring"]
  | _ => []

/-- Whether `check_id` says nothing about the id (Section.py:2239-2252). -/
def idOk (k : Kind) (t parent id : Str) : Option Bool :=
  match steps k t parent with
  | none => none
  | some ss => some (id ∈ pipeline t ss || id ∈ (failures k).map String.toList)

/-! ## The check of titles -/

/-- The place of the first suffix with a property. -/
def findPos (p : Str → Bool) : Str → Option Nat
  | [] => if p [] then some 0 else none
  | c :: cs => if p (c :: cs) then some 0 else (findPos p cs).map (· + 1)

/-- The words that aren't capitalized (Section.py:1703). -/
def small : List String := ["an", "and", "for", "in", "of", "on", "the", "to", "with"]

/-- ` \b(?!(an|and|for|in|of|on|the|to|with))([a-z]\w+)` at the beginning. -/
def lowWord : Str → Bool
  | ' ' :: c :: d :: cs => c.isLower && isWord d && !small.any (fun x => x.toList.isPrefixOf (c :: d :: cs))
  | _ => false

/-- `\[ *@` at the beginning. -/
def atSign : Str → Bool
  | '[' :: cs => match cs.dropWhile (· == ' ') with
    | '@' :: _ => true
    | _ => false
  | _ => false

/-- `\[ %Symbol\.\w+% \]( |$)` at the beginning. -/
def symbolHere : Str → Bool
  | '[' :: ' ' :: '%' :: 'S' :: 'y' :: 'm' :: 'b' :: 'o' :: 'l' :: '.' :: cs => match cs.takeWhile isWord, cs.dropWhile isWord with
    | _ :: _, '%' :: ' ' :: ']' :: r => match r with
      | [] => true
      | c :: _ => c = ' '
    | _, _ => false
  | _ => false

/-- The same after a space. -/
def afterSpace : Str → Bool
  | ' ' :: cs => symbolHere cs
  | _ => false

/-- `( |^)\[ %Symbol\.\w+% \]( |$)` anywhere. -/
def symbolRef (s : Str) : Bool := symbolHere s || (findPos afterSpace s).isSome

/-- `( .+)? \)$` -/
def closes (s : Str) : Bool :=
  match s.reverse with
  | ')' :: ' ' :: m => m = [] || (2 ≤ m.length && m.getLast? = some ' ')
  | _ => false

/-- `\(` at the beginning. -/
def opens : Str → Bool
  | '(' :: _ => true
  | _ => false

/-- ` \(( .+)? \)( Concrete Method)?$` at the beginning. -/
def listHere : Str → Bool
  | ' ' :: '(' :: r => closes r || ("Concrete Method".toList.isSuffixOf r && closes (r.take (r.length - 16)) && r[r.length - 16]? = some ' ')
  | _ => false

inductive TitleMsg where
  | word (w : Str)
  | symbol
  | parens
deriving DecidableEq

/-- `check_section_title` (Section.py:1697-1737): the messages with the place in the title; None if an assertion fails.  `terms`: the title of the parent is 'Terms and Definitions'. -/
def checkTitle (terms : Bool) (t : Str) : Option (List (Nat × TitleMsg)) :=
  if t.count '(' ≤ 1 ∧ t.count ')' ≤ 1 then
    some ((if terms then [] else match findPos lowWord t with
        | some i => [(i + 1, .word ((t.drop (i + 1)).takeWhile isWord))]
        | none => []) ++
      (match findPos atSign t with
        | some i => if symbolRef t then [] else [(i, .symbol)]
        | none => []) ++
      (match findPos opens t with
        | some i => if (findPos listHere t).isSome || t = "RegExp (Regular Expression) Objects".toList then [] else [(i, .parens)]
        | none => []))
  else none

/-! ## The attribute `aoid` -/

inductive AoidMsg where
  | missing (expected : Str)
  | unexpected
  | wrong (expected : Str)
deriving DecidableEq

/-- What `_check_aoids` looks at in a section. -/
structure AoidSec where
  kind : Str
  title : Str
  parentTitle : Str
  aoid : Option Str
  opNames : List Str

/-- `_check_aoids` for a section (Section.py:3629-3665); None if an assertion fails. -/
def checkAoid (s : AoidSec) : Option (Option AoidMsg) :=
  if s.kind = "shorthand".toList then
    if s.opNames = [] then some none else none
  else
    let expected := if s.kind = "catchall".toList then
        if s.parentTitle = "Relations of Candidate Executions".toList then some s.title else none
      else none
    if s.kind = "catchall".toList ∧ s.opNames ≠ [] then none
    else if s.aoid ≠ expected then match s.aoid, expected with
      | none, some e => some (some (.missing e))
      | _, none => some (some .unexpected)
      | _, some e => some (some (.wrong e))
    else some none

/-! ## The order of sections -/

/-- A non-overlapping replacement of a string by another, `s.replace(old, new)`, with a count of characters to skip. -/
def replaceFrom (old new : Str) : Nat → Str → Str
  | _, [] => []
  | n + 1, _ :: cs => replaceFrom old new n cs
  | 0, c :: cs => if old.isPrefixOf (c :: cs) then new ++ replaceFrom old new (old.length - 1) cs else c :: replaceFrom old new 0 cs

/-- `re.sub(r'^get ', '', t)`. -/
def dropGet : Str → Str
  | 'g' :: 'e' :: 't' :: ' ' :: cs => cs
  | cs => cs

/-- `re.sub(r'(^|\.)__', r'\1zz__', t)`; the flag says whether this is the beginning or after a dot. -/
def zz : Bool → Str → Str
  | _, [] => []
  | true, '_' :: '_' :: cs => 'z' :: 'z' :: '_' :: '_' :: zz false cs
  | _, c :: cs => c :: zz (c == '.') cs

/-- The word of ` \[ %symbol\.(\w+)% \]` at the beginning. -/
def symbolWord : Str → Option Str
  | ' ' :: '[' :: ' ' :: '%' :: 's' :: 'y' :: 'm' :: 'b' :: 'o' :: 'l' :: '.' :: cs => match cs.takeWhile isWord, cs.dropWhile isWord with
    | w :: ws, '%' :: ' ' :: ']' :: _ => some (w :: ws)
    | _, _ => none
  | _ => none

/-- `re.sub(r' \[ %symbol\.(\w+)% \]', ...)`, with a count of characters to skip. -/
def symbols (pre : Str) : Nat → Str → Str
  | _, [] => []
  | n + 1, _ :: cs => symbols pre n cs
  | 0, c :: cs => match symbolWord (c :: cs) with
    | some w => pre ++ w ++ symbols pre (w.length + 13) cs
    | none => c :: symbols pre 0 cs

/-- `t` (Section.py:3685-3693). -/
def sortKey (regexp : Bool) (t : Str) : Str :=
  symbols (if regexp then ".".toList else ".zz_".toList) 0 (zz true (dropGet (replaceFrom "int8".toList "int08".toList 0 (lower t))))

/-- The kinds of sections for properties (Section.py:3678-3684). -/
def propKinds : List String := ["accessor_property", "function_property", "function_property_xref", "other_property", "other_property_xref"]

/-- The loop of `_check_section_order` over the children of a section (Section.py:3676-3708), given by kind and title: the children that are reported, with the title of the one before; None if an assertion fails. -/
def orderLoop (title : Str) : Option (Str × Str) → Nat → List (Str × Str) → Option (List (Nat × Str))
  | _, _, [] => some []
  | prev, i, (k, t) :: cs =>
    if k ∈ propKinds.map String.toList then
      let key := sortKey (title = "Properties of the RegExp Prototype Object".toList) t
      let msg := match prev with
        | some (pk, pt) => if key ≤ pk then [(i, pt)] else []
        | none => []
      match orderLoop title (some (key, t)) (i + 1) cs with
      | some r => some (msg ++ r)
      | none => none
    else if (if title = "URI Handling Functions".toList then k = "abstract_operation".toList else k = "- // properties".toList ∨ k = "catchall".toList) then orderLoop title prev (i + 1) cs
    else none

/-- `_check_section_order` for a section (Section.py:3672-3675). -/
def checkOrder (kind title : Str) (children : List (Str × Str)) : Option (List (Nat × Str)) :=
  if "// properties".toList.isSuffixOf kind then orderLoop title none 0 children else some []

end Verif.Titles
