import Verif.Bodies.Model
import Verif.Paths.Model
/-!
# Model of how the kind of a section follows from its title (Section.py)

What `Verif.Bodies` takes as given: the patterns for titles and for the sentences in sections of Annex B.  `\w` is restricted to ASCII.
-/
namespace Verif.Kinds
open Verif.Util
open Verif.Sections (isWord)

abbrev Str := List Char

/-! ## Regular expressions -/

/-- The regular expressions that are passed to `re.fullmatch` (Section.py:627, 1203, 1243, 1363; NodeGrammar.py:46, 150), without their groups. -/
inductive Rx where
  | nothing
  | empty
  | char (p : Char → Bool)
  | seq (a b : Rx)
  | alt (a b : Rx)
  | star (a : Rx)

/-- Whether the empty text matches. -/
def Rx.nullable : Rx → Bool
  | .nothing => false
  | .empty => true
  | .char _ => false
  | .seq a b => a.nullable && b.nullable
  | .alt a b => a.nullable || b.nullable
  | .star _ => true

/-- What the rest of a text must match after a character. -/
def Rx.deriv (c : Char) : Rx → Rx
  | .nothing => .nothing
  | .empty => .nothing
  | .char p => if p c then .empty else .nothing
  | .seq a b => if a.nullable then .alt (.seq (a.deriv c) b) (b.deriv c) else .seq (a.deriv c) b
  | .alt a b => .alt (a.deriv c) (b.deriv c)
  | .star a => .seq (a.deriv c) (.star a)

/-- `re.fullmatch` as a test (Section.py:627, 1203, 1243, 1363; NodeGrammar.py:150).  Python searches with backtracking; whether there is a match does not depend on that. -/
def full (r : Rx) (s : Str) : Bool := (s.foldl (fun r c => r.deriv c) r).nullable

/-- A text in a pattern. -/
def lit (s : String) : Rx := s.toList.foldr (fun c r => .seq (.char (· == c)) r) .empty

/-- `+`. -/
def plus (a : Rx) : Rx := .seq a (.star a)

/-- One after another. -/
def cat (rs : List Rx) : Rx := rs.foldr .seq .empty

/-- `|`. -/
def any (rs : List Rx) : Rx := rs.foldr .alt .nothing

/-- `\w` (Section.py:1226-1241). -/
def w : Rx := .char isWord

/-- `.` (Section.py:1330-1354). -/
def dot : Rx := .char (· != '\n')

/-- `[A-Z]` (Section.py:1203, 1226-1228). -/
def upper : Rx := .char Char.isUpper

/-! ## Functions -/

/-- The title of a section that just refers to another (Section.py:1203). -/
def xref : Rx := cat [upper, plus w, lit " ( . . . )"]

/-- `<PROP_PATH>` (Section.py:1241, 1361). -/
def propPath : Rx :=
  cat [any [plus w, cat [lit "%", plus w, lit "%"]],
    plus (any [cat [lit ".", plus w], cat [lit " [ %Symbol.", plus w, lit "% ]"]])]

/-- `<PARAMETER_LIST>` with the space before it (Section.py:1226-1240). -/
def parameterList : Rx := cat [lit " (", .star (.char (fun c => c != '(' && c != ')')), lit ")"]

/-- `pattern_results` (Section.py:1224-1236): the part called `prop_path`, whether there is a parameter list, and the kind. -/
def fnPatterns : List (Rx × Bool × String) :=
  [(cat [upper, plus w], true, "CallConstruct"),
   (cat [lit "_", upper, plus w, lit "_"], true, "CallConstruct"),
   (cat [lit "%", upper, plus w, lit "%"], true, "CallConstruct"),
   (cat [lit "get ", propPath], false, "accessor_property"),
   (cat [lit "set ", propPath], false, "accessor_property"),
   (propPath, true, "function_property"),
   (plus w, true, "function_property")]

/-- The whole pattern (Section.py:1237-1242). -/
def fnRx (p : Rx × Bool × String) : Rx := if p.2.1 then .seq p.1 parameterList else p.1

/-- The groups `prop_path` and `params_str` (Section.py:1257-1260) of a title that matches.  The parameter list starts at the only left parenthesis. -/
def groups (params : Bool) (s : Str) : Str × Option Str :=
  if params then ((s.takeWhile (· != '(')).dropLast, some (((s.dropWhile (· != '(')).drop 1).dropLast)) else (s, none)

/-- The search for a pattern in `_handle_function_section` (Section.py:1237-1257): the kind, and the groups; None is the failed assertion. -/
def fnTitle (s : Str) : Option (String × Str × Option Str) :=
  (fnPatterns.find? (fun p => full (fnRx p) s)).map (fun p => (p.2.2, groups p.2.1 s))

/-- The arguments for `AlgHeader_make` (Section.py:1276-1306). -/
structure FnHead where
  kind : String
  species : String
  name : Str
  params : Option (List (Str × Sections.Punct))
deriving DecidableEq

/-- `bif_species` (Section.py:1276-1280). -/
def bifSpecies (kind : String) : Option String :=
  [("CallConstruct", "bif: intrinsic"), ("accessor_property", "bif: intrinsic: accessor function"), ("function_property", "bif: intrinsic")].lookup kind

/-- The parameters (Section.py:1260-1274); the first None is an exception, the second is Python's. -/
def fnParams (s : Str) (kind : String) : Option Str → Option (Option (List (Str × Sections.Punct)))
  | some l => (Sections.paramsOf l).map some
  | none =>
    if "get ".toList.isPrefixOf s then if kind = "accessor_property" then some (some []) else none
    else if "set ".toList.isPrefixOf s then some none
    else none

/-- The header in `_handle_function_section` (Section.py:1250-1306); None is an exception. -/
def fnHead (s : Str) : Option FnHead := do
  let (kind, path, ps) ← fnTitle s
  let params ← fnParams s kind ps
  let species ← bifSpecies kind
  return ⟨kind, species, path, params⟩

/-! ## Other sections -/

/-- `pattern_results` (Section.py:1320-1355). -/
def otherPatterns : List (Rx × String) :=
  [(lit "Implicit Normal Completion", "shorthand"),
   (lit "Implicit Completion Values", "shorthand"),
   (lit "Throw", "shorthand"),
   (lit "Shorthands for Unwrapping Completion Records", "shorthand"),
   (lit "IfAbruptRejectPromise ( _value_, _capability_ )", "shorthand"),
   (lit "IfAbruptCloseIterator ( _value_, _iteratorRecord_ )", "shorthand"),
   (lit "IfAbruptCloseIterators ( _value_, _iteratorRecords_ )", "shorthand"),
   (lit "IfAbruptCloseAsyncIterator ( _value_, _iteratorRecord_ )", "shorthand"),
   (cat [plus dot, lit " Instances"], "instances: info // properties"),
   (lit "Module Namespace Objects", "instances: info // properties"),
   (lit "Properties of Valid Executions", "catchall"),
   (cat [lit "Properties of ", plus dot], "intrinsic: info // properties"),
   (cat [lit "The ", plus (.char (fun c => isWord c || c == '%' || c == '.')), lit " Object"], "intrinsic: info // properties"),
   (cat [lit "Additional Properties of ", plus dot], "intrinsic: - // properties"),
   (cat [lit "The ", plus w, lit " Constructor"], "intrinsic: info // CallConstruct"),
   (lit "The _NativeError_ Constructors", "intrinsic: info // CallConstruct"),
   (lit "The _TypedArray_ Constructors", "intrinsic: info // CallConstruct"),
   (lit "The %TypedArray% Intrinsic Object", "intrinsic: info // CallConstruct"),
   (lit "_NativeError_ Object Structure", "loop"),
   (lit "Non-ECMAScript Functions", "catchall"),
   (lit "URI Handling Functions", "- // properties"),
   (cat [any [lit "Value", lit "Function", lit "Constructor", lit "Other"], lit " Properties of ", plus dot], "- // properties"),
   (cat [lit "Legacy Object", dot, lit "prototype Accessor Methods"], "- // properties"),
   (propPath, "other_property"),
   (any [cat [.char Char.isLower, plus w], lit "Infinity", lit "NaN"], "other_property"),
   (cat [lit "%Symbol.", plus w, lit "%"], "other_property"),
   (.star dot, "catchall")]

/-- The first pattern that matches the title (Section.py:1356-1367). -/
def byTitle (s : Str) : Option String := (otherPatterns.find? (fun p => full p.1 s)).map (·.2)

/-- The kind of a section that is none of the others (Section.py:1320-1379), by its parent's title and its own. -/
def kindIn (parent s : Str) : Option String := do
  let result ← byTitle s
  if parent = "Terms and Definitions".toList ∧ result = "other_property" then return "catchall"
  else if parent = "Other Properties of the Global Object".toList then
    if result = "catchall" then return "other_property_xref" else none
  else return result

/-! ## Changes -/

/-- `EMU-XREF` (Section.py:1689). -/
def emuXref : Rx :=
  cat [lit "<emu-xref ", plus (.char (fun c => c != '<' && c != '>')), lit ">", .star (.char (fun c => c != '<' && c != '>')), lit "</emu-xref>"]

/-- `EMU-GRAMMAR` (Section.py:1690). -/
def emuGrammar : Rx := cat [lit "<emu-grammar>", plus (.char (fun c => c != '<' && c != '>')), lit "</emu-grammar>"]

/-- `NONTERMINAL` (Section.py:1691). -/
def nonterminal : Rx := cat [lit "|", plus w, lit "|"]

/-- A paragraph with a content (NodeGrammar.py:38-46). -/
def p (rs : List Rx) : Atom := .content "p" (full (cat rs))

/-- A unit of `_handle_changes_section`; what it does with its nodes is told in `Verif.Bodies`. -/
def unit (as : List Atom) : NUnit Unit := ⟨as, fun _ => []⟩

/-- The patterns of Section.py:1543-1556. -/
def subpatternUnits : List (NUnit Unit) :=
  [unit [p [lit "The semantics of ", plus w, lit " is extended as follows:"]],
   unit [p [lit "The rule for ", emuGrammar, lit " is the same as for ", emuGrammar, lit " but with ", nonterminal, lit " substituted for ", nonterminal, lit "."]]]

/-- The patterns of Section.py:1562-1569. -/
def assertionUnits : List (NUnit Unit) :=
  [unit [p [plus w, lit " rules for the ", emuGrammar, lit " and ", emuGrammar, lit " productions are also used for the ", nonterminal,
    lit " productions, but with ", nonterminal, lit " substituted for ", nonterminal, dot]]]

/-- The patterns of Section.py:1575-1589. -/
def atomUnits : List (NUnit Unit) :=
  [unit [p [plus w, lit " rules for the ", nonterminal, lit " productions except for ", emuGrammar, lit " are also used for the ", nonterminal,
     lit " productions, but with ", nonterminal, lit " substituted for ", nonterminal, dot,
     lit " The following rules, with parameter _direction_, are also added:"]],
   unit [.name "emu-grammar", .name "emu-alg"]]

/-- The patterns of Section.py:1595-1626. -/
def charSetUnits : List (NUnit Unit) :=
  [unit [p [lit "The semantics of ", emuXref, lit " is extended as follows:"]],
   unit [p [lit "The following two rules replace the corresponding rules of CompileToCharSet", dot]],
   unit [p [lit "In addition, the following rules are added to CompileToCharSet", dot]],
   unit [.name "emu-grammar", .name "emu-alg"],
   unit [.name "emu-note"]]

/-- The patterns of Section.py:1640-1649. -/
def parsePatternUnits : List (NUnit Unit) :=
  [unit [p [lit "The semantics of ", emuXref, lit " is extended as follows:"], p [lit "The abstract operation ParsePattern ", plus dot], .name "emu-alg"]]

/-- The patterns of Section.py:1655-1672. -/
def forInUnits : List (NUnit Unit) :=
  [unit [p [lit "The following augments the ", nonterminal, lit " production in ", emuXref, lit ":"], .name "emu-grammar",
     p [lit "This production only applies when parsing non-strict code", dot]],
   unit [p [lit "The ", any [lit "static", lit "runtime"], lit " semantics of ", plus w, lit " in ", emuXref, lit " are augmented with the following:"],
     .name "emu-grammar", .name "emu-alg"]]

/-- The patterns for a section, if it is one of those (Section.py:1541-1678). -/
def changesUnits (num : Str) (title : String) : Option (List (NUnit Unit)) :=
  if "B.".toList.isPrefixOf num ∧ title = "Runtime Semantics: CompileSubpattern" then some subpatternUnits
  else if "B.".toList.isPrefixOf num ∧ title = "Runtime Semantics: CompileAssertion" then some assertionUnits
  else if "B.".toList.isPrefixOf num ∧ title = "Runtime Semantics: CompileAtom" then some atomUnits
  else if "B.".toList.isPrefixOf num ∧ title = "Runtime Semantics: CompileToCharSet" then some charSetUnits
  else if "B.".toList.isPrefixOf num ∧ title = "Static Semantics: ParsePattern ( _patternText_, _u_, _v_ )" then some parsePatternUnits
  else if title = "Initializers in ForIn Statement Heads" then some forInUnits
  else none

/-- The paragraph of a method that is not used (Section.py:627-659): the method must be one whose parameters are known.
That there is such a kind of record (Section.py:669) is left out. -/
def unusedText : Rx :=
  cat [lit "The ", any [lit "GetThisBinding", lit "CreateImmutableBinding", lit "DeleteBinding"], lit " concrete method of a", any [lit "n", .empty], lit " ", plus w,
    lit " Environment Record is never used within this specification", dot]

/-- The branches of `check_id` (Section.py:1766-2235); the last is the one that checks nothing, None is the failed assertion. -/
def idBranch (kind : String) : Option Nat :=
  if full (cat [.star dot, lit "_property", .star dot]) kind.toList ∨ kind = "CallConstruct" then some 0
  else if kind ∈ ["intrinsic: info // CallConstruct", "intrinsic: info // properties", "intrinsic: - // properties"] then some 1
  else if kind ∈ ["shorthand", "- // properties", "instances: info // properties", "loop"] then some 2
  else if kind = "abstract_operation" then some 3
  else if kind ∈ ["host-defined_abstract_operation", "implementation-defined_abstract_operation"] then some 4
  else if kind = "syntax_directed_operation" then some 5
  else if kind = "numeric_method" then some 6
  else if kind ∈ ["env_rec_method", "env_rec_method_unused"] then some 7
  else if kind = "internal_method" then some 8
  else if kind = "early_errors" then some 9
  else if kind ∈ ["catchall", "changes", "module_rec_method"] then some 10
  else none

/-- What `Verif.Bodies` takes as given; `parent` is the title of the parent of a section. -/
def titles (parent : Bodies.Sec → String) : Bodies.Titles where
  unusedText := full unusedText
  isXref t := full xref t.toList
  fnKind t := (fnHead t.toList).map (·.kind)
  changes s := changesUnits s.num s.title
  kindOf s := kindIn (parent s).toList s.title.toList

end Verif.Kinds
