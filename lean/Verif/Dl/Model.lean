import Verif.Preambles.Model
/-!
# Model of how the list in a structured header is read (Section.py:957-1181)

`\w` is restricted to ASCII.  The parsing of the text of `for` (Section.py:990) is not modelled: it does not matter for what is checked here.
-/
namespace Verif.Dl
open Verif.Kinds (full lit plus cat dot)
open Verif.Preambles (after sentences)
open Verif.Titles (words)
open Verif.Util (HNode)

abbrev Str := List Char

/-! ## The list -/

/-- `child.is_whitespace()` (HTML.py:208-209, 271-274); the text of a literal is its inner text. -/
def isBlank (n : HNode) : Bool := n.elementName == "#LITERAL" && !n.innerText.isEmpty && n.innerText.all Char.isWhitespace

/-- `re.fullmatch(r'(dt;dd;)*', children_names)` and the pairs that the loop goes through (Section.py:971-979); names of elements have no semicolons in them.
None is the failed assertion. -/
def pairs : List HNode → Option (List (Str × Str))
  | [] => some []
  | [_] => none
  | dt :: dd :: ns => if dt.elementName = "dt" ∧ dd.elementName = "dd" then (pairs ns).map ((dt.innerText, dd.innerText) :: ·) else none

/-- What can be a `dt` (Section.py:980). -/
def known : List Str := ["for".toList, "effects".toList, "description".toList, "skip global checks".toList, "skip return checks".toList]

/-- The loop that makes `dl_dict` (Section.py:976-982); None is a failed assertion. -/
def dictOf : List (Str × Str) → List (Str × Str) → Option (List (Str × Str))
  | d, [] => some d
  | d, (k, v) :: es => if k ∈ known ∧ k ∉ d.map Prod.fst then dictOf (d ++ [(k, v)]) es else none

/-- `dl_dict` (Section.py:965-982). -/
def dict (dl : List HNode) : Option (List (Str × Str)) := (pairs (dl.filter fun n => !isBlank n)).bind (dictOf [])

/-- `dl_dict[key]`, if it is there (Section.py:986-987, 995-996, 1000-1001). -/
def get (k : String) (d : List (Str × Str)) : Option Str := (d.find? fun e => e.1 == k.toList).map Prod.snd

/-! ## Variables -/

/-- Whether `\b_\w+_\b` matches a word (Section.py:992, 1156). -/
def isVar (s : Str) : Bool := decide (3 ≤ s.length) && s.head? == some '_' && s.getLast? == some '_'

/-- `re.findall(r'\b_\w+_\b', sentence)` (Section.py:1156). -/
def vars (s : Str) : List Str := (words s).filter isVar

/-- `param_names` (Section.py:952-955, 992-993): the parameters, and the first variable in the text of `for`. -/
def names (params : List Str) (forPhrase : Option Str) : List Str :=
  params ++ match forPhrase with
    | none => []
    | some p => ((words p).find? isVar).toList

/-! ## The declared type -/

/-- A node of the parsed return type: its production, its children, its text (Section.py:900-907). -/
inductive Vd where
  | node (prod : String) (kids : List Vd) (text : Str)

/-- Productions whose alternatives are looked at (Section.py:1006-1009). -/
def isDisj (p : String) : Bool := p == "{VALUE_DESCRIPTION} : either {VAL_DESC_DISJUNCTION}" || p == "{VALUE_DESCRIPTION} : {VAL_DESC_DISJUNCTION}"

/-- Productions whose only child is looked at (Section.py:1016-1019). -/
def isThrough (p : String) : Bool := p == "{VALUE_DESCRIPTION} : {VAL_DESC}" || p == "{VAL_DESC} : a normal completion containing {VALUE_DESCRIPTION}"

/-- Productions whose text is compared (Section.py:1023-1026). -/
def isWhole (p : String) : Bool := p == "{VAL_DESC} : {LITERAL}" || p == "{VAL_DESC} : a List of {LIST_ELEMENTS_DESCRIPTION}"

mutual
/-- `is_a_sub_of` (Section.py:1003-1039); None is a failed assertion or unpacking. -/
def sub (n : Str) : Vd → Option Bool
  | .node p ks t =>
    if isDisj p then match ks with
      | [.node _ ks' _] => anySub n ks'
      | _ => none
    else if isThrough p then match ks with
      | [v] => sub n v
      | _ => none
    else if ks.isEmpty || isWhole p then some (n == t)
    else if p == "{VAL_DESC} : an integer in {INTERVAL}" then some (n == "an integer".toList)
    else if p == "{VAL_DESC} : a Record with fields {dsb_word} ({VALUE_DESCRIPTION}) and {dsb_word} ({VALUE_DESCRIPTION})" then some (n == t)
    else none
/-- The `any(...)` in it (Section.py:1011-1014). -/
def anySub (n : Str) : List Vd → Option Bool
  | [] => some false
  | v :: vs => match sub n v with
    | none => none
    | some true => some true
    | some false => anySub n vs
end

/-! ## The description -/

/-- What follows ` returns ` or ` returning ` at the start (Section.py:1043). -/
def verb (s : Str) : Option Str := (after " returns " s).or (after " returning " s)

/-- The last place where one of them is, with something after it: what is before, and what is after (Section.py:1043). -/
def lastVerb : Str → Option (Str × Str)
  | [] => none
  | c :: s => match lastVerb s with
    | some (a, b) => some (c :: a, b)
    | none => match verb (c :: s) with
      | some (d :: b) => some ([], d :: b)
      | _ => none

/-- `re.fullmatch(r'(.+) (returns|returning) (.+)', sentence)` (Section.py:1043-1045): `.+` takes as much as it can, so the last place counts. -/
def returning (s : Str) : Option (Str × Str) :=
  if '\n' ∈ s then none else match lastVerb s with
    | some (c :: a, b) => some (c :: a, b)
    | _ => none

/-- The exceptions (Section.py:1046-1058). -/
def excepted (pre : Str) : Bool :=
  "whose [[NextMethod]]".toList.isSuffixOf pre || pre == "It does not enforce that the constructor function".toList || "that when executed".toList.isSuffixOf pre ||
  "where _predicate_".toList.isSuffixOf pre || pre == "_op_ takes two List of byte values arguments and".toList

/-- `patterns` (Section.py:1061-1135). -/
def patterns : List (Kinds.Rx × List String) := [
  (cat [lit "either ~done~ indicating ", plus dot, lit " or the value from the IteratorResult object ", plus dot], ["~done~", "an ECMAScript language value"]),
  (cat [lit "the value of its associated binding object's property ", plus dot], ["an ECMAScript language value"]),
  (cat [lit "the value of its bound identifier ", plus dot], ["an ECMAScript language value"]),
  (cat [lit "*undefined*", dot], ["*undefined*"]),
  (cat [lit "*true* if and only if ", plus dot], ["a Boolean"]),
  (cat [lit "*true*, *false*, or *undefined* ", plus dot], ["a Boolean", "*undefined*"]),
  (cat [lit "_arg_ converted to a Number or a BigInt", dot], ["a Number", "a BigInt"]),
  (cat [lit "an implementation-approximated value representing the result of raising _base_ to the _exponent_ power", dot], ["a Number"]),
  (cat [lit "the full year associated ", plus dot], ["an integral Number"]),
  (cat [lit "the loaded value", dot], ["a Number", "a BigInt"]),
  (cat [lit "the number of days in year _y_", dot], ["*365*<sub>𝔽</sub>", "*366*<sub>𝔽</sub>"]),
  (cat [lit "the one's complement of _bigint_", dot], ["a BigInt"]),
  (cat [lit "the respective Number value", dot], ["a Number"]),
  (cat [lit "the time value of the start of year _y_", dot], ["a time value"]),
  (cat [lit "the value of the *\"length\"* property of an array-like object", dot], ["an integral Number"]),
  (cat [lit "a String representing ", plus dot], ["a String"]),
  (cat [lit "a Promise which ", plus dot], ["a Promise"]),
  (cat [lit "a new promise ", plus dot], ["a Promise"]),
  (cat [lit "either ~done~ indicating ", plus dot, lit " or the IteratorResult object ", plus dot], ["~done~", "an Object"]),
  (cat [lit "the global object ", plus dot], ["an Object"]),
  (cat [lit "the object that is ", plus dot], ["an Object"]),
  (cat [lit "a List of byte values", dot], ["a List of byte values"]),
  (cat [lit "the sequence of Unicode code points that results from ", plus dot], ["a List of code points"]),
  (cat [lit "a Record that gives the index and value of the element found", dot], ["a Record with fields [[Index]] (an integral Number) and [[Value]] (an ECMAScript language value)"]),
  (cat [lit "that integer if it is non-negative and corresponds with an integer index", dot], ["a non-negative integer"]),
  (cat [lit "the code unit index corresponding to ", plus dot], ["a non-negative integer"]),
  (cat [lit "the length of _string_", dot], ["a non-negative integer"]),
  (cat [lit "the number of left-capturing parentheses ", plus dot], ["a non-negative integer"]),
  (cat [lit "1 if ", plus dot, lit " and 0 otherwise", dot], ["1", "0"]),
  (cat [lit "an integer identifying the day of the week ", plus dot], ["an integer"]),
  (cat [lit "an integer identifying the month ", plus dot], ["an integer"]),
  (cat [lit "the day number of ", plus dot], ["an integer"]),
  (cat [lit "the day of the month ", plus dot], ["an integer"]),
  (cat [lit "the hour of the day ", plus dot], ["an integer"]),
  (cat [lit "the millisecond of the second ", plus dot], ["an integer"]),
  (cat [lit "the minute of the hour ", plus dot], ["an integer"]),
  (cat [lit "the number of milliseconds since ", plus dot], ["an integer"]),
  (cat [lit "the second of the minute ", plus dot], ["an integer"]),
  (cat [lit "the year in which ", plus dot], ["an integer"]),
  (cat [lit "_charSet_", dot], ["a CharSet"]),
  (cat [lit "the resulting CharSet", dot], ["a CharSet"]),
  (cat [lit "a new Job Abstract Closure that ", plus dot], ["a Job Abstract Closure"]),
  (cat [lit "the first node that is an instance of a nonterminal corresponding to a JSON value, or ~empty~ if ", plus dot], ["a Parse Node", "~empty~"])]

/-- The messages, all at the node of the description (Section.py:1142-1145, 1151-1154, 1178-1181). -/
inductive Msg where
  | nature (n : Str)
  | wording
  | variable (v : Str)
deriving DecidableEq, Repr

/-- The loop over the sub-natures (Section.py:1140-1145). -/
def natures (ret : Vd) : List String → Option (List Msg)
  | [] => some []
  | n :: ns => match sub n.toList ret with
    | none => none
    | some b => (natures ret ns).map ((if b then [] else [.nature n.toList]) ++ ·)

/-- What is checked of what is returned (Section.py:1136-1154). -/
def checkReturn (ret : Vd) (post : Str) : Option (List Msg) :=
  match patterns.find? fun p => full p.1 post with
  | some p => natures ret p.2
  | none => some [.wording]

/-- The variables that are not parameters but are expected (Section.py:1160-1174). -/
def expected : List (String × String) := [("Number::toString", "_r_"), ("BigInt::toString", "_r_"), ("CanonicalNumericIndexString", "_n_"),
  ("MaybeSimpleCaseFolding", "_codePoint_"), ("AllocateTypedArray", "_TypedArray_")]

/-- The loop over the variables (Section.py:1156-1181). -/
def checkVars (op : String) (ps : List Str) (s : Str) : List Msg :=
  ((vars s).filter fun v => !(ps.contains v || (expected.contains (op, String.ofList v)))).map .variable

/-- What is checked of a sentence (Section.py:1042-1181). -/
def checkSentence (op : String) (ps : List Str) (ret : Vd) (s : Str) : Option (List Msg) :=
  match returning s with
  | none => some (checkVars op ps s)
  | some (pre, post) => if excepted pre then some [] else (checkReturn ret post).map (· ++ checkVars op ps s)

/-- The loop over the sentences (Section.py:1042). -/
def checkAll (op : String) (ps : List Str) (ret : Vd) : List Str → Option (List Msg)
  | [] => some []
  | s :: ss => match checkSentence op ps ret s with
    | none => none
    | some ms => (checkAll op ps ret ss).map (ms ++ ·)

/-- What is done with the `dl` of a structured header (Section.py:952-1181): the text of `for`, and the messages; None is a failed assertion. -/
def header (op : String) (params : List Str) (ret : Vd) (dl : List HNode) : Option (Option Str × List Msg) :=
  match dict dl with
  | none => none
  | some d =>
    if (get "effects" d).any (· != "user-code".toList) then none
    else match get "description" d with
      | none => some (get "for" d, [])
      | some t => (checkAll op (names params (get "for" d)) ret (sentences (some false) t)).map fun ms => (get "for" d, ms)

end Verif.Dl
