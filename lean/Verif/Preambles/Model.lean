import Verif.Kinds.Model
import Verif.Titles.Model
/-!
# Model of function_preambles.py

What the prose before the algorithm of a built-in function says, and how it is compared with the head of the algorithm.  `\w` is restricted to ASCII.
-/
namespace Verif.Preambles
open Verif.Kinds (Rx full lit plus cat any w dot)
open Verif.Sections (isWord)
open Verif.Titles (replaceFrom)

abbrev Str := List Char

/-- What is put into the `PreambleInfoHolder` (function_preambles.py:289-295): a key and a value. -/
abbrev Fact := String × Str

/-! ## Rules -/

/-- A `HeaderConstructionRule` (function_preambles.py:231-246): if the whole of the subject matches, the facts that it adds, and what is left. -/
abbrev Rule := Str → Option (List Fact × Str)

/-- `ExtractionRules.apply` (function_preambles.py:175-229), but for the assertion that the subject is not empty; the counts and traces are left out. -/
def apply : List Rule → Str → List Fact × Str
  | [], s => ([], s)
  | r :: rs, s => match r s with
    | none => apply rs s
    | some (fs, []) => (fs, [])
    | some (fs, c :: v) => (fs ++ (apply rs (c :: v)).1, (apply rs (c :: v)).2)

/-- A rule without templates: nothing is left (function_preambles.py:243-244). -/
def drop (r : Rx) : Rule := fun s => if full r s then some ([], []) else none

/-- A rule whose pattern is a group, with `v=\1`: all is left (function_preambles.py:82-146). -/
def keep (r : Rx) (retn : String) : Rule := fun s => if full r s then some ([("retn", retn.toList)], s) else none

/-- What is after a text. -/
def after (t : String) (s : Str) : Option Str := if t.toList.isPrefixOf s then some (s.drop t.toList.length) else none

/-- `no arguments|an argument _\w+_` (function_preambles.py:59). -/
def plRx : Rx := any [lit "no arguments", cat [lit "an argument _", plus w, lit "_"]]

/-- The group `pl` (function_preambles.py:59), after the word `attribute`: the last character is the one for the point. -/
def attrTail (s : Str) : Option Str :=
  match after "]] attribute is a built-in function that " s with
  | none => none
  | some t =>
    let u := match after "requires " t with
      | some u => some u
      | none => after "takes " t
    match u with
    | none => none
    | some u => if full plRx u.dropLast && full dot (u.drop u.dropLast.length) then some u.dropLast else none

/-- "The value of the [[...]] attribute is a built-in function that ..." (function_preambles.py:59-60). -/
def attrRule : Rule := fun s =>
  match after "The value of the [[" s with
  | none => none
  | some t => if t.takeWhile isWord = [] then none
    else (attrTail (t.dropWhile isWord)).map (fun pl => ([("pl", pl), ("kind", "accessor property".toList)], []))

/-- "This method ..." (function_preambles.py:67-68). -/
def method : Rule := fun s =>
  match after "This method " s with
  | none => none
  | some t => if full (plus dot) t then some ([], "!FUNC ".toList ++ t) else none

/-- "Given zero or more arguments, ..." (function_preambles.py:73-74). -/
def given : Rule := fun s =>
  match after "Given zero or more arguments, this function " s with
  | none => none
  | some t => if full (cat [lit "calls ToNumber ", plus dot]) t then some ([("pl", "zero or more arguments".toList)], "!FUNC ".toList ++ t) else none

/-- The rules that leave everything (function_preambles.py:79-146). -/
def keepers : List (Rx × String) :=
  [(cat [plus dot, lit " produces a String value ", plus dot], "a String value"),
   (cat [plus dot, lit " produces a Number value ", plus dot], "a Number value"),
   (cat [plus dot, lit " produces an ECMAScript language value", dot], "an ECMAScript language value"),
   (cat [plus dot, lit " provides a String representation of ", plus dot], "a String"),
   (cat [plus dot, lit " returns an array containing ", plus dot], "an array"),
   (cat [plus dot, lit " returns a Number ", plus dot], "a Number"),
   (cat [plus dot, lit " returns the Number ", plus dot], "a Number"),
   (cat [plus dot, lit " returns a new _TypedArray_ ", plus dot], "a new _TypedArray_"),
   (cat [plus dot, lit " returns an Array into ", plus dot], "an Array"),
   (cat [plus dot, lit " returns the ", plus dot, lit " integral Number value ", plus dot], "an integral Number"),
   (cat [plus dot, lit " returns the integral part of the number ", plus dot], "an integral Number"),
   (cat [plus dot, lit " returns a Number ", plus dot], "a Number"),
   (cat [plus dot, lit " returns a String ", plus dot], "a String"),
   (cat [plus dot, lit " returns a new promise ", plus dot], "a new promise"),
   (cat [plus dot, lit " returns a promise ", plus dot], "a promise"),
   (cat [plus dot, lit " returns a <emu-not-ref>substring</emu-not-ref> ", plus dot], "a String"),
   (cat [plus dot, lit " returns an Array containing ", plus dot, lit ", or *null* if _string_ did not match", dot], "an Array or *null*"),
   (cat [plus dot, lit " returns an array ", plus dot], "an array"),
   (cat [plus dot, lit " returns an iterator object ", plus dot], "an iterator object"),
   (cat [plus dot, lit " returns either a new promise ", plus dot, lit " or the argument itself if the argument is a promise ", plus dot], "a promise")]

/-- `single_sentence_rules` (function_preambles.py:41-148). -/
def singleRules : List Rule :=
  [drop (cat [lit "It can take three parameters", dot]),
   drop (lit "It performs the following steps when called:"),
   drop (lit "Its get accessor function performs the following steps when called:"),
   attrRule, method, given] ++ keepers.map (fun k => keep k.1 k.2)

/-- "This method returns a String value. The contents of the String are ..." (function_preambles.py:31-32). -/
def contents : Rule := fun s =>
  match after "This method returns a String value" s with
  | some (c :: t) => match after " The contents of the String " t with
    | some u => if c != '\n' && full (cat [lit "are ", plus dot]) u
      then some ([("kind", "method".toList), ("retn", "a String value".toList)], "The contents of the returned String ".toList ++ u) else none
    | none => none
  | _ => none

/-- `[][@\w.]` (function_preambles.py:34). -/
def pathChar (c : Char) : Bool := c == ']' || c == '[' || c == '@' || isWord c || c == '.'

/-- "`...` is an accessor property whose set accessor function is *undefined*. ..." (function_preambles.py:34-37). -/
def accessor : Rule := fun s =>
  match s with
  | '`' :: t =>
    let name := t.takeWhile pathChar
    match after "` is an accessor property whose set accessor function is *undefined*" (t.dropWhile pathChar) with
    | some (c :: u) =>
      if name ≠ [] ∧ c ≠ '\n' ∧ u = " Its get accessor function performs the following steps when called:".toList
      then some ([("name", "get ".toList ++ name)], " `".toList ++ name ++ "` is an accessor property whose set accessor function is *undefined*".toList ++ [c]) else none
    | _ => none
  | _ => none

/-- `multi_sentence_rules` (function_preambles.py:29-39). -/
def multiRules : List Rule := [contents, accessor]

/-! ## Preambles -/

/-- A character at the front of the first piece. -/
def push (c : Char) : List Str → List Str
  | [] => [[c]]
  | p :: ps => (c :: p) :: ps

/-- `re.split(r'(?<=\.) +', s)` (function_preambles.py:265); the flag says whether the character before is a point, and spaces then are passed over; `none` for it while
passing over spaces. -/
def sentences : Option Bool → Str → List Str
  | _, [] => [[]]
  | some true, c :: s => if c = ' ' then [] :: sentences none s else push c (sentences (some (c == '.')) s)
  | some false, c :: s => push c (sentences (some (c == '.')) s)
  | none, c :: s => if c = ' ' then sentences none s else push c (sentences (some (c == '.')) s)

/-- `' '.join(...)` (function_preambles.py:270). -/
def joinBy (sep : Str) : List Str → Str
  | [] => []
  | [s] => s
  | s :: t :: ss => s ++ sep ++ joinBy sep (t :: ss)

/-- The sentences of what is left of a paragraph (function_preambles.py:264-268); None is the failed assertion for an empty sentence. -/
def eachSentence : List Str → Option (List Fact × List Str)
  | [] => some ([], [])
  | s :: ss =>
    if s = [] then none
    else match eachSentence ss with
      | none => none
      | some (fs, left) =>
        let r := apply singleRules s
        some (r.1 ++ fs, if r.2 = [] then left else r.2 :: left)

/-- A paragraph (function_preambles.py:259-273), given by its text without white space around it. -/
def paragraph (s : Str) : Option (List Fact) :=
  if s = [] then none
  else
    let r := apply multiRules s
    if r.2 = [] then some r.1
    else match eachSentence (sentences (some false) r.2) with
      | none => none
      | some (fs, left) => some (r.1 ++ fs ++ (if joinBy " ".toList left = [] then [] else [("desc", joinBy " ".toList left)]))

/-- `extract_info_from_preamble` (function_preambles.py:251-275), given the name and the stripped text of each node; None is a failed assertion. -/
def extract : List (String × Str) → Option (List Fact)
  | [] => some []
  | (n, s) :: ns =>
    if n = "p" then
      match paragraph s with
      | none => none
      | some fs => (extract ns).map (fs ++ ·)
    else if n = "emu-note" ∨ n = "pre" then extract ns
    else none

/-! ## The head -/

/-- `_dedupe` (function_preambles.py:297-304). -/
def dedupe (seen : List Str) : List Str → List Str
  | [] => []
  | v :: vs => if v ∈ seen then dedupe (v :: seen) vs else v :: dedupe (v :: seen) vs

/-- `self.fields[key]` after `_dedupe` (function_preambles.py:297-318). -/
def field (facts : List Fact) (key : String) : List Str := dedupe [] ((facts.filter (fun f => f.1 = key)).map Prod.snd)

/-- An `AlgParam` (algos.py:139-144). -/
structure Param where
  name : Str
  punct : Str
  nature : Str
deriving DecidableEq

/-- What of an `AlgHeader` (algos.py:148-158) matters. -/
structure Head where
  species : String
  name : Str
  params : Option (List Param)
  description : List Str
deriving DecidableEq

/-- The messages (function_preambles.py:362-363, 397-398, 420-429, 487-492). -/
inductive Msg where
  | name (pr : Str)
  | multi (pls : List Str)
  | punct (name h p : Str)
  | nature (name h p : Str)
  | vars (vs : List Str)
deriving DecidableEq

/-- `pr_species` (function_preambles.py:327-332); the first None is the exception for other keys. -/
def prSpecies (kinds : List Str) : Option (Option String) :=
  if kinds = [] then some none
  else if joinBy " & ".toList kinds = "accessor property".toList then some (some "bif: intrinsic: accessor function")
  else if joinBy " & ".toList kinds = "method".toList then some (some "bif: intrinsic")
  else none

/-- The check of the species (function_preambles.py:334-340): whether the program goes on. -/
def speciesOk (h : Head) (kinds : List Str) : Bool :=
  match prSpecies kinds with
  | none => false
  | some none => true
  | some (some s) => s == h.species

/-- Whether the names agree (function_preambles.py:349-358); `lower` is restricted to ASCII. -/
def namesAgree (name pr : Str) : Bool :=
  pr == name || pr == replaceFrom " ]".toList "]".toList 0 (replaceFrom " [ ".toList "[".toList 0 name) || pr.map Char.toLower == name.map Char.toLower

/-- The check of the name (function_preambles.py:347-363); None is the failed assertion for several names. -/
def nameMsgs (h : Head) : List Str → Option (List Msg)
  | [] => some []
  | [pr] => some (if namesAgree h.name pr then [] else [.name pr])
  | _ => none

/-- `(an )?argument (_\w+_)` (function_preambles.py:387-389): the second group. -/
def argument (s : Str) : Option Str :=
  let t := match after "an " s with
    | some t => t
    | none => s
  match after "argument " t with
  | none => none
  | some u => if full (cat [lit "_", plus w, lit "_"]) u then some u else none

/-- `pr_params` (function_preambles.py:368-399), with the message; the first None is a failed assertion. -/
def prParams : List Str → Option (Option (List Param) × List Msg)
  | [] => some (none, [])
  | [pl] =>
    if pl = "no arguments".toList then some (some [], [])
    else if pl = "zero or more arguments".toList then some (none, [])
    else match argument pl with
      | none => none
      | some x => some (some [⟨x, [], "unknown".toList⟩], [])
  | pls => some (none, [.multi pls])

/-- The messages about a pair of parameters (function_preambles.py:417-429). -/
def pairMsgs (a p : Param) : List Msg :=
  (if a.punct ≠ p.punct then [.punct a.name a.punct p.punct] else []) ++ (if a.nature ≠ p.nature then [.nature a.name a.nature p.nature] else [])

/-- The parameters (function_preambles.py:401-429): those that the head has then, and the messages.  If the names differ, the program calls a list, which is an exception. -/
def mergeParams : Option (List Param) → Option (List Param) → Option (List Param × List Msg)
  | none, none => none
  | none, some ps => some (ps, [])
  | some as, none => some (as, [])
  | some as, some ps =>
    if as.map Param.name ≠ ps.map Param.name then none
    else some (as, ((as.zip ps).map (fun ap => pairMsgs ap.1 ap.2)).flatten)

/-- The words that `\b_\w+\b` finds (function_preambles.py:444): an underscore and something. -/
def isVar : Str → Bool
  | '_' :: _ :: _ => true
  | _ => false

/-- The variables that are not parameters but are expected (function_preambles.py:450-479). -/
def expectedVars : List (String × String) :=
  [("_NativeError_", "_NativeError_"), ("_TypedArray_", "_TypedArray_"), ("Math.exp", "_e_"), ("Math.expm1", "_e_"),
   ("String.prototype.localeCompare", "_string_"), ("String.prototype.localeCompare", "_thatValue_"), ("String.prototype.slice", "_sourceLength_"),
   ("String.prototype.substr", "_sourceLength_"), ("Array.prototype.slice", "_length_"), ("Array.prototype.sort", "_x_"), ("Array.prototype.sort", "_y_"),
   ("%TypedArray%.prototype.set", "_TypedArray_"), ("%TypedArray%.prototype.subarray", "_TypedArray_"), ("JSON.parse", "_key_"), ("JSON.parse", "_value_")]

/-- A name put into a sorted list (function_preambles.py:491). -/
def insert (v : Str) : List Str → List Str
  | [] => [v]
  | x :: xs => if v < x then v :: x :: xs else if v = x then x :: xs else x :: insert v xs

/-- `non_param_vars`, sorted (function_preambles.py:443-492). -/
def otherVars (name : Str) (params : List Param) (desc : List Str) : List Str :=
  (((desc.flatMap Titles.words).filter isVar).filter (fun v => decide (v ∉ params.map Param.name) && !(expectedVars.any (fun e => e.1.toList == name && e.2.toList == v)))).foldr insert []

/-- `compare_to_header` (function_preambles.py:306-495): the head, and the messages; None if the program stops.  There are no facts for `reta`, and those for `retn` are not
compared with anything. -/
def compare (h : Head) (facts : List Fact) : Option (Head × List Msg) :=
  if speciesOk h (field facts "kind") then
    match nameMsgs h (field facts "name") with
    | none => none
    | some m1 => match prParams (field facts "pl") with
      | none => none
      | some (pr, m2) => match mergeParams h.params pr with
        | none => none
        | some (ps, m3) =>
          if h.description = [] then
            let desc := field facts "desc"
            let vs := otherVars h.name ps desc
            some ({ h with params := some ps, description := desc }, m1 ++ m2 ++ m3 ++ (if vs = [] then [] else [.vars vs]))
          else none
  else none

/-- `check_header_against_prose` (function_preambles.py:22-26); None if the program stops. -/
def check (h : Head) (nodes : List (String × Str)) : Option (Head × List Msg) :=
  if "bif:".toList.isPrefixOf h.species.toList && !nodes.isEmpty then (extract nodes).bind (compare h) else none

end Verif.Preambles
