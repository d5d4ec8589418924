import Verif.Preambles.Model
import Verif.Wki.Model
import Verif.Tables.Model
/-!
# Model of what the list at the start of the section of a built-in object says (Section.py:2409-2733, 3395-3403)

`\w` is restricted to ASCII. A fact is what `put_fact` is called with.
-/
namespace Verif.Objs
open Verif.Kinds (Rx full lit plus cat any w dot)
open Verif.Sections (isWord)
open Verif.Preambles (after)
open Verif.Wki (before)
open Verif.Titles (hasSub)
open Verif.Tables (strip put)

abbrev Str := List Char

/-- The arguments of `put_fact` (Section.py:2447-2669): `is-aka`, `is`, `has-slot` with an `S_InternalSlot`, `has-prop` with an `S_Property`. -/
inductive Fact where
  | aka (subject name : Str)
  | is (subject what : Str)
  | slot (subject name value : Str)
  | prop (subject name : Str) (fields : List (Str × Str))
deriving DecidableEq, Repr

/-! ## Attributes -/

/-- `s.split(', ')` (Section.py:3398): `a` is the part so far. -/
def splitComma (a : Str) : Str → List Str
  | [] => [a]
  | ',' :: ' ' :: s => a :: splitComma [] s
  | c :: s => splitComma (a ++ [c]) s

/-- The groups of `(\[\[\w+\]\]): (.+)` (Section.py:3400). -/
def field (s : Str) : Option (Str × Str) :=
  match after "[[" s with
  | none => none
  | some r =>
    if r.takeWhile isWord = [] then none
    else match after "]]: " (r.dropWhile isWord) with
      | none => none
      | some v => if v ≠ [] ∧ '\n' ∉ v then some ("[[".toList ++ r.takeWhile isWord ++ "]]".toList, v) else none

/-- The group of `{ (.+) }` (Section.py:3396). -/
def braced (s : Str) : Option Str :=
  match after "{ " s with
  | none => none
  | some r => match before " }" r with
    | none => none
    | some x => if x ≠ [] ∧ '\n' ∉ x then some x else none

/-- The fields in `attr_string_to_dict` (Section.py:3395-3402), before they are made into a dict; None is a failed assertion or an AttributeError. -/
def attrFields (s : Str) : Option (List (Str × Str)) :=
  match braced s with
  | none => none
  | some x => (splitComma [] x).mapM field

/-- `{**d, **dict(fields)}` (Section.py:2637, 3399-3403). -/
def putAll (d : List (Str × Str)) (fs : List (Str × Str)) : List (Str × Str) := fs.foldl (fun d p => put d p.1 p.2) d

/-- A group `(.+)` or `(.*)` that takes as much as it can: the longest beginning for which the rest can be read. -/
def greedy (f : Str → Str → Option α) (a : Str) : Str → Option α
  | [] => f a []
  | c :: s => match greedy f (a ++ [c]) s with
    | some x => some x
    | none => f a (c :: s)

/-! ## Items -/

/-- `%\w+(\.\w+)*%` (Section.py:2461, 2535). -/
def percentPath : Rx := cat [lit "%", plus w, .star (cat [lit ".", plus w]), lit "%"]

/-- `[^<>]+` (Section.py:2461, 2561-2563). -/
def noTags : Rx := plus (.char (fun c => c != '<' && c != '>'))

/-- The group in `is <dfn>(…)</dfn>( \(see <emu-xref [^<>]+></emu-xref>\))?\.` (Section.py:2461). -/
def akaItem (t : Str) : Option Str :=
  match after "is <dfn>" t with
  | none => none
  | some r =>
    if full percentPath (r.takeWhile (· != '<')) &&
      (full (lit "</dfn>.") (r.dropWhile (· != '<')) || full (cat [lit "</dfn> (see <emu-xref ", noTags, lit "></emu-xref>)."]) (r.dropWhile (· != '<')))
    then some (r.takeWhile (· != '<')) else none

/-- What an item that is given word for word says. -/
inductive Word' where
  | is (what : String)
  | slot (name value : String)
  | prose
  | prop (name : String)
deriving DecidableEq

/-- The items that are compared with texts (Section.py:2468-2529, 2618-2634, 2645-2663, 2671-2687), and what is put. They are brought together before the patterns that come
earlier in the code, which makes no difference: no text here fits one of those. -/
def fixed : List (String × List Word') := [
  ("is an ordinary object.", [.is "an ordinary object"]),
  ("is itself an ordinary object.", [.is "an ordinary object"]),
  ("is itself a Boolean object; it has a [[BooleanData]] internal slot with the value *false*.", [.is "an ordinary object", .slot "[[BooleanData]]" "*false*"]),
  ("is itself a Number object; it has a [[NumberData]] internal slot with the value *+0*<sub>𝔽</sub>.",
    [.is "an ordinary object", .slot "[[NumberData]]" "*+0*<sub>𝔽</sub>"]),
  ("is a String exotic object and has the internal methods specified for such objects.", [.is "a String exotic object"]),
  ("is an Array exotic object and has the internal methods specified for such objects.", [.is "an Array exotic object"]),
  ("has the internal methods defined for ordinary objects, except for the [[SetPrototypeOf]] method, which is as defined in <emu-xref href=\"#sec-immutable-prototype-exotic-objects-setprototypeof-v\"></emu-xref>. (Thus, it is an immutable prototype exotic object.)",
    [.is "an immutable prototype exotic object whose other internal methods are ordinary"]),
  ("is a function whose behaviour differs based upon the number and types of its arguments. The actual behaviour of a call of _TypedArray_ depends upon the number and kind of arguments that are passed to it.",
    [.is "a function object"]),
  ("is a function whose behaviour differs based upon the number and types of its arguments.", [.is "a function object"]),
  ("is a standard built-in function object that inherits from the Function constructor.", [.is "a function object"]),
  ("is itself a built-in function object.", [.is "a function object"]),
  ("returns a new Symbol value when called as a function.", [.is "a function object"]),
  ("is not intended to be used with the `new` operator.", [.is "a function object"]),
  ("accepts any arguments and returns *undefined* when invoked.", [.prose]),
  ("performs a type conversion when called as a function rather than as a constructor.", [.is "a constructor"]),
  ("returns a String representing the current time (UTC) when called as a function rather than as a constructor.", [.is "a constructor"]),
  ("is not intended to be called as a function and will throw an exception when called in that manner.", [.is "a constructor"]),
  ("creates a new ordinary object when called as a constructor.", [.is "a constructor"]),
  ("is a constructor function object that all of the _TypedArray_ constructor objects inherit from.", [.is "a constructor"]),
  ("will throw an error when invoked, because it is an abstract class constructor. The _TypedArray_ constructors do not perform a `super` call to it.", [.is "a constructor"]),
  ("when called as a function rather than as a constructor, returns either a new RegExp object, or the argument itself if the only argument is a RegExp object.", [.is "a constructor"]),
  ("is not a function object.", []),
  ("does not have a [[Call]] internal method; it cannot be invoked as a function.", []),
  ("does not have a [[Construct]] internal method; it cannot be used as a constructor with the `new` operator.", []),
  ("is designed to be subclassable. It may be used as the value of an *extends* clause of a class definition.", []),
  ("acts as the abstract superclass of the various _TypedArray_ constructors.", []),
  ("is not intended to be subclassed.", []),
  ("is not intended to be used with the `new` operator or to be subclassed. It may be used as the value of an `extends` clause of a class definition but a `super` call to the BigInt constructor will cause an exception.", []),
  ("contains two functions, `parse` and `stringify`, that are used to parse and construct JSON texts.", [.prop "*\"parse\"*", .prop "*\"stringify\"*"]),
  ("has properties that are inherited by all Iterator Helper objects.", []),
  ("along with its corresponding prototype object, provides common properties that are inherited by all _TypedArray_ constructors and their instances.", []),
  ("may have host-defined properties in addition to the properties defined in this specification. This may include a property whose value is the global object itself.", []),
  ("does not have a *\"prototype\"* property because Proxy objects do not have a [[Prototype]] internal slot that requires initialization.", []),
  ("does not have a *\"prototype\"* property.", []),
  ("has the following properties:", []),
  ("has the following additional properties:", []),
  ("does not have a global name or appear as a property of the global object.", []),
  ("is never directly accessible to ECMAScript code.", []),
  ("is a subclass of `Function`.", []),
  ("is created before control enters any execution context.", [])]

/-- The call of `put_fact` for it. -/
def Word'.fact (subject sid : Str) : Word' → Fact
  | .is what => .is subject what.toList
  | .slot n v => .slot subject n.toList v.toList
  | .prose => .slot subject "[[ccb]]".toList ("prose in ".toList ++ sid)
  | .prop n => .prop subject n.toList []

/-- `an?` and the like. -/
def opt (s : String) : Rx := any [lit s, .empty]

/-- The patterns for constructors (Section.py:2514-2521); `(also )?` and the sentence that can be left out are written out as four patterns. -/
def constructorRx : List (List Rx) :=
  ["also creates and initializes a new ", "creates and initializes a new "].flatMap (fun a =>
    [[], [lit " A call of the object as a function is equivalent to calling it as a constructor with the same arguments", dot]].map (fun c =>
      [lit a, plus w, opt " object", lit " when called as a function rather than as a constructor", dot] ++ c ++
      [lit " Thus the function call ", plus dot, lit " is equivalent to the object creation expression ", plus dot, lit " with the same arguments", dot])) ++
  [[lit "creates and initializes a new ", plus w, opt " object", lit " when called as a constructor", dot],
   [lit "when called as a function, returns either a new RegExp object, or the argument itself if the only argument is a RegExp object", dot]]

/-- `(%\w+(?:\.\w+)*%|\*null\*|\*true\*|the empty String|host-defined)` (Section.py:2535). -/
def slotValue : Rx := any [percentPath, lit "*null*", lit "*true*", lit "the empty String", lit "host-defined"]

/-- The groups of `has an? (\[\[\w+\]\]) internal slot whose value is (…)\.` (Section.py:2535), after `has an? [[`. -/
def slotTail (r : Str) : Option (Str × Str) :=
  if r.takeWhile isWord = [] then none
  else match after "]] internal slot whose value is " (r.dropWhile isWord) with
    | none => none
    | some y => match before "." y with
      | none => none
      | some v => if full slotValue v then some ("[[".toList ++ r.takeWhile isWord ++ "]]".toList, v) else none

/-- The same with the beginning. -/
def slotItem (t : Str) : Option (Str × Str) :=
  match after "has a [[" t with
  | some r => slotTail r
  | none => match after "has an [[" t with
    | some r => slotTail r
    | none => none

/-- `<emu-xref [^<>]+></emu-xref>` (Section.py:2561-2563, 2680). -/
def xref : Rx := cat [lit "<emu-xref ", noTags, lit "></emu-xref>"]

/-- `\w+|`\w+`` (Section.py:2583-2585). -/
def ticked : Rx := any [plus w, cat [lit "`", plus w, lit "`"]]

/-- The pattern for what can be subclassed (Section.py:2571-2616), for which nothing is put; the alternatives after `definition` are written out. -/
def subclassRx : List (List Rx) :=
  let start := [lit "may be used as the value ", any [lit "in", lit "of"], lit " an `extends` clause of a class definition"]
  let must := [lit ". Subclass constructors that intend to inherit the ", any [lit "specified", lit "exotic"], lit " ", ticked, lit " behaviour must include a `super` call to the ", ticked,
    lit " constructor to", opt " create and", lit " initialize ", any [lit "a subclass instance", lit "the subclass instance", lit "subclass instances"]]
  let state := lit " with the internal state necessary to support the built-in methods of "
  [start ++ [lit "."],
   start ++ [lit " but a `super` call to it will cause an exception."],
   start ++ must ++ [lit " that are Array exotic objects", dot,
     lit " However, most of the `Array", dot, lit "prototype` methods are generic methods that are not dependent upon their *this* value being an Array exotic object."],
   start ++ must ++ [state, lit "%", plus w, lit "%`.prototype`."],
   start ++ must ++ [state, lit "`", plus w, lit ".prototype`."],
   start ++ must ++ [state, lit "`", plus w, lit "` and `", plus w, dot, lit "prototype`."],
   start ++ must ++ [lit " with a", opt "n", lit " [[", plus w, lit "]] internal slot."],
   start ++ must ++ [lit " with the necessary internal slots."],
   start ++ must ++ [lit " with the internal slots necessary for built-in ", plus dot, lit " behaviour", dot, lit " All ECMAScript syntactic forms for defining ", plus dot, lit " objects create",
     opt " direct", lit " instances of ", plus w, lit ". There is no syntactic means to create instances of ", plus w, lit " subclasses",
     opt " except for the built-in GeneratorFunction, AsyncFunction, and AsyncGeneratorFunction subclasses", lit "."]]

/-- The patterns for which nothing is put (Section.py:2539-2550, 2571-2616, 2641-2644, 2680). -/
def silentRx : List (List Rx) :=
  [[lit "does not have a [[", plus w, lit "]] internal slot."],
   [lit "does not have a", opt "n", lit " [[", plus w, lit "]] internal slot or any of the other internal slots of ", plus w, lit " instances."],
   [lit "does not have a [[", plus w, lit "]] or any other of the internal slots that are specific to _TypedArray_ instance objects."],
   [lit "does not have [[", plus w, lit "]] and [[", plus w, lit "]] internal slots."],
   [lit "does not have an [[", plus w, lit "]] or [[", plus w, lit "]] internal slot."],
   [lit "does not have a [[", plus w, lit "]], [[", plus w, lit "]], [[", plus w, lit "]], or [[", plus w, lit "]] internal slot."]] ++
  subclassRx ++
  [[lit "has properties that are indirectly inherited by all ", plus w, lit " instances."],
   [lit "has properties that are inherited by all ", plus dot, lit " Iterator objects."],
   [lit "is an intrinsic object that has the structure described below, differing only in the name used as the constructor name instead of _TypedArray_, in ", xref,
     lit ", except where otherwise noted", dot]]

/-- The pattern for what an object is not (Section.py:2552-2566), after the first group; its alternatives are written out. -/
def notRx : List (List Rx) :=
  [[], [lit " or a", opt "n", lit " ", plus w, lit " instance"]].flatMap (fun also =>
    [[lit "."], [lit " or any of the other internal slots of RegExp instance objects."],
     [lit " or any other of the internal slots listed in ", xref, lit "."],
     [lit " or any other of the internal slots listed in ", xref, lit " or ", xref, lit "."]].map (fun e =>
      [any [lit " object", lit " instance"]] ++ also ++ [any [lit "; it", lit " and"], lit " does not have a", opt "n", lit " [[", plus w, lit "]] internal slot"] ++ e))

/-- The first group of that pattern (Section.py:2553), after `is not an? `. -/
def notTail (r : Str) : Option Str :=
  if r.takeWhile isWord ≠ [] ∧ notRx.any (fun p => full (cat p) (r.dropWhile isWord)) = true then some (r.takeWhile isWord) else none

/-- The same with the beginning. -/
def notItem (t : Str) : Option Str :=
  match after "is not a " t with
  | some r => notTail r
  | none => match after "is not an " t with
    | some r => notTail r
    | none => none

/-- What is after `value is ` in an item for a property, and its name (Section.py:2636, 2638). -/
def propHead (t : Str) : Option (Str × Str) :=
  match after "has a *\"" t with
  | none => none
  | some r =>
    if r.takeWhile isWord = [] then none
    else match after "\"* property whose" (r.dropWhile isWord) with
      | none => none
      | some y => match after " initial value is " y with
        | some v => some ("*\"".toList ++ r.takeWhile isWord ++ "\"*".toList, v)
        | none => match after " value is " y with
          | some v => some ("*\"".toList ++ r.takeWhile isWord ++ "\"*".toList, v)
          | none => none

/-- The groups 3 and 4 of the pattern with attributes (Section.py:2636), for a given end of group 3. -/
def valueAttrs (u x : Str) : Option (Str × Str) :=
  if u = [] ∨ '\n' ∈ u then none
  else match after " and whose attributes are {" x with
    | none => none
    | some y => match before "}." y with
      | none => none
      | some a => if a ≠ [] ∧ '\n' ∉ a then some (u, "{".toList ++ a ++ "}".toList) else none

/-- The group 3 of the pattern without attributes (Section.py:2638). -/
def valueOnly (v : Str) : Option Str :=
  match before "." v with
  | none => none
  | some u => if u ≠ [] ∧ '\n' ∉ u then some u else none

/-- `is the initial value of the (\*"\w+"\*) property of the global object(…)?\.` (Section.py:2668). -/
def globalItem (t : Str) : Option Str :=
  match after "is the initial value of the *\"" t with
  | none => none
  | some r =>
    if r.takeWhile isWord ≠ [] ∧ (r.dropWhile isWord = "\"* property of the global object.".toList ∨
      r.dropWhile isWord = "\"* property of the global object, if that property is present (see below).".toList)
    then some ("*\"".toList ++ r.takeWhile isWord ++ "\"*".toList) else none

/-- The items for a property and for the global object (Section.py:2636-2639, 2668-2669); None is a failed assertion or an AttributeError. -/
def propItem (subject t : Str) : Option (List Fact) :=
  match propHead t with
  | some (n, v) => match greedy valueAttrs [] v with
    | some (u, a) => (attrFields a).map (fun fs => [.prop subject n (putAll [("[[Value]]".toList, u)] fs)])
    | none => (valueOnly v).map (fun u => [.prop subject n [("[[Value]]".toList, u)]])
  | none => (globalItem t).map (fun n => [.prop "the global object".toList n [("[[Value]]".toList, subject)]])

/-- One item (Section.py:2461-2690): the facts that are put; None is a failed assertion. -/
def item (subject sid t : Str) : Option (List Fact) :=
  match akaItem t with
  | some n => some [.aka subject n]
  | none => match fixed.find? (fun e => decide (e.1.toList = t)) with
    | some e => some (e.2.map (Word'.fact subject sid))
    | none =>
      if constructorRx.any (fun p => full (cat p) t) then some [.is subject "a constructor".toList]
      else match slotItem t with
        | some (n, v) => some [.slot subject n v]
        | none =>
          if silentRx.any (fun p => full (cat p) t) then some []
          else match notItem t with
            | some x => if x = "ordinary".toList then none else some []
            | none => propItem subject t

/-! ## The beginning -/

/-- The groups of `(.+)<dfn\b[^<>]*>(.+)</dfn>(.+)` (Section.py:2418), for given ends of groups 1 and 2. -/
def dfnEnd (a d x : Str) : Option (Str × Str × Str) :=
  if d = [] ∨ '\n' ∈ d then none
  else match after "</dfn>" x with
    | none => none
    | some b => if b ≠ [] ∧ '\n' ∉ b then some (a, d, b) else none

def dfnStart (a x : Str) : Option (Str × Str × Str) :=
  if a = [] ∨ '\n' ∈ a then none
  else match after "<dfn" x with
    | none => none
    | some y =>
      if y.head?.any isWord then none
      else match y.dropWhile (fun c => c != '<' && c != '>') with
        | '>' :: z => greedy (dfnEnd a) [] z
        | _ => none

/-- The paragraph without `<dfn>`, and the phrase (Section.py:2417-2422); None is an AttributeError. -/
def undfn (p : Str) : Option (Str × Option Str) :=
  if hasSub "<dfn".toList p then (greedy dfnStart [] p).map (fun x => (x.1 ++ x.2.1 ++ x.2.2, some x.2.1)) else some (p, none)

/-- `what.lower()` and `suffix.lower()` (Section.py:2430, 2438-2439) for the suffixes there are. -/
def lowers : List (String × String) :=
  [("Constructor", "constructor"), ("Prototype Object", "prototype object"), ("Intrinsic Object", "intrinsic object"), ("Object", "object")]

/-- The patterns for the title (Section.py:2427-2442), after `Properties of the ` or `The `: the subject, and the sentence that is expected. -/
def subjectTail (r : Str) : Option (Str × Str) :=
  match r.dropWhile (· != ' ') with
  | [] => none
  | _ :: s =>
    let id := r.takeWhile (· != ' ')
    if full (cat [lit "_", plus w, lit "_"]) id && (s == "Constructors".toList || s == "Prototype Objects".toList) then
      (lowers.find? (fun e => e.1.toList == s.dropLast)).map (fun e =>
        ("each ".toList ++ id ++ " ".toList ++ e.2.toList, "Each ".toList ++ id ++ " ".toList ++ e.2.toList ++ ":".toList))
    else if full (any [cat [lit "%", plus w, any [cat [lit ".", plus w], .empty], lit "%"], cat [.char Char.isUpper, plus w]]) id then
      (lowers.find? (fun e => e.1.toList == s)).map (fun e =>
        let id' := if id = "Global".toList then "global".toList else id
        ("the ".toList ++ id' ++ " ".toList ++ e.2.toList, "The ".toList ++ id' ++ " ".toList ++ e.2.toList ++ ":".toList))
    else none

def subjectOf (title : Str) : Option (Str × Str) :=
  match after "Properties of the " title with
  | some r => subjectTail r
  | none => match after "The " title with
    | some r => subjectTail r
    | none => none

/-- The title and the first paragraph (Section.py:2414-2447): the subject, and the fact that is put. -/
def intro (title p : Str) : Option (Str × List Fact) :=
  match undfn p with
  | none => none
  | some (q, d) => match subjectOf title with
    | none => none
    | some (s, e) => if q = e then some (s, d.toList.map (Fact.aka s)) else none

/-! ## The whole -/

/-- A child of the list, or a block (Section.py:2453-2456, 2698-2700): whether it is white space, the name of its element, and the text in it. -/
structure Block where
  white : Bool
  name : String
  text : Str

/-- The list (Section.py:2453-2690). -/
def items (space : Char → Bool) (subject sid : Str) : List Block → Option (List Fact)
  | [] => some []
  | b :: bs =>
    if b.white then items space subject sid bs
    else if b.name ≠ "li" then none
    else match item subject sid (strip space b.text) with
      | none => none
      | some fs => (items space subject sid bs).map (fs ++ ·)

/-- The beginnings of paragraphs that can follow (Section.py:2701-2719); the alternatives are written out. -/
def restStarts : List String :=
  (["defined", "stated"].flatMap (fun d => ["Date", "Number", "String"].map (fun x =>
    "Unless explicitly " ++ d ++ " otherwise, the methods of the " ++ x ++
    " prototype object defined below are not generic and the *this* value passed to them must be "))) ++
  ["The abstract operation <dfn",
   "In following descriptions of functions that are properties of the Date prototype object, the phrase “<dfn id=\"this-Date-object\">this Date object</dfn>” refers to",
   "The phrase “this Number value” within the specification of a method refers to",
   "The phrase “this BigInt value” within the specification of a method refers to",
   "The Atomics object provides functions that",
   "The JSON Data Interchange Format is defined in ECMA-404."]

/-- A block after the list (Section.py:2698-2733): whether no assertion fails. -/
def restOk (b : Block) : Bool :=
  if b.name = "p" then restStarts.any (fun s => s.toList.isPrefixOf b.text) ||
    decide (b.text = "Whenever a host does not provide concurrent access to SharedArrayBuffers it may omit the *\"SharedArrayBuffer\"* property of the global object.".toList)
  else b.name == "emu-alg" || b.name == "emu-note"

/-- `extract_intrinsic_info_from_p_ul_section` (Section.py:2409-2733) for a section that begins with a paragraph and a list: the facts in the order they are put. -/
def extract (space : Char → Bool) (title sid p : Str) (ul rest : List Block) : Option (List Fact) :=
  match intro title p with
  | none => none
  | some (s, fs) => match items space s sid ul with
    | none => none
    | some gs => if rest.all restOk then some (fs ++ gs) else none

end Verif.Objs
