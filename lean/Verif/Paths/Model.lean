import Verif.Sections.Model
/-!
# Model of the names of intrinsic objects

`get_pdn` and `normalize_property_path` (intrinsics.py:18-134), `split_prop_path`, `confirm_this_property` and `section_put_fact` (Section.py:3350-3391, 3444-3588).
Texts are without newlines, and what is a letter is restricted to ASCII.
-/
namespace Verif.Paths
open Verif.Sections (isWord)

abbrev Str := List Char

/-- What is left of a text after a literal beginning of a pattern. -/
def stripPrefix (p s : Str) : Option Str := if p.isPrefixOf s then some (s.drop p.length) else none

/-- What is left of a text before a literal end of a pattern. -/
def stripSuffix (p s : Str) : Option Str := if p.isSuffixOf s then some (s.take (s.length - p.length)) else none

/-- `\w+`, as much as possible, at the end of a text. -/
def lastWord (s : Str) : Str := (s.reverse.takeWhile isWord).reverse

/-- What is before `lastWord`. -/
def beforeWord (s : Str) : Str := (s.reverse.dropWhile isWord).reverse

/-- `re.fullmatch(r'\w+', s)` (intrinsics.py:111). -/
def wordy (s : Str) : Bool := !s.isEmpty && s.all isWord

/-- The text, if it is a word. -/
def asWord (s : Str) : Option Str := if wordy s then some s else none

/-- `re.fullmatch(r'%(\w+)%', s)` and its group (intrinsics.py:114-115). -/
def percentWord (s : Str) : Option Str := do
  let t ← stripPrefix ['%'] s
  let u ← stripSuffix ['%'] t
  asWord u

/-- `re.fullmatch(r'(.+)(\.\w+)', path)` and its groups (intrinsics.py:122-123). -/
def splitDot (s : Str) : Option (Str × Str) := do
  let h ← stripSuffix ['.'] (beforeWord s)
  if h.isEmpty || (lastWord s).isEmpty then none else some (h, '.' :: lastWord s)

/-- `re.fullmatch(r'(.+) \[ (%Symbol\.\w+%) \]', path)` and its groups (intrinsics.py:127-128). -/
def splitSym (s : Str) : Option (Str × Str) := do
  let t ← stripSuffix "% ]".toList s
  let h ← stripSuffix " [ %Symbol.".toList (beforeWord t)
  if h.isEmpty || (lastWord t).isEmpty then none else some (h, "%Symbol.".toList ++ lastWord t ++ ['%'])

/-- The special cases (intrinsics.py:103-106). -/
def special (s : Str) : Option Str :=
  if s = "the prototype of generator objects".toList then some "GeneratorPrototype".toList
  else if s = "the prototype of async generator objects".toList then some "AsyncGeneratorPrototype".toList
  else none

/-- `normalize_property_path` (intrinsics.py:99-134); the number bounds the depth of the recursion, None stands for the AssertionError. -/
def normalizeN : Nat → Str → Option Str
  | 0, _ => none
  | n + 1, s =>
    match special s with
    | some r => some r
    | none =>
      if wordy s then some s
      else match percentWord s with
        | some w => some w
        | none => match splitDot s with
          | some (h, t) => (normalizeN n h).map (· ++ t)
          | none => match splitSym s with
            | some (h, t) => (normalizeN n h).map (fun r => r ++ '[' :: t ++ [']'])
            | none => none

/-- `normalize_property_path`; every call of it is on a shorter path. -/
def normalize (s : Str) : Option Str := normalizeN (s.length + 1) s

/-! ## Phrases -/

/-- `pc` (intrinsics.py:25). -/
def pc (s : Str) : Str := '%' :: s ++ ['%']

/-- `re.fullmatch(r'%[^%]+%', phrase)` (intrinsics.py:27) and what is between. -/
def pdnInner (s : Str) : Option Str := do
  let t ← stripPrefix ['%'] s
  let u ← stripSuffix ['%'] t
  if u.isEmpty || u.contains '%' then none else some u

/-- The fixed phrases (intrinsics.py:43-55). -/
def fixedPhrases : List (String × String) :=
  [("the global object", "%(global)%"),
   ("global object", "%(global)%"),
   ("the constructor of async function objects", "%AsyncFunction%"),
   ("the constructor of async generator function objects", "%AsyncGeneratorFunction%"),
   ("the constructor of generator function objects", "%GeneratorFunction%"),
   ("the super class of all typed Array constructors", "%TypedArray%"),
   ("the prototype of Iterator Helper objects", "%IteratorHelperPrototype%"),
   ("the prototype of wrapped iterator objects returned by Iterator.from", "%WrapForValidIteratorPrototype%")]

/-- A lookup among the fixed phrases. -/
def fixed (s : Str) : Option Str :=
  (fixedPhrases.find? (fun e => s = e.1.toList)).map (fun e => e.2.toList)

/-- `re.split('[- ]', what)` (intrinsics.py:65); the word that goes on, and those after. -/
def splitWords : Str → Str × List Str
  | [] => ([], [])
  | c :: s =>
    let (w, ws) := splitWords s
    if c = '-' ∨ c = ' ' then ([], w :: ws) else (c :: w, ws)

/-- `word[0].upper() + word[1:]` (intrinsics.py:64); None if the word is empty. -/
def capital : Str → Option Str
  | [] => none
  | c :: s => some (c.toUpper :: s)

/-- `the prototype of (.+) [Ii]terator objects` (intrinsics.py:60) and its group. -/
def iterators (s : Str) : Option Str := do
  let t ← stripPrefix "the prototype of ".toList s
  let u ← (stripSuffix " iterator objects".toList t).or (stripSuffix " Iterator objects".toList t)
  if u.isEmpty then none else some u

/-- `(the )?%(\w+)% prototype object` (intrinsics.py:69) and the word. -/
def percentProto (s : Str) : Option Str := do
  let t ← stripSuffix " prototype object".toList ((stripPrefix "the ".toList s).getD s)
  percentWord t

/-- `(\w+) prototype( object)?`. -/
def wordProto (s : Str) : Option Str :=
  ((stripSuffix " prototype object".toList s).bind asWord).or ((stripSuffix " prototype".toList s).bind asWord)

/-- `(the )?(\w+) prototype( object)?` (intrinsics.py:72) and the word. -/
def proto (s : Str) : Option Str :=
  ((stripPrefix "the ".toList s).bind wordProto).or (wordProto s)

/-- `the (\w+) (constructor|object)` (intrinsics.py:77) and the word. -/
def thing (s : Str) : Option Str := do
  let t ← stripPrefix "the ".toList s
  ((stripSuffix " constructor".toList t).bind asWord).or ((stripSuffix " object".toList t).bind asWord)

/-- `\w+(\.\w+)*`, the flag says whether a word has begun. -/
def dottedFrom : Bool → Str → Bool
  | b, [] => b
  | b, c :: s => if c = '.' then b && dottedFrom false s else isWord c && dottedFrom true s

/-- `the %(\w+(\.\w+)*)% (object|intrinsic object)` (intrinsics.py:80) and the names. -/
def dotted (s : Str) : Option Str := do
  let t ← stripPrefix "the %".toList s
  let u ← (stripSuffix "% object".toList t).or (stripSuffix "% intrinsic object".toList t)
  if dottedFrom false u then some u else none

/-- `the (\w+) function` (intrinsics.py:83) and the word. -/
def theFunction (s : Str) : Option Str := do
  let t ← stripPrefix "the ".toList s
  (stripSuffix " function".toList t).bind asWord

/-- `(get|set) (.+)` (intrinsics.py:86) and its groups. -/
def accessor (s : Str) : Option (Str × Str) :=
  match stripPrefix "get ".toList s with
  | some (c :: t) => some ("get".toList, c :: t)
  | _ => match stripPrefix "set ".toList s with
    | some (c :: t) => some ("set".toList, c :: t)
    | _ => none

/-- `get_pdn` (intrinsics.py:18-95); None stands for an AssertionError or IndexError. -/
def getPdn (s : Str) : Option Str :=
  match pdnInner s with
  | some _ =>
    if s = "%GeneratorFunction.prototype.prototype%".toList then some "%GeneratorPrototype%".toList
    else if s = "%AsyncGeneratorFunction.prototype.prototype%".toList then some "%AsyncGeneratorPrototype%".toList
    else some s
  | none => match fixed s with
    | some r => some r
    | none => match iterators s with
      | some what => do
        let ws ← ((splitWords what).1 :: (splitWords what).2).mapM capital
        some (pc (ws.flatten ++ "IteratorPrototype".toList))
      | none => match percentProto s with
        | some w => some (pc (w ++ ".prototype".toList))
        | none => match proto s with
          | some w => (normalize (w ++ ".prototype".toList)).map pc
          | none => match thing s with
            | some w => some (pc w)
            | none => match dotted s with
              | some p => some (pc p)
              | none => match theFunction s with
                | some w => some (pc w)
                | none => match accessor s with
                  | some (gs, p) => (normalize p).map (fun n => pc (n ++ ':' :: gs))
                  | none => (normalize s).map pc

/-! ## Splitting -/

/-- The text without a space at its end (` ?`). -/
def dropSpace (s : Str) : Str := (stripSuffix [' '] s).getD s

/-- `pystr_to_spec_String_literal` (Section.py:3405-3407) of a word. -/
def stringLiteral (w : Str) : Str := "*\"".toList ++ w ++ "\"*".toList

/-- `(.+?) ?\[ ?(%Symbol\.\w+%) ?\]` and its groups (Section.py:3384); the group before is as short as possible. -/
def splitSymLoose (s : Str) : Option (Str × Str) := do
  let t ← stripSuffix [']'] s
  let u ← stripSuffix ['%'] (dropSpace t)
  let v ← stripSuffix "%Symbol.".toList (beforeWord u)
  let h ← stripSuffix ['['] (dropSpace v)
  if (dropSpace h).isEmpty || (lastWord u).isEmpty then none else some (dropSpace h, "%Symbol.".toList ++ lastWord u ++ ['%'])

/-- The last component of a path, and what is before it (Section.py:3384-3391). -/
def lastComponent (s : Str) : Option (Str × Str) :=
  match splitDot s with
  | some (h, t) => some (h, stringLiteral (t.drop 1))
  | none => splitSymLoose s

/-- `re.fullmatch(r'(%\w+%|\w+)(\.\w+| ?\[ ?%Symbol\.\w+% ?\])*', path)` (Section.py:3372). -/
def pathLike : Nat → Str → Bool
  | 0, _ => false
  | n + 1, s => wordy s || (percentWord s).isSome || match lastComponent s with
    | some (h, _) => pathLike n h
    | none => false

/-- `re.fullmatch(r'%Symbol\.\w+%', path)` (Section.py:3367). -/
def isSymbol (s : Str) : Bool := ((stripPrefix "%Symbol.".toList s).bind (stripSuffix ['%'])).any wordy

/-- `re.fullmatch(r'\*"\w+"\*', path)` (Section.py:3369). -/
def isQuoted (s : Str) : Bool := ((stripPrefix "*\"".toList s).bind (stripSuffix "\"*".toList)).any wordy

/-- `split_prop_path` (Section.py:3366-3391); None stands for an AssertionError. -/
def splitPath (s : Str) : Option (Option Str × Str) :=
  if isSymbol s || isQuoted s then some (none, s)
  else if pathLike (s.length + 1) s then
    if wordy s then some (none, stringLiteral s)
    else (lastComponent s).map (fun x => (some x.1, x.2))
  else none

/-- `detick` (Section.py:3412-3413). -/
def detick (s : Str) : Str := s.filter (· != '`')

/-- `confirm_this_property` (Section.py:3350-3362): whether no assertion fails; the pair is `section.this_property`. -/
def confirms (this : Option (Str × Str)) (s : Str) : Bool :=
  match splitPath (detick s) with
  | none => true
  | some (c, k) => match this with
    | some (tc, tk) => (c == some tc || c.isNone) && k == tk
    | none => c.isNone

end Verif.Paths
