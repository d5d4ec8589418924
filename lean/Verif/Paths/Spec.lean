/-!
# Specification of the names of intrinsic objects

Independent of the model: how objects and paths of properties are written, and the names that they should have.
-/
namespace Verif.Paths.Spec

abbrev Str := List Char

/-- A word: some letters, digits and underscores. -/
def Word (w : Str) : Prop := w ≠ [] ∧ ∀ c ∈ w, c.isAlphanum = true ∨ c = '_'

/-- Where a path starts. -/
inductive Base where
  | word (w : Str)
  | percent (w : Str)
  | generators
  | asyncGenerators

/-- A key of a property: a string, or a well-known symbol. -/
inductive Key where
  | string (w : Str)
  | symbol (w : Str)
deriving DecidableEq

/-- A property of a property of … of an object. -/
structure Path where
  base : Base
  keys : List Key

def Base.Ok : Base → Prop
  | .word w => Word w
  | .percent w => Word w
  | _ => True

def Key.Ok : Key → Prop
  | .string w => Word w
  | .symbol w => Word w

def Path.Ok (p : Path) : Prop := p.base.Ok ∧ ∀ k ∈ p.keys, k.Ok

/-- How the start of a path is written. -/
def Base.text : Base → Str
  | .word w => w
  | .percent w => '%' :: w ++ ['%']
  | .generators => "the prototype of generator objects".toList
  | .asyncGenerators => "the prototype of async generator objects".toList

/-- What it is called. -/
def Base.name : Base → Str
  | .word w => w
  | .percent w => w
  | .generators => "GeneratorPrototype".toList
  | .asyncGenerators => "AsyncGeneratorPrototype".toList

/-- How a key is written: `.next`, ` [ %Symbol.iterator% ]`. -/
def Key.text : Key → Str
  | .string w => '.' :: w
  | .symbol w => " [ %Symbol.".toList ++ w ++ "% ]".toList

/-- How it is put into a name: `.next`, `[%Symbol.iterator%]`. -/
def Key.name : Key → Str
  | .string w => '.' :: w
  | .symbol w => "[%Symbol.".toList ++ w ++ "%]".toList

def Path.text (p : Path) : Str := p.base.text ++ p.keys.flatMap Key.text

def Path.name (p : Path) : Str := p.base.name ++ p.keys.flatMap Key.name

/-! ## Phrases -/

/-- What a phrase of two words calls something. -/
inductive Sort' where
  | constructor
  | object
  | function

def Sort'.text : Sort' → Str
  | .constructor => "constructor".toList
  | .object => "object".toList
  | .function => "function".toList

/-- The ways to speak about an intrinsic object. -/
inductive Phrase where
  /-- `%inner%`. -/
  | pdn (inner : Str)
  /-- `Array.prototype [ %Symbol.iterator% ]`. -/
  | path (p : Path)
  /-- `get Map.prototype.size`, `set …`. -/
  | accessor (set : Bool) (p : Path)
  /-- `the Array constructor`, `the Math object`, `the eval function`. -/
  | thing (w : Str) (s : Sort')
  /-- `(the )Array prototype( object)`. -/
  | proto (article : Bool) (w : Str) (object : Bool)
  /-- `(the )%Array% prototype object`. -/
  | percentProto (article : Bool) (w : Str)
  /-- `the %Array.prototype% (intrinsic )object`. -/
  | dotted (w : Str) (ws : List Str) (intrinsic : Bool)
  /-- `the prototype of Array iterator objects`: the words, each but the first with what is before it. -/
  | iterators (w : Str) (ws : List (Bool × Str)) (capital : Bool)
  /-- One of the phrases with a meaning of its own. -/
  | fixed (i : Nat)

/-- The phrases with a meaning of their own. -/
def idioms : List (Str × Str) :=
  [("the global object".toList, "(global)".toList),
   ("global object".toList, "(global)".toList),
   ("the constructor of async function objects".toList, "AsyncFunction".toList),
   ("the constructor of async generator function objects".toList, "AsyncGeneratorFunction".toList),
   ("the constructor of generator function objects".toList, "GeneratorFunction".toList),
   ("the super class of all typed Array constructors".toList, "TypedArray".toList),
   ("the prototype of Iterator Helper objects".toList, "IteratorHelperPrototype".toList),
   ("the prototype of wrapped iterator objects returned by Iterator.from".toList, "WrapForValidIteratorPrototype".toList)]

/-- A space or a hyphen. -/
def sep (hyphen : Bool) : Char := if hyphen then '-' else ' '

def Phrase.text : Phrase → Str
  | .pdn i => '%' :: i ++ ['%']
  | .path p => p.text
  | .accessor set p => (if set then "set ".toList else "get ".toList) ++ p.text
  | .thing w s => "the ".toList ++ w ++ ' ' :: s.text
  | .proto article w object => (if article then "the ".toList else []) ++ w ++ " prototype".toList ++ if object then " object".toList else []
  | .percentProto article w => (if article then "the ".toList else []) ++ '%' :: w ++ "% prototype object".toList
  | .dotted w ws intrinsic => "the %".toList ++ w ++ ws.flatMap (fun x => '.' :: x) ++ (if intrinsic then "% intrinsic object".toList else "% object".toList)
  | .iterators w ws capital => "the prototype of ".toList ++ w ++ ws.flatMap (fun x => sep x.1 :: x.2) ++ (if capital then " Iterator objects".toList else " iterator objects".toList)
  | .fixed i => (idioms[i]?.getD ([], [])).1

/-- The word with a capital letter. -/
def capital : Str → Str
  | [] => []
  | c :: s => c.toUpper :: s

/-- The name of the object, without the percent signs around it. -/
def Phrase.name : Phrase → Str
  | .pdn i =>
    if i = "GeneratorFunction.prototype.prototype".toList then "GeneratorPrototype".toList
    else if i = "AsyncGeneratorFunction.prototype.prototype".toList then "AsyncGeneratorPrototype".toList
    else i
  | .path p => p.name
  | .accessor set p => p.name ++ if set then ":set".toList else ":get".toList
  | .thing w _ => w
  | .proto _ w _ => w ++ ".prototype".toList
  | .percentProto _ w => w ++ ".prototype".toList
  | .dotted w ws _ => w ++ ws.flatMap (fun x => '.' :: x)
  | .iterators w ws _ => capital w ++ ws.flatMap (fun x => capital x.2) ++ "IteratorPrototype".toList
  | .fixed i => (idioms[i]?.getD ([], [])).2

/-- A phrase that makes sense.  Some are not to be read as they seem: `the global object` is an idiom, `the prototype object` is that of `the`, `get prototype` is that of `get`, and `get [ %Symbol.x% ]` is not a property of an
object called `get`. -/
def Phrase.Ok : Phrase → Prop
  | .pdn i => i ≠ [] ∧ '%' ∉ i
  | .path p => p.Ok ∧ ¬ ∃ w, (p.base = .word "get".toList ∨ p.base = .word "set".toList) ∧ p.keys.head? = some (.symbol w)
  | .accessor _ p => p.Ok ∧ ¬ (p.base = .word "prototype".toList ∧ p.keys = [])
  | .thing w s => Word w ∧ ¬ (s = .object ∧ (w = "global".toList ∨ w = "prototype".toList))
  | .proto _ w _ => Word w
  | .percentProto _ w => Word w
  | .dotted w ws _ => Word w ∧ ∀ x ∈ ws, Word x
  | .iterators w ws _ => (w ≠ [] ∧ '-' ∉ w ∧ ' ' ∉ w) ∧ ∀ x ∈ ws, x.2 ≠ [] ∧ '-' ∉ x.2 ∧ ' ' ∉ x.2
  | .fixed i => i < idioms.length

/-! ## Splitting -/

/-- A key, and how it is set: whether there is a space before the bracket, after it, and before the one at the end. -/
structure Piece where
  key : Key
  before : Bool
  after : Bool
  last : Bool

def space (b : Bool) : Str := if b then [' '] else []

def Piece.text (x : Piece) : Str :=
  match x.key with
  | .string w => '.' :: w
  | .symbol w => space x.before ++ ['['] ++ space x.after ++ "%Symbol.".toList ++ w ++ ['%'] ++ space x.last ++ [']']

/-- How the specification writes a key by itself: `*"next"*`, `%Symbol.iterator%`. -/
def Key.literal : Key → Str
  | .string w => "*\"".toList ++ w ++ "\"*".toList
  | .symbol w => "%Symbol.".toList ++ w ++ ['%']

/-- A path starts with a word, or a word between percent signs. -/
def Plain : Base → Prop
  | .word w => Word w
  | .percent w => Word w
  | _ => False

def loose (b : Base) (xs : List Piece) : Str := b.text ++ xs.flatMap Piece.text

/-- What a name of a property says: the container, if it is named, and the key. -/
inductive Names : Str → Option Str → Str → Prop where
  | literal {k : Key} : k.Ok → Names k.literal none k.literal
  | word {w} : Word w → Names w none (Key.string w).literal
  | path {b xs x} : Plain b → (∀ y ∈ xs, y.key.Ok) → x.key.Ok → Names (loose b (xs ++ [x])) (some (loose b xs)) x.key.literal

end Verif.Paths.Spec
