import Verif.Kinds.Spec
import Verif.Preambles.Spec
import Verif.Tables.Spec
import Verif.Objs.Model
/-!
# Specification of what the list at the start of the section of a built-in object says

Independent of the functions of the model: how the sentences are written, and what each says about the object.
-/
namespace Verif.Objs.Spec
open Verif.Kinds.Spec (Line Some' Capital NoTags)
open Verif.Paths.Spec (Word)

/-! ## Sentences -/

/-- Parts of a sentence: a fixed text, a word, any character, any text, one of some texts, a word that can be between backticks, and a link without text. -/
inductive Part where
  | text (s : String)
  | word
  | any
  | rest
  | choice (ss : List String)
  | ticked
  | xref

def Part.Is : Part → Str → Prop
  | .text t, s => s = t.toList
  | .word, s => Word s
  | .any, s => ∃ c, s = [c] ∧ c ≠ '\n'
  | .rest, s => Some' s
  | .choice ts, s => ∃ t ∈ ts, s = t.toList
  | .ticked, s => Word s ∨ ∃ x, Word x ∧ s = "`".toList ++ x ++ "`".toList
  | .xref, s => ∃ a, a ≠ [] ∧ NoTags a ∧ s = "<emu-xref ".toList ++ a ++ "></emu-xref>".toList

/-- A text reads as the parts say. -/
inductive Reads : List Part → Str → Prop
  | nil : Reads [] []
  | cons {p ps s t} : p.Is s → Reads ps t → Reads (p :: ps) (s ++ t)

/-- The sentences about what happens in a call, which say that the object is a constructor. -/
def creating : List (List Part) :=
  ["also creates and initializes a new ", "creates and initializes a new "].flatMap (fun a =>
    [[], [.text " A call of the object as a function is equivalent to calling it as a constructor with the same arguments", .any]].map (fun c =>
      [.text a, .word, .choice [" object", ""], .text " when called as a function rather than as a constructor", .any] ++ c ++
      [.text " Thus the function call ", .rest, .text " is equivalent to the object creation expression ", .rest, .text " with the same arguments", .any])) ++
  [[.text "creates and initializes a new ", .word, .choice [" object", ""], .text " when called as a constructor", .any],
   [.text "when called as a function, returns either a new RegExp object, or the argument itself if the only argument is a RegExp object", .any]]

/-- The sentences about subclasses. -/
def subclassing : List (List Part) :=
  [[.text "."], [.text " but a `super` call to it will cause an exception."]].map ([.text "may be used as the value ", .choice ["in", "of"],
    .text " an `extends` clause of a class definition"] ++ ·) ++
  [[.text " that are Array exotic objects", .any, .text " However, most of the `Array", .any,
      .text "prototype` methods are generic methods that are not dependent upon their *this* value being an Array exotic object."],
    [.text " with the internal state necessary to support the built-in methods of ", .text "%", .word, .text "%`.prototype`."],
    [.text " with the internal state necessary to support the built-in methods of ", .text "`", .word, .text ".prototype`."],
    [.text " with the internal state necessary to support the built-in methods of ", .text "`", .word, .text "` and `", .word, .any, .text "prototype`."],
    [.text " with a", .choice ["n", ""], .text " [[", .word, .text "]] internal slot."],
    [.text " with the necessary internal slots."],
    [.text " with the internal slots necessary for built-in ", .rest, .text " behaviour", .any, .text " All ECMAScript syntactic forms for defining ", .rest, .text " objects create",
      .choice [" direct", ""], .text " instances of ", .word, .text ". There is no syntactic means to create instances of ", .word, .text " subclasses",
      .choice [" except for the built-in GeneratorFunction, AsyncFunction, and AsyncGeneratorFunction subclasses", ""], .text "."]].map
    ([.text "may be used as the value ", .choice ["in", "of"], .text " an `extends` clause of a class definition",
      .text ". Subclass constructors that intend to inherit the ", .choice ["specified", "exotic"], .text " ", .ticked, .text " behaviour must include a `super` call to the ", .ticked,
      .text " constructor to", .choice [" create and", ""], .text " initialize ", .choice ["a subclass instance", "the subclass instance", "subclass instances"]] ++ ·)

/-- The sentences that say nothing about the object. -/
def silent : List (List Part) :=
  [[.text "does not have a [[", .word, .text "]] internal slot."],
   [.text "does not have a", .choice ["n", ""], .text " [[", .word, .text "]] internal slot or any of the other internal slots of ", .word, .text " instances."],
   [.text "does not have a [[", .word, .text "]] or any other of the internal slots that are specific to _TypedArray_ instance objects."],
   [.text "does not have [[", .word, .text "]] and [[", .word, .text "]] internal slots."],
   [.text "does not have an [[", .word, .text "]] or [[", .word, .text "]] internal slot."],
   [.text "does not have a [[", .word, .text "]], [[", .word, .text "]], [[", .word, .text "]], or [[", .word, .text "]] internal slot."]] ++
  subclassing ++
  [[.text "has properties that are indirectly inherited by all ", .word, .text " instances."],
   [.text "has properties that are inherited by all ", .rest, .text " Iterator objects."],
   [.text "is an intrinsic object that has the structure described below, differing only in the name used as the constructor name instead of _TypedArray_, in ", .xref,
     .text ", except where otherwise noted", .any]]

/-- How a sentence can go on after `is not a` and a word. -/
def notTails : List (List Part) :=
  [[], [.text " or a", .choice ["n", ""], .text " ", .word, .text " instance"]].flatMap (fun also =>
    [[.text "."], [.text " or any of the other internal slots of RegExp instance objects."],
     [.text " or any other of the internal slots listed in ", .xref, .text "."],
     [.text " or any other of the internal slots listed in ", .xref, .text " or ", .xref, .text "."]].map (fun e =>
      [.choice [" object", " instance"]] ++ also ++ [.choice ["; it", " and"], .text " does not have a", .choice ["n", ""], .text " [[", .word, .text "]] internal slot"] ++ e))

/-- What the sentences say that are given word for word. -/
def plain (subject sid : Str) : List (String × List Fact) :=
  ["is an ordinary object.", "is itself an ordinary object."].map (·, [.is subject "an ordinary object".toList]) ++
  [("is itself a Boolean object; it has a [[BooleanData]] internal slot with the value *false*.",
      [.is subject "an ordinary object".toList, .slot subject "[[BooleanData]]".toList "*false*".toList]),
   ("is itself a Number object; it has a [[NumberData]] internal slot with the value *+0*<sub>𝔽</sub>.",
      [.is subject "an ordinary object".toList, .slot subject "[[NumberData]]".toList "*+0*<sub>𝔽</sub>".toList]),
   ("is a String exotic object and has the internal methods specified for such objects.", [.is subject "a String exotic object".toList]),
   ("is an Array exotic object and has the internal methods specified for such objects.", [.is subject "an Array exotic object".toList]),
   ("has the internal methods defined for ordinary objects, except for the [[SetPrototypeOf]] method, which is as defined in <emu-xref href=\"#sec-immutable-prototype-exotic-objects-setprototypeof-v\"></emu-xref>. (Thus, it is an immutable prototype exotic object.)",
      [.is subject "an immutable prototype exotic object whose other internal methods are ordinary".toList])] ++
  ["is a function whose behaviour differs based upon the number and types of its arguments. The actual behaviour of a call of _TypedArray_ depends upon the number and kind of arguments that are passed to it.",
   "is a function whose behaviour differs based upon the number and types of its arguments.",
   "is a standard built-in function object that inherits from the Function constructor.",
   "is itself a built-in function object.",
   "returns a new Symbol value when called as a function.",
   "is not intended to be used with the `new` operator."].map (·, [.is subject "a function object".toList]) ++
  [("accepts any arguments and returns *undefined* when invoked.", [.slot subject "[[ccb]]".toList ("prose in ".toList ++ sid)])] ++
  ["performs a type conversion when called as a function rather than as a constructor.",
   "returns a String representing the current time (UTC) when called as a function rather than as a constructor.",
   "is not intended to be called as a function and will throw an exception when called in that manner.",
   "creates a new ordinary object when called as a constructor.",
   "is a constructor function object that all of the _TypedArray_ constructor objects inherit from.",
   "will throw an error when invoked, because it is an abstract class constructor. The _TypedArray_ constructors do not perform a `super` call to it.",
   "when called as a function rather than as a constructor, returns either a new RegExp object, or the argument itself if the only argument is a RegExp object."].map
    (·, [.is subject "a constructor".toList]) ++
  ["is not a function object.",
   "does not have a [[Call]] internal method; it cannot be invoked as a function.",
   "does not have a [[Construct]] internal method; it cannot be used as a constructor with the `new` operator.",
   "is designed to be subclassable. It may be used as the value of an *extends* clause of a class definition.",
   "acts as the abstract superclass of the various _TypedArray_ constructors.",
   "is not intended to be subclassed.",
   "is not intended to be used with the `new` operator or to be subclassed. It may be used as the value of an `extends` clause of a class definition but a `super` call to the BigInt constructor will cause an exception."].map (·, []) ++
  [("contains two functions, `parse` and `stringify`, that are used to parse and construct JSON texts.",
      [.prop subject "*\"parse\"*".toList [], .prop subject "*\"stringify\"*".toList []])] ++
  ["has properties that are inherited by all Iterator Helper objects.",
   "along with its corresponding prototype object, provides common properties that are inherited by all _TypedArray_ constructors and their instances.",
   "may have host-defined properties in addition to the properties defined in this specification. This may include a property whose value is the global object itself.",
   "does not have a *\"prototype\"* property because Proxy objects do not have a [[Prototype]] internal slot that requires initialization.",
   "does not have a *\"prototype\"* property.",
   "has the following properties:",
   "has the following additional properties:",
   "does not have a global name or appear as a property of the global object.",
   "is never directly accessible to ECMAScript code.",
   "is a subclass of `Function`.",
   "is created before control enters any execution context."].map (·, [])

/-! ## Attributes -/

/-- `[[X]]: v` for a field. -/
def Field (p : Str × Str) (s : Str) : Prop :=
  ∃ n, Word n ∧ p.1 = "[[".toList ++ n ++ "]]".toList ∧ Some' p.2 ∧ s = p.1 ++ ": ".toList ++ p.2

/-- A text in which no comma is followed by a space. -/
def NoComma (s : Str) : Prop := ¬ ∃ a b, s = a ++ ", ".toList ++ b

/-- Fields with `, ` between them. -/
inductive Listed : List (Str × Str) → Str → Prop
  | one {p s} : Field p s → NoComma s → Listed [p] s
  | more {p s ps t} : Field p s → NoComma s → Listed ps t → Listed (p :: ps) (s ++ ", ".toList ++ t)

/-- `{ [[X]]: v, [[Y]]: w }`. -/
def Attrs (fs : List (Str × Str)) (s : Str) : Prop := ∃ x, Listed fs x ∧ s = "{ ".toList ++ x ++ " }".toList

/-- The last that is given for a key. -/
def Last (ps : List (Str × Str)) (k v : Str) : Prop := ∃ a b, ps = a ++ (k, v) :: b ∧ k ∉ b.map Prod.fst

/-- The dict with the given entries: each key where it first comes, with the last that is given for it. -/
def Dict (ps d : List (Str × Str)) : Prop := Preambles.Spec.Firsts (ps.map Prod.fst) (d.map Prod.fst) ∧ ∀ k v, (k, v) ∈ d ↔ Last ps k v

/-! ## Items -/

/-- `%X%` or `%X.y.z%`. -/
def PercentName (s : Str) : Prop := ∃ (x : Str) (ys : List Str), Word x ∧ (∀ y ∈ ys, Word y) ∧ s = "%".toList ++ x ++ (ys.map (".".toList ++ ·)).flatten ++ "%".toList

/-- What a slot can be said to have as its value. -/
def SlotValue (v : Str) : Prop := PercentName v ∨ v ∈ ["*null*", "*true*", "the empty String", "host-defined"].map String.toList

/-- `has a *"x"* property whose value is …`: the beginning. -/
def HasProp (n h : Str) : Prop :=
  ∃ x, Word x ∧ n = "*\"".toList ++ x ++ "\"*".toList ∧
    (h = "has a ".toList ++ n ++ " property whose value is ".toList ∨ h = "has a ".toList ++ n ++ " property whose initial value is ".toList)

/-- A value with attributes: the attributes are between braces at the end. -/
def WithAttrs (v u a : Str) : Prop := Some' u ∧ Some' a ∧ v = u ++ " and whose attributes are {".toList ++ a ++ "}.".toList

/-- What an item says about the subject. -/
inductive Says (subject sid : Str) : Str → List Fact → Prop
  | aka {n} : PercentName n → Says subject sid ("is <dfn>".toList ++ n ++ "</dfn>.".toList) [.aka subject n]
  | see {n a} : PercentName n → a ≠ [] → NoTags a →
    Says subject sid ("is <dfn>".toList ++ n ++ "</dfn> (see <emu-xref ".toList ++ a ++ "></emu-xref>).".toList) [.aka subject n]
  | plain {t fs} : (t, fs) ∈ plain subject sid → Says subject sid t.toList fs
  | creates {ps t} : ps ∈ creating → Reads ps t → Says subject sid t [.is subject "a constructor".toList]
  | slot {h n v} : h = "has a ".toList ∨ h = "has an ".toList → Word n → SlotValue v →
    Says subject sid (h ++ "[[".toList ++ n ++ "]] internal slot whose value is ".toList ++ v ++ ".".toList) [.slot subject ("[[".toList ++ n ++ "]]".toList) v]
  | silent {ps t} : ps ∈ silent → Reads ps t → Says subject sid t []
  | isNot {h x ps t} : h = "is not a ".toList ∨ h = "is not an ".toList → Word x → x ≠ "ordinary".toList → ps ∈ notTails → Reads ps t → Says subject sid (h ++ x ++ t) []
  | prop {n h v u a fs d} : HasProp n h → WithAttrs v u a → (∀ u' a', WithAttrs v u' a' → u'.length ≤ u.length) → Attrs fs ("{".toList ++ a ++ "}".toList) →
    Dict (("[[Value]]".toList, u) :: fs) d → Says subject sid (h ++ v) [.prop subject n d]
  | value {n h u} : HasProp n h → Some' u → (¬ ∃ u' a', WithAttrs (u ++ ".".toList) u' a') → Says subject sid (h ++ u ++ ".".toList) [.prop subject n [("[[Value]]".toList, u)]]
  | global {x e} : Word x → e = ".".toList ∨ e = ", if that property is present (see below).".toList →
    Says subject sid ("is the initial value of the *\"".toList ++ x ++ "\"* property of the global object".toList ++ e)
      [.prop "the global object".toList ("*\"".toList ++ x ++ "\"*".toList) [("[[Value]]".toList, subject)]]

/-! ## The beginning -/

/-- The kinds of objects in titles, and in sentences. -/
def kinds : List (String × String) :=
  [("Constructor", "constructor"), ("Prototype Object", "prototype object"), ("Intrinsic Object", "intrinsic object"), ("Object", "object")]

/-- A name in a title: `%X%`, `%X.y%` or a capitalized word. -/
def TitleName (i : Str) : Prop :=
  (∃ x, Word x ∧ i = "%".toList ++ x ++ "%".toList) ∨ (∃ x y, Word x ∧ Word y ∧ i = "%".toList ++ x ++ ".".toList ++ y ++ "%".toList) ∨ Capital i

/-- The subject and the sentence for a title. -/
inductive Subject : Str → Str → Str → Prop
  | each {h x k l} : h = "Properties of the ".toList ∨ h = "The ".toList → Word x → (k, l) ∈ [("Constructors", "constructor"), ("Prototype Objects", "prototype object")] →
    Subject (h ++ "_".toList ++ x ++ "_ ".toList ++ k.toList) ("each _".toList ++ x ++ "_ ".toList ++ l.toList) ("Each _".toList ++ x ++ "_ ".toList ++ l.toList ++ ":".toList)
  | one {h i j k l} : h = "Properties of the ".toList ∨ h = "The ".toList → TitleName i → (k, l) ∈ kinds →
    (i = "Global".toList ∧ j = "global".toList) ∨ (i ≠ "Global".toList ∧ j = i) →
    Subject (h ++ i ++ " ".toList ++ k.toList) ("the ".toList ++ j ++ " ".toList ++ l.toList) ("The ".toList ++ j ++ " ".toList ++ l.toList ++ ":".toList)

/-- A `<dfn>` tag. -/
def DfnTag (s : Str) : Prop := ∃ a, NoTags a ∧ (∀ c, a.head? = some c → ¬ Word [c]) ∧ s = "<dfn".toList ++ a ++ ">".toList

/-- A section begins with a title and a sentence about the subject, in which a phrase can be marked as defined. -/
inductive Begins : Str → Str → Str → Option Str → Prop
  | unmarked {t s e} : Subject t s e → Begins t e s none
  | marked {t s e a g d b} : Subject t s e → e = a ++ d ++ b → a ≠ [] → d ≠ [] → b ≠ [] → DfnTag g → Begins t (a ++ g ++ d ++ "</dfn>".toList ++ b) s (some d)

/-! ## The whole -/

/-- The items, white space between them left out. -/
inductive Items (space : Char → Bool) (subject sid : Str) : List Block → List Fact → Prop
  | nil : Items space subject sid [] []
  | white {b bs fs} : b.white = true → Items space subject sid bs fs → Items space subject sid (b :: bs) fs
  | item {b bs t fs gs} : b.white = false → b.name = "li" → Tables.Stripped ⟨[], space, fun _ => none⟩ b.text t → Says subject sid t fs → Items space subject sid bs gs →
    Items space subject sid (b :: bs) (fs ++ gs)

/-- A paragraph that can follow. -/
inductive Follows : Str → Prop
  | generic {d x r} : d ∈ ["defined", "stated"] → x ∈ ["Date", "Number", "String"] →
    Follows ("Unless explicitly ".toList ++ d.toList ++ " otherwise, the methods of the ".toList ++ x.toList ++
      " prototype object defined below are not generic and the *this* value passed to them must be ".toList ++ r)
  | operation {r} : Follows ("The abstract operation <dfn".toList ++ r)
  | date {r} : Follows ("In following descriptions of functions that are properties of the Date prototype object, the phrase “<dfn id=\"this-Date-object\">this Date object</dfn>” refers to".toList ++ r)
  | phrase {x r} : x ∈ ["Number", "BigInt"] → Follows ("The phrase “this ".toList ++ x.toList ++ " value” within the specification of a method refers to".toList ++ r)
  | atomics {r} : Follows ("The Atomics object provides functions that".toList ++ r)
  | json {r} : Follows ("The JSON Data Interchange Format is defined in ECMA-404.".toList ++ r)
  | shared : Follows "Whenever a host does not provide concurrent access to SharedArrayBuffers it may omit the *\"SharedArrayBuffer\"* property of the global object.".toList

/-- What a section says. -/
def Tells (space : Char → Bool) (title sid p : Str) (ul rest : List Block) (fs : List Fact) : Prop :=
  ∃ s d gs, Begins title p s d ∧ Items space s sid ul gs ∧ fs = d.toList.map (Fact.aka s) ++ gs ∧
    ∀ b ∈ rest, (b.name = "p" ∧ Follows b.text) ∨ b.name = "emu-alg" ∨ b.name = "emu-note"

/-- A fact about an object; or that the object is the value of a property of the global object. -/
def About (s : Str) (f : Fact) : Prop :=
  (∃ n, f = .aka s n) ∨ (∃ x, f = .is s x) ∨ (∃ n v, f = .slot s n v) ∨ (∃ n d, f = .prop s n d) ∨
    ∃ n, f = .prop "the global object".toList n [("[[Value]]".toList, s)]

end Verif.Objs.Spec
