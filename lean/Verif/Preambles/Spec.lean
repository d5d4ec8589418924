import Verif.Kinds.Spec
import Verif.Preambles.Model
/-!
# Specification of preambles

Independent of the functions of the model: how sentences are written, what they say, and when it agrees with the head of an algorithm.
-/
namespace Verif.Preambles.Spec
open Verif.Paths.Spec (Word)
open Verif.Kinds.Spec (Line Some')

/-! ## Sentences -/

/-- There is something, then the text, then something, on one line. -/
def Has (t : String) (s : Str) : Prop := ∃ a b, Some' a ∧ Some' b ∧ s = a ++ t.toList ++ b

/-- What sentences say of the result. -/
def resultTexts : List (String × String) :=
  [(" produces a String value ", "a String value"), (" produces a Number value ", "a Number value"), (" provides a String representation of ", "a String"),
   (" returns an array containing ", "an array"), (" returns a Number ", "a Number"), (" returns the Number ", "a Number"),
   (" returns a new _TypedArray_ ", "a new _TypedArray_"), (" returns an Array into ", "an Array"),
   (" returns the integral part of the number ", "an integral Number"), (" returns a String ", "a String"), (" returns a new promise ", "a new promise"),
   (" returns a promise ", "a promise"), (" returns a <emu-not-ref>substring</emu-not-ref> ", "a String"), (" returns an array ", "an array"),
   (" returns an iterator object ", "an iterator object")]

/-- What a sentence says of the result. -/
inductive Returns (s : Str) : String → Prop
  | text {t v} : (t, v) ∈ resultTexts → Has t s → Returns s v
  | language {a c} : Some' a → c ≠ '\n' → s = a ++ " produces an ECMAScript language value".toList ++ [c] → Returns s "an ECMAScript language value"
  | integral {a b c} : Some' a → Some' b → Some' c → s = a ++ " returns the ".toList ++ b ++ " integral Number value ".toList ++ c → Returns s "an integral Number"
  | array {a b c} : Some' a → Some' b → c ≠ '\n' → s = a ++ " returns an Array containing ".toList ++ b ++ ", or *null* if _string_ did not match".toList ++ [c] →
      Returns s "an Array or *null*"
  | promise {a b c} : Some' a → Some' b → Some' c →
      s = a ++ " returns either a new promise ".toList ++ b ++ " or the argument itself if the argument is a promise ".toList ++ c → Returns s "a promise"

/-- Sentences that say nothing. -/
inductive Silent : Str → Prop
  | three {c} : c ≠ '\n' → Silent ("It can take three parameters".toList ++ [c])
  | steps : Silent "It performs the following steps when called:".toList
  | get : Silent "Its get accessor function performs the following steps when called:".toList

/-- A sentence about the function of an accessor property, with what it says about parameters. -/
inductive Attribute : Str → Str → Prop
  | mk {w v pl c} : Word w → v = "requires".toList ∨ v = "takes".toList → c ≠ '\n' →
      pl = "no arguments".toList ∨ (∃ x, Word x ∧ pl = "an argument _".toList ++ x ++ "_".toList) →
      Attribute ("The value of the [[".toList ++ w ++ "]] attribute is a built-in function that ".toList ++ v ++ " ".toList ++ pl ++ [c]) pl

/-- How any other sentence goes into the description, and what it says about parameters. -/
inductive Rewrite : Str → Str → List Str → Prop
  | method {r} : Some' r → Rewrite ("This method ".toList ++ r) ("!FUNC ".toList ++ r) []
  | given {r} : Some' r → Rewrite ("Given zero or more arguments, this function calls ToNumber ".toList ++ r) ("!FUNC calls ToNumber ".toList ++ r) ["zero or more arguments".toList]
  | plain {s} : (∀ r, Some' r → s ≠ "This method ".toList ++ r) → (∀ r, Some' r → s ≠ "Given zero or more arguments, this function calls ToNumber ".toList ++ r) → Rewrite s s []

/-! ## Paragraphs -/

/-- What some paragraphs say as a whole, and what is left of them. -/
inductive Whole : Str → List Fact → Str → Prop
  | contents {c r} : c ≠ '\n' → Some' r → Whole ("This method returns a String value".toList ++ c :: " The contents of the String are ".toList ++ r)
      [("kind", "method".toList), ("retn", "a String value".toList)] ("The contents of the returned String are ".toList ++ r)
  | accessor {n c} : n ≠ [] → (∀ d ∈ n, d = ']' ∨ d = '[' ∨ d = '@' ∨ d = '.' ∨ d = '_' ∨ d.isAlphanum = true) → c ≠ '\n' →
      Whole ("`".toList ++ n ++ "` is an accessor property whose set accessor function is *undefined*".toList ++ c ::
          " Its get accessor function performs the following steps when called:".toList)
        [("name", "get ".toList ++ n)] (" `".toList ++ n ++ "` is an accessor property whose set accessor function is *undefined*".toList ++ [c])

/-- No place to break: no point with a space after it. -/
def NoBreak (p : Str) : Prop := ∀ a b, p ≠ a ++ '.' :: ' ' :: b

/-- The sentences of a text: it is broken at the spaces after points. -/
inductive Splits : Str → List Str → Prop
  | last {p} : NoBreak p → Splits p [p]
  | more {p gap s ps} : NoBreak (p ++ ['.']) → gap ≠ [] → (∀ c ∈ gap, c = ' ') → s.head? ≠ some ' ' → Splits s ps → Splits (p ++ ['.'] ++ gap ++ s) ((p ++ ['.']) :: ps)

/-- What of the sentences goes into the description. -/
inductive Kept : List Str → List Str → Prop
  | nil : Kept [] []
  | silent {s ss ks} : Silent s → Kept ss ks → Kept (s :: ss) ks
  | about {s pl ss ks} : Attribute s pl → Kept ss ks → Kept (s :: ss) ks
  | sentence {s s' pls ss ks} : ¬ Silent s → (∀ pl, ¬ Attribute s pl) → Rewrite s s' pls → Kept ss ks → Kept (s :: ss) (s' :: ks)

/-- What is left of a paragraph to be broken into sentences. -/
inductive Left (s : Str) : List Fact → Str → Prop
  | whole {fs l} : Whole s fs l → Left s fs l
  | same : (∀ fs l, ¬ Whole s fs l) → Left s [] s

/-- Texts with spaces between them. -/
inductive Joined : List Str → Str → Prop
  | one {s} : Joined [s] s
  | more {s t u ss} : Joined (t :: ss) u → Joined (s :: t :: ss) (s ++ ' ' :: u)

/-- What a sentence says. -/
inductive Gives : Str → Fact → Prop
  | kind {s pl} : Attribute s pl → Gives s ("kind", "accessor property".toList)
  | about {s pl} : Attribute s pl → Gives s ("pl", pl)
  | given {s s' pls pl} : ¬ Silent s → (∀ x, ¬ Attribute s x) → Rewrite s s' pls → pl ∈ pls → Gives s ("pl", pl)
  | result {s s' pls v} : ¬ Silent s → (∀ x, ¬ Attribute s x) → Rewrite s s' pls → Returns s' v → Gives s ("retn", v.toList)

/-- What a paragraph says, apart from the description. -/
inductive ParaGives (s : Str) : Fact → Prop
  | whole {fs l f} : Left s fs l → f ∈ fs → ParaGives s f
  | sentence {fs l ps p f} : Left s fs l → Splits l ps → p ∈ ps → Gives p f → ParaGives s f

/-- A paragraph that has nothing for the description. -/
def Quiet (s : Str) : Prop := ∃ fs l ps, Left s fs l ∧ Splits l ps ∧ Kept ps []

/-- What a paragraph has for the description. -/
def Describes (s d : Str) : Prop := ∃ fs l ps ks, Left s fs l ∧ Splits l ps ∧ Kept ps ks ∧ Joined ks d

/-- A paragraph that is empty, or has an empty sentence. -/
def Blank (s : Str) : Prop := s = [] ∨ ∃ fs l ps, Left s fs l ∧ Splits l ps ∧ [] ∈ ps

/-- The descriptions that paragraphs have, in order. -/
inductive Described : List (String × Str) → List Str → Prop
  | nil : Described [] []
  | other {n s ns ds} : n ≠ "p" → Described ns ds → Described ((n, s) :: ns) ds
  | quiet {s ns ds} : Quiet s → Described ns ds → Described (("p", s) :: ns) ds
  | para {s d ns ds} : Describes s d → Described ns ds → Described (("p", s) :: ns) (d :: ds)

/-! ## The head -/

/-- The values, each at its first place. -/
inductive Firsts : List Str → List Str → Prop
  | nil : Firsts [] []
  | old {vs ws v} : Firsts vs ws → v ∈ ws → Firsts (vs ++ [v]) ws
  | new {vs ws v} : Firsts vs ws → v ∉ ws → Firsts (vs ++ [v]) (ws ++ [v])

/-- What the facts say under a key. -/
def Says (facts : List Fact) (key : String) (ws : List Str) : Prop := Firsts ((facts.filter (fun f => f.1 = key)).map Prod.snd) ws

/-- The kinds agree with the species. -/
def SpeciesFits (species : String) (kinds : List Str) : Prop :=
  kinds = [] ∨ (kinds = ["accessor property".toList] ∧ species = "bif: intrinsic: accessor function") ∨ (kinds = ["method".toList] ∧ species = "bif: intrinsic")

/-- One text put for another, from the left. -/
inductive Replaced (old new : Str) : Str → Str → Prop
  | done {s} : (∀ a b, s ≠ a ++ old ++ b) → Replaced old new s s
  | more {a s s'} : (∀ a' b', a ++ old ++ s = a' ++ old ++ b' → a.length ≤ a'.length) → Replaced old new s s' → Replaced old new (a ++ old ++ s) (a ++ new ++ s')

/-- The names agree: they are the same up to case, or the heading has spaces around square brackets. -/
def NameFits (name pr : Str) : Prop :=
  pr = name ∨ (∃ m, Replaced " [ ".toList "[".toList name m ∧ Replaced " ]".toList "]".toList m pr) ∨ pr.map Char.toLower = name.map Char.toLower

/-- The parameters that the preamble tells, if it does. -/
inductive Tells : List Str → Option (List Param) → Prop
  | none : Tells [] none
  | no : Tells ["no arguments".toList] (some [])
  | some : Tells ["zero or more arguments".toList] .none
  | one {x pre} : Word x → pre = "an argument ".toList ∨ pre = "argument ".toList → Tells [pre ++ "_".toList ++ x ++ "_".toList] (.some [⟨"_".toList ++ x ++ "_".toList, [], "unknown".toList⟩])
  | many {a b vs} : Tells (a :: b :: vs) .none

/-- A variable is mentioned in a text: a whole word that begins with an underscore. -/
def Mentions (para v : Str) : Prop :=
  ∃ a b x, para = a ++ v ++ b ∧ v = '_' :: x ∧ Word x ∧ (∀ c, a.getLast? = some c → ¬ Word [c]) ∧ (∀ c, b.head? = some c → ¬ Word [c])

/-- The variables that descriptions may mention although they are not parameters. -/
def expected : List (String × String) :=
  [("_NativeError_", "_NativeError_"), ("_TypedArray_", "_TypedArray_"), ("Math.exp", "_e_"), ("Math.expm1", "_e_"),
   ("String.prototype.localeCompare", "_string_"), ("String.prototype.localeCompare", "_thatValue_"), ("String.prototype.slice", "_sourceLength_"),
   ("String.prototype.substr", "_sourceLength_"), ("Array.prototype.slice", "_length_"), ("Array.prototype.sort", "_x_"), ("Array.prototype.sort", "_y_"),
   ("%TypedArray%.prototype.set", "_TypedArray_"), ("%TypedArray%.prototype.subarray", "_TypedArray_"), ("JSON.parse", "_key_"), ("JSON.parse", "_value_")]

/-- A variable that should not be mentioned. -/
def Stray (name : Str) (params : List Param) (desc : List Str) (v : Str) : Prop :=
  (∃ para ∈ desc, Mentions para v) ∧ (∀ p ∈ params, p.name ≠ v) ∧ ∀ e ∈ expected, ¬ (e.1.toList = name ∧ e.2.toList = v)

end Verif.Preambles.Spec
