import Verif.Dl.Model
import Verif.Kinds.Spec
import Verif.Preambles.Spec
/-!
# Specification for C83

Independent of the functions of the model: how the list in a header is written, which types a return type offers, and what is wrong with a sentence of a description.
-/
namespace Verif.Dl.Spec
open Verif.Dl (Vd Msg)
open Verif.Kinds.Spec (Line Part Reads)
open Verif.Paths.Spec (Word)
open Verif.Util (HNode)

/-! ## The list -/

/-- White space between elements. -/
def Blank (n : HNode) : Prop := n.elementName = "#LITERAL" ∧ n.innerText ≠ [] ∧ ∀ c ∈ n.innerText, c.isWhitespace = true

/-- The nodes are terms and their descriptions in turn, with white space anywhere. -/
inductive Terms : List HNode → List (Str × Str) → Prop
  | nil : Terms [] []
  | white {n ns es} : Blank n → Terms ns es → Terms (n :: ns) es
  | pair {a b ws ns es} : a.elementName = "dt" → (∀ n ∈ ws, Blank n) → b.elementName = "dd" → Terms ns es →
      Terms (a :: ws ++ b :: ns) ((a.innerText, b.innerText) :: es)

/-- Terms that can be in the list. -/
def Allowed (k : Str) : Prop :=
  k = "for".toList ∨ k = "effects".toList ∨ k = "description".toList ∨ k = "skip global checks".toList ∨ k = "skip return checks".toList

/-- The list is correct, and these are its entries. -/
def Entries (dl : List HNode) (es : List (Str × Str)) : Prop := Terms dl es ∧ (∀ e ∈ es, Allowed e.1) ∧ (es.map Prod.fst).Nodup

/-! ## Variables -/

/-- The words of a text, in order. -/
inductive Words : Str → List Str → Prop
  | none {s} : (∀ c ∈ s, ¬ Word [c]) → Words s []
  | more {gap w s ws} : (∀ c ∈ gap, ¬ Word [c]) → Word w → (∀ c, s.head? = some c → ¬ Word [c]) → Words s ws → Words (gap ++ w ++ s) (w :: ws)

/-- A variable: something between two underscores. -/
def Var (v : Str) : Prop := ∃ x, x ≠ [] ∧ v = "_".toList ++ x ++ "_".toList

/-- The elements of a list for which something holds, in order. -/
inductive Those {α : Type} (p : α → Prop) : List α → List α → Prop
  | nil : Those p [] []
  | keep {a as bs} : p a → Those p as bs → Those p (a :: as) (a :: bs)
  | drop {a as bs} : ¬ p a → Those p as bs → Those p (a :: as) bs

/-- The variables of a text, in order. -/
def Vars (s : Str) (vs : List Str) : Prop := ∃ ws, Words s ws ∧ Those Var ws vs

/-- What counts as a parameter: the parameters, and the first variable in the text of `for`. -/
def Param (params : List Str) (forPhrase : Option Str) (v : Str) : Prop := v ∈ params ∨ ∃ p vs, forPhrase = some p ∧ Vars p (v :: vs)

/-- The variables that are expected in the descriptions of some operations, although they are no parameters. -/
def Expected (op : String) (v : Str) : Prop :=
  ((op = "Number::toString" ∨ op = "BigInt::toString") ∧ v = "_r_".toList) ∨ (op = "CanonicalNumericIndexString" ∧ v = "_n_".toList) ∨
  (op = "MaybeSimpleCaseFolding" ∧ v = "_codePoint_".toList) ∨ (op = "AllocateTypedArray" ∧ v = "_TypedArray_".toList)

/-! ## Types -/

def Disj (p : String) : Prop := p = "{VALUE_DESCRIPTION} : either {VAL_DESC_DISJUNCTION}" ∨ p = "{VALUE_DESCRIPTION} : {VAL_DESC_DISJUNCTION}"

def Through (p : String) : Prop := p = "{VALUE_DESCRIPTION} : {VAL_DESC}" ∨ p = "{VAL_DESC} : a normal completion containing {VALUE_DESCRIPTION}"

/-- Nodes whose text as a whole names a type. -/
def Whole (p : String) (ks : List Vd) : Prop :=
  ks = [] ∨ p = "{VAL_DESC} : {LITERAL}" ∨ p = "{VAL_DESC} : a List of {LIST_ELEMENTS_DESCRIPTION}" ∨
  p = "{VAL_DESC} : a Record with fields {dsb_word} ({VALUE_DESCRIPTION}) and {dsb_word} ({VALUE_DESCRIPTION})"

def Interval : String := "{VAL_DESC} : an integer in {INTERVAL}"

/-- A type is offered: it is one of the alternatives, normal completions counting as what they contain, and integers in an interval as integers. -/
inductive Offers (n : Str) : Vd → Prop
  | alternative {p q ks t u v} : Disj p → v ∈ ks → Offers n v → Offers n (.node p [.node q ks u] t)
  | through {p v t} : Through p → Offers n v → Offers n (.node p [v] t)
  | whole {p ks} : ¬ Disj p → ¬ Through p → Whole p ks → Offers n (.node p ks n)
  | interval {ks t} : ks ≠ [] → n = "an integer".toList → Offers n (.node Interval ks t)

/-- Every node that is looked at has a form that is foreseen. -/
inductive Foreseen : Vd → Prop
  | alternatives {p q ks t u} : Disj p → (∀ v ∈ ks, Foreseen v) → Foreseen (.node p [.node q ks u] t)
  | through {p v t} : Through p → Foreseen v → Foreseen (.node p [v] t)
  | whole {p ks t} : ¬ Disj p → ¬ Through p → Whole p ks → Foreseen (.node p ks t)
  | interval {ks t} : Foreseen (.node Interval ks t)

/-! ## Sentences -/

/-- The sentence is on one line and has `returns` or `returning` between these. -/
def Parts (s a b : Str) : Prop := Line s ∧ a ≠ [] ∧ b ≠ [] ∧ (s = a ++ " returns ".toList ++ b ∨ s = a ++ " returning ".toList ++ b)

/-- The last one counts. -/
def Returns (s a b : Str) : Prop := Parts s a b ∧ ∀ a' b', Parts s a' b' → a'.length ≤ a.length

/-- What is returned is not what the operation returns. -/
def Excepted (a : Str) : Prop :=
  (∃ x, a = x ++ "whose [[NextMethod]]".toList) ∨ a = "It does not enforce that the constructor function".toList ∨ (∃ x, a = x ++ "that when executed".toList) ∨
  (∃ x, a = x ++ "where _predicate_".toList) ∨ a = "_op_ takes two List of byte values arguments and".toList

/-- Ways to say what is returned, and the types they imply. -/
def wordings : List (List Part × List String) := [
  ([.text "either ~done~ indicating ", .rest, .text " or the value from the IteratorResult object ", .rest], ["~done~", "an ECMAScript language value"]),
  ([.text "the value of its associated binding object's property ", .rest], ["an ECMAScript language value"]),
  ([.text "the value of its bound identifier ", .rest], ["an ECMAScript language value"]),
  ([.text "*undefined*", .any], ["*undefined*"]),
  ([.text "*true* if and only if ", .rest], ["a Boolean"]),
  ([.text "*true*, *false*, or *undefined* ", .rest], ["a Boolean", "*undefined*"]),
  ([.text "_arg_ converted to a Number or a BigInt", .any], ["a Number", "a BigInt"]),
  ([.text "an implementation-approximated value representing the result of raising _base_ to the _exponent_ power", .any], ["a Number"]),
  ([.text "the full year associated ", .rest], ["an integral Number"]),
  ([.text "the loaded value", .any], ["a Number", "a BigInt"]),
  ([.text "the number of days in year _y_", .any], ["*365*<sub>𝔽</sub>", "*366*<sub>𝔽</sub>"]),
  ([.text "the one's complement of _bigint_", .any], ["a BigInt"]),
  ([.text "the respective Number value", .any], ["a Number"]),
  ([.text "the time value of the start of year _y_", .any], ["a time value"]),
  ([.text "the value of the *\"length\"* property of an array-like object", .any], ["an integral Number"]),
  ([.text "a String representing ", .rest], ["a String"]),
  ([.text "a Promise which ", .rest], ["a Promise"]),
  ([.text "a new promise ", .rest], ["a Promise"]),
  ([.text "either ~done~ indicating ", .rest, .text " or the IteratorResult object ", .rest], ["~done~", "an Object"]),
  ([.text "the global object ", .rest], ["an Object"]),
  ([.text "the object that is ", .rest], ["an Object"]),
  ([.text "a List of byte values", .any], ["a List of byte values"]),
  ([.text "the sequence of Unicode code points that results from ", .rest], ["a List of code points"]),
  ([.text "a Record that gives the index and value of the element found", .any], ["a Record with fields [[Index]] (an integral Number) and [[Value]] (an ECMAScript language value)"]),
  ([.text "that integer if it is non-negative and corresponds with an integer index", .any], ["a non-negative integer"]),
  ([.text "the code unit index corresponding to ", .rest], ["a non-negative integer"]),
  ([.text "the length of _string_", .any], ["a non-negative integer"]),
  ([.text "the number of left-capturing parentheses ", .rest], ["a non-negative integer"]),
  ([.text "1 if ", .rest, .text " and 0 otherwise", .any], ["1", "0"]),
  ([.text "an integer identifying the day of the week ", .rest], ["an integer"]),
  ([.text "an integer identifying the month ", .rest], ["an integer"]),
  ([.text "the day number of ", .rest], ["an integer"]),
  ([.text "the day of the month ", .rest], ["an integer"]),
  ([.text "the hour of the day ", .rest], ["an integer"]),
  ([.text "the millisecond of the second ", .rest], ["an integer"]),
  ([.text "the minute of the hour ", .rest], ["an integer"]),
  ([.text "the number of milliseconds since ", .rest], ["an integer"]),
  ([.text "the second of the minute ", .rest], ["an integer"]),
  ([.text "the year in which ", .rest], ["an integer"]),
  ([.text "_charSet_", .any], ["a CharSet"]),
  ([.text "the resulting CharSet", .any], ["a CharSet"]),
  ([.text "a new Job Abstract Closure that ", .rest], ["a Job Abstract Closure"]),
  ([.text "the first node that is an instance of a nonterminal corresponding to a JSON value, or ~empty~ if ", .rest], ["a Parse Node", "~empty~"])]

/-- What is returned is said in this way: the first that fits. -/
def Worded (b : Str) (ns : List String) : Prop :=
  ∃ before ps after, wordings = before ++ (ps, ns) :: after ∧ Reads ps b ∧ ∀ x ∈ before, ¬ Reads x.1 b

def Unworded (b : Str) : Prop := ∀ x ∈ wordings, ¬ Reads x.1 b

/-- The messages about a sentence. -/
inductive Says (op : String) (param : Str → Prop) (ret : Vd) (s : Str) : List Msg → Prop
  | excepted {a b} : Returns s a b → Excepted a → Says op param ret s []
  | nothing {vs ws} : (∀ a b, ¬ Parts s a b) → Vars s vs → Those (fun v => ¬ param v ∧ ¬ Expected op v) vs ws → Says op param ret s (ws.map .variable)
  | worded {a b ns ms vs ws} : Returns s a b → ¬ Excepted a → Worded b ns → Those (fun n => ¬ Offers n ret) (ns.map String.toList) ms →
      Vars s vs → Those (fun v => ¬ param v ∧ ¬ Expected op v) vs ws → Says op param ret s (ms.map .nature ++ ws.map .variable)
  | unworded {a b vs ws} : Returns s a b → ¬ Excepted a → Unworded b →
      Vars s vs → Those (fun v => ¬ param v ∧ ¬ Expected op v) vs ws → Says op param ret s (.wording :: ws.map .variable)

/-- The messages about sentences one after another. -/
inductive SaysAll (op : String) (param : Str → Prop) (ret : Vd) : List Str → List Msg → Prop
  | nil : SaysAll op param ret [] []
  | cons {s ss ms ns} : Says op param ret s ms → SaysAll op param ret ss ns → SaysAll op param ret (s :: ss) (ms ++ ns)

/-- What a correct header gives: the text of `for`, and the messages about the description. -/
def Header (op : String) (params : List Str) (ret : Vd) (dl : List HNode) (f : Option Str) (ms : List Msg) : Prop :=
  ∃ es, Entries dl es ∧ (∀ t, f = some t ↔ ("for".toList, t) ∈ es) ∧ (∀ t, ("effects".toList, t) ∈ es → t = "user-code".toList) ∧
    ((∀ t, ("description".toList, t) ∉ es) → ms = []) ∧
    ∀ t, ("description".toList, t) ∈ es → ∃ ss, Preambles.Spec.Splits t ss ∧ SaysAll op (Param params f) ret ss ms

end Verif.Dl.Spec
