import Verif.Objs.ItemLemmas
/-!
# The texts as lists of characters

The kernel compares lists of characters faster than it takes texts apart.
-/
namespace Verif.Objs
open Spec

open Lean in
/-- The characters of a text. -/
macro "chars!" s:str : term => do
  let cs : Array (TSyntax `term) := (s.getString.toList.map (fun c => (⟨Syntax.mkCharLit c⟩ : TSyntax `term))).toArray
  `([$cs,*])

set_option maxRecDepth 100000 in
def fixedL : List (Str × List Word') := [
  (chars! "is an ordinary object.", [.is "an ordinary object"]),
  (chars! "is itself an ordinary object.", [.is "an ordinary object"]),
  (chars! "is itself a Boolean object; it has a [[BooleanData]] internal slot with the value *false*.", [.is "an ordinary object", .slot "[[BooleanData]]" "*false*"]),
  (chars! "is itself a Number object; it has a [[NumberData]] internal slot with the value *+0*<sub>𝔽</sub>.", [.is "an ordinary object", .slot "[[NumberData]]" "*+0*<sub>𝔽</sub>"]),
  (chars! "is a String exotic object and has the internal methods specified for such objects.", [.is "a String exotic object"]),
  (chars! "is an Array exotic object and has the internal methods specified for such objects.", [.is "an Array exotic object"]),
  (chars! "has the internal methods defined for ordinary objects, except for the [[SetPrototypeOf]] method, which is as defined in <emu-xref href=\"#sec-immutable-prototype-exotic-objects-setprototypeof-v\"></emu-xref>. (Thus, it is an immutable prototype exotic object.)", [.is "an immutable prototype exotic object whose other internal methods are ordinary"]),
  (chars! "is a function whose behaviour differs based upon the number and types of its arguments. The actual behaviour of a call of _TypedArray_ depends upon the number and kind of arguments that are passed to it.", [.is "a function object"]),
  (chars! "is a function whose behaviour differs based upon the number and types of its arguments.", [.is "a function object"]),
  (chars! "is a standard built-in function object that inherits from the Function constructor.", [.is "a function object"]),
  (chars! "is itself a built-in function object.", [.is "a function object"]),
  (chars! "returns a new Symbol value when called as a function.", [.is "a function object"]),
  (chars! "is not intended to be used with the `new` operator.", [.is "a function object"]),
  (chars! "accepts any arguments and returns *undefined* when invoked.", [.prose]),
  (chars! "performs a type conversion when called as a function rather than as a constructor.", [.is "a constructor"]),
  (chars! "returns a String representing the current time (UTC) when called as a function rather than as a constructor.", [.is "a constructor"]),
  (chars! "is not intended to be called as a function and will throw an exception when called in that manner.", [.is "a constructor"]),
  (chars! "creates a new ordinary object when called as a constructor.", [.is "a constructor"]),
  (chars! "is a constructor function object that all of the _TypedArray_ constructor objects inherit from.", [.is "a constructor"]),
  (chars! "will throw an error when invoked, because it is an abstract class constructor. The _TypedArray_ constructors do not perform a `super` call to it.", [.is "a constructor"]),
  (chars! "when called as a function rather than as a constructor, returns either a new RegExp object, or the argument itself if the only argument is a RegExp object.", [.is "a constructor"]),
  (chars! "is not a function object.", []),
  (chars! "does not have a [[Call]] internal method; it cannot be invoked as a function.", []),
  (chars! "does not have a [[Construct]] internal method; it cannot be used as a constructor with the `new` operator.", []),
  (chars! "is designed to be subclassable. It may be used as the value of an *extends* clause of a class definition.", []),
  (chars! "acts as the abstract superclass of the various _TypedArray_ constructors.", []),
  (chars! "is not intended to be subclassed.", []),
  (chars! "is not intended to be used with the `new` operator or to be subclassed. It may be used as the value of an `extends` clause of a class definition but a `super` call to the BigInt constructor will cause an exception.", []),
  (chars! "contains two functions, `parse` and `stringify`, that are used to parse and construct JSON texts.", [.prop "*\"parse\"*", .prop "*\"stringify\"*"]),
  (chars! "has properties that are inherited by all Iterator Helper objects.", []),
  (chars! "along with its corresponding prototype object, provides common properties that are inherited by all _TypedArray_ constructors and their instances.", []),
  (chars! "may have host-defined properties in addition to the properties defined in this specification. This may include a property whose value is the global object itself.", []),
  (chars! "does not have a *\"prototype\"* property because Proxy objects do not have a [[Prototype]] internal slot that requires initialization.", []),
  (chars! "does not have a *\"prototype\"* property.", []),
  (chars! "has the following properties:", []),
  (chars! "has the following additional properties:", []),
  (chars! "does not have a global name or appear as a property of the global object.", []),
  (chars! "is never directly accessible to ECMAScript code.", []),
  (chars! "is a subclass of `Function`.", []),
  (chars! "is created before control enters any execution context.", [])]

set_option maxRecDepth 100000 in
theorem fixed_eq : fixed = fixedL.map (fun e => (String.ofList e.1, e.2)) := rfl

def creatingL : List Str := [chars! "also creates and initializes a new ", chars! "also creates and initializes a new ", chars! "creates and initializes a new ", chars! "creates and initializes a new ", chars! "creates and initializes a new ", chars! "when called as a function, returns either a new RegExp object, or the argument itself if the only argument is a RegExp object"]

set_option maxRecDepth 100000 in
theorem creating_eq : creating.map starts = creatingL.map String.ofList := rfl

set_option maxRecDepth 100000 in
def silentL : List Str := [chars! "does not have a [[", chars! "does not have a", chars! "does not have a [[", chars! "does not have [[", chars! "does not have an [[", chars! "does not have a [[", chars! "may be used as the value ", chars! "may be used as the value ", chars! "may be used as the value ", chars! "may be used as the value ", chars! "may be used as the value ", chars! "may be used as the value ", chars! "may be used as the value ", chars! "may be used as the value ", chars! "may be used as the value ", chars! "has properties that are indirectly inherited by all ", chars! "has properties that are inherited by all ", chars! "is an intrinsic object that has the structure described below, differing only in the name used as the constructor name instead of _TypedArray_, in "]

set_option maxRecDepth 100000 in
theorem silent_eq : silent.map starts = silentL.map String.ofList := rfl

theorem fixed_all (f : Str → List Word' → Bool) : fixed.all (fun e => f e.1.toList e.2) = fixedL.all (fun e => f e.1 e.2) := by
  rw [fixed_eq, List.all_map]
  congr 1
  funext e
  simp

theorem all_starts {ps : List (List Part)} {L : List Str} (h : ps.map starts = L.map String.ofList) (f : Str → Bool) : ps.all (fun p => f (starts p).toList) = L.all f := by
  have : ps.all (fun p => f (starts p).toList) = (ps.map starts).all (fun s => f s.toList) := by rw [List.all_map]; rfl
  rw [this, h, List.all_map]
  congr 1
  funext s
  simp

end Verif.Objs
