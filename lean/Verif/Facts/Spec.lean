import Verif.Algs.Spec
import Verif.Paths.Spec
import Verif.Facts.Model
/-!
# Specification of what is done with a fact about an intrinsic object

Independent of the functions of the model: which replacements there are, what refers to an object, and what is to be noted.
-/
namespace Verif.Facts.Spec
open Verif.Algs (Replaced)
open Verif.Paths.Spec (Phrase)

def Starts (t : String) (s : Str) : Prop := ∃ r, s = t.toList ++ r
def Has (t : String) (s : Str) : Prop := ∃ a b, s = a ++ t.toList ++ b

/-! ## Variables -/

/-- The phrases that depend on a variable, each with what it is for a name: first those with other words, then the variable alone, then those that do not use it. -/
def phrases (x e : Str) : List (Str × Str) :=
  [("the corresponding _".toList ++ x ++ "_ prototype intrinsic object (<emu-xref href=\"#sec-properties-of-typedarray-prototype-objects\"></emu-xref>)".toList, "the ".toList ++ e ++ " prototype object".toList),
   ("the constructor itself".toList, "the ".toList ++ e ++ " constructor".toList),
   ("the String value consisting of the name of the constructor (the name used instead of _NativeError_)".toList, "*\"".toList ++ e ++ "\"*".toList),
   ("each _".toList ++ x ++ "_".toList, "the ".toList ++ e),
   ("a _".toList ++ x ++ "_".toList, "the ".toList ++ e),
   ("_".toList ++ x ++ "_".toList, e),
   ("the String value <emu-val>\"<var>".toList ++ x ++ "</var>\"</emu-val>".toList, "*\"".toList ++ e ++ "\"*".toList),
   ("the String value of the constructor name specified for it in <emu-xref href=\"#table-the-typedarray-constructors\"></emu-xref>".toList, "*\"".toList ++ e ++ "\"*".toList)]

/-- One replacement after the other. -/
inductive Steps : List (Str × Str) → Str → Str → Prop
  | done {s} : Steps [] s s
  | step {p ps s t u} : Replaced p.1 p.2 s t → Steps ps t u → Steps (p :: ps) s u

/-- A text for a name. -/
def For (x e s t : Str) : Prop := Steps (phrases x e) s t

/-- The values of attributes for a name, each with the same attribute. -/
inductive AttrsFor (x e : Str) : List (Str × Str) → List (Str × Str) → Prop
  | nil : AttrsFor x e [] []
  | cons {n v w as bs} : For x e v w → AttrsFor x e as bs → AttrsFor x e ((n, v) :: as) ((n, w) :: bs)

/-- A fact for a name. -/
inductive FactFor (x e : Str) : Fact → Fact → Prop
  | «exists» {l l'} : For x e l l' → FactFor x e (.exists l) (.exists l')
  | aka {l l' r r'} : For x e l l' → For x e r r' → FactFor x e (.aka l r) (.aka l' r')
  | is {l l' r r'} : For x e l l' → For x e r r' → FactFor x e (.is l r) (.is l' r')
  | slot {l l' n v v'} : For x e l l' → For x e v v' → FactFor x e (.slot l n v) (.slot l' n v')
  | prop {l l' k k' as as'} : For x e l l' → For x e k k' → AttrsFor x e as as' → FactFor x e (.prop l k as) (.prop l' k' as')

/-- The variable that a section is about, with its names. -/
inductive Variable (nativeErrors typedArrays : List Str) (title : Str) : Str → List Str → Prop
  | native : Has "_NativeError_" title → Variable nativeErrors typedArrays title "NativeError".toList nativeErrors
  | typed : ¬ Has "_NativeError_" title → Has "_TypedArray_" title → Variable nativeErrors typedArrays title "TypedArray".toList typedArrays

/-! ## Names -/

/-- A text refers to the object with this name. -/
def Object (s n : Str) : Prop := ∃ ph : Phrase, ph.Ok ∧ s = ph.text ∧ n = "%".toList ++ ph.name ++ "%".toList

/-- A text is a value that is no object, or is left to the host or to an algorithm. -/
def NoObject (s : Str) : Prop :=
  (Starts "*" s ∨ Starts "the largest" s ∨ Starts "the smallest" s ∨ Starts "the Number value" s ∨ Starts "The Number value" s ∨ Starts "the Element Size" s ∨ Starts "the empty String" s ∨
    Starts "the String value" s ∨ Starts "the well-known symbol" s ∨ Starts "1" s) ∨ Starts "host-defined" s ∨ Starts "emu-alg in" s ∨ Starts "prose in" s

/-- How a value is noted. -/
inductive Value : Str → Str → Prop
  | plain {s} : NoObject s → Value s s
  | object {s n} : ¬ NoObject s → Object s n → Value s n

inductive Values : List (Str × Str) → List (Str × Str) → Prop
  | nil : Values [] []
  | cons {n v w as bs} : Value v w → Values as bs → Values ((n, v) :: as) ((n, w) :: bs)

/-- What is noted for a fact. -/
inductive Noted : Fact → List Fact → Prop
  | «exists» {l n} : Object l n → Noted (.exists l) [.exists n]
  | is {l n r} : Object l n → Noted (.is l r) [.is n r]
  | aka {l n r} : Object l n → Value r n → Noted (.aka l r) []
  | slot {l n s v w} : Object l n → Value v w → Noted (.slot l s v) [.slot n s w]
  | prop {l n k as bs} : Object l n → Values as bs → Noted (.prop l k as) [.prop n k bs]

/-- What is noted for each of the names, in their order. -/
inductive Each (x : Str) (f : Fact) : List Str → List Fact → Prop
  | nil : Each x f [] []
  | cons {e es g a b} : FactFor x e f g → Noted g a → Each x f es b → Each x f (e :: es) (a ++ b)

/-- What is noted for a fact in a section. -/
inductive Puts (nativeErrors typedArrays : List Str) (title : Str) (f : Fact) : List Fact → Prop
  | once {a} : (¬ ∃ x es, Variable nativeErrors typedArrays title x es) → Noted f a → Puts nativeErrors typedArrays title f a
  | each {x es a} : Variable nativeErrors typedArrays title x es → Each x f es a → Puts nativeErrors typedArrays title f a

/-- The object that a fact is about. -/
def subject : Fact → Str
  | .exists l => l
  | .aka l _ => l
  | .is l _ => l
  | .slot l _ _ => l
  | .prop l _ _ => l

end Verif.Facts.Spec
