import Verif.Titles.Model
import Verif.Sections.Spec
/-!
# What the titles and ids of sections should be
-/
namespace Verif.Titles
open Verif.Sections (Punct IsName)

/-- What is read from a list of parameters: the same names, and all are optional from the first optional one on. -/
def Reads (ps : List Param) (qs : List (Str × Punct)) : Prop :=
  qs.map (·.1) = ps.map (·.name) ∧
  ∀ (i : Nat) q, qs[i]? = some q → (q.2 = .optional ∧ ∃ (j : Nat) (p : Param), j ≤ i ∧ ps[j]? = some p ∧ p.optional = true) ∨ (q.2 = .plain ∧ ∀ (j : Nat) (p : Param), j ≤ i → ps[j]? = some p → p.optional = false)

/-- No parameter that is required comes after one that is optional. -/
def OptionalLast (ps : List Param) : Prop := ps.Pairwise (fun p q => p.optional = true → q.optional = true)

/-- The names of operations. -/
inductive OpName : Kind → Str → Prop
  | numeric {u v l m : _} {a b : Str} : u.isUpper = true → v.isAlpha = true → (∀ c ∈ a, c.isAlpha = true) → l.isLower = true → m.isAlpha = true → (∀ c ∈ b, c.isAlpha = true) →
      OpName .numeric ((u :: v :: a) ++ ':' :: ':' :: l :: m :: b)
  | internal {u v : _} {a : Str} : u.isUpper = true → v.isAlpha = true → (∀ c ∈ a, c.isAlpha = true) → OpName .internal ('[' :: '[' :: u :: v :: a ++ [']', ']'])
  | other {k a b r} : k ≠ .numeric → k ≠ .internal → a.isAlpha = true → (∀ c ∈ b :: r, c.isAlphanum = true ∨ c = '/') → OpName k (a :: b :: r)

/-- A string is part of another. -/
def Part (x s : Str) : Prop := ∃ a b, s = a ++ x ++ b

/-- The former name of a parameter, which ids still use; `pre` is what comes before the parameters. -/
inductive Old (pre : Str) : Str → Str → Prop
  | env {n o : String} : Part "Environment Records".toList pre → (n, o) ∈ backEnv → Old pre n.toList o.toList
  | envSame {n : Str} : Part "Environment Records".toList pre → (∀ o, (String.ofList n, o) ∉ backEnv) → Old pre n n
  | other {n o : String} : ¬ Part "Environment Records".toList pre → (n, o) ∈ backOther → Old pre n.toList o.toList
  | set : pre = "Set".toList → Old pre "_value_".toList "_V_".toList
  | otherSame {n : Str} : ¬ Part "Environment Records".toList pre → (∀ o, (String.ofList n, o) ∉ backOther) → (pre = "Set".toList → n ≠ "_value_".toList) → Old pre n n

/-- A name without its underscores, if it consists of letters. -/
inductive Bare : Str → Str → Prop
  | letters {w : Str} : (∀ c ∈ w, c.isAlpha = true) → Bare ('_' :: w ++ ['_']) w
  | other {n : Str} : (∀ w : Str, (∀ c ∈ w, c.isAlpha = true) → n ≠ '_' :: w ++ ['_']) → Bare n n

/-- A word in a title that begins with a small letter, and not like one of the words that do, at a place. -/
def LowWord (t : Str) (i : Nat) (w : Str) : Prop :=
  ∃ a c d r b, t = a ++ ' ' :: (c :: d :: r) ++ b ∧ a.length + 1 = i ∧ w = c :: d :: r ∧ c.isLower = true ∧ (∀ x ∈ d :: r, x.isAlphanum = true ∨ x = '_') ∧
    (∀ x y, b = x :: y → ¬ (x.isAlphanum = true ∨ x = '_')) ∧ ∀ x ∈ ["an", "for", "in", "of", "on", "the", "to", "with"], ∀ y, w ++ b ≠ x.toList ++ y

/-- A bracket before an @, at a place. -/
def AtSign (t : Str) (i : Nat) : Prop := ∃ a n b, t = a ++ '[' :: List.replicate n ' ' ++ '@' :: b ∧ a.length = i

/-- A reference to a well-known symbol. -/
def SymbolRef (t : Str) : Prop :=
  ∃ a w b, t = a ++ "[ %Symbol.".toList ++ w ++ "% ]".toList ++ b ∧ w ≠ [] ∧ (∀ c ∈ w, c.isAlphanum = true ∨ c = '_') ∧ (a = [] ∨ ∃ a', a = a' ++ [' ']) ∧ (b = [] ∨ ∃ b', b = ' ' :: b')

/-- A title ends with a list of parameters. -/
def EndsWithList (t : Str) : Prop :=
  ∃ a m b, t = a ++ " (".toList ++ m ++ " )".toList ++ b ∧ (m = [] ∨ ∃ x, x ≠ [] ∧ m = ' ' :: x) ∧ (b = [] ∨ b = " Concrete Method".toList)

/-- The first place with a property. -/
def First (P : Nat → Prop) (i : Nat) : Prop := P i ∧ ∀ j, P j → i ≤ j

/-- What is to be said about a title. -/
inductive TitleSays (terms : Bool) (t : Str) : Nat → TitleMsg → Prop
  | word {i w} : terms = false → LowWord t i w → (∀ j v, LowWord t j v → i ≤ j) → TitleSays terms t i (.word w)
  | symbol {i} : First (AtSign t) i → ¬ SymbolRef t → TitleSays terms t i .symbol
  | parens {i} : t[i]? = some '(' → ¬ EndsWithList t → t ≠ "RegExp (Regular Expression) Objects".toList → TitleSays terms t i .parens

/-- The section is one for a property. -/
def IsProp (c : Str × Str) : Prop := c.1 ∈ ["accessor_property".toList, "function_property".toList, "function_property_xref".toList, "other_property".toList, "other_property_xref".toList]

instance (c : Str × Str) : Decidable (IsProp c) := inferInstanceAs (Decidable (_ ∈ _))

/-- The section may come between those for properties. -/
def Between (title : Str) (c : Str × Str) : Prop :=
  (title = "URI Handling Functions".toList ∧ c.1 = "abstract_operation".toList) ∨ (title ≠ "URI Handling Functions".toList ∧ (c.1 = "- // properties".toList ∨ c.1 = "catchall".toList))

/-- A section for a property is to come before the last one for a property before it. -/
def Misplaced (key : Str → Str) (cs : List (Str × Str)) (i : Nat) (before : Str) : Prop :=
  ∃ c, cs[i]? = some c ∧ IsProp c ∧ ∃ (j : Nat) (d : Str × Str), j < i ∧ cs[j]? = some d ∧ IsProp d ∧ (∀ (k : Nat) e, j < k → k < i → cs[k]? = some e → ¬ IsProp e) ∧ before = d.2 ∧ ¬ key d.2 < key c.2

/-- A clause of the memory model that defines a relation. -/
def Relation (s : AoidSec) : Prop := s.kind = "catchall".toList ∧ s.parentTitle = "Relations of Candidate Executions".toList

/-- What is to be said about the attribute `aoid`. -/
inductive AoidSays (s : AoidSec) : AoidMsg → Prop
  | missing : Relation s → s.aoid = none → AoidSays s (.missing s.title)
  | wrong {a} : Relation s → s.aoid = some a → a ≠ s.title → AoidSays s (.wrong s.title)
  | unexpected {a} : ¬ Relation s → s.kind ≠ "shorthand".toList → s.aoid = some a → AoidSays s .unexpected

/-- Every `int8`, whatever the case of its letters, is made `int08`. -/
inductive Int8 : Str → Str → Prop
  | plain {p : Str} : ¬ Part "int8".toList (p.map Char.toLower) → Int8 p p
  | more {p x s s' : Str} : ¬ Part "int8".toList (p.map Char.toLower) → x.map Char.toLower = "int8".toList → Int8 s s' → Int8 (p ++ x ++ s) (p ++ "int08".toList ++ s')

end Verif.Titles
