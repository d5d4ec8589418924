import Verif.Algs.Model
import Verif.Deps.Spec
import Verif.Style.Spec
/-!
# Specification of the registry of algorithms
-/
namespace Verif.Algs
open Deps (Begins)
open Style (Pairs)

/-! ### Headers -/

/-- A text without angle brackets that is not empty. -/
def Bare (s : List Char) : Prop := s ≠ [] ∧ '<' ∉ s ∧ '>' ∉ s

/-- The name of a header. -/
inductive Named : List Char → List Char → Prop
  | same {s} : ¬ ['<'] <+: s → Named s s
  | marked {a n} : Bare a → Bare n → Named ("<dfn ".toList ++ a ++ ['>'] ++ n ++ "</dfn>".toList) n

/-- The nature of a parameter; `f`: it is one of a built-in function. -/
inductive Filled (f : Prop) : Param → Param → Prop
  | known {n p s} : ¬ f ∨ s ≠ "unknown" → Filled f ⟨n, p, s⟩ ⟨n, p, s⟩
  | rest {n} : f → Filled f ⟨n, "...", "unknown"⟩ ⟨n, "...", "a List of ECMAScript language values"⟩
  | one {n p} : f → p ≠ "..." → Filled f ⟨n, p, "unknown"⟩ ⟨n, p, "an ECMAScript language value"⟩

/-- The texts with a space between them. -/
inductive Joined : List String → List Char → Prop
  | nothing : Joined [] []
  | one {s} : Joined [s] s.toList
  | more {s ss t} : ss ≠ [] → Joined ss t → Joined (s :: ss) (s.toList ++ [' '] ++ t)

/-- The text without the word that it starts with, if it is one of these. -/
inductive Without (ws : List String) : List Char → List Char → Prop
  | word {w t} : w ∈ ws → Without ws (w.toList ++ [' '] ++ t) t
  | none {t} : (∀ w ∈ ws, ¬ (w.toList ++ [' ']) <+: t) → Without ws t t

/-- Every occurrence of `p` is replaced by `n`, from the left on. -/
inductive Replaced (p n : List Char) : List Char → List Char → Prop
  | nil : Replaced p n [] []
  | hit {s o} : Replaced p n s o → Replaced p n (p ++ s) (n ++ o)
  | miss {c s o} : ¬ p <+: c :: s → Replaced p n s o → Replaced p n (c :: s) (c :: o)

/-- The description that comes from the paragraphs. -/
def Described (paras : List String) (d : String) : Prop :=
  ∃ a b c e, Joined paras a ∧ Without ["!OP", "!FUNC", "!CM"] a b ∧ Without ["It", "This operation", "The job"] b c ∧
    Replaced "!OP".toList "This operation".toList c e ∧ Replaced "!FUNC".toList "This function".toList e d.toList

/-- The header is what becomes of the raw one; there is at most one rest parameter. -/
def Finished (r : Raw) (h : Header) : Prop :=
  ∃ ps, r.params = some ps ∧ Named r.name.toList h.name.toList ∧ (∀ (i j : Nat) p q, ps[i]? = some p → ps[j]? = some q → p.punct = "..." → q.punct = "..." → i = j) ∧
    Pairs (Filled (Begins "bif:" r.species)) ps h.params ∧ Described r.paras h.description ∧
    h.species = r.species ∧ h.nameWithMarkup = r.name ∧ h.forPhrase = r.forPhrase ∧ h.ret = r.ret ∧ h.sect = r.sect

/-! ### The registry -/

/-- A mention of an algorithm, maybe with a header. -/
structure Mention where
  species : String
  name : String
  header : Option Header

inductive Mentions : Event → Mention → Prop
  | plain {s n} : Mentions (.ensure s n) ⟨s, n, none⟩
  | header {r h} : Finished r h → Mentions (.header r) ⟨h.species, h.name, some h⟩

/-- The mentions do not contradict each other: an operation and a built-in function may have the same name, but two operations, or two built-in functions, with the same name are of one species. -/
def Agree (ms : List Mention) : Prop :=
  ∀ m ∈ ms, ∀ m' ∈ ms, m.name = m'.name → (Begins "bif:" m.species ↔ Begins "bif:" m'.species) → m.species = m'.species

/-- The first is mentioned at a point where the second is not yet. -/
def Sooner (ms : List Mention) (n n' : String) : Prop := ∃ pre m post, ms = pre ++ m :: post ∧ m.name = n ∧ n ≠ n' ∧ ∀ x ∈ pre, x.name ≠ n'

/-- The table has one entry for each name that is mentioned, in the order of their first mentions, with the headers in order. -/
structure Table (ms : List Mention) (t : List (String × Alg)) : Prop where
  names : ∀ n, (∃ a, (n, a) ∈ t) ↔ ∃ m ∈ ms, m.name = n
  order : t.Pairwise (fun x y => Sooner ms x.1 y.1)
  species : ∀ n a, (n, a) ∈ t → ∀ m ∈ ms, m.name = n → m.species = a.species
  headers : ∀ n a, (n, a) ∈ t → a.headers = ms.filterMap (fun m => if m.name = n then m.header else none)

/-- The mentions of built-in functions, and the others. -/
structure Parted (ms bs os : List Mention) : Prop where
  bifs : bs.Sublist ms ∧ ∀ m ∈ bs, Begins "bif:" m.species
  ops : os.Sublist ms ∧ ∀ m ∈ os, ¬ Begins "bif:" m.species
  all : bs.length + os.length = ms.length

/-! ### The check -/

/-- The for-phrase that belongs to a section. -/
inductive Phrase : Sect → String → Prop
  | grand {num title p g up s} : (∃ mid, p.toList = "Implementation of ".toList ++ mid ++ "Module Record Abstract Methods".toList ∧ '\n' ∉ mid) →
      (g = "Cyclic Module Records" ∧ s = "a Cyclic Module Record _module_" ∨ g = "Source Text Module Records" ∧ s = "a Source Text Module Record _module_" ∨
       g = "Synthetic Module Records" ∧ s = "a Synthetic Module Record _module_") → Phrase ⟨num, title, p :: g :: up⟩ s
  | parent {num title p up s} : (p, s) ∈
      [("Declarative Environment Records", "a Declarative Environment Record _envRecord_"), ("Object Environment Records", "an Object Environment Record _envRecord_"),
       ("Function Environment Records", "a Function Environment Record _envRecord_"), ("Global Environment Records", "a Global Environment Record _envRecord_"),
       ("Module Environment Records", "a Module Environment Record _envRecord_"),
       ("Ordinary Object Internal Methods and Internal Slots", "an ordinary object _obj_"), ("ECMAScript Function Objects", "an ECMAScript function object _func_"),
       ("Built-in Function Objects", "a built-in function object _func_"), ("Bound Function Exotic Objects", "a bound function exotic object _func_"),
       ("Array Exotic Objects", "an Array exotic object _array_"), ("String Exotic Objects", "a String exotic object _string_"),
       ("Arguments Exotic Objects", "an arguments exotic object _args_"), ("TypedArray Exotic Objects", "a TypedArray _obj_"),
       ("Module Namespace Exotic Objects", "a module namespace exotic object _obj_"), ("Immutable Prototype Exotic Objects", "an immutable prototype exotic object _obj_"),
       ("Proxy Object Internal Methods and Internal Slots", "a Proxy exotic object _obj_")] → Phrase ⟨num, title, p :: up⟩ s

inductive ForMsg (h : Header) : List Msg → Prop
  | fine {s} : Phrase h.sect s → h.forPhrase = some s → ForMsg h []
  | wrong {s} : Phrase h.sect s → h.forPhrase ≠ some s → ForMsg h [.forPhrase h s]

/-- The messages on for-phrases. -/
inductive ForMsgs (a : Alg) : List Msg → Prop
  | shorthand : a.species = "shorthand" → a.headers = [] → ForMsgs a []
  | byType {mss} : Begins "op: discriminated by type:" a.species → (a.headers.map (·.forPhrase)).Nodup → Pairs ForMsg a.headers mss → ForMsgs a mss.flatten
  | other : Begins "op: discriminated by syntax:" a.species ∨ Begins "op: singular" a.species ∨ Begins "bif:" a.species → (∀ h ∈ a.headers, h.forPhrase = none) → ForMsgs a []

/-- The parameters that both have are the same. -/
def SameParams (ps qs : List Param) : Prop := ∀ (i : Nat) p q, ps[i]? = some p → qs[i]? = some q → p = q

inductive ParamMsg (name : String) (first h : Header) : List Msg → Prop
  | fine : SameParams h.params first.params → h.params.length = first.params.length → ParamMsg name first h []
  | number : SameParams h.params first.params → h.params.length ≠ first.params.length → ParamMsg name first h [.paramCount h name first.params.length]

/-- The messages on parameters: all headers are compared with the first. -/
inductive ParamMsgs (name : String) (a : Alg) : List Msg → Prop
  | none : a.headers = [] → ParamMsgs name a []
  | some {h hs mss} : a.headers = h :: hs → Pairs (ParamMsg name h) hs mss → ParamMsgs name a mss.flatten

inductive RetMsg (ret : Bool) (m : Header → Msg) (h : Header) : List Msg → Prop
  | fine : h.ret = ret → RetMsg ret m h []
  | wrong : h.ret ≠ ret → RetMsg ret m h [m h]

/-- What is said of the values that are returned: built-in functions and early errors return nothing; if the steps of an operation are given in several places, the first says what is returned;
other operations say it each time. -/
inductive RetMsgs (name : String) (a : Alg) : List Msg → Prop
  | nothing : Begins "bif:" a.species ∨ a.species = "op: discriminated by syntax: early error" → (∀ h ∈ a.headers, h.ret = false) → RetMsgs name a []
  | steps {h h' hs ms mss} : a.species = "op: discriminated by syntax: steps" → a.headers = h :: h' :: hs → RetMsg true .noReturnInFirst h ms →
      Pairs (RetMsg false .returnInLater) (h' :: hs) mss → RetMsgs name a (ms ++ mss.flatten)
  | byType : Begins "op: discriminated by type:" a.species → RetMsgs name a []
  | other {mss} : ¬ Begins "bif:" a.species → a.species ≠ "op: discriminated by syntax: early error" → ¬ Begins "op: discriminated by type:" a.species →
      (a.species = "op: discriminated by syntax: steps" → a.headers.length ≤ 1) → Pairs (RetMsg true (.noReturn · name)) a.headers mss → RetMsgs name a mss.flatten

/-- The report on an algorithm. -/
def Report (e : String × Alg) (ms : List Msg) : Prop :=
  ∃ a b c, (∀ h ∈ e.2.headers, h.name = e.1 ∧ h.species = e.2.species) ∧ ForMsgs e.2 a ∧ ParamMsgs e.1 e.2 b ∧ RetMsgs e.1 e.2 c ∧ ms = a ++ b ++ c

/-- In the order of names. -/
def ByName (as as' : List (String × Alg)) : Prop := as'.Perm as ∧ as'.Pairwise (fun a b => a.1 ≤ b.1)

end Verif.Algs
