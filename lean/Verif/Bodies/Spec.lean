import Verif.Bodies.Model
/-!
# Which blocks of a section define an algorithm
-/
namespace Verif.Bodies
open Verif.Util (HNode)

/-- The element has a name. -/
def Named (x : String) (b : HNode) : Prop := b.elementName = x

/-- A word: letters, digits and underscores. -/
def IsWord (w : Str) : Prop := w ≠ [] ∧ ∀ c ∈ w, c.isAlphanum = true ∨ c = '_'

/-- The sentence before the default definition of an operation. -/
def DefaultText (s : Str) : Prop :=
  ∃ w, IsWord w ∧ s = "Every grammar production alternative in this specification which is not listed below implicitly has the following default definition of ".toList ++ w ++ ":".toList

/-- A block that is in its place in a syntax-directed operation: notes, tables and paragraphs anywhere, a grammar right before an
algorithm, and an algorithm right after a grammar or after the sentence for a default. -/
def SdoPlace (pre : List HNode) (b : HNode) (post : List HNode) : Prop :=
  Named "emu-note" b ∨ Named "emu-table" b ∨ Named "p" b ∨
  (Named "emu-grammar" b ∧ ∃ a, post.head? = some a ∧ Named "emu-alg" a) ∨
  (Named "emu-alg" b ∧ ∃ q, pre.getLast? = some q ∧ (Named "emu-grammar" q ∨ Named "p" q ∧ DefaultText q.innerText))

/-- Every block is in its place. -/
def AllPlaced (P : List HNode → HNode → List HNode → Prop) (bs : List HNode) : Prop := ∀ pre b post, bs = pre ++ b :: post → P pre b post

/-- The first block that is not in its place. -/
def FirstMisplaced (P : List HNode → HNode → List HNode → Prop) (bs : List HNode) (b : HNode) : Prop :=
  ∃ pre post, bs = pre ++ b :: post ∧ ¬ P pre b post ∧ ∀ p c q, pre = p ++ c :: q → P p c (q ++ b :: post)

/-- The block, if it is a grammar. -/
def asGrammar : Option HNode → Option HNode
  | some g => if g.elementName = "emu-grammar" then some g else none
  | none => none

/-- One definition for each algorithm, in order, for the grammar right before it if there is one. -/
def sdoDefns : Option HNode → List HNode → List Defn
  | _, [] => []
  | q, b :: bs => if b.elementName = "emu-alg" then .usual (asGrammar q) b :: sdoDefns (some b) bs else sdoDefns (some b) bs

/-- The two sentences of Annex B. -/
def EarlyText (s : Str) : Prop :=
  (∃ w, w ≠ [] ∧ (∀ c ∈ w, c ≠ '"') ∧ s = "The semantics of <emu-xref href=\"#".toList ++ w ++ "\"></emu-xref> is extended as follows:".toList) ∨
  s = "Additionally, the rules for the following productions are modified with the addition of the <ins>highlighted</ins> text:".toList

/-- A block that is in its place among early errors. -/
def EarlyPlace (pre : List HNode) (b : HNode) (post : List HNode) : Prop :=
  Named "emu-note" b ∨ (Named "p" b ∧ EarlyText b.innerText) ∨
  (Named "emu-grammar" b ∧ ∃ u, post.head? = some u ∧ Named "ul" u) ∨
  (Named "ul" b ∧ ∃ q, pre.getLast? = some q ∧ Named "emu-grammar" q)

/-- The lists, each with the grammar right before it. -/
def earlyLists : Option HNode → List HNode → List (HNode × HNode)
  | _, [] => []
  | q, b :: bs => match q with
    | some g => if b.elementName = "ul" then (g, b) :: earlyLists (some b) bs else earlyLists (some b) bs
    | none => earlyLists (some b) bs

/-- White space between the items of a list. -/
def Blank (k : HNode) : Prop := Named "#LITERAL" k ∧ k.innerText ≠ [] ∧ ∀ c ∈ k.innerText, c.isWhitespace = true

/-- A list of just items. -/
def JustItems (ks : List HNode) : Prop := ∀ k ∈ ks, Named "li" k ∨ Blank k

/-- The items. -/
def lis (ks : List HNode) : List HNode := ks.filter (fun k => k.elementName = "li")

/-- What is between 'a' or 'an' and the variable, if there is one. -/
inductive TypeOf : Str → Str → Prop
  | plain {art t} : art = "a ".toList ∨ art = "an ".toList → t ≠ [] → (∀ r w, IsWord w → r ≠ [] → t ≠ r ++ " _".toList ++ w ++ "_".toList) → TypeOf (art ++ t) t
  | var {art r w} : art = "a ".toList ∨ art = "an ".toList → r ≠ [] → IsWord w → TypeOf (art ++ r ++ " _".toList ++ w ++ "_".toList) r

/-- The algorithms among the blocks. -/
def algsOf (bs : List HNode) : List HNode := bs.filter (fun b => b.elementName = "emu-alg")

/-- The operations that need no algorithm. -/
def Elsewhere (kind : String) : Prop := kind = "host-defined_abstract_operation" ∨ kind = "implementation-defined_abstract_operation"

/-- The example of the layout of algorithms. -/
def Example (n : HNode) : Prop := ∃ r, n.innerText = "\n      1. Top-level step".toList ++ r

/-- The sections that are known by their id or title, and have no type: a method that is not used, or an operation whose paragraph is not as usual. -/
def Odd (s : Sec) : Prop :=
  s.id ∈ ["sec-declarative-environment-records-getthisbinding", "sec-object-environment-records-createimmutablebinding-n-s",
    "sec-object-environment-records-getthisbinding", "sec-module-environment-records-deletebinding-n", "sec-weakref-execution"] ∨
  s.title ∈ ["Valid Chosen Reads", "Coherent Reads", "Tear Free Reads", "Races", "Data Races"]

/-- Sections that define part of a syntax-directed operation, and have no type. -/
def PartTitle (t : String) : Prop :=
  t ∈ ["Runtime Semantics: MV", "Static Semantics: MV", "Static Semantics: IsCharacterClass", "Static Semantics: CharacterValue"]

/-- The section of early errors. -/
def EarlySection (s : Sec) : Prop := s.root = false ∧ s.title = "Static Semantics: Early Errors"

/-- A section of another title. -/
def Later (s : Sec) : Prop := s.root = false ∧ s.title ≠ "Static Semantics: Early Errors"

/-- A header comes first. -/
def HeaderFirst (d : Doc) (s : Sec) (body : List HNode) : Prop := ∃ dl, s.blocks = dl :: body ∧ Named "dl" dl ∧ d.isHeader dl = true

/-- The section of a syntax-directed operation, with the blocks after its header. -/
inductive SdoSection (d : Doc) (s : Sec) : List HNode → Prop
  | evaluation : Later s → s.type = some "sdo" → s.title = "Runtime Semantics: Evaluation" → SdoSection d s s.blocks
  | part : Later s → s.type ≠ some "sdo" → PartTitle s.title → SdoSection d s s.blocks
  | header {body h} : Later s → s.type = some "sdo" → s.title ≠ "Runtime Semantics: Evaluation" → HeaderFirst d s body → s.heading = some h → SdoSection d s body

/-- The kinds of operations, by the type of the section. -/
inductive KindOf (s : Sec) : String → String → Prop
  | env : s.up2 = "sec-the-environment-record-type-hierarchy" → KindOf s "concrete method" "env_rec_method"
  | module : s.up2 ≠ "sec-the-environment-record-type-hierarchy" → s.up3 = "sec-module-semantics" → KindOf s "concrete method" "module_rec_method"
  | abs : KindOf s "abstract operation" "abstract_operation"
  | numeric : KindOf s "numeric method" "numeric_method"
  | internal : KindOf s "internal method" "internal_method"
  | host : KindOf s "host-defined abstract operation" "host-defined_abstract_operation"
  | impl : KindOf s "implementation-defined abstract operation" "implementation-defined_abstract_operation"

/-- The section of another operation, with its kind, and the blocks after its header. -/
def OpSection (d : Doc) (s : Sec) (kind : String) (h : Heading) (body : List HNode) : Prop :=
  Later s ∧ ¬ PartTitle s.title ∧ ¬ Odd s ∧ HeaderFirst d s body ∧ s.heading = some h ∧ ∃ type, s.type = some type ∧ KindOf s type kind

/-- The section of a function. -/
def FnSection (t : Titles) (s : Sec) : Prop := Later s ∧ ¬ PartTitle s.title ∧ ¬ Odd s ∧ s.type = some "built-in function" ∧ t.isXref s.title = false

/-- What defines the operation by its algorithms. -/
inductive OpBody (kind : String) (h : Heading) (body : List HNode) : List Defn → Prop
  | none : Elsewhere kind → algsOf body = [] → OpBody kind h body []
  | elsewhere {a} : Elsewhere kind → algsOf body = [a] → OpBody kind h body [.simple a]
  | simple {a} : ¬ Elsewhere kind → algsOf body = [a] → h.forPhrase = .none → OpBody kind h body [.simple a]
  | typed {a f t} : ¬ Elsewhere kind → algsOf body = [a] → h.forPhrase = some f → TypeOf f t → OpBody kind h body [.typed t a]

/-- A block of a section that has its rules in lists: a list of items with a grammar each, or a table, paragraph or note. -/
def InlinePlace (d : Doc) (b : HNode) : Prop :=
  (Named "ul" b ∧ JustItems (d.kids b) ∧ ∀ i ∈ lis (d.kids b), ∃ g ∈ d.kids i, Named "emu-grammar" g) ∨ Named "emu-table" b ∨ Named "p" b ∨ Named "emu-note" b

/-- One definition for each item of each list, in order, with the grammars in it. -/
def inlineDefns (d : Doc) (bs : List HNode) : List Defn :=
  (bs.filter (fun b => b.elementName = "ul")).flatMap (fun u => (lis (d.kids u)).map (fun i => .inline i ((d.kids i).filter (fun g => g.elementName = "emu-grammar"))))

/-- The algorithm of a definition, if it has one. -/
def Defn.alg : Defn → Option HNode
  | .usual _ a => some a
  | .simple a => some a
  | .typed _ a => some a
  | _ => none

/-- How the first paragraph of an operation begins that is known by its id or title. -/
inductive OddStart (s : Sec) : String → Prop
  | weak : s.id = "sec-weakref-execution" → OddStart s "At any time, if a set of objects and/or symbols _objSet_ is not live,"
  | reads : s.id ≠ "sec-weakref-execution" → s.title ∈ ["Valid Chosen Reads", "Coherent Reads", "Tear Free Reads"] → OddStart s "A candidate execution _execution_ has "
  | races : s.id ≠ "sec-weakref-execution" → s.title ∈ ["Races", "Data Races"] →
      OddStart s "For an execution _execution_ and events _eventA_ and _eventB_ that are contained in SharedDataBlockEventSet(_execution_)"

/-- The section of such an operation. -/
def OddSection (s : Sec) (start : String) : Prop :=
  Later s ∧ ¬ PartTitle s.title ∧ s.type ≠ some "sdo" ∧ OddStart s start ∧
  s.id ∉ ["sec-declarative-environment-records-getthisbinding", "sec-object-environment-records-createimmutablebinding-n-s",
    "sec-object-environment-records-getthisbinding", "sec-module-environment-records-deletebinding-n"]

/-- A section that is none of these. -/
def OtherSection (t : Titles) (s : Sec) : Prop :=
  Later s ∧ ¬ PartTitle s.title ∧ ¬ Odd s ∧ s.type = none ∧ t.isXref s.title = false ∧ t.changes s = none

/-- The definitions in such a section: usually there are no algorithms, and those there are do not define anything but the one with the initial value of a property. -/
inductive OtherBody (kind title : String) (bs : List HNode) : List Defn → Prop
  | none : algsOf bs = [] → OtherBody kind title bs []
  | sample {a} : algsOf bs = [a] → title = "Algorithm Conventions" ∨ title = "The Abstract Closure Specification Type" → OtherBody kind title bs []
  | initial {a} : algsOf bs = [a] → title = "Array.prototype [ %Symbol.unscopables% ]" → OtherBody kind title bs [.simple a]
  | several : 2 ≤ (algsOf bs).length → kind = "shorthand" ∨ title = "Evaluation Order" ∨ title = "Syntax-Directed Operations" → OtherBody kind title bs []

/-- The nodes that hold what a definition says: the rules of early errors, the item of a list, or the algorithm. -/
inductive Content : Defn → List HNode → Prop
  | early {g l rules} : Content (.early g l rules) rules
  | usual {g a} : Content (.usual g a) [a]
  | inline {i gs} : Content (.inline i gs) [i]
  | simple {a} : Content (.simple a) [a]
  | typed {t a} : Content (.typed t a) [a]

/-- The same for a list of definitions. -/
inductive Contents : List Defn → List (List HNode) → Prop
  | nil : Contents [] []
  | cons {x xs ns nss} : Content x ns → Contents xs nss → Contents (x :: xs) (ns :: nss)

end Verif.Bodies
