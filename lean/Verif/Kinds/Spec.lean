import Verif.Paths.Spec
import Verif.Util.Model
/-!
# Specification of the kinds of sections

Independent of the model: how titles are written, and the kind that each should have.
-/
namespace Verif.Kinds.Spec
open Verif.Paths.Spec

/-- A text on one line. -/
def Line (s : Str) : Prop := '\n' ∉ s

/-- Some text on one line. -/
def Some' (s : Str) : Prop := s ≠ [] ∧ Line s

/-- A name with a capital letter, of two letters or more. -/
def Capital (s : Str) : Prop := ∃ c r, s = c :: r ∧ ('A' ≤ c ∧ c ≤ 'Z') ∧ Word r

/-- A name with a small letter, of two letters or more. -/
def Small (s : Str) : Prop := ∃ c r, s = c :: r ∧ ('a' ≤ c ∧ c ≤ 'z') ∧ Word r

/-- A property of something: `Math.PI`, `%TypedArray%.prototype [ %Symbol.iterator% ]`. -/
def PropPath (s : Str) : Prop := ∃ b ks, Plain b ∧ ks ≠ [] ∧ (∀ k ∈ ks, k.Ok) ∧ s = (Path.mk b ks).text

/-! ## Functions -/

/-- How a constructor is named: `Array`, `_NativeError_`, `%TypedArray%`. -/
inductive Constructor : Str → Prop
  | plain {n} : Capital n → Constructor n
  | underscored {n} : Capital n → Constructor ('_' :: n ++ ['_'])
  | percent {n} : Capital n → Constructor ('%' :: n ++ ['%'])

/-- There are no parentheses in it. -/
def NoParens (s : Str) : Prop := '(' ∉ s ∧ ')' ∉ s

/-- A name with its parameters. -/
def call (name params : Str) : Str := name ++ " (".toList ++ params ++ ")".toList

/-- What the title of a function says: the kind, the name, and the parameters if they are there. -/
inductive FnTitle : Str → String → Str → Option Str → Prop
  | construct {n ps} : Constructor n → NoParens ps → FnTitle (call n ps) "CallConstruct" n (some ps)
  | getter {n} : PropPath n → FnTitle ("get ".toList ++ n) "accessor_property" ("get ".toList ++ n) none
  | setter {n} : PropPath n → FnTitle ("set ".toList ++ n) "accessor_property" ("set ".toList ++ n) none
  | method {n ps} : PropPath n → NoParens ps → FnTitle (call n ps) "function_property" n (some ps)
  | global {n ps} : Word n → ¬ Constructor n → NoParens ps → FnTitle (call n ps) "function_property" n (some ps)

/-! ## Other sections -/

/-- The sections about shorthands. -/
def Shorthand (s : Str) : Prop :=
  s ∈ ["Implicit Normal Completion".toList, "Implicit Completion Values".toList, "Throw".toList, "Shorthands for Unwrapping Completion Records".toList,
    "IfAbruptRejectPromise ( _value_, _capability_ )".toList, "IfAbruptCloseIterator ( _value_, _iteratorRecord_ )".toList,
    "IfAbruptCloseIterators ( _value_, _iteratorRecords_ )".toList, "IfAbruptCloseAsyncIterator ( _value_, _iteratorRecord_ )".toList]

/-- About the instances of something. -/
def Instances (s : Str) : Prop := (∃ x, Some' x ∧ s = x ++ " Instances".toList) ∨ s = "Module Namespace Objects".toList

/-- About an intrinsic object and its properties. -/
def Intrinsic (s : Str) : Prop :=
  ((∃ x, Some' x ∧ s = "Properties of ".toList ++ x) ∧ s ≠ "Properties of Valid Executions".toList) ∨
  (∃ x, x ≠ [] ∧ (∀ c ∈ x, c.isAlphanum = true ∨ c = '_' ∨ c = '%' ∨ c = '.') ∧ s = "The ".toList ++ x ++ " Object".toList)

/-- About more properties of an intrinsic object. -/
def Additional (s : Str) : Prop := ∃ x, Some' x ∧ s = "Additional Properties of ".toList ++ x

/-- About a constructor. -/
def ConstructorInfo (s : Str) : Prop :=
  (∃ x, Word x ∧ s = "The ".toList ++ x ++ " Constructor".toList) ∨
  s ∈ ["The _NativeError_ Constructors".toList, "The _TypedArray_ Constructors".toList, "The %TypedArray% Intrinsic Object".toList]

/-- What is to be read for each kind of error. -/
def Loop (s : Str) : Prop := s = "_NativeError_ Object Structure".toList

/-- A group of properties. -/
def Group (s : Str) : Prop :=
  s = "URI Handling Functions".toList ∨
  (∃ k x, k ∈ ["Value".toList, "Function".toList, "Constructor".toList, "Other".toList] ∧ Some' x ∧ s = k ++ " Properties of ".toList ++ x) ∨
  (∃ c, c ≠ '\n' ∧ s = "Legacy Object".toList ++ c :: "prototype Accessor Methods".toList)

/-- About a property that is not a function. -/
def Property (s : Str) : Prop :=
  PropPath s ∨ Small s ∨ s = "Infinity".toList ∨ s = "NaN".toList ∨ ∃ w, Word w ∧ s = "%Symbol.".toList ++ w ++ "%".toList

/-- The kind by the title.  A section about instances is that, whatever else its title says. -/
inductive TitleKind (s : Str) : String → Prop
  | shorthand : Shorthand s → TitleKind s "shorthand"
  | instances : Instances s → TitleKind s "instances: info // properties"
  | intrinsic : Intrinsic s → ¬ Instances s → TitleKind s "intrinsic: info // properties"
  | additional : Additional s → ¬ Instances s → TitleKind s "intrinsic: - // properties"
  | construct : ConstructorInfo s → TitleKind s "intrinsic: info // CallConstruct"
  | loop : Loop s → TitleKind s "loop"
  | group : Group s → ¬ Instances s → TitleKind s "- // properties"
  | property : Property s → TitleKind s "other_property"
  | catchall : Line s → ¬ Shorthand s → ¬ Instances s → ¬ Intrinsic s → ¬ Additional s → ¬ ConstructorInfo s → ¬ Loop s → ¬ Group s → ¬ Property s → TitleKind s "catchall"

/-- The kind by the titles of the parent and of the section: a term is not a property, and what is among the other properties of the global object just
refers to another section. -/
inductive SectionKind (parent s : Str) : String → Prop
  | term : parent = "Terms and Definitions".toList → TitleKind s "other_property" → SectionKind parent s "catchall"
  | other : parent = "Other Properties of the Global Object".toList → TitleKind s "catchall" → SectionKind parent s "other_property_xref"
  | usual {k} : parent ≠ "Other Properties of the Global Object".toList → ¬ (parent = "Terms and Definitions".toList ∧ k = "other_property") →
      TitleKind s k → SectionKind parent s k

/-! ## Changes -/

/-- Parts of a sentence. -/
inductive Part where
  | text (s : String)
  | word
  | any
  | rest
  | xref
  | grammar
  | nonterminal
  | choice (ss : List String)

/-- There are no tags in it. -/
def NoTags (s : Str) : Prop := '<' ∉ s ∧ '>' ∉ s

def Part.Is : Part → Str → Prop
  | .text t, s => s = t.toList
  | .word, s => Word s
  | .any, s => ∃ c, s = [c] ∧ c ≠ '\n'
  | .rest, s => Some' s
  | .xref, s => ∃ a b, a ≠ [] ∧ NoTags a ∧ NoTags b ∧ s = "<emu-xref ".toList ++ a ++ ">".toList ++ b ++ "</emu-xref>".toList
  | .grammar, s => ∃ a, a ≠ [] ∧ NoTags a ∧ s = "<emu-grammar>".toList ++ a ++ "</emu-grammar>".toList
  | .nonterminal, s => ∃ n, Word n ∧ s = "|".toList ++ n ++ "|".toList
  | .choice ts, s => ∃ t ∈ ts, s = t.toList

/-- A text reads as the parts say. -/
inductive Reads : List Part → Str → Prop
  | nil : Reads [] []
  | cons {p ps s t} : p.Is s → Reads ps t → Reads (p :: ps) (s ++ t)

/-- A block that is expected: an element, or a paragraph that reads in some way. -/
inductive Block where
  | element (name : String)
  | says (ps : List Part)

/-- The nodes are as expected. -/
inductive Fits : List Block → List Util.HNode → Prop
  | nil : Fits [] []
  | element {x bs n ns} : n.elementName = x → Fits bs ns → Fits (.element x :: bs) (n :: ns)
  | says {ps bs n ns} : n.elementName = "p" → Reads ps n.innerText → Fits bs ns → Fits (.says ps :: bs) (n :: ns)

/-- The nodes are one stretch after another that is as expected. -/
inductive Chunks (forms : List (List Block)) : List Util.HNode → Prop
  | nil : Chunks forms []
  | cons {f m rest} : f ∈ forms → Fits f m → Chunks forms rest → Chunks forms (m ++ rest)

/-- What is expected in the section of the changes to CompileSubpattern. -/
def subpattern : List (List Block) :=
  [[.says [.text "The semantics of ", .word, .text " is extended as follows:"]],
   [.says [.text "The rule for ", .grammar, .text " is the same as for ", .grammar, .text " but with ", .nonterminal, .text " substituted for ", .nonterminal, .text "."]]]

/-- … to CompileAssertion. -/
def assertion : List (List Block) :=
  [[.says [.word, .text " rules for the ", .grammar, .text " and ", .grammar, .text " productions are also used for the ", .nonterminal,
    .text " productions, but with ", .nonterminal, .text " substituted for ", .nonterminal, .any]]]

/-- … to CompileAtom. -/
def atom : List (List Block) :=
  [[.says [.word, .text " rules for the ", .nonterminal, .text " productions except for ", .grammar, .text " are also used for the ", .nonterminal,
     .text " productions, but with ", .nonterminal, .text " substituted for ", .nonterminal, .any,
     .text " The following rules, with parameter _direction_, are also added:"]],
   [.element "emu-grammar", .element "emu-alg"]]

/-- … to CompileToCharSet. -/
def charSet : List (List Block) :=
  [[.says [.text "The semantics of ", .xref, .text " is extended as follows:"]],
   [.says [.text "The following two rules replace the corresponding rules of CompileToCharSet", .any]],
   [.says [.text "In addition, the following rules are added to CompileToCharSet", .any]],
   [.element "emu-grammar", .element "emu-alg"],
   [.element "emu-note"]]

/-- … to ParsePattern. -/
def parsePattern : List (List Block) :=
  [[.says [.text "The semantics of ", .xref, .text " is extended as follows:"], .says [.text "The abstract operation ParsePattern ", .rest], .element "emu-alg"]]

/-- … to for-in statements. -/
def forIn : List (List Block) :=
  [[.says [.text "The following augments the ", .nonterminal, .text " production in ", .xref, .text ":"], .element "emu-grammar",
     .says [.text "This production only applies when parsing non-strict code", .any]],
   [.says [.text "The ", .choice ["static", "runtime"], .text " semantics of ", .word, .text " in ", .xref, .text " are augmented with the following:"],
     .element "emu-grammar", .element "emu-alg"]]

/-- The number is in Annex B. -/
def InAnnexB (num : Str) : Prop := ∃ r, num = "B.".toList ++ r

/-- The sections that change what is defined elsewhere. -/
inductive Changes (num : Str) : String → List (List Block) → Prop
  | subpattern : InAnnexB num → Changes num "Runtime Semantics: CompileSubpattern" subpattern
  | assertion : InAnnexB num → Changes num "Runtime Semantics: CompileAssertion" assertion
  | atom : InAnnexB num → Changes num "Runtime Semantics: CompileAtom" atom
  | charSet : InAnnexB num → Changes num "Runtime Semantics: CompileToCharSet" charSet
  | parsePattern : InAnnexB num → Changes num "Static Semantics: ParsePattern ( _patternText_, _u_, _v_ )" parsePattern
  | forIn : Changes num "Initializers in ForIn Statement Heads" forIn

/-- The title of a section that just refers to another. -/
def RefTitle (s : Str) : Prop := ∃ n, Capital n ∧ s = n ++ " ( . . . )".toList

/-- The paragraph that does. -/
def See (s : Str) : Prop :=
  ∃ r c, r ≠ [] ∧ '"' ∉ r ∧ c ≠ '\n' ∧ s = "See <emu-xref href=\"#".toList ++ r ++ "\"></emu-xref>".toList ++ [c]

/-- The paragraph that says that a method is not used. -/
def Unused (s : Str) : Prop :=
  Reads [.text "The ", .choice ["GetThisBinding", "CreateImmutableBinding", "DeleteBinding"], .text " concrete method of a", .choice ["n", ""], .text " ", .word,
    .text " Environment Record is never used within this specification", .any] s

end Verif.Kinds.Spec
