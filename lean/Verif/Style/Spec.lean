import Verif.Style.Model
import Verif.Annot.Spec
/-!
# Specification of the checks of style
-/
namespace Verif.Style
open Annot (RNode RAt)
open Deps (Before Begins)

/-- Two lists of the same length whose members are related one by one. -/
inductive Pairs {α β : Type} (r : α → β → Prop) : List α → List β → Prop
  | nil : Pairs r [] []
  | cons {a b as bs} : r a b → Pairs r as bs → Pairs r (a :: as) (b :: bs)

/-- The nodes of the tree with the property, in the order of the text. -/
def InOrder (t : RNode) (P : RNode → Prop) (ds : List (List Nat × RNode)) : Prop :=
  ds.Pairwise (fun x y => Before x.1 y.1) ∧ ∀ p d, (p, d) ∈ ds ↔ RAt t p d ∧ P d

/-! ### If-commands -/

/-- The arms of an If-command. -/
inductive Arms : RNode → List RNode → Prop
  | closed {r t ks} : (∀ c ∈ ks, c.lhs = "{SMALL_COMMAND}" ∨ c.lhs = "{CONDITION}") → Arms (.node "{IF_CLOSED}" r t ks) (ks.filter (fun c => c.lhs = "{SMALL_COMMAND}"))
  | other {t o u xs ys} : Arms o xs → Arms u ys → Arms (.node "{IF_OTHER}" "{IF_OPEN}{IF_TAIL}" t [o, u]) (xs ++ ys)
  | opening {l r t x c} : l = "{IF_OPEN}" ∨ l = "{ELSEIF_PART}" → c.lhs = "{IND_COMMANDS}" ∨ c.lhs = "{SMALL_COMMAND}" → Arms (.node l r t [x, c]) [c]
  | nothing {t} : Arms (.node "{IF_TAIL}" "{EPSILON}" t []) []
  | elseif {t e u xs ys} : Arms e xs → Arms u ys → Arms (.node "{IF_TAIL}" "{_NL_N} {ELSEIF_PART}{IF_TAIL}" t [e, u]) (xs ++ ys)
  | last {t e xs} : Arms e xs → Arms (.node "{IF_TAIL}" "{_NL_N} {ELSE_PART}" t [e]) xs
  | elsePart {r t ks c} : c.lhs = "{IND_COMMANDS}" ∨ c.lhs = "{SMALL_COMMAND}" ∨ c.lhs = "{COMMAND}" → Arms (.node "{ELSE_PART}" r t (ks ++ [c])) [c]

/-- The start of a command that says what it does; `w` are the characters of names. -/
inductive Phrase (w : Char → Bool) : List Char → Prop
  | return : Phrase w "return ".toList
  | let {v} : v ≠ [] → (∀ c ∈ v, w c = true) → Phrase w ("let _".toList ++ v ++ "_ be ".toList)
  | set {v} : v ≠ [] → (∀ c ∈ v, w c = true) → Phrase w ("set _".toList ++ v ++ "_ to ".toList)

/-- All arms start with the same phrase. -/
def SameThing (w : Char → Bool) (as : List RNode) : Prop := ∃ ph, Phrase w ph ∧ ∀ a ∈ as, ph <+: a.text.toList

/-- What is reported at an If-command. -/
inductive IfSays (w : Char → Bool) : RNode → List IfMsg → Prop
  | one {d a} : d.lhs = "{IF_OTHER}" → Arms d [a] → IfSays w d []
  | balanced {d as} : d.lhs = "{IF_OTHER}" → Arms d as → as.length ≥ 2 → (∀ a ∈ as, ∀ b ∈ as, a.lhs = b.lhs) → IfSays w d []
  | unbalanced {d as a b} : d.lhs = "{IF_OTHER}" → Arms d as → a ∈ as → b ∈ as → a.lhs ≠ b.lhs → IfSays w d [.unbalanced d (as.map RNode.lhs)]
  | same {d as} : d.lhs = "{IF_CLOSED}" → Arms d as → as.length ≥ 2 → SameThing w as → IfSays w d []
  | notSame {d as} : d.lhs = "{IF_CLOSED}" → Arms d as → as.length ≥ 2 → ¬ SameThing w as → IfSays w d [.notSame d]

/-- The report on one tree. -/
def IfReport (w : Char → Bool) (t : RNode) (ms : List IfMsg) : Prop :=
  ∃ ds mss, InOrder t (fun d => d.lhs = "{IF_OTHER}" ∨ d.lhs = "{IF_CLOSED}") ds ∧ Pairs (fun e m => IfSays w e.2 m) ds mss ∧ ms = mss.flatten

/-- In the order of names. -/
def ByName (as as' : List Alg) : Prop := as'.Perm as ∧ as'.Pairwise (fun a b => a.name ≤ b.name)

/-! ### Descriptions of values -/

/-- A description of several values: a type. -/
def Multi (r : String) : Prop :=
  Begins "a " r ∨ Begins "an " r ∨ Begins "an? " r ∨ Begins "any" r ∨ Begins "some " r ∨
  r ∈ ["ECMAScript source text", "source text", "the Environment Record for a |Catch| clause", "the execution context of a generator",
    "the single code point {code_point_lit} or {code_point_lit}", "the {nonterminal} of an? {nonterminal}"]

/-- A description of one value. -/
def Single (r : String) : Prop := r ∈ ["-1", "{LITERAL_ISH}", "{LITERAL}", "{nonterminal}"]

/-- The letter for a description. -/
inductive Letter : RNode → Char → Prop
  | m {r t ks} : Multi r → Letter (.node "{VAL_DESC}" r t ks) 'M'
  | s {r t ks} : Single r → Letter (.node "{VAL_DESC}" r t ks) 'S'

/-- A description of one value before one of several. -/
def Mixed (sm : List Char) : Prop := ∃ (i j : Nat), i < j ∧ sm[i]? = some 'S' ∧ sm[j]? = some 'M'

/-- The production of the node is the one with this text. -/
def Prod (d : RNode) (s : String) : Prop := d.lhs ++ " : " ++ d.rhs = s

/-- The description is in prose. -/
def Prose (g : RNode) : Prop :=
  Prod g "{CONDITION_1} : {EX} is {VALUE_DESCRIPTION}" ∨ Prod g "{CONDITION_1} : {EX} is not {VALUE_DESCRIPTION}" ∨
  Prod g "{VAL_DESC} : a normal completion containing {VALUE_DESCRIPTION}" ∨
  Prod g "{VAL_DESC} : an Abstract Closure that takes {VAL_DESC} and {VAL_DESC} and returns {VALUE_DESCRIPTION}"

/-- The description is in a declaration. -/
def Decl (g : RNode) : Prop :=
  g.lhs = "{OP_SIGNATURE}" ∨ g.lhs = "{PARAMETER_DECL}" ∨ g.lhs = "{FIELD_VALUE_TYPE}" ∨
  (∃ s, Prod g s ∧ Begins "{VAL_DESC} : a Record with fields" s) ∨ Prod g "{VALUE_DESCRIPTION} : {VAL_DESC}, but not {VALUE_DESCRIPTION}"

/-- Which words should be before the disjunction `d` with the letters `sm`. -/
inductive Should (g d : RNode) (sm : List Char) : String → Prop
  | oneOf : Prose g → sm.length ≥ 3 → (∀ c ∈ sm, c = 'S') → Should g d sm "one of"
  | either : Prose g → (sm.length < 3 ∨ ∃ c ∈ sm, c ≠ 'S') → Should g d sm "either"
  | clear {v vs} : ¬ Prose g → Decl g → d.kids = v :: vs → v.rhs = "a normal completion containing {VALUE_DESCRIPTION}" → Should g d sm "either"
  | bare {v vs} : ¬ Prose g → Decl g → d.kids = v :: vs → v.rhs ≠ "a normal completion containing {VALUE_DESCRIPTION}" → Should g d sm ""

/-- Which words are before it; `sp` are the spaces. -/
def Words (sp : Char → Bool) (p : RNode) (s : String) : Prop :=
  p.lhs = "{VALUE_DESCRIPTION}" ∧ ∃ spaces, p.rhs.toList = s.toList ++ spaces ++ "{VAL_DESC_DISJUNCTION}".toList ∧ (∀ c ∈ spaces, sp c = true) ∧
    ∀ c, s.toList.getLast? = some c → sp c = false

/-- The message on the order. -/
inductive OrderMsg (d : RNode) (sm : List Char) : List VdMsg → Prop
  | fine : ¬ Mixed sm → OrderMsg d sm []
  | mixed {s : String} : Mixed sm → s.toList = sm → OrderMsg d sm [.order d s]

/-- The message on the words before. -/
inductive WordMsg (d : RNode) (should is : String) : List VdMsg → Prop
  | fine : should = is → WordMsg d should is []
  | wrong : should ≠ is → WordMsg d should is [.pre d should is]

/-- What is reported at a disjunction `d` at a place of the tree `t`. -/
def VdSays (sp : Char → Bool) (t : RNode) (place : List Nat) (d : RNode) (ms : List VdMsg) : Prop :=
  ∃ q i j g p sm should is m1 m2, place = q ++ [i, j] ∧ RAt t q g ∧ RAt t (q ++ [i]) p ∧ Pairs Letter d.kids sm ∧ Words sp p is ∧ Should g d sm should ∧
    OrderMsg d sm m1 ∧ WordMsg d should is m2 ∧ ms = m1 ++ m2

/-- The report on one tree. -/
def VdReport (sp : Char → Bool) (t : RNode) (ms : List VdMsg) : Prop :=
  ∃ ds mss, InOrder t (fun d => d.lhs = "{VAL_DESC_DISJUNCTION}") ds ∧ Pairs (fun e m => VdSays sp t e.1 e.2 m) ds mss ∧ ms = mss.flatten

/-- The tree of an element at a place of the document. -/
inductive DAt : Doc → List Nat → RNode → Prop
  | here {t ks} : DAt (.node (some t) ks) [] t
  | kid {x i k p t} {ks : List Doc} : ks[i]? = some k → DAt k p t → DAt (.node x ks) ((i + 1) :: p) t

/-- All trees, in the order of the document. -/
def Trees (d : Doc) (ts : List RNode) : Prop :=
  ∃ es : List (List Nat × RNode), es.Pairwise (fun x y => Before x.1 y.1) ∧ (∀ p t, (p, t) ∈ es ↔ DAt d p t) ∧ ts = es.map (·.2)

end Verif.Style
