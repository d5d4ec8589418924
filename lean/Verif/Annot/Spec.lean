import Verif.Annot.Model
import Verif.Deps.Spec
/-!
# Specification of the annotation
-/
namespace Verif.Annot
open Deps (Before Has)

/-! ### Places -/

/-- The node `d` is at the place `p` of the tree; the children have the numbers 1, 2, ... -/
inductive RAt : RNode → List Nat → RNode → Prop
  | here {t} : RAt t [] t
  | kid {l r x i k p d} {ks : List RNode} : ks[i]? = some k → RAt k p d → RAt (.node l r x ks) ((i + 1) :: p) d

inductive HAt : HNode → List Nat → HNode → Prop
  | here {t} : HAt t [] t
  | kid {n x i k p d} {ks : List HNode} : ks[i]? = some k → HAt k p d → HAt (.node n x ks) ((i + 1) :: p) d

/-- The kinds of elements that are connected, with the nodes that stand for them. -/
inductive Match : String → String → Prop
  | grammar : Match "emu-grammar" "{h_emu_grammar}"
  | alg : Match "emu-alg" "{h_emu_alg}"
  | figure : Match "figure" "{h_figure}"
  | a : Match "a" "{h_a}"
  | pre : Match "pre" "{h_pre_code}"

/-- The elements below `h` that are connected, in the order of the text. -/
def Elements (h : HNode) (hs : List (List Nat × HNode)) : Prop :=
  hs.Pairwise (fun x y => Before x.1 y.1) ∧ ∀ p d, (p, d) ∈ hs ↔ HAt h p d ∧ p ≠ [] ∧ ∃ s, Match d.name s

/-- The nodes below `t` that stand for elements, in the order of the text. -/
def Nodes (t : RNode) (as : List (List Nat × RNode)) : Prop :=
  as.Pairwise (fun x y => Before x.1 y.1) ∧ ∀ p d, (p, d) ∈ as ↔ RAt t p d ∧ p ≠ [] ∧ ∃ s, Match s d.lhs

/-- The elements and the nodes correspond. -/
def Correspond (hs : List (List Nat × HNode)) (as : List (List Nat × RNode)) : Prop :=
  hs.length = as.length ∧ ∀ (k : Nat) x y, hs[k]? = some x → as[k]? = some y → Match x.2.name y.2.lhs

/-! ### Invocations -/

/-- A list of expressions. -/
inductive ExList : RNode → List RNode → Prop
  | one {t x} : ExList (.node "{EXLIST}" "{EX}" t [x]) [x]
  | more {t l x xs} : ExList l xs → ExList (.node "{EXLIST}" "{EXLIST}, {EX}" t [l, x]) (xs ++ [x])

/-- What is between parentheses. -/
inductive ArgsOf : RNode → List RNode → Prop
  | none {t ks} : ArgsOf (.node "{EXLIST_OPT}" "{EPSILON}" t ks) []
  | list {t l xs} : ExList l xs → ArgsOf (.node "{EXLIST_OPT}" "{EXLIST}" t [l]) xs
  | var {t x xs} : ArgsOf (.node "{EXLIST_OPT}" "{var}" t (x :: xs)) [x]
  | expr {r t ks} : ArgsOf (.node "{EXPR}" r t ks) [.node "{EXPR}" r t ks]

/-- A name before a parenthesis, and the operations it can be. -/
inductive Names (whole : String) : RNode → List String → Prop
  | simple {l t ks} : Names whole (.node l "{SIMPLE_OPERATION_NAME}" t ks) [t]
  | method {l t a b c x y} : y.text ≠ "[[ModifyOp]]" → y.text ≠ "[[ReadsBytesFrom]]" → Names whole (.node l "{DOTTING}" t [.node a b c [x, y]]) [y.text]
  | field {l t a b c x y} : y.text = "[[ModifyOp]]" ∨ y.text = "[[ReadsBytesFrom]]" → Names whole (.node l "{DOTTING}" t [.node a b c [x, y]]) []
  | ofVar {l t x w} : Names whole (.node l "{var}.{cap_word}" t [x, w]) [w.text]
  | conversion {l ks} : Names whole (.node l "{var}" "_conversionOperation_" ks)
      ["ToInt8", "ToUint8", "ToUint8Clamp", "ToInt16", "ToUint16", "ToInt32", "ToUint32", "ToBigInt64", "ToBigUint64"]
  | operator {l ks} : whole = "_operation_(_leftNumber_, _rightNumber_)" → Names whole (.node l "{var}" "_operation_" ks)
      ["Number::exponentiate", "BigInt::exponentiate", "Number::multiply", "BigInt::multiply", "Number::divide", "BigInt::divide", "Number::remainder",
       "BigInt::remainder", "Number::add", "BigInt::add", "Number::subtract", "BigInt::subtract", "Number::leftShift", "BigInt::leftShift", "Number::signedRightShift",
       "BigInt::signedRightShift", "Number::unsignedRightShift", "BigInt::unsignedRightShift", "Number::bitwiseAND", "BigInt::bitwiseAND", "Number::bitwiseXOR",
       "BigInt::bitwiseXOR", "Number::bitwiseOR", "BigInt::bitwiseOR"]

/-- A name that is a variable, other than two that are known. -/
def AnyVar (o : RNode) : Prop := o.rhs = "{var}" ∧ o.text ≠ "_conversionOperation_" ∧ o.text ≠ "_operation_"

/-- The name before the parenthesis, without marks. -/
inductive Name : RNode → RNode → Prop
  | plain {r t ks} : r ≠ "{h_emu_meta_start}{OPN_BEFORE_PAREN}{h_emu_meta_end}" → Name (.node "{OPN_BEFORE_PAREN}" r t ks) (.node "{OPN_BEFORE_PAREN}" r t ks)
  | marked {t x o y} : Name (.node "{OPN_BEFORE_PAREN}" "{h_emu_meta_start}{OPN_BEFORE_PAREN}{h_emu_meta_end}" t [x, o, y]) o

/-- The arguments after "with". -/
inductive More : List RNode → List RNode → Prop
  | passing {r t x xs ks} : Has "{PASSING}" r → More (.node "{WITH_ARGS}" r t (x :: xs) :: ks) xs
  | nothing {r t ks} : Has "{PASSING}" r → More (.node "{WITH_ARGS}" r t [] :: ks) []
  | all {r t xs ks} : ¬ Has "{PASSING}" r → More (.node "{WITH_ARGS}" r t xs :: ks) xs

/-- The node is an invocation of one of the operations, with the arguments. -/
inductive Invokes : RNode → List String → List RNode → Prop
  | inline {r t w x ks} : r = "the {ISDO_NAME} of {PROD_REF}" ∨ r = "{ISDO_NAME} of {PROD_REF}" → w.rhs = "{cap_word}" →
      Invokes (.node "{NAMED_OPERATION_INVOCATION}" r t (w :: x :: ks)) [w.text] [x]
  | of {r t w x ks} : r ∈ ["the {cap_word} of {LOCAL_REF}", "the {cap_word} of {LOCAL_REF} (see {h_emu_xref})", "the {cap_word} of {LOCAL_REF} as defined in {h_emu_xref}",
        "{cap_word} of {LOCAL_REF}", "the result of performing {cap_word} on {EX}"] →
      Invokes (.node "{NAMED_OPERATION_INVOCATION}" r t (w :: x :: ks)) [w.text] [x]
  | ofWith {r t w x ks more} : r = "the {cap_word} of {LOCAL_REF} {WITH_ARGS}" ∨ r = "{cap_word} of {LOCAL_REF} {WITH_ARGS}" → More ks more →
      Invokes (.node "{NAMED_OPERATION_INVOCATION}" r t (w :: x :: ks)) [w.text] (x :: more)
  | job {t y x ks} : Invokes (.node "{NAMED_OPERATION_INVOCATION}" "the abstract operation named by {DOTTING} using the elements of {DOTTING} as its arguments" t (y :: x :: ks))
      ["ScriptEvaluationJob", "TopLevelModuleEvaluationJob"] [x]
  | charSet {t ks} : Invokes (.node "{NAMED_OPERATION_INVOCATION}" "the CharSet returned by {h_emu_grammar}" t ks) ["CompileToCharSet"] ks
  | contains {r t ks} : r = "{LOCAL_REF} Contains {G_SYM}" ∨ r = "{LOCAL_REF} Contains {var}" → Invokes (.node "{NAMED_OPERATION_INVOCATION}" r t ks) ["Contains"] ks
  | paren {r t o o' l ns xs} : r = "{OPN_BEFORE_PAREN}({EXLIST_OPT})" ∨ r = "{OPN_BEFORE_PAREN}({EXPR})" → Name o o' → Names t o' ns → ArgsOf l xs →
      Invokes (.node "{PREFIX_PAREN}" r t [o, l]) ns xs
  | race {l r t ks} : l ≠ "{NAMED_OPERATION_INVOCATION}" → l ≠ "{PREFIX_PAREN}" → l ++ " : " ++ r = "{CONDITION_1} : {var} and {var} are in a race in {var}" →
      Invokes (.node l r t ks) ["Races"] []
  | fields {l r t ks} : l ≠ "{NAMED_OPERATION_INVOCATION}" → l ≠ "{PREFIX_PAREN}" →
      l ++ " : " ++ r = "{COMMAND} : Set fields of {var} with the values listed in {h_emu_xref}. {the_field_names_are_the_names_listed_etc}" →
      Invokes (.node l r t ks) ["CreateBuiltinFunction", "initializer for @@unscopables"] []
  | abrupt {l r t ks} : l ≠ "{NAMED_OPERATION_INVOCATION}" → l ≠ "{PREFIX_PAREN}" → l ++ " : " ++ r = "{COMMAND} : IfAbruptRejectPromise({var}, {var})." →
      Invokes (.node l r t ks) ["IfAbruptRejectPromise"] (ks.take 2)

/-- The node is not an invocation of a known operation. -/
inductive Silent : RNode → Prop
  | inner {r t ks} : r ∈ ["{h_emu_meta_start}{NAMED_OPERATION_INVOCATION}{h_emu_meta_end}", "{h_emu_meta_start}{NAMED_OPERATION_INVOCATION}{h_emu_meta_end} (see {h_emu_xref})",
      "{PREFIX_PAREN}"] → Silent (.node "{NAMED_OPERATION_INVOCATION}" r t ks)
  | closure {r t o o' l xs} : r = "{OPN_BEFORE_PAREN}({EXLIST_OPT})" ∨ r = "{OPN_BEFORE_PAREN}({EXPR})" → Name o o' → AnyVar o' → ArgsOf l xs →
      Silent (.node "{PREFIX_PAREN}" r t [o, l])
  | other {l r t ks} : l ≠ "{NAMED_OPERATION_INVOCATION}" → l ≠ "{PREFIX_PAREN}" →
      l ++ " : " ++ r ∉ ["{CONDITION_1} : {var} and {var} are in a race in {var}",
        "{COMMAND} : Set fields of {var} with the values listed in {h_emu_xref}. {the_field_names_are_the_names_listed_etc}",
        "{COMMAND} : IfAbruptRejectPromise({var}, {var})."] → Silent (.node l r t ks)

/-! ### The annotated tree -/

/-- The places of the annotated tree; embedded trees are not entered. -/
inductive KidAt : Deps.ANode → List Nat → Deps.ANode → Prop
  | here {t} : KidAt t [] t
  | kid {a e i k p d} {ks : List Deps.ANode} : ks[i]? = some k → KidAt k p d → KidAt (.node a ks e) ((i + 1) :: p) d

/-- The annotated tree has the same places with the same productions and texts; a node has the names exactly if it is an invocation; the tree of the element is embedded in the node that
stands for it. -/
structure Annotated (hs : List (List Nat × HNode)) (as : List (List Nat × RNode)) (t : RNode) (t' : Deps.ANode) : Prop where
  same : ∀ p d, RAt t p d → ∃ d', KidAt t' p d' ∧ d'.attr.lhs = d.lhs ∧ d'.attr.rhs = d.rhs ∧ d'.attr.text = d.text ∧ d'.kids.length = d.kids.length ∧
    (∀ ns, d'.attr.names = some ns ↔ ∃ args, Invokes d ns args) ∧
    ∀ e, d'.emb = some e ↔ ∃ (k : Nat) (q : List Nat) (h : HNode), hs[k]? = some (q, h) ∧ as[k]? = some (p, d) ∧ h.tree = some e

end Verif.Annot
