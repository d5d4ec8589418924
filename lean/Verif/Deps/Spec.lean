import Verif.Deps.Model
/-!
# Specification of the report on dependencies between operations
-/
namespace Verif.Deps

/-- The names with the property `P`, in order and without repetition. -/
def SortedSet (l : List String) (P : String → Prop) : Prop := l.Pairwise (· < ·) ∧ ∀ x, x ∈ l ↔ P x

/-- The same for pairs. -/
def SortedPairs (l : List (String × String)) (P : String → String → Prop) : Prop :=
  l.Pairwise (fun p q => p.1 < q.1 ∨ p.1 = q.1 ∧ p.2 < q.2) ∧ ∀ x y, (x, y) ∈ l ↔ P x y

/-! ### Places in the text -/

/-- The node `d` is at the place `p` of the tree `t`: 0 leads to an embedded algorithm, other numbers to the children.  Algorithms embedded in an invocation do not count. -/
inductive At : ANode → List Nat → ANode → Prop
  | here {t} : At t [] t
  | kid {a ks e i k p d} : ks[i]? = some k → At k p d → At (.node a ks e) ((i + 1) :: p) d
  | emb {a ks e p d} : a.names = none → At e p d → At (.node a ks (some e)) (0 :: p) d

/-- The order of the text. -/
def Before : List Nat → List Nat → Prop
  | [], [] => False
  | [], _ :: _ => True
  | _ :: _, [] => False
  | i :: p, j :: q => i < j ∨ i = j ∧ Before p q

/-- The place is in parentheses after the name of an operation, in the same algorithm. -/
def InParen (t : ANode) (p : List Nat) : Prop := ∃ q r d, p = q ++ r ∧ 0 ∉ r ∧ At t q d ∧ d.attr.lhs = "{PREFIX_PAREN}"

/-- The node `i.node` is at a place of an algorithm: the numbers of the header, the definition and the tree, and the place there; `i.inParen` tells whether it is in parentheses. -/
inductive InAlg (a : Alg) : List Nat → Inv → Prop
  | mk {n m k p hd df t} {i : Inv} : a.heads[n]? = some hd → hd.defs[m]? = some df → df[k]? = some (some t) → At t p i.node → (i.inParen = true ↔ InParen t p) →
      InAlg a (n :: m :: k :: p) i

/-- The node invokes the operation. -/
def NodeCalls (d : ANode) (o : String) : Prop := ∃ ns, d.attr.names = some ns ∧ o ∈ ns

/-- An algorithm calls an operation: it contains an invocation of it; one without definition is known to call another. -/
def Calls (a : Alg) (o : String) : Prop :=
  (∃ p i, InAlg a p i ∧ NodeCalls i.node o) ∨ a.name = "HostLoadImportedModule" ∧ o = "FinishLoadingImportedModule"

/-- There is an entry for an operation. -/
def Declared (S : Spec) (o : String) : Prop := ∃ a ∈ S.ops, a.name = o

/-- The operation of the first name calls that of the second. -/
def OpCalls (S : Spec) (s t : String) : Prop := ∃ a ∈ S.ops, a.name = s ∧ Calls a t

/-- What can be reached from the starting points. -/
inductive Reaches (next : String → String → Prop) (start : String → Prop) : String → Prop
  | start {s} : start s → Reaches next start s
  | step {s t} : Reaches next start s → next s t → Reaches next start t

/-- The starting points: what the host does, the memory model, and what functions call. -/
def Start (S : Spec) (s : String) : Prop :=
  s ∈ ["Early Errors", "InitializeHostDefinedRealm", "ParseScript", "ScriptEvaluation", "ParseModule", "Link", "Evaluate", "DetachArrayBuffer", "HostEventSet",
    "Valid Chosen Reads", "Coherent Reads", "Tear Free Reads", "Data Races"] ∨ ∃ b ∈ S.bifs, Calls b s

/-- The starting points of static semantics. -/
def SsStart (s : String) : Prop := s ∈ ["Early Errors", "ParseScript", "ParseModule"]

/-- The calls that count for static semantics: `ToString` for an object does not. -/
def SsCalls (S : Spec) (s t : String) : Prop := OpCalls S s t ∧ ¬ (s = "ToString" ∧ (t = "ToPrimitive" ∨ t = "ToString"))

/-- The first header of a section with such a title is of the operation. -/
def Labelled (S : Spec) (test : String → Prop) (o : String) : Prop := ∃ s ∈ S.sections, test s.1 ∧ ∃ os, s.2 = o :: os

def Begins (p s : String) : Prop := ∃ r, s.toList = p.toList ++ r
def Has (p s : String) : Prop := ∃ a b, s.toList = a ++ p.toList ++ b

def SsTitle (t : String) : Prop := Begins "Static Semantics:" t
def RsTitle (t : String) : Prop := Begins "Runtime Semantics:" t
def UnTitle (t : String) : Prop := ¬ SsTitle t ∧ ¬ RsTitle t

/-- A node that looks like runtime semantics. -/
def Runtimey (d : ANode) : Prop :=
  (∃ p ∈ ["execution context", "{EXECUTION_CONTEXT_COMPONENT}", "a newly created object", "a new built-in function object", "an ECMAScript function object",
    "an iterator object", "internal slot", "own property", "the property named", "Data Block", "Environment Record", "Realm Record", "the thisValue component", "Throw a"],
    Has p d.attr.rhs) ∨ Has "[[Prototype]]" d.attr.text ∨ Has "[[Extensible]]" d.attr.text

/-- An operation looks like runtime semantics: a node does, or an algorithm that has the same name calls an operation that does. -/
inductive RtOp (S : Spec) : String → Prop
  | direct {a p i} : a ∈ S.ops → InAlg a p i → Runtimey i.node → RtOp S a.name
  | caller {a o} : a ∈ S.ops ++ S.bifs → Declared S a.name → Calls a o → RtOp S o → RtOp S a.name

/-- The report. -/
structure IsReport (S : Spec) (out : List Part) : Prop where
  is : ∃ (algs : List (Alg × List String)) (ops bifs : List Alg) (undeclared unreached ssRs ssUn rsUn ssNot notSs : List String) (bad fine : List (String × String))
      (ssRt rtSs : List String),
    algs.map (·.1) = ops ++ bifs ∧ ops.Perm S.ops ∧ bifs.Perm S.bifs ∧
    ops.Pairwise (fun a b => a.name < b.name) ∧ bifs.Pairwise (fun a b => a.name < b.name) ∧
    (∀ x ∈ algs, SortedSet x.2 (Calls x.1)) ∧
    SortedSet undeclared (fun o => Reaches (OpCalls S) (Start S) o ∧ ¬ Declared S o) ∧
    SortedSet unreached (fun o => Declared S o ∧ ¬ Reaches (OpCalls S) (Start S) o) ∧
    SortedSet ssRs (fun o => Labelled S SsTitle o ∧ Labelled S RsTitle o) ∧
    SortedSet ssUn (fun o => Labelled S SsTitle o ∧ Labelled S UnTitle o) ∧
    SortedSet rsUn (fun o => Labelled S RsTitle o ∧ Labelled S UnTitle o) ∧
    SortedSet ssNot (fun o => Labelled S SsTitle o ∧ ¬ (Reaches (SsCalls S) SsStart o ∧ Declared S o)) ∧
    SortedSet notSs (fun o => (Reaches (SsCalls S) SsStart o ∧ Declared S o) ∧ ¬ Labelled S SsTitle o) ∧
    SortedPairs bad (fun o c => OpCalls S o c ∧ Labelled S SsTitle o ∧ ¬ Labelled S SsTitle c) ∧
    SortedPairs fine (fun o c => OpCalls S o c ∧ ¬ Labelled S SsTitle o ∧ Labelled S SsTitle c) ∧
    SortedSet ssRt (fun o => Labelled S SsTitle o ∧ ¬ (Declared S o ∧ ¬ RtOp S o)) ∧
    SortedSet rtSs (fun o => (Declared S o ∧ ¬ RtOp S o) ∧ ¬ Labelled S SsTitle o) ∧
    out = algs.map (fun x => .alg x.1.name x.1.species (x.1.heads.flatMap (·.defs)).length x.2) ++
      [.names "operations referenced but not declared" undeclared,
       .names "operations declared but not reached" unreached,
       .names "ops labelled both 'Static Semantics' and 'Runtime Semantics'" ssRs,
       .names "ops labelled 'Static Semantics' and also unlabelled" ssUn,
       .names "ops labelled 'Runtime Semantics' and also unlabelled" rsUn,
       .names "ops labelled 'Static Semantics' but not reachable from SS starting points [probably okay]" ssNot,
       .names "ops reachable from SS starting points but not labelled 'Static Semantics' [shouldn't happen?]" notSs,
       .pairs "op labelled 'Static Semantics' calls one that isn't [shouldn't happen?]" bad,
       .pairs "op not labelled 'Static Semantics' calls one that is [probably fine]" fine,
       .names "ops labelled 'Static Semantics' but that look runtimey [shouldn't happen?]" ssRt,
       .names "ops that don't look runtimey, but aren't labelled 'Static Semantics' [okay, but should be relabelled?]" rtSs]

/-! ### What is given -/

/-- The algorithm that is embedded in a node. -/
def ANode.emb : ANode → Option ANode
  | .node _ _ e => e

/-- The names of the operations are different, so are those of the functions; going through a set meets each element once; nothing is embedded in an invocation. -/
structure Given (S : Spec) : Prop where
  ops : (S.ops.map (·.name)).Nodup
  bifs : (S.bifs.map (·.name)).Nodup
  enum : ∀ l, (S.enum l).Perm l
  plain : ∀ a ∈ S.ops ++ S.bifs, ∀ p i, InAlg a p i → i.node.attr.names ≠ none → i.node.emb = none

/-- There is an embedded algorithm. -/
def Embeds (a : Alg) : Prop := ∃ p i, InAlg a p i ∧ i.node.emb ≠ none

/-! ### The invocations of an operation -/

/-- How often the node names the operation. -/
def times (d : ANode) (o : String) : Nat :=
  match d.attr.names with
  | none => 0
  | some ns => ns.count o

/-- The invocations of the operation `o` in the order of the text, taking the operations in the order of their names and then the functions likewise. -/
def IsInvList (S : Spec) (o : String) (l : List Inv) : Prop :=
  ∃ (ops bifs : List Alg) (places : List (List Nat × Inv)),
    ops.Perm S.ops ∧ bifs.Perm S.bifs ∧ ops.Pairwise (fun a b => a.name < b.name) ∧ bifs.Pairwise (fun a b => a.name < b.name) ∧
    places.Pairwise (fun a b => Before a.1 b.1) ∧
    (∀ q i, (q, i) ∈ places ↔ ∃ (k : Nat) (a : Alg) (p : List Nat), q = k :: p ∧ (ops ++ bifs)[k]? = some a ∧ InAlg a p i ∧ NodeCalls i.node o) ∧
    l = places.flatMap (fun e => List.replicate (times e.2.node o) e.2)

/-! ### The word "the" before the name of an operation -/

/-- An operation whose name can begin an expression like "the BoundNames of x": what it returns is a value. -/
structure Accepts (a : Alg) (r : String) : Prop where
  plain : r ≠ "a Boolean" ∧ r ≠ "~unused~" ∧ r ≠ "a Completion Record" ∧ r ≠ "a return completion" ∧ r ≠ "a throw completion or a return completion"
  noEither : ∀ mid : List Char, mid ≠ [] → '\n' ∉ mid → r.toList ≠ "either a normal completion containing ".toList ++ mid ++ " or an abrupt completion".toList
  name : ¬ Begins "Compile" a.name ∧ ¬ Begins "Instantiate" a.name ∧ ¬ Begins "Define" a.name ∧ ¬ Begins "Evaluate" a.name ∧ a.name ≠ "WithClauseToAttributes"

/-- What the operation returns, according to its first header. -/
def Returns (a : Alg) (r : String) : Prop :=
  ∃ h hs, a.heads = h :: hs ∧ (h.returns = some r ∨ h.returns = none ∧ a.name = "MV" ∧ r = "a mathematical value")

/-- The operation is defined piecewise on syntax. -/
def BySyntax (a : Alg) : Prop := Begins "op: discriminated by syntax" a.species

/-- The invocation has the word. -/
def HasThe (i : Inv) : Prop := Has "the {cap_word}" i.node.attr.rhs

/-- The invocation should have the word. -/
def WantsThe (a : Alg) (i : Inv) : Prop := (∃ r, Returns a r ∧ Accepts a r) ∧ i.inParen = false

/-! ### The number of arguments -/

/-- A list of `n` expressions. -/
inductive Exes : ANode → Nat → Prop
  | one {a x e} : a.lhs = "{EXLIST}" → a.rhs = "{EX}" → Exes (.node a [x] e) 1
  | more {a l x e n} : a.lhs = "{EXLIST}" → a.rhs = "{EXLIST}, {EX}" → Exes l n → Exes (.node a [l, x] e) (n + 1)

/-- What can be between parentheses. -/
inductive Between : ANode → Nat → Prop
  | nothing {a ks e} : a.lhs = "{EXLIST_OPT}" → a.rhs = "{EPSILON}" → Between (.node a ks e) 0
  | list {a l e n} : a.lhs = "{EXLIST_OPT}" → a.rhs = "{EXLIST}" → Exes l n → Between (.node a [l] e) n
  | var {a k ks e} : a.lhs = "{EXLIST_OPT}" → a.rhs = "{var}" → Between (.node a (k :: ks) e) 1

/-- The invocation of the operation has `n` arguments. -/
inductive Args (op : String) : ANode → Nat → Prop
  | paren {a f x e n} : a.lhs ++ " : " ++ a.rhs = "{PREFIX_PAREN} : {OPN_BEFORE_PAREN}({EXLIST_OPT})" → Between x n → Args op (.node a [f, x] e) n
  | bare {a ks e} : a.lhs ++ " : " ++ a.rhs = "{NAMED_OPERATION_INVOCATION} : {cap_word} of {LOCAL_REF}" → Args op (.node a ks e) 0
  | with_ {a w r x e} : a.lhs ++ " : " ++ a.rhs = "{NAMED_OPERATION_INVOCATION} : {cap_word} of {LOCAL_REF} {WITH_ARGS}" → w.attr.text = op →
      Args op (.node a [w, r, x] e) x.kids.length

/-- The parameter with the number `i`, counting from 1, is optional. -/
def OptParam (a : Alg) (i : Nat) (name : String) : Prop := ∃ ps q, a.params = some ps ∧ 0 < i ∧ ps[i - 1]? = some q ∧ q.name = name ∧ q.punct = "[]"

end Verif.Deps
