import Verif.Earley.Model
import Verif.Common
/-!
# Specification: derivations in a context-free grammar with constraints

Nothing here mentions items, Earley sets or the closing procedure.
-/
namespace Verif.Earley

/-- What the input looks like to a derivation. The input is a sequence of places `0, 1, 2, …`;
* `scan k t l` : the terminal `t` is found between places `k` and `k+1`, as the instance `l`;
* `holds k prev con` : constraint `con` is satisfied at place `k`, where `prev` is the parse node just
  before it in the right-hand side, if any;
* `at k p` : place `k` is at text position `p`;
* `first l`, `last l` : text extent of a terminal instance. -/
structure World (L : Type) where
  scan : Nat → Term → L → Prop
  holds : Nat → Option (Node L) → Con → Prop
  «at» : Nat → Nat → Prop
  first : L → Nat
  last : L → Nat

/-- Start of a node in the text. -/
def World.startOf {L} (W : World L) : Node L → Nat
  | .leaf l => W.first l
  | .nt _ _ s _ _ => s

/-- End of a node in the text. -/
def World.endOf {L} (W : World L) : Node L → Nat
  | .leaf l => W.last l
  | .nt _ _ _ e _ => e

/-- The option bits that a sequence of children shows: one digit for each optional child (a
nonterminal named `…?`), namely 1 if it has a child and 0 if it is empty. -/
def bitsOf {L} : List (Node L) → List Nat
  | [] => []
  | .leaf _ :: r => bitsOf r
  | .nt p _ _ _ cs :: r =>
    if p.ogLhs.toList.getLast? = some '?' then cs.length :: bitsOf r else bitsOf r

/-- `n` is the parse node for production `p` with children `cs`, ending at position `pos`. -/
def IsNode {L} (W : World L) (p : Prod) (cs : List (Node L)) (pos : Nat) (n : Node L) : Prop :=
  n = .nt p (bitsOf cs)
    (match cs.head? with | some c => W.startOf c | none => pos)
    (match cs.getLast? with | some c => W.endOf c | none => pos) cs

/-- `Derives G W rhs prev i j cs`: the sequence `rhs` derives the input between places `i` and `j`,
with `cs` the parse trees of its symbols, all constraints in it being satisfied where they stand;
`prev` is the node just before the sequence. -/
inductive Derives {L} (G : Grammar) (W : World L) :
    List Rthing → Option (Node L) → Nat → Nat → List (Node L) → Prop
  | nil (prev i) : Derives G W [] prev i i []
  | con {k rest prev i j cs} : W.holds i prev k → Derives G W rest none i j cs →
      Derives G W (.con k :: rest) prev i j cs
  | term {t l rest prev i j cs} : W.scan i t l → Derives G W rest (some (.leaf l)) (i + 1) j cs →
      Derives G W (.term t :: rest) prev i j (.leaf l :: cs)
  | nt {n ps p ds pos node rest prev i m j cs} : G n = some ps → p ∈ ps →
      Derives G W p.rhs none i m ds → W.at m pos → IsNode W p ds pos node →
      Derives G W rest (some node) m j cs →
      Derives G W (.nt n :: rest) prev i j (node :: cs)

/-- `t` is a parse tree of the nonterminal `n` between places `i` and `j`. -/
def IsTree {L} (G : Grammar) (W : World L) (n : String) (i j : Nat) (t : Node L) : Prop :=
  Derives G W [.nt n] none i j [t]

/-- The terminal instances at the leaves of a tree, left to right. -/
def leaves {L} : Node L → List L
  | .leaf l => [l]
  | .nt _ _ _ _ cs => leavesList cs
where
  /-- The leaves of a sequence of trees. -/
  leavesList : List (Node L) → List L
  | [] => []
  | c :: r => leaves c ++ leavesList r

/-- Every production is filed under its own left-hand side. -/
def Filed (G : Grammar) : Prop := ∀ n ps, G n = some ps → ∀ p ∈ ps, p.lhs = n

/-- Every nonterminal mentioned in a right-hand side has productions. -/
def Closed (G : Grammar) : Prop :=
  ∀ n ps, G n = some ps → ∀ p ∈ ps, ∀ m, Rthing.nt m ∈ p.rhs → (G m).isSome = true

/-- The two pseudo-terminals that stand for the end of the input occur in no production. -/
def NoFinal (G : Grammar) : Prop :=
  ∀ n ps, G n = some ps → ∀ p ∈ ps, Rthing.term endOfInput ∉ p.rhs ∧ Rthing.term acceptance ∉ p.rhs

/-- Only the end-of-input terminal is ever matched by an end-of-input instance. -/
def EoiOk {σ L} (tip : Tip σ L) : Prop :=
  ∀ st pos expected kludge rats pos' st', tip.next st pos expected kludge = .ok (some (rats, pos'), st') →
    ∀ r ∈ rats, tip.isEoi r.2 = true → r.1 = endOfInput

/-- What happened between the parser and its terminal provider: the states and positions at which
sets were built, and the terminals handed out between consecutive ones. -/
structure Hist (σ L : Type) where
  sts : List (σ × Nat)
  rats : List (List (Term × L))

/-- The input as the provider presented it during a run. -/
def Hist.world {σ L} (tip : Tip σ L) (H : Hist σ L) : World L where
  scan k t l := ∃ r, H.rats[k]? = some r ∧ (t, l) ∈ r
  holds k prev c := ∃ s, H.sts[k]? = some s ∧ tip.check s.1 prev s.2 c = .ok true
  «at» k p := ∃ s, H.sts[k]? = some s ∧ s.2 = p
  first := tip.leafStart
  last := tip.leafEnd

/-- The history is one that the provider really produced, when first asked in state `st` at position
`start`. -/
def Hist.Real {σ L} (tip : Tip σ L) (st : σ) (start : Nat) (H : Hist σ L) : Prop :=
  H.sts[0]? = some (st, start) ∧
  ∀ (k : Nat) r, H.rats[k]? = some r → ∃ s s' expected kludge, H.sts[k]? = some s ∧
    tip.next s.1 s.2 expected kludge = .ok (some (r, s'.2), s'.1) ∧
    (H.sts[k + 1]? = some s' ∨ H.sts.length = k + 1)

/-- A request that the parser can make of its provider: it asks only for terminals that its grammar
mentions (or for the end), for each once, and gives an ASI hint only if it is the syntactic parser. -/
def Usable {σ L} (c : Cfg σ L) (expected : List Term) (kludge : Option Kludge) : Prop :=
  (∀ t ∈ expected, t = c.final ∨ ∃ n ps p, c.G n = some ps ∧ p ∈ ps ∧ Rthing.term t ∈ p.rhs) ∧
  (c.syntactic = false → kludge = none) ∧ expected.Nodup

/-! ## Finiteness and cycles -/

/-- Finitely many elements satisfy `P`. -/
def Few {α : Type} (P : α → Prop) : Prop := ∃ l : List α, ∀ a, P a → a ∈ l

/-- A sequence that can derive nothing at all. -/
inductive NullSeq (G : Grammar) : List Rthing → Prop
  | nil : NullSeq G []
  | con {k rest} : NullSeq G rest → NullSeq G (.con k :: rest)
  | nt {n ps p rest} : G n = some ps → p ∈ ps → NullSeq G p.rhs → NullSeq G rest →
      NullSeq G (.nt n :: rest)

/-- `n` can be rewritten to `b` alone. -/
def UnitStep (G : Grammar) (n b : String) : Prop :=
  ∃ ps p pre post, G n = some ps ∧ p ∈ ps ∧ p.rhs = pre ++ .nt b :: post ∧ NullSeq G pre ∧ NullSeq G post

/-- No nonterminal can be rewritten, in one or more steps, to itself alone. -/
def Acyclic (G : Grammar) : Prop := ∀ n b, UnitStep G n b → ¬ Star (UnitStep G) b n

/-- The dictionary is finite. -/
def FiniteGrammar (G : Grammar) : Prop := ∃ names : List String, ∀ n, (G n).isSome = true → n ∈ names

end Verif.Earley
