import Verif.Vars.Model
/-!
# Specification: definitions and uses of variables
-/
namespace Verif.Vars

/-- What a `{var}` is, below a parent of this kind and with this index. -/
inductive Role where
  | definition
  | use
  | neither

def roleOf (parent : VKind) (index : Nat) : Role :=
  if parent = .defvar then .definition
  else if parent = .sorted ∧ index = 3 then .neither
  else .use

/-- The node at a path, with the kind of its parent and its index.  Texts are not nodes. -/
def nodeAt : VKind → Nat → VNode → List Nat → Option (VNode × VKind × Nat)
  | p, i, n, [] => some (n, p, i)
  | _, _, n, j :: js => match n.kids[j]? with
    | none => none
    | some c => if c.kind = .text then none else nodeAt n.kind j c js

/-- At this path there is the variable `x`, node `i`, in this role. -/
def Occurs (a : VNode) (path : List Nat) (x : String) (i : Nat) (r : Role) : Prop :=
  ∃ n p j, nodeAt .other 0 a path = some (n, p, j) ∧ n.kind = .var ∧ n.text = x ∧ n.id = i ∧ roleOf p j = r

/-- The header defines `x`. -/
def Declares (h : Header) (x : String) : Prop := (∃ d, (x, d) ∈ h.params) ∨ ∃ i, h.forVar = some (x, i)

/-- The first declaration of `x` in the header. -/
def firstDecl (h : Header) (x : String) : Option (Option Nat) :=
  match h.params.find? (fun p => p.1 = x) with
  | some p => some p.2
  | none => match h.forVar with
    | some (y, i) => if y = x then some (some i) else none
    | none => none

def Defined (h : Header) (a : VNode) (x : String) : Prop := Declares h x ∨ ∃ path i, Occurs a path x i .definition
def Used (a : VNode) (x : String) : Prop := ∃ path i, Occurs a path x i .use

/-- `i` is the first node in this role, in the order of the text. -/
def First (a : VNode) (x : String) (r : Role) (i : Nat) : Prop :=
  ∃ path, Occurs a path x i r ∧ ∀ path' j, Occurs a path' x j r → ¬ path' < path

/-- Where the message about an unused variable is put: at its first definition; if that has no node, at the algorithm. -/
def DefAt (h : Header) (a : VNode) (x : String) (i : Nat) : Prop :=
  match firstDecl h x with
  | some (some d) => i = d
  | some none => i = a.id
  | none => First a x .definition i

def Msg.name : Msg → String
  | .unused _ x => x
  | .undefined _ x => x

end Verif.Vars
