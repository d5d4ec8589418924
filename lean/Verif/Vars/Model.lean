/-!
# Model of the check of variables (Pseudocode.py:528-620)
-/
namespace Verif.Vars

/-- What matters about a node of a syntax tree: a token's text that is not a node, a `{var}`, a `{DEFVAR} : {var}`, the expression about a sorted List
(Pseudocode.py:591), or anything else. -/
inductive VKind where
  | text
  | var
  | defvar
  | sorted
  | other
  deriving DecidableEq

/-- A syntax tree (`ANode`).  `id` is the identity of the Python object. -/
inductive VNode where
  | mk (id : Nat) (kind : VKind) (text : String) (kids : List VNode)

def VNode.id : VNode → Nat
  | .mk i _ _ _ => i
def VNode.kind : VNode → VKind
  | .mk _ k _ _ => k
def VNode.text : VNode → String
  | .mk _ _ t _ => t
def VNode.kids : VNode → List VNode
  | .mk _ _ _ c => c

/-- A node with the kind of its parent, and its index among the parent's children. -/
structure Occ where
  node : VNode
  parent : VKind
  index : Nat

mutual
/-- `each_descendant_or_self` (Pseudocode_Parser.py:558-566), with parents.  The root of an algorithm is not a `{var}`, so that its parent does not matter. -/
def descend : VKind → Nat → VNode → List Occ
  | p, i, .mk id k t kids => ⟨.mk id k t kids, p, i⟩ :: descendAll k 0 kids
def descendAll : VKind → Nat → List VNode → List Occ
  | _, _, [] => []
  | p, i, c :: cs => match c.kind with
    | .text => descendAll p (i + 1) cs
    | _ => descend p i c ++ descendAll p (i + 1) cs
end

/-- `Thing` (Pseudocode.py:557-561).  A definition without a node is `none`. -/
structure Thing where
  defs : List (Option Nat)
  uses : List Nat
  okay : Bool

abbrev Things := List (String × Thing)

/-- `things[name]`, a `defaultdict`, updated by `f`. -/
def update (f : Thing → Thing) (name : String) : Things → Things
  | [] => [(name, f ⟨[], [], false⟩)]
  | (n, t) :: r => if n = name then (n, f t) :: r else (n, t) :: update f name r

/-- What matters about a header: the parameters, with the node of the declaration if there is one, the variable of the "for phrase",
and whether the species starts with 'op: discriminated by'. -/
structure Header where
  params : List (String × Option Nat)
  forVar : Option (String × Nat)
  discriminated : Bool

/-- Pseudocode.py:565-581. -/
def fromHeader (h : Header) : Things :=
  let t := h.params.foldl (fun ts p => update (fun t => { t with defs := t.defs ++ [p.2], okay := h.discriminated }) p.1 ts) []
  match h.forVar with
  | none => t
  | some (x, i) => update (fun t => { t with defs := t.defs ++ [some i], okay := h.discriminated }) x t

/-- One node (Pseudocode.py:583-598). -/
def visit (ts : Things) (o : Occ) : Things :=
  if o.node.kind = .var then
    if o.parent = .defvar then update (fun t => { t with defs := t.defs ++ [some o.node.id] }) o.node.text ts
    else if o.parent = .sorted ∧ o.index = 3 then update (fun t => t) o.node.text ts
    else update (fun t => { t with uses := t.uses ++ [o.node.id] }) o.node.text ts
  else ts

/-- A message: at which node, and about which variable. -/
inductive Msg where
  | unused (at' : Nat) (x : String)
  | undefined (at' : Nat) (x : String)
  deriving DecidableEq

/-- The messages about one variable (Pseudocode.py:600-620). -/
def judge (root : Nat) (x : String) (t : Thing) : List Msg :=
  (match t.defs with
    | [] => []
    | d :: _ => if t.uses.isEmpty && !t.okay then [.unused (d.getD root) x] else []) ++
  (match t.uses with
    | [] => []
    | u :: _ => if t.defs.isEmpty then [.undefined u x] else [])

/-- `sorted(things.items())`: by name, as names are different. -/
def insertThing (p : String × Thing) : Things → Things
  | [] => [p]
  | q :: r => if p.1 ≤ q.1 then p :: q :: r else q :: insertThing p r
def sortThings : Things → Things
  | [] => []
  | p :: r => insertThing p (sortThings r)

/-- `check_vars_in_anode` (Pseudocode.py:557-620), after the early returns for incomplete algorithms. -/
def check (h : Header) (a : VNode) : List Msg :=
  let ts := (descend .other 0 a).foldl visit (fromHeader h)
  (sortThings ts).flatMap (fun p => judge a.id p.1 p.2)

end Verif.Vars
