import Verif.Sections.Model
/-!
# Specification: sections, their numbers, lists of parameters, pipelines
-/
namespace Verif.Sections

/-! ### The section tree -/

def IsSection (c : HNode) : Prop := ∃ k, c.kind = .sec k

instance (c : HNode) : Decidable (IsSection c) :=
  match h : c.kind with
  | .sec k => isTrue ⟨k, h⟩
  | .space | .comment | .h1 | .h2 | .other => isFalse (fun ⟨_, hk⟩ => by simp [h] at hk)

/-- The sections directly in a node, in the order of the document. -/
def sectionsIn (n : HNode) : List HNode := n.kids.filter (fun c => IsSection c)

/-- What else is directly in a node, except blanks and comments, in the order of the document. -/
def flow (n : HNode) : List HNode := n.kids.filter (fun c => ¬ IsSection c ∧ c.kind ≠ .space ∧ c.kind ≠ .comment)

/-- `s` describes the section `n` at this level. -/
inductive Outline : HNode → Nat → Sec → Prop
  | mk {n level heading blocks numless subs} :
      -- nothing lost, nothing added, and the order is kept
      heading.toList ++ blocks ++ numless.flatMap (fun p => p.1 :: p.2) = flow n →
      -- the parts without number are those that start with an h2
      (∀ b ∈ blocks, b.kind ≠ .h2) → (∀ p ∈ numless, p.1.kind = .h2 ∧ ∀ b ∈ p.2, b.kind ≠ .h2) →
      -- all but the root have a heading
      (if level = 0 then heading = none else ∃ h, heading = some h ∧ h.kind = .h1) →
      -- and the same for the sections in it
      subs.length = (sectionsIn n).length →
      (∀ (i : Nat) c s, (sectionsIn n)[i]? = some c → subs[i]? = some s → Outline c (level + 1) s) →
      Outline n level (.mk n level heading blocks numless subs)

/-- `c` is a section somewhere in `n`. -/
inductive Inside : HNode → HNode → Prop
  | here {n c} : c ∈ sectionsIn n → Inside n c
  | deeper {n m c} : m ∈ sectionsIn n → Inside m c → Inside n c

mutual
/-- The depth of a tree. -/
def depth : HNode → Nat
  | .mk _ _ _ kids => depths kids + 1
def depths : List HNode → Nat
  | [] => 0
  | k :: ks => max (depth k) (depths ks)
end

/-- A section begins with an h1. -/
def Headed (c : HNode) : Prop := ∃ h r, flow c = h :: r ∧ h.kind = .h1

/-! ### Section numbers -/

/-- The section reached by going, from a section, to the child with each of these indices (counted from 0). -/
def sectionAt : NSec → List Nat → Option NSec
  | s, [] => some s
  | s, i :: is => match s.subs[i]? with
    | none => none
    | some c => sectionAt c is

/-- The same in the document. -/
def docAt : HNode → List Nat → Option HNode
  | n, [] => some n
  | n, i :: is => match (sectionsIn n)[i]? with
    | none => none
    | some c => docAt c is

/-- How many of the first `n` sections of the document are of this kind. -/
def countKind (doc : HNode) (k : SecKind) (n : Nat) : Nat := ((sectionsIn doc).take n).countP (fun c => c.kind = .sec k)

/-- The number of the top-level section with index `i`: the introduction is 0, clauses are counted from 1, annexes from A. -/
def topLabel (doc : HNode) (i : Nat) (k : SecKind) : List Char :=
  match k with
  | .intro => ['0']
  | .clause => Nat.toDigits 10 (countKind doc .clause i + 1)
  | .annex => [Char.ofNat ('A'.toNat + countKind doc .annex i)]

/-- The number of the section at a path below it. -/
def label (doc : HNode) (i : Nat) (k : SecKind) (js : List Nat) : List Char :=
  topLabel doc i k ++ js.flatMap (fun j => '.' :: Nat.toDigits 10 (j + 1))

/-- The document has at most one introduction. -/
def OneIntro (doc : HNode) : Prop := countKind doc .intro (sectionsIn doc).length ≤ 1

/-! ### Lists of parameters -/

/-- A word between underscores. -/
def IsName (s : List Char) : Prop := ∃ w, w ≠ [] ∧ (∀ c ∈ w, c.isAlphanum = true ∨ c = '_') ∧ s = '_' :: w ++ ['_']

/-- How optional parameters are written after others: ` [ , _c_ [ , _d_ ] ]`. -/
def renderOpts : List (List Char) → List Char
  | [] => []
  | n :: ns => [' ', '[', ' ', ',', ' '] ++ n ++ renderOpts ns ++ [' ', ']']

/-- `_a_, _b_`. -/
def renderPlain : List (List Char) → List Char
  | [] => []
  | [n] => n
  | n :: ns => n ++ [',', ' '] ++ renderPlain ns

/-- `_a_, _b_ [ , _c_ [ , _d_ ] ]`, or `[ _a_ [ , _b_ ] ]`. -/
def renderOptional (req opts : List (List Char)) : List Char :=
  match req, opts with
  | [], [] => []
  | [], n :: ns => ['[', ' '] ++ n ++ renderOpts ns ++ [' ', ']']
  | _, _ => renderPlain req ++ renderOpts opts

/-- `_a_, _b_, ..._c_`. -/
def renderRest (req : List (List Char)) (r : List Char) : List Char := renderPlain (req ++ [['.', '.', '.'] ++ r])

/-! ### Pipelines -/

/-- A step can turn `a` into `b`. -/
def Step.Makes {A : Type} : Step A → A → A → Prop
  | .skip, a, b => b = a
  | .one f, a, b => b = f a
  | .alts fs, a, b => ∃ o ∈ fs, match o with
    | none => b = a
    | some f => b = f a

/-- The steps, in order, can turn `a` into `b`. -/
inductive Makes {A : Type} : List (Step A) → A → A → Prop
  | nil {a} : Makes [] a a
  | cons {s ss a b c} : s.Makes a b → Makes ss b c → Makes (s :: ss) a c

/-! ### Left-recursive lists -/

/-- The syntax tree for `LIST : ITEM` and `LIST : LIST ITEM`. -/
inductive IsList {T : Type} : ANode T → List (ANode T) → Prop
  | one {a} : IsList (.node [a]) [a]
  | snoc {l as a} : IsList l as → IsList (.node [l, a]) (as ++ [a])

end Verif.Sections
