/-!
# Model of the section tree (Section.py)
-/
namespace Verif.Sections

/-! ### The section tree -/

/-- The elements that are sections (HTML.py:218-219). -/
inductive SecKind where
  | intro
  | clause
  | annex
  deriving DecidableEq

/-- What matters about an element (Section.py:105-123). -/
inductive Kind where
  | space
  | comment
  | sec (k : SecKind)
  | h1
  | h2
  | other
  deriving DecidableEq

/-- An `HNode`: its kind, its `id` attribute, its source text, and its children. -/
inductive HNode where
  | mk (kind : Kind) (id : Option String) (text : String) (kids : List HNode)

def HNode.kind : HNode → Kind
  | .mk k _ _ _ => k
def HNode.id : HNode → Option String
  | .mk _ i _ _ => i
def HNode.text : HNode → String
  | .mk _ _ t _ => t
def HNode.kids : HNode → List HNode
  | .mk _ _ _ c => c

/-- A section with the attributes that `_make_section_tree_r` sets. -/
inductive Sec where
  | mk (node : HNode) (level : Nat) (heading : Option HNode) (blocks : List HNode) (numless : List (HNode × List HNode)) (subs : List Sec)

def Sec.node : Sec → HNode
  | .mk n _ _ _ _ _ => n
def Sec.level : Sec → Nat
  | .mk _ l _ _ _ _ => l
def Sec.heading : Sec → Option HNode
  | .mk _ _ h _ _ _ => h
def Sec.blocks : Sec → List HNode
  | .mk _ _ _ b _ _ => b
def Sec.numless : Sec → List (HNode × List HNode)
  | .mk _ _ _ _ n _ => n
def Sec.subs : Sec → List Sec
  | .mk _ _ _ _ _ s => s

/-- The lists `block_children`, `numless_children` and `section_children` while they are filled. -/
structure Fill where
  blocks : List HNode
  numless : List (HNode × List HNode)
  subs : List HNode

/-- `section.numless_children[-1].block_children.append(child)` (Section.py:119-120). -/
def addToLast (l : List (HNode × List HNode)) (c : HNode) : List (HNode × List HNode) :=
  match l with
  | [] => []
  | [(h, bs)] => [(h, bs ++ [c])]
  | p :: q :: r => p :: addToLast (q :: r) c

/-- One child (Section.py:105-123). -/
def fillOne (f : Fill) (c : HNode) : Fill :=
  match c.kind with
  | .space => f
  | .comment => f
  | .sec _ => { f with subs := f.subs ++ [c] }
  | .h2 => { f with numless := f.numless ++ [(c, [])] }
  | _ => if f.numless.isEmpty then { f with blocks := f.blocks ++ [c] } else { f with numless := addToLast f.numless c }

def fill (kids : List HNode) : Fill := kids.foldl fillOne ⟨[], [], []⟩

/-- The heading, and the other block children (Section.py:125-130). -/
def takeHeading (level : Nat) (blocks : List HNode) : Option (Option HNode × List HNode) :=
  if level = 0 then some (none, blocks)
  else match blocks with
    | [] => none
    | h :: r => if h.kind = .h1 then some (some h, r) else none

/-- `_make_section_tree_r` (Section.py:90-147), without the assertion that a section has no inline children, the message about an empty section
and the attributes `bcen_*`.  Fuel stands for the depth of the tree. -/
def makeTree : Nat → HNode → Nat → Option Sec
  | 0, _, _ => none
  | n + 1, node, level =>
    let f := fill node.kids
    match takeHeading level f.blocks with
    | none => none
    | some (h, bs) => match f.subs.mapM (fun c => makeTree n c (level + 1)) with
      | none => none
      | some subs => some (.mk node level h bs f.numless subs)

/-! ### Section numbers -/

abbrev Num := List Char

/-- `str(n)`. -/
def str (n : Nat) : Num := Nat.toDigits 10 n

/-- `string.ascii_uppercase`. -/
def upper : List Char := ['A', 'B', 'C', 'D', 'E', 'F', 'G', 'H', 'I', 'J', 'K', 'L', 'M', 'N', 'O', 'P', 'Q', 'R', 'S', 'T', 'U', 'V', 'W', 'X', 'Y', 'Z']

/-- A section with the attributes that `_set_section_identification_r` sets. -/
inductive NSec where
  | mk (sec : Sec) (num : Option Num) (id : Option String) (title : Option String) (subs : List NSec)

def NSec.num : NSec → Option Num
  | .mk _ n _ _ _ => n
def NSec.id : NSec → Option String
  | .mk _ _ i _ _ => i
def NSec.title : NSec → Option String
  | .mk _ _ _ t _ => t
def NSec.subs : NSec → List NSec
  | .mk _ _ _ _ s => s
def NSec.sec : NSec → Sec
  | .mk s _ _ _ _ => s

/-- The number of a child of the root, with the new counters (Section.py:174-183). -/
def topNum (clauses annexes : Nat) (k : Kind) : Option (Num × Nat × Nat) :=
  match k with
  | .sec .intro => some (['0'], clauses, annexes)
  | .sec .clause => some (str (clauses + 1), clauses + 1, annexes)
  | .sec .annex => match upper[annexes]? with
    | some c => some ([c], clauses, annexes + 1)
    | none => none
  | _ => none

mutual
/-- `_set_section_identification_r` (Section.py:159-194) for a section other than the root. -/
def setNum : Sec → Num → Option NSec
  | .mk node level h bs ns subs, num => match node.id, h with
    | some i, some h' => match setNums subs num 0 with
      | none => none
      | some rs => some (.mk (.mk node level h bs ns subs) (some num) (some i) (some h'.text) rs)
    | _, _ => none
/-- Its loop over the children (Section.py:190-194). -/
def setNums : List Sec → Num → Nat → Option (List NSec)
  | [], _, _ => some []
  | s :: ss, num, k => match setNum s (num ++ '.' :: str (k + 1)) with
    | none => none
    | some r => match setNums ss num (k + 1) with
      | none => none
      | some rs => some (r :: rs)
end

/-- The loop over the children of the root (Section.py:171-184). -/
def setTops : List Sec → Nat → Nat → Option (List NSec)
  | [], _, _ => some []
  | s :: ss, c, a => match topNum c a s.node.kind with
    | none => none
    | some (num, c', a') => match setNum s num with
      | none => none
      | some r => match setTops ss c' a' with
        | none => none
        | some rs => some (r :: rs)

/-- `_set_section_identification_r(spec.root_section, None)` (Section.py:165-184). -/
def setRoot (root : Sec) : Option NSec :=
  match setTops root.subs 0 0 with
  | none => none
  | some rs => some (.mk root none none none rs)

mutual
/-- `each_descendant_that_is_a_section` (HTML.py:247-252). -/
def eachSection : NSec → List NSec
  | .mk s n i t subs => (match s.node.kind with
    | .sec _ => [.mk s n i t subs]
    | _ => []) ++ eachSections subs
def eachSections : List NSec → List NSec
  | [] => []
  | s :: ss => eachSection s ++ eachSections ss
end

/-- The whole of Section.py:26-27, for a document of at most the given depth. -/
def makeSections (n : Nat) (doc : HNode) : Option NSec :=
  match makeTree n doc 0 with
  | none => none
  | some root => setRoot root

/-! ### Lists of parameters (Section.py:1490-1524) -/

/-- The `punct` of an `AlgParam`. -/
inductive Punct where
  | plain
  | optional
  | rest
  deriving DecidableEq

def isWord (c : Char) : Bool := c.isAlphanum || c == '_'

/-- `s.split(', ')`. -/
def splitComma : List Char → List (List Char)
  | [] => [[]]
  | ',' :: ' ' :: s => [] :: splitComma s
  | c :: s => match splitComma s with
    | [] => [[c]]
    | w :: ws => (c :: w) :: ws

/-- The longest prefix matching `_\w+_`, and what follows (Section.py:1501).  `\w` is restricted to ASCII, and a newline before a comma, which Python's `$` skips, is not modelled. -/
def matchName (s : List Char) : Option (List Char × List Char) :=
  match s with
  | '_' :: r =>
    let w := r.takeWhile isWord
    let tail := r.dropWhile isWord
    -- back up to the last underscore
    let back := w.reverse.dropWhile (· != '_')
    match back with
    | [] => none
    | _ :: mid => if mid.isEmpty then none else some ('_' :: back.reverse, w.drop back.length ++ tail)
  | _ => none

/-- `^( \])*$`. -/
def closers : List Char → Bool
  | [] => true
  | ' ' :: ']' :: s => closers s
  | _ => false

/-- One parameter, and whether the following ones are optional (Section.py:1497-1522). -/
def oneParam (opt : Bool) (s : List Char) : Option ((List Char × Punct) × Bool) :=
  let (opt, s) := match s with
    | '[' :: ' ' :: r => (true, r)
    | _ => (opt, s)
  let (dots, s) := match s with
    | '.' :: '.' :: '.' :: r => (true, r)
    | _ => (false, s)
  match matchName s with
  | none => none
  | some (name, suffix) =>
    if dots && opt then none
    else
      let p := if dots then Punct.rest else if opt then Punct.optional else Punct.plain
      if closers suffix then some ((name, p), opt)
      else if suffix = [' ', '[', ' '] then some ((name, p), true)
      else none

/-- The loop over the parameters. -/
def eachParam : Bool → List (List Char) → Option (List (List Char × Punct))
  | _, [] => some []
  | opt, s :: ss => match oneParam opt s with
    | none => none
    | some (p, opt') => match eachParam opt' ss with
      | none => none
      | some ps => some (p :: ps)

/-- `parameter_listing.strip()`, for spaces only. -/
def strip (s : List Char) : List Char := ((s.dropWhile (· == ' ')).reverse.dropWhile (· == ' ')).reverse

/-- `convert_parameter_listing_to_params` (Section.py:1490-1524). -/
def paramsOf (s : List Char) : Option (List (List Char × Punct)) :=
  let s := strip s
  if s.isEmpty then some [] else eachParam false (splitComma s)

/-! ### Sets of strings from a pipeline (Section.py:2327-2354) -/

/-- A step: none, one function, or a choice of functions, where `none` leaves the string as it is. -/
inductive Step (A : Type) where
  | skip
  | one (f : A → A)
  | alts (fs : List (Option (A → A)))

section
variable {A : Type} [DecidableEq A]

/-- Insertion into a Python set. -/
def insert' (l : List A) (a : A) : List A := if a ∈ l then l else l ++ [a]

def applyAlt (a : A) : Option (A → A) → A
  | none => a
  | some f => f a

/-- The results of one step. -/
def pipeStep (cur : List A) : Step A → List A
  | .skip => cur
  | .one f => cur.foldl (fun l a => insert' l (f a)) []
  | .alts fs => cur.foldl (fun l a => fs.foldl (fun l f => insert' l (applyAlt a f)) l) []

/-- `apply_pipeline` (Section.py:2327-2354). -/
def pipeline (a : A) (steps : List (Step A)) : List A := steps.foldl pipeStep [a]

end

/-! ### Left-recursive lists (Section.py:3748-3757) -/

/-- A syntax tree. -/
inductive ANode (T : Type) where
  | leaf (t : T)
  | node (kids : List (ANode T))

/-- `each_item_in_left_recursive_list` (Section.py:3748-3757).  Fuel stands for the length. -/
def eachItem {T : Type} : Nat → ANode T → Option (List (ANode T))
  | 0, _ => none
  | _ + 1, .leaf _ => none
  | n + 1, .node kids => match kids with
    | [item] => some [item]
    | [list, item] => (eachItem n list).map (· ++ [item])
    | _ => none

end Verif.Sections
