import Verif.Sdo.Model
/-!
# Model of the references to the nonterminals of a production

`Frame._make_focus_map`, `augment_focus_map` and `resolve_focus_reference` (pseudocode_semantics.py:2966-2992, 3125-3243), and the static `s_resolve_focus_reference`
(pseudocode_semantics.py:6338-6433).
-/
namespace Verif.Focus
open Verif.Gram (Sym Item IKind)
open Verif.Sdo (Name Puk Tree isOpt)

/-! ## When an algorithm is executed -/

/-- What a reference gives: a parse node, or an `ES_AbsentParseNode`. -/
inductive Ref where
  | node (t : Tree)
  | absent

mutual
/-- Whether two nodes are the same.  Python compares the identity of nodes here (`pnode in ...`, pseudocode_semantics.py:2984); the model compares their contents. -/
def same : Tree → Tree → Bool
  | .leaf, .leaf => true
  | .node s r b cs, .node s' r' b' cs' => s = s' && r = r' && b = b' && sames cs cs'
  | _, _ => false
def sames : List Tree → List Tree → Bool
  | [], [] => true
  | c :: cs, c' :: cs' => same c c' && sames cs cs'
  | _, _ => false
end

def Ref.is (t : Tree) : Ref → Bool
  | .node u => same t u
  | .absent => false

/-- `focus_map`: a list of pairs stands for the lists in the dictionary, in the order of the calls of `append`.  Entries for terminals are left out: their keys aren't names. -/
abbrev FocusMap := List (Name × Ref)

/-- `focus_map[name]`; an empty list if there is no such key. -/
def refs (m : FocusMap) (n : Name) : List Ref := (m.filter (fun e => e.1 = n)).map (·.2)

/-- One round of the loop (pseudocode_semantics.py:2968-2980); None if an optional node has several children. -/
def entry : Tree → Option FocusMap
  | .leaf => some []
  | .node s r b cs =>
    if isOpt s then match cs with
      | [] => some [(s.dropLast, .absent)]
      | [c] => some [(s.dropLast, .node c)]
      | _ => none
    else some [(s, .node (.node s r b cs))]

/-- The loop over some nodes. -/
def entries : List Tree → Option FocusMap
  | [] => some []
  | t :: ts => match entry t with
    | none => none
    | some m => match entries ts with
      | none => none
      | some m' => some (m ++ m')

def kids : Tree → List Tree
  | .leaf => []
  | .node _ _ _ cs => cs

/-- `_make_focus_map` (pseudocode_semantics.py:2966-2980). -/
def makeMap (t : Tree) : Option FocusMap := entries (t :: kids t)

/-- The loop of `augment_focus_map` (pseudocode_semantics.py:2987-2992); None if an assertion fails. -/
def augmentLoop : FocusMap → List Tree → Option FocusMap
  | m, [] => some m
  | _, .leaf :: _ => none
  | m, .node s r b cs :: ts =>
    if isOpt s then none
    else if (refs m s).isEmpty then augmentLoop (m ++ [(s, .node (.node s r b cs))]) ts
    else none

/-- `augment_focus_map` (pseudocode_semantics.py:2982-2992). -/
def augment (m : FocusMap) : Tree → Option FocusMap
  | .leaf => none
  | .node s r b cs => if (refs m s).any (Ref.is (.node s r b cs)) then augmentLoop m cs else none

/-- `ordinal`: None, 'derived' or a number. -/
inductive Ordinal where
  | no
  | derived
  | num (k : Nat)
deriving DecidableEq

def puk3 (l r b : String) : Puk := ⟨l.toList, r.toList, b.toList⟩

/-- Where a nonterminal on both sides means the left-hand side (pseudocode_semantics.py:3192-3196). -/
def meansLeft : List Puk := [puk3 "IdentifierName" "IdentifierName IdentifierPart" "", puk3 "UnaryExpression" "`delete` UnaryExpression" ""]

/-- Where it means the right-hand side (pseudocode_semantics.py:3198-3221). -/
def meansRight : List Puk := [
  puk3 "BindingPropertyList" "BindingPropertyList `,` BindingProperty" "",
  puk3 "ClassElementList" "ClassElementList ClassElement" "",
  puk3 "FormalParameterList" "FormalParameterList `,` FormalParameter" "",
  puk3 "StatementList" "StatementList StatementListItem" "",
  puk3 "DoubleStringCharacters" "DoubleStringCharacter DoubleStringCharacters?" "1",
  puk3 "ImportsList" "ImportsList `,` ImportSpecifier" "",
  puk3 "ModuleItemList" "ModuleItemList ModuleItem" "",
  puk3 "BindingList" "BindingList `,` LexicalBinding" "",
  puk3 "BindingElementList" "BindingElementList `,` BindingElisionElement" "",
  puk3 "MemberExpression" "MemberExpression `.` IdentifierName" "",
  puk3 "ExportsList" "ExportsList `,` ExportSpecifier" "",
  puk3 "HexDigits" "HexDigits HexDigit" "",
  puk3 "CaseClauses" "CaseClauses CaseClause" "",
  puk3 "VariableDeclarationList" "VariableDeclarationList `,` VariableDeclaration" "",
  puk3 "CallExpression" "CallExpression `.` IdentifierName" "",
  puk3 "TemplateCharacters" "TemplateCharacter TemplateCharacters?" "1",
  puk3 "SingleStringCharacters" "SingleStringCharacter SingleStringCharacters?" "1",
  puk3 "TemplateMiddleList" "TemplateMiddleList TemplateMiddle Expression" "",
  puk3 "PropertyDefinitionList" "PropertyDefinitionList `,` PropertyDefinition" "",
  puk3 "DecimalDigits" "DecimalDigits DecimalDigit" "",
  puk3 "LegacyOctalIntegerLiteral" "LegacyOctalIntegerLiteral OctalDigit" ""]

/-- Which of several referents is meant (pseudocode_semantics.py:3142-3235); `p` is the key of the focus node. -/
def choose (p : Puk) (rs : List Ref) (o : Ordinal) (n : Name) : Option Ref :=
  if n = p.lhs then match o with
    | .derived => if rs.length = 2 then rs[1]? else none
    | .no =>
      if rs.length = 2 then
        if p ∈ meansLeft then rs[0]?
        else if p ∈ meansRight then rs[1]?
        else none
      else none
    | .num _ => none
  else match o with
    | .num k => if 1 ≤ k ∧ k ≤ rs.length then rs[k - 1]? else none
    | _ => none

/-- The assertion about the symbol of the referent (pseudocode_semantics.py:3237-3242). -/
def checked (n : Name) : Ref → Option Ref
  | .absent => some .absent
  | .node (.node s r b cs) => if s = n then some (.node (.node s r b cs)) else none
  | .node .leaf => none

/-- `resolve_focus_reference` (pseudocode_semantics.py:3125-3243) in a frame with this focus node and map; None if an assertion fails. -/
def resolve (p : Puk) (m : FocusMap) (o : Ordinal) (n : Name) : Option Ref :=
  match refs m n with
  | [] => some .absent
  | [r] => match o with
    | .no => checked n r
    | _ => none
  | r :: r' :: rs => match choose p (r :: r' :: rs) o n with
    | none => none
    | some x => checked n x

/-! ## When it is analyzed -/

/-- `prefix`: 'this', '' and 'the', 'the derived', and the number of a word (pseudocode_semantics.py:6244, 6264, 6282, 6294, 6314). -/
inductive Prefix where
  | this
  | bare
  | derived
  | first
  | second
  | third
  | fourth
deriving DecidableEq

/-- `ordinal_num` (pseudocode_semantics.py:6307-6312). -/
def Prefix.num : Prefix → Nat
  | .first => 1
  | .second => 2
  | .third => 3
  | .fourth => 4
  | _ => 0

/-- `named_r_items` (pseudocode_semantics.py:6353-6361): for each of them, whether it is `RHS_SYMBOL_QM`. -/
def named (n : Name) : List Item → List Bool
  | [] => []
  | .plain (.gnt m _) :: its => if m = n then false :: named n its else named n its
  | .qm (.gnt m _) :: its => if m = n then true :: named n its else named n its
  | .plain (.other _ _) :: its => named n its
  | .qm (.other _ _) :: its => named n its

/-- A right-hand side (pseudocode_semantics.py:6351-6431): the number of occurrences if the reference is ambiguous, and whether it may be absent; None if an assertion fails. -/
def sRhs (x : Prefix) (n lhs : Name) (its : List Item) : Option (Option Nat × Bool) :=
  let lhsCount := if lhs = n then 1 else 0
  let os := named n its
  match x with
  | .this => if lhsCount = 1 then some (none, false) else none
  | .bare =>
    let total := lhsCount + os.length
    if total = 0 then some (none, true)
    else some (if total = 1 then none else some total, os.any id)
  | .derived => if lhsCount = 1 ∧ os.length = 1 then some (none, os.any id) else none
  | _ => if lhsCount = 0 ∧ x.num ≤ os.length then some (none, (os[x.num - 1]?).any id) else none

/-- The productions, with the numbers of the production and of the right-hand side. -/
def sites (ps : List (Name × List (List Item))) : List ((Nat × Nat) × Name × List Item) :=
  (ps.zipIdx 1).flatMap (fun p => (p.1.2.zipIdx 1).map (fun r => ((p.2, r.2), p.1.1, r.1)))

/-- The loops (pseudocode_semantics.py:6346-6431). -/
def sLoop (x : Prefix) (n : Name) : List ((Nat × Nat) × Name × List Item) → Option (List ((Nat × Nat) × Nat) × Bool)
  | [] => some ([], false)
  | (at', lhs, its) :: ss => match sRhs x n lhs its with
    | none => none
    | some (e, a) => match sLoop x n ss with
      | none => none
      | some (es, b) => some ((match e with | none => [] | some k => [(at', k)]) ++ es, a || b)

/-- `s_resolve_focus_reference` (pseudocode_semantics.py:6338-6433): the errors (with the place and the number of occurrences), and whether the type includes `T_not_in_node`; None if an assertion fails. -/
def sResolve (x : Prefix) (n : Name) (ps : List (Name × List (List Item))) : Option (List ((Nat × Nat) × Nat) × Bool) :=
  sLoop x n (sites ps)

/-- How `d_exec` calls `resolve_focus_reference` for the same reference (pseudocode_semantics.py:6271, 6288, 6300, 6327); `this` isn't resolved by it. -/
def ordinalOf : Prefix → Ordinal
  | .this | .bare => .no
  | .derived => .derived
  | x => .num x.num

/-- `d_exec` of the references (pseudocode_semantics.py:6247-6251, 6267-6327), in a frame with the focus node `t`. -/
def exec (m : FocusMap) (x : Prefix) (n : Name) : Tree → Option Ref
  | .leaf => none
  | .node s r b cs => match x with
    | .this => if s = n then some (.node (.node s r b cs)) else none
    | _ => resolve ⟨s, r, b⟩ m (ordinalOf x) n

end Verif.Focus
