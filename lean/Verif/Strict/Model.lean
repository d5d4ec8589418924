import Verif.Common
/-!
# Model of what is asked about the places of parse nodes (pseudocode_semantics.py)

Strict mode code, nesting within statements and functions, the goal symbol, and duplicates of `__proto__`.
-/
namespace Verif.Strict

abbrev Str := List Char

/-- `ES_ParseNode` (es_parser.py:1945-2060): `symbol`, which is not a string for terminals (None here), `text()` and `children`. -/
inductive PTree where
  | mk (sym : Option String) (text : Str) (kids : List PTree)

/-- `symbol` (es_parser.py:1945-2060). -/
def PTree.sym : PTree → Option String
  | .mk s _ _ => s

/-- `text` (es_parser.py:2057-2058). -/
def PTree.text : PTree → Str
  | .mk _ x _ => x

/-- `children` (es_parser.py:1945-2060). -/
def PTree.kids : PTree → List PTree
  | .mk _ _ cs => cs

mutual
/-- `unit_derives_a` (es_parser.py:2081-2088). -/
def unitA (s : String) : PTree → Option PTree
  | .mk sym x cs => if sym = some s then some (.mk sym x cs) else unitAs s cs

/-- `[child] = self.children`, or `return None` (es_parser.py:2084-2088). -/
def unitAs (s : String) : List PTree → Option PTree
  | [] => none
  | [c] => unitA s c
  | _ :: _ :: _ => none
end

/-- `symbol.endswith(suffix)` (pseudocode_semantics.py:13167-13176); a terminal's symbol has no such method, and that is false here since it is only asserted. -/
def endsWith (suffix : String) : Option String → Bool
  | none => false
  | some s => suffix.toList.isSuffixOf s.toList

/-- `each_item_in_left_recursive_list` (pseudocode_semantics.py:13165-13180); None is a failed assertion.  They are all checked before the first item is yielded. -/
def items : PTree → Option (List PTree)
  | .mk s _ [i] => if endsWith "List" s && endsWith "Item" i.sym then some [i] else none
  | .mk s _ [l, i] => if endsWith "List" s && endsWith "List" l.sym && endsWith "Item" i.sym then (items l).map (· ++ [i]) else none
  | _ => none

/-- `has_the_shape_of_a_Directive_Prologue_item` (pseudocode_semantics.py:13117-13124); the first None is an exception. -/
def prologueItem (i : PTree) : Option (Option PTree) :=
  if i.sym = some "StatementListItem" ∨ i.sym = some "ModuleItem" then
    match unitA "ExpressionStatement" i with
    | none => some none
    | some e => match e.kids with
      | [ex, _] => some (unitA "StringLiteral" ex)
      | _ => none
  else none

/-- The loop (pseudocode_semantics.py:13150-13163). -/
def scan : List PTree → Option Bool
  | [] => some false
  | i :: is =>
    if i.sym = some "StatementListItem" then
      match prologueItem i with
      | none => none
      | some none => some false
      | some (some l) => if l.text = "\"use strict\"".toList ∨ l.text = "'use strict'".toList then some true else scan is
    else none

/-- The end of `begins_with_a_DP_that_contains_a_USD` (pseudocode_semantics.py:13145-13163). -/
def beginsList (p : PTree) : Option Bool :=
  if p.sym = some "Script" ∨ p.sym = some "FunctionBody" ∨ p.sym = some "GeneratorBody" then
    match unitA "StatementList" p with
    | none => some false
    | some l => (items l).bind scan
  else none

/-- `begins_with_a_DP_that_contains_a_USD` (pseudocode_semantics.py:13107-13163); None is a failed assertion. -/
def begins (p : PTree) : Option Bool :=
  if p.sym = some "ConciseBody" ∨ p.sym = some "AsyncConciseBody" then
    match p.kids with
    | [e] => if e.sym = some "ExpressionBody" then some false else none
    | [_, b, _] => if b.sym = some "FunctionBody" ∨ b.sym = some "AsyncFunctionBody" then beginsList b else none
    | _ => none
  else beginsList p

/-- `children[-2]` (pseudocode_semantics.py:13076-13083). -/
def lastButOne (cs : List PTree) : Option PTree :=
  match cs.reverse with
  | _ :: b :: _ => some b
  | _ => none

/-- The body of a function (pseudocode_semantics.py:13067-13083); None is a failed assertion. -/
def bodyOf (n : PTree) : Option PTree :=
  if n.sym = some "ArrowFunction" ∨ n.sym = some "AsyncArrowFunction" then
    match n.kids.getLast? with
    | some b => if b.sym = some "ConciseBody" ∨ b.sym = some "AsyncConciseBody" then some b else none
    | none => none
  else if n.sym = some "MethodDefinition" then
    match n.kids with
    | [c] =>
      if c.sym = some "GeneratorMethod" ∨ c.sym = some "AsyncMethod" ∨ c.sym = some "AsynGeneratorMethod" then
        match lastButOne c.kids with
        | some b => if b.sym = some "GeneratorBody" ∨ b.sym = some "AsyncFunctionBody" ∨ b.sym = some "AsyncGeneratorBody" then some b else none
        | none => none
      else none
    | cs => match lastButOne cs with
      | some b => if b.sym = some "FunctionBody" then some b else none
      | none => none
  else match lastButOne n.kids with
    | some b => if b.sym = some "FunctionBody" ∨ b.sym = some "GeneratorBody" then some b else none
    | none => none

/-- The symbols of functions (pseudocode_semantics.py:13052-13064, 4931-4943). -/
def functions : List String :=
  ["FunctionDeclaration", "FunctionExpression", "GeneratorDeclaration", "GeneratorExpression", "AsyncFunctionDeclaration", "AsyncFunctionExpression",
   "AsyncGeneratorDeclaration", "AsyncGeneratorExpression", "MethodDefinition", "ArrowFunction", "AsyncArrowFunction"]

/-- Whether the symbol is in a list of names. -/
def among (ss : List String) : Option String → Bool
  | none => false
  | some s => ss.contains s

/-- The node's own part in `is_strict` (pseudocode_semantics.py:13023-13086). -/
def selfStrict (n : PTree) : Option Bool :=
  if among ["ModuleBody", "ClassDeclaration", "ClassExpression"] n.sym then some true
  else if n.sym = some "Script" then begins n
  else if among functions n.sym then (bodyOf n).bind begins
  else some false

/-- A place: a tree and the way to a node in it; if its root has a `covering_thing` (pseudocode_semantics.py:5064), the place of that comes next, and so on. -/
abbrev Loc := List (PTree × List Nat)

/-- The node and its ancestors, from the node on, in one tree (`parent`, `each_ancestor`: es_parser.py:2090-2094). -/
def ups : PTree → List Nat → Option (List PTree)
  | t, [] => some [t]
  | t, i :: p => match t.kids[i]? with
    | none => none
    | some c => (ups c p).map (· ++ [t])

/-- The nodes that `is_strict` goes through, with whether each is a root (pseudocode_semantics.py:13096-13105). -/
def chain : Loc → Option (List (PTree × Bool))
  | [] => some []
  | (t, p) :: rest => do
    let us ← ups t p
    let more ← chain rest
    return us.dropLast.map (·, false) ++ [(t, true)] ++ more

/-- `is_strict` (pseudocode_semantics.py:13012-13105); None is a failed assertion.  NYI is 0. -/
def strictIn : List (PTree × Bool) → Option Bool
  | [] => some false
  | (n, root) :: up =>
    match selfStrict n with
    | none => none
    | some true => some true
    | some false => if root && among ["FormalParameters", "UniqueFormalParameters"] n.sym then none else strictIn up

/-- `is_strict` (pseudocode_semantics.py:13012-13105). -/
def isStrict (l : Loc) : Option Bool := (chain l).bind strictIn

/-- "the goal symbol of the syntactic grammar is" (pseudocode_semantics.py:4170-4188). -/
def goalIs (nt : String) (l : Loc) : Option Bool :=
  if nt = "Script" ∨ nt = "Module" then
    match chain l with
    | none => none
    | some c => match c.getLast? with
      | none => none
      | some (r, _) => if r.sym = some "Script" ∨ r.sym = some "Module" then some (decide (r.sym = some nt)) else none
  else none

/-- The loop of `node_is_nested_but_not_crossing_function_boundaries_within_a` (pseudocode_semantics.py:4958-4962). -/
def nestedIn (targets : List String) : List PTree → Bool
  | [] => false
  | a :: up => if among targets a.sym then true else if among (functions ++ ["ClassStaticBlock"]) a.sym then false else nestedIn targets up

/-- `node_is_nested_but_not_crossing_function_boundaries_within_a` (pseudocode_semantics.py:4930-4962); None is a failed assertion. -/
def nested (targets : List String) (t : PTree) (p : List Nat) : Option Bool :=
  match ups t p with
  | some (n :: anc) =>
    if targets.any (fun s => (functions ++ ["ClassStaticBlock"]).contains s) then none
    else if among targets n.sym then none
    else some (nestedIn targets anc)
  | _ => none

/-- "the … containing" (pseudocode_semantics.py:4849-4859); None is a failed assertion. -/
def containing (s : String) (t : PTree) (p : List Nat) : Option PTree :=
  match ups t p with
  | some (_ :: anc) => match anc.filter (fun a => decide (a.sym = some s)) with
    | [a] => some a
    | _ => none
  | _ => none

/-- `each_PD_in_PDL` (pseudocode_semantics.py:13250-13261), where the number of children tells the production. -/
def definitions : PTree → Option (List PTree)
  | .mk s _ [d] => if s = some "PropertyDefinitionList" then some [d] else none
  | .mk s _ [l, _, d] => if s = some "PropertyDefinitionList" then (definitions l).map (· ++ [d]) else none
  | _ => none

/-- The condition about duplicates (pseudocode_semantics.py:13233-13275): `names` is the list, `propName` gives the name of a definition and `form` tells those of the given
production; None is an exception. -/
def duplicates {V : Type} [DecidableEq V] (propName : PTree → Option V) (form : PTree → Bool) (names : List V) (v : V) (pdl : PTree) : Option Bool :=
  if names.count v ≤ 1 then some false
  else do
    let ds ← definitions pdl
    let n ← ds.foldlM (fun n d => do
      if d.sym = some "PropertyDefinition" then
        let x ← propName d
        return if x = v ∧ form d = true then n + 1 else n
      else none) 0
    return decide (n ≥ 2)

end Verif.Strict
