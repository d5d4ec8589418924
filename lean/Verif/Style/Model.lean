import Verif.Annot.Model
/-!
# Model of two checks of style (Pseudocode.py 622-832)
-/
namespace Verif.Style
open Annot (RNode rWalk)

/-! ### If-commands -/

/-- `each_if_arm` (Pseudocode.py:674-704); `none` is a failed assert or unpacking. -/
def arms : RNode → Option (List RNode)
  | .node l r _ kids =>
    if l = "{IF_CLOSED}" then
      if kids.all (fun c => c.lhs == "{SMALL_COMMAND}" || c.lhs == "{CONDITION}") then some (kids.filter (fun c => c.lhs == "{SMALL_COMMAND}")) else none
    else if l = "{IF_OTHER}" then
      if r ≠ "{IF_OPEN}{IF_TAIL}" then none else match kids with
      | [o, t] => do
        let xs ← arms o
        let ys ← arms t
        some (xs ++ ys)
      | _ => none
    else if l = "{IF_OPEN}" ∨ l = "{ELSEIF_PART}" then match kids with
      | [_, c] => if c.lhs = "{IND_COMMANDS}" ∨ c.lhs = "{SMALL_COMMAND}" then some [c] else none
      | _ => none
    else if l = "{IF_TAIL}" then
      if r = "{EPSILON}" then if kids.isEmpty then some [] else none
      else if r = "{_NL_N} {ELSEIF_PART}{IF_TAIL}" then match kids with
        | [e, t] => do
          let xs ← arms e
          let ys ← arms t
          some (xs ++ ys)
        | _ => none
      else if r = "{_NL_N} {ELSE_PART}" then match kids with
        | [e] => arms e
        | _ => none
      else none
    else if l = "{ELSE_PART}" then match kids.getLast? with
      | some c => if c.lhs = "{IND_COMMANDS}" ∨ c.lhs = "{SMALL_COMMAND}" ∨ c.lhs = "{COMMAND}" then some [c] else none
      | none => none
    else none

/-- Comparison of strings: by code points. -/
def le : List Char → List Char → Bool
  | [], _ => true
  | _ :: _, [] => false
  | a :: s, b :: t => if a = b then le s t else decide (a.toNat < b.toNat)

/-- `min`, from the first on. -/
def minOf (x : List Char) : List (List Char) → List Char
  | [] => x
  | y :: ys => minOf (if le x y then x else y) ys
/-- `max`, from the first on. -/
def maxOf (x : List Char) : List (List Char) → List Char
  | [] => x
  | y :: ys => maxOf (if le y x then x else y) ys

/-- The loop of `os.path.commonprefix`; `none` is an index out of range. -/
def common : List Char → List Char → Option (List Char)
  | [], _ => some []
  | _ :: _, [] => none
  | a :: s, b :: t => if a = b then (common s t).map (a :: ·) else some []

/-- `os.path.commonprefix` of Python: compares the least and the greatest string. -/
def commonPrefix : List (List Char) → Option (List Char)
  | [] => some []
  | x :: xs => common (minOf x xs) (maxOf x xs)

/-- A match of `_\w+_` and then `after`, at the start; `w` is `\w`.  The quantifier is greedy, and gives back characters until the rest matches: any way to split will do. -/
def varThen (w : Char → Bool) (after : List Char) : List Char → Bool
  | '_' :: s => (List.range s.length).any (fun n => n != 0 && (s.take n).all w && (('_' :: after).isPrefixOf (s.drop n)))
  | _ => false

/-- `re.match(r'return |let _\w+_ be |set _\w+_ to ', pre)` (Pseudocode.py:669). -/
def doesSame (w : Char → Bool) (pre : List Char) : Bool :=
  "return ".toList.isPrefixOf pre ||
  ("let ".toList.isPrefixOf pre && varThen w " be ".toList (pre.drop 4)) ||
  ("set ".toList.isPrefixOf pre && varThen w " to ".toList (pre.drop 4))

inductive IfMsg where
  | unbalanced (d : RNode) (kinds : List String)
  | notSame (d : RNode)

/-- `len(set(kinds)) == 1`, for more than one. -/
def oneKind : List String → Bool
  | [] => false
  | k :: ks => ks.all (· == k)

/-- The body of the loop (Pseudocode.py:640-672). -/
def checkIf (w : Char → Bool) (d : RNode) : Option (List IfMsg) :=
  if d.lhs = "{IF_OTHER}" then match arms d with
    | none => none
    | some as =>
      if as.length = 0 then none
      else if as.length = 1 then some []
      else if oneKind (as.map RNode.lhs) then some []
      else some [.unbalanced d (as.map RNode.lhs)]
  else if d.lhs = "{IF_CLOSED}" then match arms d with
    | none => none
    | some as =>
      if as.length ≤ 1 then none else match commonPrefix (as.map (fun a => a.text.toList)) with
      | none => none
      | some pre => some (if doesSame w pre then [] else [.notSame d])
  else some []

/-- Algorithms: the name, and for each definition its trees. -/
structure Alg where
  name : String
  defns : List (List (Option RNode))

def insertAlg (a : Alg) : List Alg → List Alg
  | [] => [a]
  | b :: bs => if a.name ≤ b.name then a :: b :: bs else b :: insertAlg a bs

/-- `sorted(spec.alg_info_[...].items())`; the keys, which are the names, are different. -/
def sortAlgs (as : List Alg) : List Alg := as.foldr insertAlg []

/-- The trees, in the order of the three loops (Pseudocode.py:631-638). -/
def treesOf (as : List Alg) : List RNode := as.flatMap (fun a => a.defns.flatMap (fun ts => ts.filterMap id))

/-- The loop over the nodes of a tree (Pseudocode.py:639-672). -/
def checkIfTree (w : Char → Bool) (t : RNode) : Option (List IfMsg) := ((rWalk t).mapM (fun e => checkIf w e.2)).map List.flatten

/-- `check_for_unbalanced_ifs` (Pseudocode.py:625-672). -/
def checkIfs (w : Char → Bool) (ops bifs : List Alg) : Option (List IfMsg) :=
  ((treesOf (sortAlgs ops ++ sortAlgs bifs)).mapM (checkIfTree w)).map List.flatten

/-! ### Descriptions of values -/

/-- Pseudocode.py:814-822. -/
def multiForms : List String := ["ECMAScript source text", "source text", "the Environment Record for a |Catch| clause", "the execution context of a generator",
  "the single code point {code_point_lit} or {code_point_lit}", "the {nonterminal} of an? {nonterminal}"]
/-- Pseudocode.py:824-830. -/
def singleForms : List String := ["-1", "{LITERAL_ISH}", "{LITERAL}", "{nonterminal}"]
/-- Pseudocode.py:811. -/
def multiStarts : List String := ["a ", "an ", "an? ", "any", "some "]

/-- `single_or_multi` (Pseudocode.py:804-832). -/
def singleOrMulti : RNode → Option Char
  | .node l r _ _ =>
    if l ≠ "{VAL_DESC}" then none
    else if multiStarts.any (fun p => Deps.startsWith p r) then some 'M'
    else if multiForms.contains r then some 'M'
    else if singleForms.contains r then some 'S'
    else none

/-- Pseudocode.py:759-764. -/
def proseProds : List String := ["{CONDITION_1} : {EX} is {VALUE_DESCRIPTION}", "{CONDITION_1} : {EX} is not {VALUE_DESCRIPTION}",
  "{VAL_DESC} : a normal completion containing {VALUE_DESCRIPTION}", "{VAL_DESC} : an Abstract Closure that takes {VAL_DESC} and {VAL_DESC} and returns {VALUE_DESCRIPTION}"]

def prod (d : RNode) : String := d.lhs ++ " : " ++ d.rhs

/-- Pseudocode.py:771-777. -/
def isDecl (g : RNode) : Bool :=
  ["{OP_SIGNATURE}", "{PARAMETER_DECL}", "{FIELD_VALUE_TYPE}"].contains g.lhs || Deps.startsWith "{VAL_DESC} : a Record with fields" (prod g) ||
  prod g == "{VALUE_DESCRIPTION} : {VAL_DESC}, but not {VALUE_DESCRIPTION}"

/-- The preferred prefix (Pseudocode.py:758-788). -/
def preferred (g d : RNode) (sm : List Char) : Option String :=
  if proseProds.contains (prod g) then some (if sm.length ≥ 3 && sm.all (· == 'S') then "one of" else "either")
  else if isDecl g then match d.kids with
    | v :: _ => some (if v.rhs = "a normal completion containing {VALUE_DESCRIPTION}" then "either" else "")
    | [] => none
  else none

/-- `s.endswith(suf)`, `s.removesuffix(suf).rstrip()` (Pseudocode.py:753-754); `sp` are the characters that `rstrip` removes. -/
def prefixOf (sp : Char → Bool) (s : String) : Option String :=
  let suf := "{VAL_DESC_DISJUNCTION}".toList
  if suf.isSuffixOf s.toList then some (String.ofList (((s.toList.take (s.toList.length - suf.length)).reverse.dropWhile sp).reverse)) else none

inductive VdMsg where
  | order (d : RNode) (sm : String)
  | pre (d : RNode) (should is : String)

/-- `re.fullmatch(r'(M*)(S*)', sm)`. -/
def inOrder (sm : List Char) : Bool := (sm.dropWhile (· == 'M')).all (· == 'S')

/-- `check_val_desc_disjunction` (Pseudocode.py:724-794); `p` is the parent and `g` the parent of that.  The first message is written before an assert can fail; as the program then stops, it is
left out. -/
def checkVd (sp : Char → Bool) (g p : Option RNode) (d : RNode) : Option (List VdMsg) := do
  let sm ← d.kids.mapM singleOrMulti
  let p ← p
  if p.lhs ≠ "{VALUE_DESCRIPTION}" then none else do
  let is ← prefixOf sp p.rhs
  let g ← g
  let should ← preferred g d sm
  some ((if inOrder sm then [] else [.order d (String.ofList sm)]) ++ (if is ≠ should then [.pre d should is] else []))

mutual
/-- The traversal with the two nodes above (`parent`: Pseudocode_Parser.py:530-535; `each_descendant_or_self`: 558-566). -/
def upWalk (g p : Option RNode) : RNode → List (Option RNode × Option RNode × RNode)
  | .node l r t ks => (g, p, .node l r t ks) :: upWalks p (.node l r t ks) ks
def upWalks (g : Option RNode) (p : RNode) : List RNode → List (Option RNode × Option RNode × RNode)
  | [] => []
  | t :: ts => upWalk g (some p) t ++ upWalks g p ts
end

/-- `visit`, for one tree (Pseudocode.py:715-720). -/
def checkVdTree (sp : Char → Bool) (t : RNode) : Option (List VdMsg) :=
  (((upWalk none none t).filter (fun e => e.2.2.lhs == "{VAL_DESC_DISJUNCTION}")).mapM (fun e => checkVd sp e.1 e.2.1 e.2.2)).map List.flatten

/-- The document: the trees of the elements, and the children. -/
inductive Doc where
  | node (tree : Option RNode) (kids : List Doc)

mutual
/-- `preorder_traversal` (shared.py:85-95). -/
def docTrees : Doc → List RNode
  | .node t ks => t.toList ++ docTreess ks
def docTreess : List Doc → List RNode
  | [] => []
  | d :: ds => docTrees d ++ docTreess ds
end

/-- `check_value_descriptions` (Pseudocode.py:711-722). -/
def checkVds (sp : Char → Bool) (d : Doc) : Option (List VdMsg) := ((docTrees d).mapM (checkVdTree sp)).map List.flatten

end Verif.Style
