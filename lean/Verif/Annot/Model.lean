import Verif.Deps.Model
/-!
# Model of the annotation of syntax trees (Pseudocode.py 199-204, 264-312, 314-503)

The result is a tree of the kind that the area Deps starts from.
-/
namespace Verif.Annot

/-- A node of a syntax tree (Pseudocode_Parser.py:517-528): `prod.lhs_s`, `prod.rhs_s`, `source_text()` and the children that are nodes; only productions for terminals have children that
are strings. -/
inductive RNode where
  | node (lhs rhs text : String) (kids : List RNode)

def RNode.lhs : RNode → String
  | .node l _ _ _ => l
def RNode.rhs : RNode → String
  | .node _ r _ _ => r
def RNode.text : RNode → String
  | .node _ _ t _ => t
def RNode.kids : RNode → List RNode
  | .node _ _ _ ks => ks

/-! ### Which operations a node invokes -/

/-- `exes_in_exlist` (Pseudocode.py:489-503). -/
def exes : RNode → Option (List RNode)
  | .node l r _ kids =>
    if l ≠ "{EXLIST}" then none
    else if r = "{EX}" then match kids with
      | [x] => some [x]
      | _ => none
    else if r = "{EXLIST}, {EX}" then match kids with
      | [inner, x] => (exes inner).map (· ++ [x])
      | _ => none
    else none

/-- `exes_in_exlist_opt` (Pseudocode.py:477-487). -/
def exesOpt : RNode → Option (List RNode)
  | .node l r _ kids =>
    if l ≠ "{EXLIST_OPT}" then none
    else if r = "{EPSILON}" then some []
    else if r = "{EXLIST}" then match kids with
      | [e] => exes e
      | _ => none
    else if r = "{var}" then match kids with
      | x :: _ => some [x]
      | [] => none
    else none

/-- Pseudocode.py:337-340. -/
def isdoForms : List String := ["the {ISDO_NAME} of {PROD_REF}", "{ISDO_NAME} of {PROD_REF}"]

/-- Pseudocode.py:346-354. -/
def capForms : List String := ["the {cap_word} of {LOCAL_REF}", "the {cap_word} of {LOCAL_REF} (see {h_emu_xref})", "the {cap_word} of {LOCAL_REF} as defined in {h_emu_xref}",
  "the {cap_word} of {LOCAL_REF} {WITH_ARGS}", "{cap_word} of {LOCAL_REF}", "{cap_word} of {LOCAL_REF} {WITH_ARGS}", "the result of performing {cap_word} on {EX}"]

/-- Pseudocode.py:323-334. -/
def innerForms : List String := ["{h_emu_meta_start}{NAMED_OPERATION_INVOCATION}{h_emu_meta_end}", "{h_emu_meta_start}{NAMED_OPERATION_INVOCATION}{h_emu_meta_end} (see {h_emu_xref})",
  "{PREFIX_PAREN}"]

/-- Pseudocode.py:371-375. -/
def fixedForms : List (String × String) := [("the CharSet returned by {h_emu_grammar}", "CompileToCharSet"), ("{LOCAL_REF} Contains {G_SYM}", "Contains"),
  ("{LOCAL_REF} Contains {var}", "Contains")]

/-- Pseudocode.py:366. -/
def byName : String := "the abstract operation named by {DOTTING} using the elements of {DOTTING} as its arguments"

/-- An annotation: the names of the operations, and the arguments. -/
abbrev Note := List String × List RNode

/-- The further arguments (Pseudocode.py:358-364). -/
def withArgs (rhs : String) (kids : List RNode) : Option (List RNode) :=
  if Deps.occursIn "{WITH_ARGS}".toList rhs.toList then match kids[2]? with
    | none => none
    | some (RNode.node l r _ xs) =>
      if l ≠ "{WITH_ARGS}" then none
      else some (if Deps.occursIn "{PASSING}".toList r.toList then xs.drop 1 else xs)
  else some []

/-- A `{NAMED_OPERATION_INVOCATION}` (Pseudocode.py:320-377).  `none`: an exception; `some none`: no annotation. -/
def noteNoi (r : String) (kids : List RNode) : Option (Option Note) :=
  if innerForms.contains r then some none
  else if isdoForms.contains r then match kids with
    | w :: x :: _ => if w.rhs = "{cap_word}" then some (some ([w.text], [x])) else none
    | _ => none
  else if capForms.contains r then match kids with
    | w :: x :: _ => (withArgs r kids).map (fun more => some ([w.text], x :: more))
    | _ => none
  else if r = byName then match kids with
    | _ :: x :: _ => some (some (["ScriptEvaluationJob", "TopLevelModuleEvaluationJob"], [x]))
    | _ => none
  else match fixedForms.lookup r with
    | some n => some (some ([n], kids))
    | none => none

/-- Pseudocode.py:407-417. -/
def conversions : List String := ["ToInt8", "ToUint8", "ToUint8Clamp", "ToInt16", "ToUint16", "ToInt32", "ToUint32", "ToBigInt64", "ToBigUint64"]

/-- Pseudocode.py:421-446. -/
def operators : List String := ["Number::exponentiate", "BigInt::exponentiate", "Number::multiply", "BigInt::multiply", "Number::divide", "BigInt::divide", "Number::remainder",
  "BigInt::remainder", "Number::add", "BigInt::add", "Number::subtract", "BigInt::subtract", "Number::leftShift", "BigInt::leftShift", "Number::signedRightShift",
  "BigInt::signedRightShift", "Number::unsignedRightShift", "BigInt::unsignedRightShift", "Number::bitwiseAND", "BigInt::bitwiseAND", "Number::bitwiseXOR", "BigInt::bitwiseXOR",
  "Number::bitwiseOR", "BigInt::bitwiseOR"]

/-- The name before the parenthesis (Pseudocode.py:386-454); `whole` is the text of the invocation.  `some none`: no names. -/
def opNames (whole : String) : RNode → Option (Option (List String))
  | .node _ r t kids =>
    if r = "{SIMPLE_OPERATION_NAME}" then some (some [t])
    else if r = "{DOTTING}" then match kids with
      | [dotting] => match dotting with
        | .node _ _ _ [_, dsbn] => some (some (if dsbn.text = "[[ModifyOp]]" ∨ dsbn.text = "[[ReadsBytesFrom]]" then [] else [dsbn.text]))
        | _ => none
      | _ => none
    else if r = "{var}.{cap_word}" then match kids with
      | [_, w] => some (some [w.text])
      | _ => none
    else if r = "{var}" then
      if t = "_conversionOperation_" then some (some conversions)
      else if t = "_operation_" then if whole = "_operation_(_leftNumber_, _rightNumber_)" then some (some operators) else none
      else some none
    else none

/-- The marks around a name are left out (Pseudocode.py:383-384). -/
def unwrap : RNode → Option RNode
  | .node l r t kids =>
    if r = "{h_emu_meta_start}{OPN_BEFORE_PAREN}{h_emu_meta_end}" then match kids with
      | [_, x, _] => some x
      | _ => none
    else some (.node l r t kids)

/-- The arguments in parentheses (Pseudocode.py:456-461). -/
def argList : RNode → Option (List RNode)
  | .node l r t kids =>
    if l = "{EXLIST_OPT}" then exesOpt (.node l r t kids)
    else if l = "{EXPR}" then some [.node l r t kids]
    else none

/-- A `{PREFIX_PAREN}` (Pseudocode.py:379-461). -/
def notePrefix (r text : String) (kids : List RNode) : Option (Option Note) :=
  if r = "{OPN_BEFORE_PAREN}({EXLIST_OPT})" ∨ r = "{OPN_BEFORE_PAREN}({EXPR})" then match kids with
    | [o, l] =>
      if o.lhs ≠ "{OPN_BEFORE_PAREN}" then none else do
      let o' ← unwrap o
      let ns ← opNames text o'
      let args ← argList l
      some (ns.map (fun n => (n, args)))
    | _ => none
  else none

/-- Pseudocode.py:463, 467, 471. -/
def raceProd : String := "{CONDITION_1} : {var} and {var} are in a race in {var}"
def fieldsProd : String := "{COMMAND} : Set fields of {var} with the values listed in {h_emu_xref}. {the_field_names_are_the_names_listed_etc}"
def abruptProd : String := "{COMMAND} : IfAbruptRejectPromise({var}, {var})."

/-- The body of the loop of `annotate_invocations` (Pseudocode.py:318-475); `str(prod)` is in Pseudocode_Parser.py:101-102. -/
def note : RNode → Option (Option Note)
  | .node l r t kids =>
    if l = "{NAMED_OPERATION_INVOCATION}" then noteNoi r kids
    else if l = "{PREFIX_PAREN}" then notePrefix r t kids
    else if l ++ " : " ++ r = raceProd then some (some (["Races"], []))
    else if l ++ " : " ++ r = fieldsProd then some (some (["CreateBuiltinFunction", "initializer for @@unscopables"], []))
    else if l ++ " : " ++ r = abruptProd then some (some (["IfAbruptRejectPromise"], kids.take 2))
    else some none

/-! ### Which elements nodes stand for -/

/-- An element of the document: its name, the children, and the syntax tree of the element, if it has one. -/
inductive HNode where
  | node (name : String) (tree : Option Deps.ANode) (kids : List HNode)

def HNode.name : HNode → String
  | .node n _ _ => n
def HNode.tree : HNode → Option Deps.ANode
  | .node _ t _ => t
def HNode.kids : HNode → List HNode
  | .node _ _ ks => ks

/-- Pseudocode.py:266-273. -/
def pairs : List (String × String) := [("emu-grammar", "{h_emu_grammar}"), ("emu-alg", "{h_emu_alg}"), ("figure", "{h_figure}"), ("a", "{h_a}"), ("pre", "{h_pre_code}")]

mutual
/-- `each_descendant` (HTML.py:230-233) and the node itself, with the places. -/
def hWalk : HNode → List (List Nat × HNode)
  | .node n t ks => ([], .node n t ks) :: hWalks 1 ks
def hWalks : Nat → List HNode → List (List Nat × HNode)
  | _, [] => []
  | k, t :: ts => (hWalk t).map (fun e => (k :: e.1, e.2)) ++ hWalks (k + 1) ts
end

mutual
/-- `each_descendant_or_self` (Pseudocode_Parser.py:558-566), with the places. -/
def rWalk : RNode → List (List Nat × RNode)
  | .node l r t ks => ([], .node l r t ks) :: rWalks 1 ks
def rWalks : Nat → List RNode → List (List Nat × RNode)
  | _, [] => []
  | k, t :: ts => (rWalk t).map (fun e => (k :: e.1, e.2)) ++ rWalks (k + 1) ts
end

/-- `connect_anodes_to_hnodes` (Pseudocode.py:264-310): the places of nodes with the elements they are connected to; `none` is a failed assert. -/
def connect (h : HNode) (t : RNode) : Option (List (List Nat × HNode)) :=
  let hs := ((hWalks 1 h.kids).map (·.2)).filter (fun x => (pairs.map (·.1)).contains x.name)
  let as := (rWalks 1 t.kids).filter (fun x => (pairs.map (·.2)).contains x.2.lhs)
  if as.length ≠ hs.length then none
  else if (hs.zip as).all (fun z => pairs.contains (z.1.name, z.2.2.lhs)) then some ((hs.zip as).map (fun z => (z.2.1, z.1))) else none

mutual
/-- The tree with the attributes `_op_invocation` and `_hnode._syntax_tree`. -/
def build (m : List (List Nat × HNode)) (p : List Nat) : RNode → Option Deps.ANode
  | .node l r t ks => do
    let x ← note (.node l r t ks)
    let ks' ← builds m p 1 ks
    some (.node ⟨l, r, t, x.map (·.1)⟩ ks' ((m.lookup p).bind HNode.tree))
def builds (m : List (List Nat × HNode)) (p : List Nat) : Nat → List RNode → Option (List Deps.ANode)
  | _, [] => some []
  | k, t :: ts => do
    let x ← build m (p ++ [k]) t
    let y ← builds m p (k + 1) ts
    some (x :: y)
end

/-- The last lines of `parse` (Pseudocode.py:203-204) for a tree that the parser returned. -/
def process (h : HNode) (t : RNode) : Option Deps.ANode := do
  let m ← connect h t
  build m [] t

end Verif.Annot
