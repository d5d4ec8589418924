import Verif.Env.Model
/-!
# Model of the checks of arguments and operands in the static type analysis (pseudocode_semantics.py)

As in `Verif.Env`, an environment only has entries for variables: where the program enters the type of another expression by its text, nothing is entered here.
-/
namespace Verif.Calls
open Verif.Types Verif.Env

variable {K X T C : Type} [DecidableEq K] (L : Lang K X T C)

/-- `with_expr_type_replaced` (pseudocode_semantics.py:902-907). -/
def replaced (env : Env K) (e : Expr X) (t : Ty) : Env K :=
  match e with
  | .var x => env.set (.var x) t
  | .other _ => env

/-- The texts that `ensure_expr_is_of_type_` treats separately (pseudocode_semantics.py:832-841). -/
inductive Text where
  | null
  | undefined
  | empty
  | other
deriving DecidableEq

/-- `expr.source_text()`; that of a variable is none of those. -/
def textOf (txt : X → Text) : Expr X → Text
  | .var _ => .other
  | .other e => txt e

/-- `assert_expr_is_of_type` (pseudocode_semantics.py:783-805). -/
def assertType (e : Expr X) (expected : Ty) (env : Env K) : M K Ty :=
  if tyEq expected .tbd then M.fail
  else do
    let (t, _) ← tcExpr L e env
    if tyEq t .tbd then do
      report .isTBD
      M.pure t
    else do
      let b ← isSub L t expected
      if b then M.pure t else M.fail

/-- `ensure_expr_is_of_type_` (pseudocode_semantics.py:813-845); `ensure_expr_is_of_type` (809-811) gives the environment. -/
def ensureType (txt : X → Text) (e : Expr X) (expected : Ty) (env : Env K) : M K (Ty × Env K) :=
  if tyEq expected .tbd then M.fail
  else do
    let (t, env1) ← tcExpr L e env
    if tyEq t .tbd then M.pure (expected, replaced env1 e expected)
    else do
      let b ← isSub L t expected
      if b then M.pure (t, env1)
      else do
        report .wrongType
        match textOf txt e with
        | .null => M.fail
        | .undefined => M.pure (t, env1)
        | .empty => M.pure (t, env1)
        | .other => M.pure (expected, replaced env1 e expected)

/-! ## Arguments -/

/-- `T_not_passed`. -/
def notPassed : Ty := .hier "not_passed"

/-- `(not_passed_part_of_param_type, passed_part_of_param_type)` (pseudocode_semantics.py:2369-2374). -/
def paramParts (t : Ty) : Option (Ty × Ty) :=
  if tyEq t .tbd then some (.tbd, .tbd) else splitBy L.cfg L.ord t notPassed

/-- What happens to an argument of a given type for a parameter that takes `pt` (pseudocode_semantics.py:2397-2435): the environment. -/
def checkArg (txt : X → Text) (name : String) (pt : Ty) (arg : Expr X) (t : Ty) (env1 : Env K) : M K (Env K) :=
  if tyEq pt .tbd then M.pure env1
  else if tyEq t .tbd then do
    let (_, env2) ← ensureType L txt arg pt env1
    M.pure env2
  else do
    let b ← isSub L t pt
    if b then M.pure env1
    else if tyEq t (.hier "List") && isListType pt then M.pure env1
    else do
      report (.argType name)
      M.pure env1

/-- One parameter, with an argument or without (pseudocode_semantics.py:2367-2437): the type of the argument, and the new `out_env`. -/
def tcArg (txt : X → Text) (p : String × Ty) (arg : Option (Expr X)) (env0 out : Env K) : M K (Option Ty × Env K) := do
  let (np, pt) ← M.lift (paramParts L p.2)
  match arg with
  | none => do
    reportIf (tyEq np T0) (.noArg p.1)
    M.pure (none, out)
  | some a => do
    let (t, env1) ← tcExpr L a env0
    let env2 ← checkArg L txt p.1 pt a t env1
    let out' ← M.lift (envAnd L.cfg L.ord (some out) (some env2))
    match out' with
    | some out' => M.pure (some t, out')
    | none => M.fail

/-- The loop over `zip_longest(params, args)`, where there are not more arguments than parameters. -/
def argsLoop (txt : X → Text) (env0 : Env K) : List (String × Ty) → List (Expr X) → Env K → M K (List Ty × Env K)
  | [], _, out => M.pure ([], out)
  | p :: ps, [], out => do
    let (_, out') ← tcArg L txt p none env0 out
    argsLoop txt env0 ps [] out'
  | p :: ps, a :: as, out => do
    let (t, out') ← tcArg L txt p (some a) env0 out
    let (ts, out'') ← argsLoop txt env0 ps as out'
    M.pure (t.toList ++ ts, out'')

/-- `tc_args` (pseudocode_semantics.py:2362-2439).  The hint `(arg could be abrupt completion?)` of a message is not modelled. -/
def tcArgs (txt : X → Text) (params : List (String × Ty)) (args : List (Expr X)) (env0 : Env K) : M K (List Ty × Env K) :=
  if args.length ≤ params.length then argsLoop L txt env0 params args env0 else M.fail

/-! ## Elements of lists -/

/-- `with_expr_type_narrowed` (pseudocode_semantics.py:1033-1058). -/
def narrow (env : Env K) (e : Expr X) (t : Ty) : M K (Env K) :=
  match e with
  | .var x => narrowed L env x t
  | .other _ => do
    let (xt, env1) ← tcExpr L e env
    let already ← isSub L xt t
    if already then M.pure env1
    else if tyEq xt .tbd then M.pure (replaced env1 e t)
    else do
      let fits ← isSub L t xt
      if fits then M.pure (replaced env1 e t) else M.fail

/-- `list_type.element_type`. -/
def elementType : Ty → Option Ty
  | .list t => some t
  | _ => none

/-- The pairs of types of list and element where `ensure_A_can_be_element_of_list_B` does something special (pseudocode_semantics.py:847-897). -/
inductive Case where
  | shrug          -- 851-853
  | takes          -- 858-859
  | addSymbol      -- 861-864
  | dropUndefined  -- 866-867
  | addUndefined   -- 869-872
  | fromList       -- 877-878
  | dropNull       -- 880-883
  | check          -- 888-891
  | notList        -- 893-898
deriving DecidableEq

/-- Which it is: `list` and `item` are the types, and the flag says whether the list is `_indices_`. -/
def caseOf (list item : Ty) (indices : Bool) : M K Case :=
  if (tyEq list (.hier "List") || tyEq list (.list .tbd)) && tyEq item .tbd then M.pure .shrug
  else if tyEq list (.hier "List") || tyEq list (.list .tbd) || tyEq list .tbd || tyEq list (.list T0) then M.pure .takes
  else if tyEq list (.list (.hier "String")) && tyEq item (.hier "Symbol") then M.pure .addSymbol
  else if tyEq list (.union [.list (.hier "PromiseReaction Record"), .hier "Undefined"]) && tyEq item (.hier "PromiseReaction Record") then M.pure .dropUndefined
  else if tyEq list (.list (.hier "Match Record")) && tyEq item (.hier "Undefined") && indices then M.pure .addUndefined
  else if tyEq item .tbd then M.pure .fromList
  else if tyEq list (.list (.hier "String")) && tyEq item (.union [.hier "String", .hier "Null"]) then M.pure .dropNull
  else do
    let b ← isSub L list (.hier "List")
    M.pure (if b then .check else .notList)

/-- `list_ex.source_text() == '_indices_'`. -/
def isIndices : Expr X → Bool
  | .var x => x = "_indices_"
  | .other _ => false

/-- What is done in each case. -/
def element (txt : X → Text) (item list : Expr X) (it lt : Ty) (env : Env K) : Case → M K (Env K)
  | .shrug => M.pure env
  | .takes => M.pure (replaced env list (.list it))
  | .addSymbol => do
    report .wrongType
    let t ← M.lift (orTy L.cfg L.ord (.hier "String") (.hier "Symbol"))
    M.pure (replaced env list (.list t))
  | .dropUndefined => narrow L env list (.list (.hier "PromiseReaction Record"))
  | .addUndefined => do
    report .wrongType
    let t ← M.lift (orTy L.cfg L.ord (.hier "Match Record") (.hier "Undefined"))
    M.pure (replaced env list (.list t))
  | .fromList => do
    let t ← M.lift (elementType lt)
    M.pure (replaced env item t)
  | .dropNull => do
    report .wrongType
    M.pure (replaced env item (.hier "String"))
  | .check => do
    let t ← M.lift (elementType lt)
    let (_, env') ← ensureType L txt item t env
    M.pure env'
  | .notList => do
    report .notAList
    M.pure env

/-- `ensure_A_can_be_element_of_list_B` (pseudocode_semantics.py:847-900). -/
def canBeElement (txt : X → Text) (item list : Expr X) (env : Env K) : M K (Env K) := do
  let (lt, env1) ← tcExpr L list env
  let (it, env2) ← tcExpr L item env1
  let c ← caseOf L lt it (isIndices list)
  element L txt item list it lt env2 c

end Verif.Calls
