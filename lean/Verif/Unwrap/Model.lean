import Verif.Calls.Model
/-!
# Model of the shorthands for Completion Records in the static type analysis (pseudocode_semantics.py, static_types.py)

`? E` and `! E`, `Throw`, and the commands that return early with an abrupt completion.  As in
`Verif.Calls`, the types of expressions other than variables are not entered in environments.
-/
namespace Verif.Unwrap
open Verif.Types Verif.Env Verif.Calls

/-! ## Types of Completion Records -/

/-- `T_abrupt_completion` (static_types.py:1208). -/
def abruptTy (cfg : Cfg) (ord : List Ty → List Ty) : Option Ty :=
  match orTy cfg ord (completionType "tilde_continue_") (completionType "tilde_break_") with
  | none => none
  | some a => match orTy cfg ord a (completionType "tilde_return_") with
    | none => none
    | some b => orTy cfg ord b (completionType "tilde_throw_")

/-- `ThrowCompletionType` (pseudocode_semantics.py:11413-11420). -/
def throwType (t : Ty) : Ty := .record CRN [("[[Type]]", .hier "tilde_throw_"), ("[[Value]]", t)]

/-- `T_Tangible_ | T_tilde_empty_` (static_types.py:501). -/
def tangibleOrEmpty (cfg : Cfg) (ord : List Ty → List Ty) : Option Ty := orTy cfg ord (.hier "Tangible_") (.hier "tilde_empty_")

/-- `T_String | T_tilde_empty_` (static_types.py:487, 508). -/
def stringOrEmpty (cfg : Cfg) (ord : List Ty → List Ty) : Option Ty := orTy cfg ord (.hier "String") (.hier "tilde_empty_")

/-- `RecordType.type_of_field_named` (static_types.py:458-512).  Of `[[Type]]`, where it is not listed, the
program gives the union of the five; it is then the only field that is not given here. -/
def fieldType (cfg : Cfg) (ord : List Ty → List Ty) (s : String) (fs : Fields) (f : String) : Option Ty :=
  match fs.lookup f with
  | some t => some t
  | none =>
    if s = CRN ∧ (f = "[[Value]]" ∨ f = "[[Target]]") then match fs with
      | [] => if f = "[[Value]]" then some (.hier NormalN) else stringOrEmpty cfg ord
      | (n, t) :: _ => if n = "[[Type]]" then match t with
          | .hier h =>
            if h = "tilde_normal_" then if f = "[[Value]]" then some (.hier NormalN) else some (.hier "tilde_empty_")
            else if h = "tilde_return_" ∨ h = "tilde_throw_" then
              if f = "[[Value]]" then tangibleOrEmpty cfg ord else some (.hier "tilde_empty_")
            else if h = "tilde_break_" ∨ h = "tilde_continue_" then
              if f = "[[Value]]" then tangibleOrEmpty cfg ord else stringOrEmpty cfg ord
            else none
          | _ => none
        else none
    else none

/-- `s_dot_field` (static_types.py:552-562). -/
def dotField (cfg : Cfg) (ord : List Ty → List Ty) (t : Ty) (f : String) : Option Ty :=
  match t with
  | .record s fs => fieldType cfg ord s fs f
  | .union ms => match ms.mapM (fun m => match m with
      | .record s fs => fieldType cfg ord s fs f
      | _ => none) with
    | none => none
    | some ts => unionOf cfg ord ts
  | _ => none

/-! ## `?` and `!` -/

inductive Op where
  | question
  | bang
deriving DecidableEq

/-- `of which no part is a completion record` (pseudocode_semantics.py:6693-6696). -/
def noPart : Err := .other "no part is a completion record"
/-- `which is not a completion record, and which is omitted` (pseudocode_semantics.py:6700-6703). -/
def omitted : Err := .other "not a completion record, omitted"
/-- `no abrupt completion, so maybe change` (pseudocode_semantics.py:6724-6728). -/
def noAbrupt : Err := .other "no abrupt completion"
/-- `no normal completion, so using '?' is a bit odd` (pseudocode_semantics.py:6734-6742). -/
def noNormal : Err := .other "no normal completion"
/-- `which can't be abrupt, so using 'IfAbruptCloseFoo' is a bit odd` (pseudocode_semantics.py:11848-11852). -/
def cantBeAbrupt : Err := .other "can't be abrupt"

variable {K X T C : Type} [DecidableEq K] (L : Lang K X T C)

/-- The operations whose first argument is of a certain type if they do not complete abruptly
(pseudocode_semantics.py:6762-6789). -/
def checkedBy (op : String) : Option String :=
  if op = "ValidateTypedArray" ∨ op = "ValidateIntegerTypedArray" ∨ op = "ValidateAtomicAccessOnIntegerTypedArray" ∨ op = "ValidateUint8Array" then
    some "TypedArray_object_"
  else if op = "GeneratorValidate" then some "Generator_object_"
  else if op = "NewPromiseCapability" then some "constructor_object_"
  else none

/-- The environment after `? E`, where `E` is not abrupt (pseudocode_semantics.py:6750-6795).  `callOf` gives the operation and the
arguments of an invocation, and `slot` is `tb_for_object_with_slot`; the first argument of
`RequireInternalSlot` is taken to be a variable, of a type that is not empty. -/
def after (callOf : X → Option (String × List (Expr X))) (slot : Expr X → Option (Ty × Ty)) (operand : Expr X) (rt : Ty)
    (env : Env K) : M K (Env K) :=
  match operand with
  | .var x => M.pure (replaced env (.var x : Expr X) rt)
  | .other e => match callOf e with
    | none => M.pure env
    | some (op, args) =>
      if op = "RequireInternalSlot" then match args with
        | [.var x, s] => match slot s with
          | none => M.fail
          | some tb => do
            let (r, _) ← withTypeTest L env x true tb false
            match r with
            | none => M.fail
            | some env2 => M.pure env2
        | _ => M.fail
      else match checkedBy op with
        | none => M.pure env
        | some n => match args with
          | [] => M.fail
          | a :: _ => narrow L env a (.hier n)

/-- The end of `handle_completion_record_shorthand` (pseudocode_semantics.py:6744-6797), given the two parts of the type. -/
def unwrapParts (o : Op) (callOf : X → Option (String × List (Expr X))) (slot : Expr X → Option (Ty × Ty)) (operand : Expr X)
    (abrupt normal : Ty) (env : Env K) : M K (Ty × Env K) := do
  let ok ← isSub L normal (completionType "tilde_normal_")
  if ok then do
    let rt ← M.lift (dotField L.cfg L.ord normal "[[Value]]")
    match o with
    | .bang => M.pure (rt, env)
    | .question => do
      addReturnOf L env abrupt
      let env2 ← after L callOf slot operand rt env
      M.pure (rt, env2)
  else M.fail

/-- The messages about the parts of a type of Completion Records (pseudocode_semantics.py:6707-6742). -/
def partMessages (o : Op) (abrupt normal : Ty) : M K Unit :=
  match o with
  | .question => do
    reportIf (tyEq abrupt T0) noAbrupt
    reportIf (tyEq normal T0) noNormal
  | .bang => if tyEq normal T0 then M.fail else M.pure ()

/-- `handle_completion_record_shorthand` (pseudocode_semantics.py:6683-6797). -/
def unwrap (o : Op) (callOf : X → Option (String × List (Expr X))) (slot : Expr X → Option (Ty × Ty)) (operand : Expr X)
    (env : Env K) : M K (Ty × Env K) := do
  let (t, env1) ← tcExpr L operand env
  if tyEq t .tbd then M.pure (.tbd, env1)
  else do
    let (cr, non) ← M.lift (splitBy L.cfg L.ord t TCR)
    if tyEq cr T0 then do
      report noPart
      M.pure (non, env1)
    else do
      reportIf (!tyEq non T0) omitted
      let ab ← M.lift (abruptTy L.cfg L.ord)
      let (abrupt, normal) ← M.lift (splitBy L.cfg L.ord cr ab)
      partMessages o abrupt normal
      unwrapParts L o callOf slot operand abrupt normal env1

/-! ## Returning early -/

/-- `Throw {EX}.` (pseudocode_semantics.py:6624-6630). -/
def throwValue (e : Expr X) (env : Env K) : M K (Option (Env K)) := do
  let (t, env1) ← tcExpr L e env
  addReturnOf L env1 (throwType t)
  M.pure none

/-- `Throw a {ERROR_TYPE} exception.` (pseudocode_semantics.py:6638-6645), for the name of an error type. -/
def throwError (name : String) (env : Env K) : M K (Option (Env K)) := do
  addReturnOf L env (throwType (.hier name))
  M.pure none

/-- `IfAbruptCloseIterator` and the like (pseudocode_semantics.py:11836-11856), for two variables; `second` is the type
asked of the second. -/
def closeIterator (x y : String) (second : Ty) (env : Env K) : M K (Env K) := do
  let t ← assertType L (.var x) TCR env
  let _ ← assertType L (.var y) second env
  let (normal, abrupt) ← M.lift (splitBy L.cfg L.ord t (completionType "tilde_normal_"))
  if tyEq abrupt T0 then report cantBeAbrupt
  else do
    let r ← M.lift (orTy L.cfg L.ord abrupt (completionType "tilde_throw_"))
    addReturnOf L env r
  let rt ← M.lift (dotField L.cfg L.ord normal "[[Value]]")
  M.pure (replaced env (.var x : Expr X) rt)

/-- `IfAbruptRejectPromise` (pseudocode_semantics.py:14996-15007). -/
def rejectPromise (x y : String) (env : Env K) : M K (Env K) := do
  let _ ← assertType L (.var y) (.hier "PromiseCapability Record") env
  let (t, _) ← tcExpr L (.var x) env
  let _ ← assertType L (.var x) TCR env
  let (normal, _) ← M.lift (splitBy L.cfg L.ord t (completionType "tilde_normal_"))
  addReturnOf L env (.hier "Promise_object_")
  let rt ← M.lift (dotField L.cfg L.ord normal "[[Value]]")
  M.pure (replaced env (.var x : Expr X) rt)

end Verif.Unwrap
