import Verif.Types.Model
/-!
# Model of the static type analysis of algorithms: environments, conditions, commands
(pseudocode_semantics.py)

An environment gives a static type to each variable.  Python keys it by source text, so that it can
also hold entries for expressions such as `_x_.[[Foo]]`; here the keys are the variables and
`*return*`.
-/
namespace Verif.Env
open Verif.Types

/-- A key of `Env.vars`: the text of a variable, or `*return*` (pseudocode_semantics.py:776-779). -/
inductive Key where
  | var (x : String)
  | ret
deriving DecidableEq, Repr

/-- A Python dict from keys to types. -/
abbrev Vars := List (Key × Ty)

def get : Vars → Key → Option Ty
  | [], _ => none
  | (k, t) :: r, x => if k = x then some t else get r x

/-- `vars[x] = t`. -/
def put : Vars → Key → Ty → Vars
  | [], x, t => [(x, t)]
  | (k, u) :: r, x, t => if k = x then (k, t) :: r else (k, u) :: put r x t

def keys (vs : Vars) : List Key := vs.map (·.1)

/-- `Env` (pseudocode_semantics.py:626-643).  `ctx` stands for `alg_species`, `parret` and `outer`,
which an environment shares with those it is derived from.  `assoc_productions` is not modelled. -/
structure Env (K : Type) where
  ctx : K
  vars : Vars

/-- `==` on types, as it is used on the types in an environment: unions are sets
(static_types.py:26-29, 594-611). -/
def tyEq (A B : Ty) : Bool := decide (members A ⊆ members B ∧ members B ⊆ members A)

/-- `env1.vars == env2.vars` for two dicts (pseudocode_semantics.py:645-646). -/
def sameVars (v w : Vars) : Bool :=
  (keys v).all (fun k => match get v k, get w k with
    | some A, some B => tyEq A B
    | _, _ => false) &&
  (keys w).all (fun k => (get v k).isSome)

/-- `T_not_set`. -/
def notSet : Ty := .hier "not_set"

variable {K : Type}

/-- `e = self.copy(); e.vars[x] = t; return e`: `with_expr_type_replaced`
(pseudocode_semantics.py:902-907), `augmented_with_return_type` (776-779). -/
def Env.set (e : Env K) (x : Key) (t : Ty) : Env K := { e with vars := put e.vars x t }

/-- `reduce` (pseudocode_semantics.py:1198-1204). -/
def Env.reduce (e : Env K) (ks : List Key) : Env K := { e with vars := e.vars.filter (fun p => decide (p.1 ∈ ks)) }

/-! ### Joining and meeting -/

/-- The type of `x` in an environment, for `envs_or` (pseudocode_semantics.py:1256-1260). -/
def typeOr (x : Key) (e : Env K) : Ty := (get e.vars x).getD notSet

/-- The keys of several dicts, each once (pseudocode_semantics.py:1251-1254).  Python sorts them;
the order of a dict does not matter here. -/
def allKeys (es : List (Env K)) : List Key := (es.flatMap (fun e => keys e.vars)).eraseDups

/-- `envs_or` (pseudocode_semantics.py:1238-1262).  The outer `none` is a failed assertion, the inner one
Python's `None`: control does not get here. -/
def envsOr [DecidableEq K] (cfg : Cfg) (ord : List Ty → List Ty) (envs : List (Option (Env K))) : Option (Option (Env K)) :=
  match envs.filterMap id with
  | [] => some none
  | [e] => some (some e)
  | e0 :: es =>
    if (e0 :: es).all (fun e => decide (e.ctx = e0.ctx)) then
      match (allKeys (e0 :: es)).mapM (fun x => (unionOf cfg ord ((e0 :: es).map (typeOr x))).map (fun t => (x, t))) with
      | none => none
      | some vs => some (some { e0 with vars := vs })
    else none

/-- `env_or` (pseudocode_semantics.py:1234-1236). -/
def envOr [DecidableEq K] (cfg : Cfg) (ord : List Ty → List Ty) (a b : Option (Env K)) : Option (Option (Env K)) := envsOr cfg ord [a, b]

/-- The loop `(intersection_t, _) = intersection_t.split_by(t)` (pseudocode_semantics.py:1228-1230). -/
def meetTypes (cfg : Cfg) (ord : List Ty → List Ty) : Ty → List Ty → Option Ty
  | acc, [] => some acc
  | acc, t :: ts => match splitBy cfg ord acc t with
    | none => none
    | some (i, _) => meetTypes cfg ord i ts

/-- The type of one variable in `envs_and` (pseudocode_semantics.py:1223-1231). -/
def meetAt (cfg : Cfg) (ord : List Ty → List Ty) (ts : List Ty) : Option Ty :=
  match ts.filter (fun t => !tyEq t .tbd) with
  | [] => some .tbd
  | t :: ts => meetTypes cfg ord t ts

/-- The keys all dicts have (pseudocode_semantics.py:1221). -/
def commonKeys (es : List (Env K)) : List Key := (allKeys es).filter (fun x => es.all (fun e => (get e.vars x).isSome))

/-- `envs_and` (pseudocode_semantics.py:1212-1232), for environments that are not Python's `None` (with one, Python
raises an AttributeError). -/
def envsAnd (cfg : Cfg) (ord : List Ty → List Ty) (es : List (Env K)) : Option (Env K) :=
  match es with
  | [] => none
  | [e] => some e
  | e0 :: es =>
    if es.length = 1 ∧ (∀ e ∈ es, sameVars e0.vars e.vars = true) then some e0
    else match (commonKeys (e0 :: es)).mapM (fun x =>
        (meetAt cfg ord ((e0 :: es).filterMap (fun e => get e.vars x))).map (fun t => (x, t))) with
      | none => none
      | some vs => some { e0 with vars := vs }

/-- `env_and` (pseudocode_semantics.py:1208-1210). -/
def envAnd (cfg : Cfg) (ord : List Ty → List Ty) : Option (Env K) → Option (Env K) → Option (Option (Env K))
  | some a, some b => (envsAnd cfg ord [a, b]).map some
  | _, _ => none

/-! ### What an analysis leaves behind -/

/-- The messages of `add_pass_error` that the modelled functions give. -/
inductive Err where
  | undefined (x : String)    -- `IS NOT DEFINED` (5670-5677)
  | relet (x : String)        -- `re-Let on existing var` (700-704)
  | reletKnown (x : String)   -- `... actually, it isn't, but STA isn't smart enough` (722-726)
  | narrows (x : String)      -- `... also, this narrows the type` (729-733)
  | changes (x : String)      -- `... also, this changes the type` (736-740)
  | outer (x : String)        -- `re-use of outer var` (758-762)
  | setChanges (x : String)   -- `Set changes type` (1021-1026)
  | cannot (x : String)       -- `so can't be a` (1132-1137)
  | unconfirmed (x : String)  -- `STA fails to confirm` (1139-1144)
  | mightBe (x : String)      -- `can't confirm the assertion` (1152-1157)
  | mustBe (x : String)       -- `unnecessary to test whether, because it must be` (1166-1172)
  | cantBe (x : String)       -- `unnecessary to test whether, because it can't be` (1175-1181)
  | neverTrue                 -- `condition cannot be true` (5202-5206)
  | neverFalse                -- `condition cannot be false` (5212-5217)
  | fallsOff                  -- `Control falls off the end` (5117-5122)
  | returnType                -- `static type of return value is ..., should be` (1669-1673)
  | notReturned               -- `At exit, ST of *return* is` (1687-1691)
  | noArg (p : String)        -- `No arg passed to non-optional param` (2383-2386)
  | argType (p : String)      -- `arg has type ..., but param requires type` (2430-2434)
  | wrongType                 -- `this context expects that it be of type` (1377-1381)
  | notAList                  -- `context wants a List type` (894-897)
  | isTBD                     -- `type is TBD, asserted to be of type` (789-793)
  | other (msg : String)
deriving DecidableEq, Repr

/-- The mutable state: `pass_errors`, what `add_pass_error` has printed (pseudocode_semantics.py:1383-1387),
and `parret.return_envs` (a set in Python). -/
structure Acc (K : Type) where
  errs : List Err
  log : List Err
  rets : List (Env K)

/-- Computations with that state; `none` is an uncaught exception. -/
def M (K : Type) (α : Type) := Acc K → Option (α × Acc K)

def M.pure {α} (a : α) : M K α := fun s => some (a, s)
def M.bind {α β} (m : M K α) (f : α → M K β) : M K β := fun s => match m s with
  | none => none
  | some (a, s') => f a s'
instance : Monad (M K) where
  pure := M.pure
  bind := M.bind

def M.fail {α} : M K α := fun _ => none
def M.lift {α} (a : Option α) : M K α := fun s => a.map (fun a => (a, s))
/-- `add_pass_error` (pseudocode_semantics.py:1383-1387). -/
def report (e : Err) : M K Unit := fun s => some ((), { s with errs := s.errs ++ [e], log := s.log ++ [e] })
def reportAll (es : List Err) : M K Unit := fun s => some ((), { s with errs := s.errs ++ es, log := s.log ++ es })
def reportIf (b : Bool) (e : Err) : M K Unit := if b then report e else M.pure ()
/-- `parret.return_envs.add(env)` (pseudocode_semantics.py:1693). -/
def addReturn (e : Env K) : M K Unit := fun s => some ((), { s with rets := s.rets ++ [e] })
/-- `len(pass_errors)`. -/
def mark : M K Nat := fun s => some (s.errs.length, s)
/-- `del pass_errors[mark:]`. -/
def cut (n : Nat) : M K Unit := fun s => some ((), { s with errs := s.errs.take n })

/-! ### Programs -/

/-- An expression: a variable, or something else. -/
inductive Expr (X : Type) where
  | var (x : String)
  | other (e : X)

/-- A condition.  `test x b t` is `x is a t` (with `b` false: `x is not a t`); `plain` is any other atomic
condition. -/
inductive Cond (T C : Type) where
  | test (x : String) (isA : Bool) (t : T)
  | plain (c : C)
  | never
  | or (cs : List (Cond T C))
  | and (cs : List (Cond T C))
  | notBoth (a b : Cond T C)
  | unless (a b : Cond T C)

/-- How a loop is controlled: `Repeat,`, `Repeat n times:`, `Repeat, while`, `Repeat, until`, `For each`. -/
inductive Loop (X T C : Type) where
  | forever
  | times
  | while (c : Cond T C)
  | until (c : Cond T C)
  | each (x : String) (e : X)

mutual
/-- A command, or a sequence of commands. -/
inductive Cmd (X T C : Type) where
  | note
  | perform (e : Expr X)
  | let (x : String) (e : Expr X)
  | set (x : String) (e : Expr X)
  | ret (e : Expr X)
  | assert (c : Cond T C)
  | assertIf (a b : Cond T C)
  | assertIff (a b : Cond T C)
  | assertElse (t x f : Cond T C)
  | assertSince (a b : Cond T C)
  | seq (a b : Cmd X T C)
  | ifClosed (c : Cond T C) (a b : Cmd X T C)
  | ifOther (c : Cond T C) (a : Cmd X T C) (tail : Tail X T C)
  | loop (l : Loop X T C) (body : Cmd X T C)
/-- What follows `If ..., then ...`. -/
inductive Tail (X T C : Type) where
  | nil
  | else (a : Cmd X T C)
  | elseif (c : Cond T C) (a : Cmd X T C) (tail : Tail X T C)
end

/-- What the analysis is given: the hierarchy of types, the analysis of other expressions and conditions
(with the messages they give), the brackets of value descriptions (`type_bracket_for`), and what
the context says: the expected return type, whether returned values get wrapped in completion
records, and the variables of the enclosing algorithms. -/
structure Lang (K X T C : Type) where
  cfg : Cfg
  ord : List Ty → List Ty
  expr : X → Env K → Option ((Ty × Env K) × List Err)
  cond : C → Env K → Bool → Option ((Option (Env K) × Option (Env K)) × List Err)
  bracket : T → Ty × Ty
  expected : K → Ty
  wraps : K → Bool
  outerVars : K → List String

section
variable {X T C : Type} [DecidableEq K] (L : Lang K X T C)

/-- `tc_expr`: a variable (pseudocode_semantics.py:5666-5678) or something else. -/
def tcExpr (e : Expr X) (env : Env K) : M K (Ty × Env K) :=
  match e with
  | .var x => match get env.vars (.var x) with
    | some t => M.pure (t, env)
    | none => do
      report (.undefined x)
      M.pure (.tbd, env)
  | .other e => match L.expr e env with
    | none => M.fail
    | some (r, es) => do
      reportAll es
      M.pure r

/-- `A.is_a_subtype_of_or_equal_to(B)`. -/
def isSub (A B : Ty) : M K Bool := M.lift (sub L.cfg A B)

/-- The type of `_highest_` and `_lowest_` in `with_expr_type_narrowed` (pseudocode_semantics.py:1037-1040). -/
def highest (x : String) (t : Ty) : Ty :=
  match unionOf L.cfg L.ord [.hier "NegInfinityNumber_", .hier "PosInfinityNumber_"] with
  | some u => if (x = "_highest_" ∨ x = "_lowest_") ∧ tyEq t u = true then .hier "Number" else t
  | none => t

/-- `with_expr_type_narrowed`, for a variable (pseudocode_semantics.py:1033-1058). -/
def narrowed (env : Env K) (x : String) (t : Ty) : M K (Env K) := do
  let r ← tcExpr L (.var x) env
  let xt := highest L x r.1
  let already ← isSub L xt t
  if already then M.pure r.2
  else if tyEq xt .tbd then M.pure (r.2.set (.var x) t)
  else do
    let fits ← isSub L t xt
    if fits then M.pure (r.2.set (.var x) t) else M.fail

/-- The types for which a second `Let` of `_v_` is let go (pseudocode_semantics.py:717). -/
def lenient (x : String) (old t : Ty) : Bool :=
  decide (x = "_v_" ∨ x = "_value_") &&
  (tyEq old (.hier "Normal") || (match unionOf L.cfg L.ord [.hier "Tangible_", notSet] with
    | some u => tyEq old u
    | none => false)) &&
  tyEq t (.hier "Undefined")

/-- `plus_new_entry` (pseudocode_semantics.py:692-767). -/
def plusNewEntry (env : Env K) (x : String) (t : Ty) : M K (Env K) :=
  match get env.vars (.var x) with
  | some old => do
    report (.relet x)
    if tyEq t old then M.pure env
    else if tyEq t .tbd then M.pure env
    else if lenient L x old t then do
      report (.reletKnown x)
      M.pure env
    else do
      let b ← isSub L t old
      if b then do
        report (.narrows x)
        narrowed L env x t
      else do
        report (.changes x)
        M.pure (env.set (.var x) t)
  | none => do
    reportIf (decide (x ∈ L.outerVars env.ctx)) (.outer x)
    M.pure (env.set (.var x) t)

/-- `isinstance(t, ListType)`. -/
def isListType : Ty → Bool
  | .list _ => true
  | _ => false

/-- The warning about a change of type (pseudocode_semantics.py:1011-1025). -/
def setWarning (x : String) (et st : Ty) : M K Unit := do
  let b ← isSub L et st
  if b then M.pure ()
  else if tyEq st (.hier "not_passed") then M.pure ()
  else report (.setChanges x)

/-- `set_A_to_B`, for a variable (pseudocode_semantics.py:909-1029), without the warning about setting
a parameter (923-971).  When the expression is not a variable and its type is TBD, Python adds an entry
for the text of the expression, which is not a key here. -/
def setAToB (env : Env K) (x : String) (e : Expr X) : M K (Env K) := do
  let (et, env1) ← tcExpr L e env
  let (st, env2) ← tcExpr L (.var x) env1
  if tyEq st .tbd && tyEq et .tbd then M.pure env2
  else if tyEq st .tbd then M.pure (env.set (.var x) et)
  else if tyEq et .tbd then match e with
    | .var y => M.pure (env.set (.var y) st)
    | .other _ => M.pure env
  else if tyEq et st then M.pure env2
  else if tyEq et (.hier "List") && isListType st then M.pure env2
  else do
    setWarning L x et st
    M.pure (env2.set (.var x) et)

/-- The messages of a type test (pseudocode_semantics.py:1128-1181), given whether each part is empty. -/
def testMessages (x : String) (isA asserting inSup0 outSup0 inSub0 outSub0 : Bool) : M K Unit :=
  if asserting then
    if isA then do
      reportIf inSup0 (.cannot x)
      reportIf (!outSup0) (.unconfirmed x)
    else do
      reportIf (!inSub0) (.mightBe x)
      if outSub0 then M.fail else M.pure ()
  else do
    reportIf outSub0 (.mustBe x)
    reportIf inSup0 (.cantBe x)

/-- `with_type_test`, for a variable (pseudocode_semantics.py:1062-1196). -/
def withTypeTest (env : Env K) (x : String) (isA : Bool) (target : Ty × Ty) (asserting : Bool) :
    M K (Option (Env K) × Option (Env K)) := do
  let (xt, env1) ← tcExpr L (.var x) env
  let (sub, sup) := target
  if tyEq xt T0 then M.pure (none, none)
  else if tyEq sup .tbd || tyEq sub .tbd then M.fail
  else if asserting && tyEq xt .tbd then
    if isA then M.pure (some (env1.set (.var x) sup), none) else M.pure (some env1, some env1)
  else do
    let (inSup, outSup) ← M.lift (splitBy L.cfg L.ord xt sup)
    let (inSub, outSub) ← M.lift (splitBy L.cfg L.ord xt sub)
    testMessages x isA asserting (tyEq inSup T0) (tyEq outSup T0) (tyEq inSub T0) (tyEq outSub T0)
    let isEnv := env1.set (.var x) inSup
    let isntEnv := env1.set (.var x) outSub
    if isA then M.pure (some isEnv, some isntEnv) else M.pure (some isntEnv, some isEnv)

mutual
/-- `tc_cond` (pseudocode_semantics.py:1733-1758): the environments if it is true and if it is false.
Type tests and other atomic conditions are methods of the environment, so they fail for
Python's `None`.  The `unless` conditions are at 5990-5998, `not both` at 5929-5934, `never` at 5656-5661. -/
def tcCond : Cond T C → Option (Env K) → Bool → M K (Option (Env K) × Option (Env K))
  | .test x isA t, env, asserting => match env with
    | none => M.fail
    | some env => withTypeTest L env x isA (L.bracket t) asserting
  | .plain c, env, asserting => match env with
    | none => M.fail
    | some env => match L.cond c env asserting with
      | none => M.fail
      | some (r, es) => do
        reportAll es
        M.pure r
  | .never, env, asserting => if asserting then M.pure (none, env) else M.fail
  | .or cs, env, asserting => do
    let (ts, f) ← tcOr cs env asserting
    let t ← M.lift (envsOr L.cfg L.ord ts)
    M.pure (t, f)
  | .and cs, env, asserting => do
    let (t, fs) ← tcAnd cs env asserting
    let f ← M.lift (envsOr L.cfg L.ord fs)
    M.pure (t, f)
  | .notBoth a b, env, asserting => do
    let (t1, f1) ← tcCond a env asserting
    let (t2, f2) ← tcCond b t1 asserting
    let f ← M.lift (envsOr L.cfg L.ord [f1, f2])
    M.pure (f, t2)
  | .unless a b, env, _ => do
    let _ ← tcCond a env false
    let _ ← tcCond b env false
    M.pure (env, env)
/-- The loop of `tc_logical` for `or` (pseudocode_semantics.py:1775-1786): the environments for true, and the last one for false. -/
def tcOr : List (Cond T C) → Option (Env K) → Bool → M K (List (Option (Env K)) × Option (Env K))
  | [], env, _ => M.pure ([], env)
  | c :: cs, env, asserting => do
    let (t, f) ← tcCond c env (asserting && cs.isEmpty)
    let (ts, f') ← tcOr cs f asserting
    M.pure (t :: ts, f')
/-- The loop of `tc_logical` for `and` (pseudocode_semantics.py:1788-1796). -/
def tcAnd : List (Cond T C) → Option (Env K) → Bool → M K (Option (Env K) × List (Option (Env K)))
  | [], env, _ => M.pure (env, [])
  | c :: cs, env, asserting => do
    let (t, f) ← tcCond c env asserting
    let (t', fs) ← tcAnd cs t asserting
    M.pure (t', f :: fs)
end

/-- What a loop does before its body (pseudocode_semantics.py:5304-5377): the environments for staying and for leaving. -/
def checkBefore (l : Loop X T C) (env : Env K) : M K (Option (Env K) × Option (Env K)) :=
  match l with
  | .forever => M.pure (some env, none)
  | .times => M.pure (some env, some env)
  | .while c => tcCond L c (some env) false
  | .until c => do
    let (t, f) ← tcCond L c (some env) false
    M.pure (f, t)
  | .each x e => do
    let (t, env1) ← tcExpr L (.other e) env
    let env2 ← plusNewEntry L env1 x t
    M.pure (some env2, some env)

/-- The passes of `tc_loop` (pseudocode_semantics.py:5389-5459), from pass number `i`. -/
def loopPasses (pre : Env K) (n : Nat) (check : Env K → M K (Option (Env K) × Option (Env K)))
    (body : Option (Env K) → M K (Option (Env K))) : (fuel i : Nat) → Env K → M K (Option (Env K))
  | 0, _, _ => M.fail
  | fuel + 1, i, top => do
    let (stay, exit) ← check top
    let bottom ← body stay
    match bottom with
    | none => M.fail
    | some bottom => do
      let newTop ← M.lift (envOr L.cfg L.ord (some (bottom.reduce (keys pre.vars))) (some pre))
      match newTop with
      | none => M.fail
      | some newTop =>
        if sameVars newTop.vars top.vars then
          if 1 ≤ i ∧ i ≤ 2 then M.pure exit else M.fail
        else do
          cut n
          loopPasses pre n check body fuel (i + 1) newTop

/-- `tc_loop` (pseudocode_semantics.py:5389-5459). -/
def tcLoop (check : Env K → M K (Option (Env K) × Option (Env K))) (body : Option (Env K) → M K (Option (Env K)))
    (pre : Env K) : M K (Option (Env K)) := do
  let n ← mark
  loopPasses L pre n check body 5 1 pre

/-- `T_not_returned`. -/
def notReturned : Ty := .hier "not_returned"

/-- The type of the returned value (pseudocode_semantics.py:1663-1666). -/
def wrapped (env : Env K) (t : Ty) : Option Ty :=
  if L.wraps env.ctx then match splitBy L.cfg L.ord t TCR with
    | none => none
    | some (cr, non) =>
      if tyEq non T0 then some t
      else orTy L.cfg L.ord (.record CRN [("[[Type]]", .hier "tilde_normal_"), ("[[Value]]", non)]) cr
  else some t

/-- `proc_add_return` (pseudocode_semantics.py:1632-1693).  The exemption of one particular type from the last
message is left out. -/
def addReturnOf (env : Env K) (t : Ty) : M K Unit := do
  let t ← M.lift (wrapped L env t)
  let ok ← isSub L t (L.expected env.ctx)
  reportIf (!ok) .returnType
  let nr ← isSub L notReturned t
  reportIf nr .notReturned
  addReturn (env.set .ret t)

mutual
/-- `tc_nonvalue` (pseudocode_semantics.py:1697-1729) for a command.  All but notes and sequences need an
environment. Notes 5881-5884, perform 6016-6031, Let 5687-5697, Set 5844-5850, Return 5860-5872,
Assert 5606-5654, sequences 5132-5138, If 5160-5262, loops 5304-5377.  Two special cases of `If` by source text (5240-5258) and one of
`Repeat, while` (5346-5352) are left out. -/
def tc : Cmd X T C → Option (Env K) → M K (Option (Env K))
  | .note, env => M.pure env
  | .seq a b, env => do
    let env1 ← tc a env
    tc b env1
  | .perform e, some env => do
    let (_, env1) ← tcExpr L e env
    M.pure (some env1)
  | .let x e, some env => do
    let (t, env1) ← tcExpr L e env
    let env2 ← plusNewEntry L env1 x t
    M.pure (some env2)
  | .set x e, some env => do
    let env1 ← setAToB L env x e
    M.pure (some env1)
  | .ret e, some env => do
    let (t, env1) ← tcExpr L e env
    addReturnOf L env1 t
    M.pure none
  | .assert c, some env => do
    let (t, _) ← tcCond L c (some env) true
    M.pure t
  | .assertIf a b, some env => do
    let (t1, f1) ← tcCond L a (some env) false
    let (t2, _) ← tcCond L b t1 true
    M.lift (envOr L.cfg L.ord f1 t2)
  | .assertIff a b, some env => do
    let (t1, f1) ← tcCond L a (some env) false
    let (t2, f2) ← tcCond L b (some env) false
    let t ← M.lift (envAnd L.cfg L.ord t1 t2)
    let f ← M.lift (envAnd L.cfg L.ord f1 f2)
    M.lift (envOr L.cfg L.ord t f)
  | .assertElse t x f, some env => do
    let (xt, xf) ← tcCond L x (some env) false
    let (tt, _) ← tcCond L t xt true
    let (ft, _) ← tcCond L f xf true
    M.lift (envOr L.cfg L.ord tt ft)
  | .assertSince a b, some env => do
    let (ta, _) ← tcCond L a (some env) true
    let (tb, _) ← tcCond L b (some env) true
    M.lift (envAnd L.cfg L.ord ta tb)
  | .ifClosed c a b, some env => do
    let (t, f) ← tcCond L c (some env) false
    let t' ← tc a t
    let f' ← tc b f
    M.lift (envOr L.cfg L.ord t' f')
  | .ifOther c a tail, some env => do
    let (t, f) ← tcCond L c (some env) false
    let t' ← tc a t
    let bs ← tcTail tail f
    M.lift (envsOr L.cfg L.ord (t' :: bs))
  | .loop l body, some env => tcLoop L (checkBefore L l) (fun e => tc body e) env
  | _, none => M.fail
/-- The loop over the rest of an `If` (pseudocode_semantics.py:5195-5235): the environments to join. -/
def tcTail : Tail X T C → Option (Env K) → M K (List (Option (Env K)))
  | .nil, f => M.pure [f]
  | .else a, f => do
    let r ← tc a f
    M.pure [r]
  | .elseif c a tail, f => do
    let (t, f') ← tcCond L c f false
    let here ← (match t with
      | none => do
        report .neverTrue
        M.pure []
      | some t => do
        let r ← tc a (some t)
        M.pure [r] : M K (List (Option (Env K))))
    match f' with
    | none => do
      report .neverFalse
      M.pure here
    | some f' => do
      let rest ← tcTail tail (some f')
      M.pure (here ++ rest)
end

/-- `{EMU_ALG_BODY}` (pseudocode_semantics.py:5112-5129). -/
def tcBody (body : Cmd X T C) (env : Env K) : M K Unit := do
  let out ← tc L body (some env)
  match out with
  | none => M.pure ()
  | some env1 => do
    report .fallsOff
    addReturnOf L env1 notReturned

/-- The loop over definitions (pseudocode_semantics.py:1561-1605). -/
def tcBodies : List (Cmd X T C) → Env K → M K Unit
  | [], _ => M.pure ()
  | b :: bs, init => do
    tcBody L b init
    tcBodies bs init

/-- `tc_proc` (pseudocode_semantics.py:1556-1630) for definitions given by algorithm bodies: the environment at exit. -/
def tcProc (bodies : List (Cmd X T C)) (init : Env K) : M K (Option (Env K)) := do
  if bodies.isEmpty then M.fail
  else do
    tcBodies L bodies init
    fun s => match envsOr L.cfg L.ord (s.rets.map (fun e => some (e.reduce (keys init.vars)))) with
      | none => none
      | some r => some (r, s)
end

end Verif.Env
