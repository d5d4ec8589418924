/-!
# Model of the interpreter of algorithms: frames, contours, calls (pseudocode_semantics.py)

Values, parse nodes and the primitive expressions and conditions of the language are parameters.
Lists are values here: the commands that modify a List in place (10398-10410) are not modelled, nor is
`Attempt to parse` (12908-12919).
-/
namespace Verif.Exec

/-- A contour: a Python dict. -/
abbrev Contour (V : Type) := List (String × V)

section
variable {V : Type}

def Contour.has (c : Contour V) (x : String) : Bool := c.any (fun p => p.1 == x)

def Contour.get : Contour V → String → Option V
  | [], _ => none
  | (y, v) :: c, x => if y = x then some v else Contour.get c x

/-- `contour[x] = v`. -/
def Contour.put : Contour V → String → V → Contour V
  | [], x, v => [(x, v)]
  | (y, u) :: c, x, v => if y = x then (y, v) :: c else (y, u) :: Contour.put c x v

/-- `Frame` (pseudocode_semantics.py:2920-2964): `_contours`, `_focus_node`, and `return_value` if there is one.  The map of the focus
node's children (2966-2993) is part of the primitive expressions. -/
structure Frame (V : Type) where
  contours : List (Contour V)
  focus : Option V
  ret : Option V

/-- `start_contour` (pseudocode_semantics.py:3056-3057). -/
def startContour (f : Frame V) : Frame V := { f with contours := [] :: f.contours }

/-- `end_contour` (pseudocode_semantics.py:3059-3060). -/
def endContour (f : Frame V) : Option (Frame V) :=
  match f.contours with
  | [] => none
  | _ :: r => some { f with contours := r }

/-- `let_var_be_value` (pseudocode_semantics.py:3062-3076). -/
def letVar (f : Frame V) (x : String) (v : V) : Option (Frame V) :=
  if f.contours.all (fun c => !c.has x) then
    match f.contours with
    | [] => none
    | c :: r => some { f with contours := c.put x v :: r }
  else none

/-- `set_settable_to_value` (pseudocode_semantics.py:3078-3093), for a variable. -/
def setVar (f : Frame V) (x : String) (v : V) : Option (Frame V) :=
  if (f.contours.filter (fun c => c.has x)).length = 1 then
    some { f with contours := f.contours.map (fun c => if c.has x then c.put x v else c) }
  else none

/-- The loop of `get_value_referenced_by_var` (pseudocode_semantics.py:3095-3098). -/
def getIn : List (Contour V) → String → Option V
  | [], _ => none
  | c :: r, x => match c.get x with
    | some v => some v
    | none => getIn r x

/-- `get_value_referenced_by_var` (pseudocode_semantics.py:3095-3118), without the special case for
`_NcapturingParens_`. -/
def getVar (f : Frame V) (x : String) : Option V := getIn f.contours x

/-! ### Histories of one frame -/

/-- A call of one of the methods above. -/
inductive Op (V : Type) where
  | start
  | stop
  | let (x : String) (v : V)
  | set (x : String) (v : V)
  | get (x : String)

/-- One call, with the value it returns, if any. -/
def stepOp (f : Frame V) : Op V → Option (Frame V × Option V)
  | .start => some (startContour f, none)
  | .stop => (endContour f).map (fun f => (f, none))
  | .let x v => (letVar f x v).map (fun f => (f, none))
  | .set x v => (setVar f x v).map (fun f => (f, none))
  | .get x => (getVar f x).map (fun v => (f, some v))

/-- A history of calls: the frame at its end and the values returned. -/
def runOps (f : Frame V) : List (Op V) → Option (Frame V × List (Option V))
  | [] => some (f, [])
  | o :: os => match stepOp f o with
    | none => none
    | some (f1, r) => match runOps f1 os with
      | none => none
      | some (f2, rs) => some (f2, r :: rs)

/-- `frame._contours = [{}]` (pseudocode_semantics.py:2947). -/
def newFrame (focus : Option V) : Frame V := { contours := [[]], focus := focus, ret := none }

/-- `start_returning` (pseudocode_semantics.py:3047-3049). -/
def startReturning (f : Frame V) (v : V) : Option (Frame V) :=
  match f.ret with
  | some _ => none
  | none => some { f with ret := some v }

/-- `stop_returning` (pseudocode_semantics.py:3051-3052). -/
def stopReturning (f : Frame V) : Option (V × Frame V) :=
  match f.ret with
  | some v => some (v, { f with ret := none })
  | none => none

end

/-! ### The state of the interpreter -/

/-- `ds.agent`: the stack of frames, here with the current one first (pseudocode_semantics.py:2809-2811), and the early errors, each with the focus node
and the rule (6970-6980). -/
structure St (V R : Type) where
  stack : List (Frame V)
  errs : List (Option V × R)

/-- How something ends: normally, by raising `ReferenceToNonexistentThing` (pseudocode_semantics.py:3247), or by any other exception. -/
inductive Out (S α : Type) where
  | ok (a : α) (s : S)
  | missing (s : S)
  | fail

def M (V R α : Type) := St V R → Out (St V R) α

section
variable {V R : Type}

def M.pure {α} (a : α) : M V R α := fun s => .ok a s
def M.bind {α β} (m : M V R α) (f : α → M V R β) : M V R β := fun s => match m s with
  | .ok a s' => f a s'
  | .missing s' => .missing s'
  | .fail => .fail
instance : Monad (M V R) where
  pure := M.pure
  bind := M.bind

def M.fail {α} : M V R α := fun _ => .fail
def M.missing {α} : M V R α := fun s => .missing s

/-- A method of `curr_frame()` that changes it. -/
def onFrame (g : Frame V → Option (Frame V)) : M V R Unit := fun s =>
  match s.stack with
  | [] => .fail
  | f :: r => match g f with
    | none => .fail
    | some f' => .ok () { s with stack := f' :: r }

/-- A method of `curr_frame()` that does not. -/
def askFrame {α} (g : Frame V → Option α) : M V R α := fun s =>
  match s.stack with
  | [] => .fail
  | f :: _ => match g f with
    | none => .fail
    | some a => .ok a s

/-- `assert not curr_frame().is_returning()` (pseudocode_semantics.py:3287-3288, 3326). -/
def notReturning : M V R Unit := askFrame (fun f => if f.ret.isSome then none else some ())

def isReturning : M V R Bool := askFrame (fun f => some f.ret.isSome)

end

/-! ### Programs -/

mutual
/-- Expressions: a variable, a primitive, the call of an operation (for one that is discriminated by syntax, the focus node is the
first argument), `a, where x is b`, and `a if c. Otherwise, it is b`. -/
inductive Expr (X C O : Type) where
  | var (x : String)
  | prim (p : X) (args : List (Expr X C O))
  | call (o : O) (args : List (Expr X C O))
  | where_ (a : Expr X C O) (x : String) (b : Expr X C O)
  | otherwise (a : Expr X C O) (c : Cond X C O) (b : Expr X C O)
/-- Conditions. -/
inductive Cond (X C O : Type) where
  | prim (p : C) (args : List (Expr X C O))
  | or (cs : List (Cond X C O))
  | and (cs : List (Cond X C O))
  | unless (a b : Cond X C O)
end

mutual
/-- Commands. -/
inductive Cmd (X C O : Type) where
  | let (x : String) (e : Expr X C O)
  | set (x : String) (e : Expr X C O)
  | ret (e : Expr X C O)
  | assert (c : Cond X C O)
  | seq (a b : Cmd X C O)
  | ifClosed (c : Cond X C O) (a b : Cmd X C O)
  | ifOther (c : Cond X C O) (a : Cmd X C O) (tail : Tail X C O)
  | forEach (x : String) (e : Expr X C O) (body : Cmd X C O)
/-- What follows `If ..., then ...`. -/
inductive Tail (X C O : Type) where
  | nil
  | else (a : Cmd X C O)
  | elseif (c : Cond X C O) (a : Cmd X C O) (tail : Tail X C O)
end

/-- What a primitive gives. -/
inductive Prim (α : Type) where
  | val (a : α)
  | missing
  | fail

/-- A definition (`alg_defn`): the names of the parameters, and a body, which is an algorithm, with the value that stands for a missing
thing (pseudocode_semantics.py:3025-3034), or an expression. -/
inductive Body (V X C O : Type) where
  | alg (c : Cmd X C O) (onMissing : Option V)
  | expr (e : Expr X C O)

structure Defn (V X C O : Type) where
  params : List String
  body : Body V X C O

/-- The parameters of the language. -/
structure Lang (V X C O : Type) where
  prim : X → Option V → List V → Prim V
  test : C → Option V → List V → Prim Bool
  /-- `collection.each` (pseudocode_semantics.py:5572-5578). -/
  each : V → Option (List V)
  /-- The definition of an operation for these arguments, with the focus node (after the chain rule) and the other arguments
  (pseudocode_semantics.py:6170-6200, 6551-6608). -/
  defn : O → List V → Option (Defn V X C O × Option V × List V)

section
variable {V X C O R : Type} (L : Lang V X C O) (call : O → List V → M V R V)

/-- A primitive, in the current frame. -/
def primM {α} (p : Option V → Prim α) : M V R α := do
  let foc ← askFrame (fun f => some f.focus)
  match p foc with
  | .val a => M.pure a
  | .missing => M.missing
  | .fail => M.fail

mutual
/-- `EXEC` of an expression (pseudocode_semantics.py:3286-3321): variables 5680-5682, calls 6121-6131, 6487-6513, `where` 5817-5824,
`Otherwise` 5296-5299.  The check of the kind of the result (3297-3318) belongs to the primitives. -/
def evalE : Expr X C O → M V R V
  | .var x => do
    notReturning
    askFrame (fun f => getVar f x)
  | .prim p args => do
    notReturning
    let vs ← evalArgs args
    primM (fun foc => L.prim p foc vs)
  | .call o args => do
    notReturning
    let vs ← evalArgs args
    call o vs
  | .where_ a x b => do
    notReturning
    let v ← evalE b
    onFrame (fun f => some (startContour f))
    onFrame (fun f => letVar f x v)
    let r ← evalE a
    onFrame endContour
    M.pure r
  | .otherwise a c b => do
    notReturning
    let t ← evalC c
    if t then evalE a else evalE b
/-- Lists of expressions (pseudocode_semantics.py:6149-6166, 6534-6537). -/
def evalArgs : List (Expr X C O) → M V R (List V)
  | [] => M.pure []
  | e :: es => do
    let v ← evalE e
    let vs ← evalArgs es
    M.pure (v :: vs)
/-- `EXEC` of a condition: `or` 5909-5913, `and` 5923-5927, `unless` 6000-6002. -/
def evalC : Cond X C O → M V R Bool
  | .prim p args => do
    notReturning
    let vs ← evalArgs args
    primM (fun foc => L.test p foc vs)
  | .or cs => do
    notReturning
    evalOr cs
  | .and cs => do
    notReturning
    evalAnd cs
  | .unless a b => do
    notReturning
    let t ← evalC a
    if t then do
      let u ← evalC b
      M.pure (!u)
    else M.pure false
/-- `any(...)`. -/
def evalOr : List (Cond X C O) → M V R Bool
  | [] => M.pure false
  | c :: cs => do
    let t ← evalC c
    if t then M.pure true else evalOr cs
/-- `all(...)`. -/
def evalAnd : List (Cond X C O) → M V R Bool
  | [] => M.pure true
  | c :: cs => do
    let t ← evalC c
    if t then evalAnd cs else M.pure false
end

/-- The loop of `For each` (pseudocode_semantics.py:5382-5387). -/
def eachM (x : String) (body : M V R Unit) : List V → M V R Unit
  | [] => M.pure ()
  | v :: vs => do
    onFrame (fun f => some (startContour f))
    onFrame (fun f => letVar f x v)
    body
    onFrame endContour
    let r ← isReturning
    if r then M.pure () else eachM x body vs

mutual
/-- `EXEC` of a command: sequences 5140-5144, `If` 5169-5174, 5264-5283, `For each` 5379-5387, Assert 5614-5617, Let 5699-5702, Set 5852-5855,
Return 5874-5876. -/
def exec : Cmd X C O → M V R Unit
  | .let x e => do
    notReturning
    let v ← evalE L call e
    onFrame (fun f => letVar f x v)
  | .set x e => do
    notReturning
    let v ← evalE L call e
    onFrame (fun f => setVar f x v)
  | .ret e => do
    notReturning
    let v ← evalE L call e
    onFrame (fun f => startReturning f v)
  | .assert c => do
    notReturning
    let t ← evalC L call c
    if t then M.pure () else M.fail
  | .seq a b => do
    notReturning
    exec a
    let r ← isReturning
    if r then M.pure () else exec b
  | .ifClosed c a b => do
    notReturning
    let t ← evalC L call c
    if t then exec a else exec b
  | .ifOther c a tail => do
    notReturning
    let t ← evalC L call c
    if t then exec a else execTail tail
  | .forEach x e body => do
    notReturning
    notReturning
    let v ← evalE L call e
    match L.each v with
    | none => M.fail
    | some vs => eachM x (exec body) vs
def execTail : Tail X C O → M V R Unit
  | .nil => notReturning
  | .else a => do
    notReturning
    exec a
  | .elseif c a tail => do
    notReturning
    let t ← evalC L call c
    if t then exec a else execTail tail
end

/-- The variables for the parameters (pseudocode_semantics.py:2948-2952). -/
def letAll (f : Frame V) : List String → List V → Option (Frame V)
  | [], [] => some f
  | x :: xs, v :: vs => match letVar f x v with
    | none => none
    | some f' => letAll f' xs vs
  | _, _ => none

/-- `frame.run` (pseudocode_semantics.py:2994-3042) for a definition by an algorithm or an expression. -/
def runBody : Body V X C O → M V R V
  | .alg c onMissing => fun s => match exec L call c s with
    | .ok _ s' => askFrame (fun f => f.ret) s'
    | .missing s' => match onMissing with
      | some v => .ok v s'
      | none => .fail
    | .fail => .fail
  | .expr e => evalE L call e

/-- Pushing a frame, running it and popping it (pseudocode_semantics.py:2908-2913).  `assert rframe is frame` is modelled by the number of
frames: frames are pushed and popped at one end only. -/
def withFrame {α} (f : Frame V) (m : M V R α) : M V R α := fun s =>
  match m { s with stack := f :: s.stack } with
  | .ok a s' => match s'.stack with
    | [] => .fail
    | _ :: r => if r.length = s.stack.length then .ok a { s' with stack := r } else .fail
  | .missing s' => .missing s'
  | .fail => .fail

/-- `execute_alg_defn` (pseudocode_semantics.py:2879-2916) and the constructor of `Frame` (2920-2964). -/
def execDefn (d : Defn V X C O) (foc : Option V) (vs : List V) : M V R V :=
  if vs.length = d.params.length then
    match letAll (newFrame foc) d.params vs with
    | none => M.fail
    | some f => withFrame f (runBody L call d.body)
  else M.fail

end

section
variable {V X C O R : Type} (L : Lang V X C O)

/-- Calls, to a depth of `n`.  Python's limit on recursion (pseudocode_semantics.py:2783-2807) is not modelled. -/
def callN : Nat → O → List V → M V R V
  | 0, _, _ => M.fail
  | n + 1, o, vs => match L.defn o vs with
    | none => M.fail
    | some (d, foc, args) => execDefn L (callN n) d foc args

/-! ### Early error rules -/

/-- Rules.  "must cover" and "the rules for ... are applied" are not modelled here. -/
inductive Rule (X C O : Type) where
  | errIf (c : Cond X C O)               -- 6815-6818, 6828-6831
  | errIfIf (a b : Cond X C O)           -- 6841-6844
  | errNotIf (a b : Cond X C O)          -- 6854-6857
  | errAlg (c : Cond X C O) (a : Cmd X C O) (same : C)  -- 6867-6880
  | errEach (x : String) (e : Expr X C O) (c : Cond X C O)  -- 6955-6966

/-- `it_is_a_syntax_error` (pseudocode_semantics.py:6970-6974). -/
def syntaxError (r : R) : M V R Unit := do
  let foc ← askFrame (fun f => some f.focus)
  fun s => .ok () { s with errs := s.errs ++ [(foc, r)] }

/-- The loop of a rule "For each" (pseudocode_semantics.py:6959-6966). -/
def ruleEach (n : Nat) (r : R) (x : String) (c : Cond X C O) : List V → M V R Unit
  | [] => M.pure ()
  | v :: vs => do
    onFrame (fun f => some (startContour f))
    onFrame (fun f => letVar f x v)
    let t ← evalC L (callN L n) c
    if t then syntaxError r else M.pure ()
    onFrame endContour
    ruleEach n r x c vs

/-- `EXEC` of a rule. -/
def execRule (n : Nat) (r : R) : Rule X C O → M V R Unit
  | .errIf c => do
    notReturning
    let t ← evalC L (callN L n) c
    if t then syntaxError r else M.pure ()
  | .errIfIf a b => do
    notReturning
    let t ← evalC L (callN L n) a
    if t then do
      let u ← evalC L (callN L n) b
      if u then syntaxError r else M.pure ()
    else M.pure ()
  | .errNotIf a b => do
    notReturning
    let u ← evalC L (callN L n) b
    if u then M.pure () else do
      let t ← evalC L (callN L n) a
      if t then syntaxError r else M.pure ()
  | .errAlg c a same => do
    notReturning
    let t ← evalC L (callN L n) c
    if t then do
      exec L (callN L n) a
      let v ← askFrame (fun f => f.ret)
      onFrame (fun f => (stopReturning f).map (·.2))
      let u ← primM (fun foc => L.test same foc [v])
      if u then syntaxError r else M.pure ()
    else M.pure ()
  | .errEach x e c => do
    notReturning
    let v ← evalE L (callN L n) e
    match L.each v with
    | none => M.fail
    | some vs => ruleEach L n r x c vs

/-- `frame.run` for rules (pseudocode_semantics.py:3012-3023). -/
def runRules (n : Nat) : List (R × Rule X C O) → M V R Unit
  | [] => M.pure ()
  | (r, rule) :: rs => fun s =>
    let next : St V R → Out (St V R) Unit := fun s' => match notReturning s' with
      | .ok _ s'' => runRules n rs s''
      | .missing s'' => .missing s''
      | .fail => .fail
    match execRule L n r rule s with
    | .ok _ s' => next s'
    | .missing s' => next s'
    | .fail => .fail

/-- `execute_alg_defn(ee_rule, focus_node=pnode)` (pseudocode_semantics.py:2870-2871). -/
def applyRules (n : Nat) (rs : List (R × Rule X C O)) (pnode : V) : M V R Unit := withFrame (newFrame (some pnode)) (runRules L n rs)

end
end Verif.Exec
