import Verif.Gram.ReachModel
/-!
# Model of the report on dependencies between operations (Pseudocode.py 837-1318)

Names are strings, compared as Python compares them.  A `set` is a list without repetition; where the program loops over a set, the order is a parameter.
-/
namespace Verif.Deps

/-- What is asked about a node of a syntax tree (Pseudocode_Parser.py:517-528): its production and its source text; `names` are the names of operations in the attribute
`_op_invocation`, if it has one (Pseudocode.py:474-475).  How `annotate_invocations` finds them is not modelled. -/
structure Attr where
  lhs : String
  rhs : String
  text : String
  names : Option (List String)
deriving DecidableEq, Repr

/-- A node of a syntax tree; `emb` is `_hnode._syntax_tree`, the tree of an algorithm that is embedded there.  Children that are strings are left out. -/
inductive ANode where
  | node (a : Attr) (kids : List ANode) (emb : Option ANode)

def ANode.attr : ANode → Attr
  | .node a _ _ => a

def ANode.kids : ANode → List ANode
  | .node _ ks _ => ks

/-- An element of `invocations`: the node, and whether `closest_containing('{PREFIX_PAREN}')` finds one (Pseudocode_Parser.py:545-556). -/
structure Inv where
  node : ANode
  inParen : Bool

def parenLhs : String := "{PREFIX_PAREN}"

mutual
/-- `recurse` (Pseudocode.py:864-877), with `each_descendant_or_self` (Pseudocode_Parser.py:558-566): the names of operations with the nodes that invoke them, in
order.  `early` tells whether the algorithm is `Early Errors`; `up` whether an ancestor is a `{PREFIX_PAREN}`. -/
def recurse (early up : Bool) : ANode → Option (List (String × Inv))
  | .node a kids emb => do
    let inP := up || a.lhs == parenLhs
    let own ← match a.names with
      | some ns => some (ns.map (fun n => (n, ⟨.node a kids emb, inP⟩)))
      | none => recurseEmb early emb
    let rest ← recurseAll early inP kids
    some (own ++ rest)
def recurseAll (early up : Bool) : List ANode → Option (List (String × Inv))
  | [] => some []
  | k :: ks => do
    let x ← recurse early up k
    let y ← recurseAll early up ks
    some (x ++ y)
def recurseEmb (early : Bool) : Option ANode → Option (List (String × Inv))
  | none => some []
  | some e => if early then recurse early false e else none
end

/-- A parameter of an operation (algos.py:139-144); the nature is left out. -/
structure Param where
  name : String
  punct : String
deriving DecidableEq, Repr

/-- A header (algos.py:148-158): the text of `return_nature_node`, and its definitions, each with its `anodes`.  -/
structure Head where
  sect : String
  returns : Option String
  defs : List (List (Option ANode))

/-- An `Alg` (algos.py:106-116); `params` if it has this attribute (375-378). -/
structure Alg where
  name : String
  species : String
  heads : List Head
  params : Option (List Param)

/-- `all_definitions` (algos.py:129-135), with the number of the section. -/
def Alg.defns (a : Alg) : List (String × List (Option ANode)) := a.heads.flatMap (fun h => h.defs.map (fun d => (h.sect, d)))

/-- `for anode in alg_defn.anodes: if anode: recurse(anode)` (Pseudocode.py:879-880). -/
def defnCalls (early : Bool) : List (Option ANode) → Option (List (String × Inv))
  | [] => some []
  | none :: as => defnCalls early as
  | some t :: as => do
    let x ← recurse early false t
    let y ← defnCalls early as
    some (x ++ y)

/-- The same for the definitions (861-880), with the number of the section. -/
def algCalls (early : Bool) : List (String × List (Option ANode)) → Option (List (String × String × Inv))
  | [] => some []
  | (s, d) :: ds => do
    let x ← defnCalls early d
    let y ← algCalls early ds
    some (x.map (fun p => (s, p.1, p.2)) ++ y)

/-- `set.add`. -/
def add (x : String) (l : List String) : List String := if x ∈ l then l else l ++ [x]

/-- A set of the elements. -/
def toSet (l : List String) : List String := l.foldl (fun acc x => add x acc) []

def insertName (n : String) : List String → List String
  | [] => [n]
  | m :: ms => if n ≤ m then n :: m :: ms else m :: insertName n ms

/-- `sorted(names)`. -/
def sortNames (ns : List String) : List String := ns.foldr insertName []

def insertAlg (a : Alg) : List Alg → List Alg
  | [] => [a]
  | b :: bs => if a.name ≤ b.name then a :: b :: bs else b :: insertAlg a bs

/-- `sorted(spec.alg_info_[...].items())`; the keys, which are the names, are different. -/
def sortAlgs (as : List Alg) : List Alg := as.foldr insertAlg []

/-- The messages to stderr (Pseudocode.py:873, 900, 1200), and those at nodes (1238-1246). -/
inductive Msg where
  | noEntryIn (callee caller sect : String)
  | noEntry (callee caller : String)
  | noInvocations (op : String)
  | noThe (at_ : ANode)
  | needsThe (at_ : ANode)

/-- The parts of the file `static_deps`. -/
inductive Part where
  | alg (name species : String) (defns : Nat) (callees : List String)
  | names (header : String) (ns : List String)
  | pairs (header : String) (ps : List (String × String))
deriving DecidableEq, Repr

/-- What the program is given: the algorithms, the titles of sections with the names of the headers in them (in order), and the order in which a set of names is gone through. -/
structure Spec where
  ops : List Alg
  bifs : List Alg
  sections : List (String × List String)
  enum : List String → List String

/-- `callee_name in spec.alg_info_['op']`. -/
def Spec.isOp (S : Spec) (n : String) : Bool := (S.ops.map (·.name)).contains n

/-- The state of the first loop: the pairs of a name of an operation and an invocation of it, in the order in which they are appended to the lists `invocations`;
the sets `callees`, with the names of their algorithms, of operations and of functions; pairs for `callers`. -/
structure St where
  invs : List (String × Inv)
  opCallees : List (String × List String)
  bifCallees : List (String × List String)
  callers : List (String × String)
  msgs : List Msg
  out : List Part

def hostLoad : String := "HostLoadImportedModule"
def finishLoad : String := "FinishLoadingImportedModule"
def earlyErrors : String := "Early Errors"

/-- One turn of the first loop (Pseudocode.py:856-900). -/
def step (S : Spec) (isOp : Bool) (a : Alg) (st : St) : Option St := do
  let calls ← algCalls (a.name == earlyErrors) a.defns
  let found := toSet (calls.map (·.2.1))
  if a.name = hostLoad ∧ a.defns ≠ [] then none else
  let callees := if a.name = hostLoad then add finishLoad found else found
  some {
    invs := st.invs ++ (calls.map (·.2)).filter (fun p => S.isOp p.1)
    opCallees := if isOp then st.opCallees ++ [(a.name, callees)] else st.opCallees
    bifCallees := if isOp then st.bifCallees else st.bifCallees ++ [(a.name, callees)]
    callers := st.callers ++ ((S.enum callees).filter S.isOp).map (fun c => (c, a.name))
    msgs := st.msgs ++ (calls.filter (fun c => !S.isOp c.2.1)).map (fun c => .noEntryIn c.2.1 a.name c.1)
      ++ ((S.enum callees).filter (fun c => !S.isOp c)).map (fun c => .noEntry c a.name)
    out := st.out ++ [.alg a.name a.species a.defns.length (sortNames callees)] }

def steps (S : Spec) (isOp : Bool) : List Alg → St → Option St
  | [], st => some st
  | a :: as, st => do
    let st' ← step S isOp a st
    steps S isOp as st'

/-- The first loop (Pseudocode.py:856-900). -/
def firstLoop (S : Spec) : Option St := do
  let st ← steps S true (sortAlgs S.ops) ⟨[], [], [], [], [], []⟩
  steps S false (sortAlgs S.bifs) st

/-- `sorted(list(op_info.callees))`, if there is an entry. -/
def St.calleesOf (st : St) (n : String) : Option (List String) := (st.opCallees.lookup n).map sortNames

/-- `reach_op(...)` (Pseudocode.py:924-954). -/
def roots : List String := ["Early Errors", "InitializeHostDefinedRealm", "ParseScript", "ScriptEvaluation", "ParseModule", "Link", "Evaluate", "DetachArrayBuffer", "HostEventSet",
  "Valid Chosen Reads", "Coherent Reads", "Tear Free Reads", "Data Races"]

def St.allRoots (st : St) : List String := roots ++ st.bifCallees.flatMap (fun p => sortNames p.2)

/-- The labels of the sections (Pseudocode.py:981-995): the names with the label that the test accepts. -/
def labelled (test : String → Bool) (sections : List (String × List String)) : List String :=
  toSet (sections.filterMap (fun s => match s.2 with
    | [] => none
    | n :: _ => if test s.1 then some n else none))

def isSS (title : String) : Bool := "Static Semantics:".toList.isPrefixOf title.toList
def isRS (title : String) : Bool := !isSS title && "Runtime Semantics:".toList.isPrefixOf title.toList
def isUn (title : String) : Bool := !isSS title && !isRS title

/-- `a & b` and `a - b`. -/
def inter (a b : List String) : List String := a.filter (fun x => b.contains x)
def minus (a b : List String) : List String := a.filter (fun x => !b.contains x)

/-- The calls that are not followed (Pseudocode.py:1033-1037). -/
def skipped (op callee : String) : Bool := op == "ToString" && (callee == "ToPrimitive" || callee == "ToString")

/-- The loop over the callees in `ss_reach_op`. -/
def eachSs (visit : List String → String → Option (List String)) : List String → List String → Option (List String)
  | st, [] => some st
  | st, c :: cs => match visit st c with
    | none => none
    | some st' => eachSs visit st' cs

/-- `ss_reach_op` (Pseudocode.py:1024-1040); fuel for the depth.  `none` also if there is no entry (a KeyError). -/
def ssReach (unknown : List String) (callees : String → Option (List String)) : Nat → List String → String → Option (List String)
  | 0, _, _ => none
  | n + 1, st, s =>
    if s ∈ unknown then some st
    else if s ∈ st then some st
    else match callees s with
      | none => none
      | some cs => eachSs (ssReach unknown callees n) (s :: st) (cs.filter (fun c => !skipped s c))

def ssRoots : List String := ["Early Errors", "ParseScript", "ParseModule"]

/-- The two lists of calls (Pseudocode.py:1070-1080): those from an operation for which `a` holds to one for which `b` holds. -/
def callPairs (a b : String → Bool) (opCallees : List (String × List String)) : List (String × String) :=
  opCallees.flatMap (fun p => if a p.1 then ((sortNames p.2).filter b).map (fun c => (p.1, c)) else [])

/-- `p in s`. -/
def occursIn (p : List Char) : List Char → Bool
  | [] => p.isEmpty
  | c :: s => p.isPrefixOf (c :: s) || occursIn p s

def rhsPhrases : List String := ["execution context", "{EXECUTION_CONTEXT_COMPONENT}", "a newly created object", "a new built-in function object", "an ECMAScript function object",
  "an iterator object", "internal slot", "own property", "the property named", "Data Block", "Environment Record", "Realm Record", "the thisValue component", "Throw a"]
def textPhrases : List String := ["[[Prototype]]", "[[Extensible]]"]

/-- `looks_runtimey` (Pseudocode.py:1098-1129). -/
def looksRuntimey (a : Attr) : Bool :=
  rhsPhrases.any (fun p => occursIn p.toList a.rhs.toList) || textPhrases.any (fun p => occursIn p.toList a.text.toList)

mutual
/-- `recurse` (Pseudocode.py:1135-1142): whether a node looks runtimey.  It stops at the first such node.  Here the embedded algorithm is looked at even if the node is an invocation. -/
def anyRuntimey (early : Bool) : ANode → Option Bool
  | .node a kids emb => do
    if looksRuntimey a then some true else
    let e ← anyRuntimeyEmb early emb
    let k ← anyRuntimeyAll early kids
    some (e || k)
def anyRuntimeyAll (early : Bool) : List ANode → Option Bool
  | [] => some false
  | k :: ks => do
    let x ← anyRuntimey early k
    if x then some true else anyRuntimeyAll early ks
def anyRuntimeyEmb (early : Bool) : Option ANode → Option Bool
  | none => some false
  | some e => if early then anyRuntimey early e else none
end

/-- Whether an operation directly looks runtimey (Pseudocode.py:1134-1144). -/
def opRuntimey (early : Bool) : List (Option ANode) → Option Bool
  | [] => some false
  | none :: as => opRuntimey early as
  | some t :: as => do
    let x ← anyRuntimey early t
    let y ← opRuntimey early as
    some (x || y)

/-- The operations that directly look runtimey (Pseudocode.py:1132-1144). -/
def direct : List Alg → Option (List String)
  | [] => some []
  | a :: as => do
    let x ← opRuntimey (a.name == earlyErrors) (a.defns.flatMap (·.2))
    let y ← direct as
    some (if x then a.name :: y else y)

/-- `==` for sets. -/
def sameSet (a b : List String) : Bool := a.all (fun x => b.contains x) && b.all (fun x => a.contains x)

/-- One turn of the loop (Pseudocode.py:1148-1153). -/
def nextRt (S : Spec) (callers : List (String × String)) (rt : List String) : List String :=
  (rt.flatMap (fun o => (callers.filter (fun p => p.1 == o)).map (·.2))).foldl (fun acc c => if S.isOp c then add c acc else acc) rt

/-- The propagation to callers (Pseudocode.py:1147-1157); fuel for the number of turns. -/
def spread (S : Spec) (callers : List (String × String)) : Nat → List String → Option (List String)
  | 0, _ => none
  | n + 1, rt => if sameSet (nextRt S callers rt) rt then some rt else spread S callers n (nextRt S callers rt)

/-- The report, except for the parts on single algorithms. -/
def parts (S : Spec) (st : St) (reached unknown ss rt : List String) : List Part :=
  let ssL := labelled isSS S.sections
  let rsL := labelled isRS S.sections
  let unL := labelled isUn S.sections
  let ops := (sortAlgs S.ops).map (·.name)
  let dont := minus (S.ops.map (·.name)) rt
  [.names "operations referenced but not declared" (sortNames unknown),
   .names "operations declared but not reached" (ops.filter (fun o => !reached.contains o)),
   .names "ops labelled both 'Static Semantics' and 'Runtime Semantics'" (sortNames (inter ssL rsL)),
   .names "ops labelled 'Static Semantics' and also unlabelled" (sortNames (inter ssL unL)),
   .names "ops labelled 'Runtime Semantics' and also unlabelled" (sortNames (inter rsL unL)),
   .names "ops labelled 'Static Semantics' but not reachable from SS starting points [probably okay]" (sortNames (minus ssL ss)),
   .names "ops reachable from SS starting points but not labelled 'Static Semantics' [shouldn't happen?]" (sortNames (minus ss ssL)),
   .pairs "op labelled 'Static Semantics' calls one that isn't [shouldn't happen?]" (callPairs (fun o => ssL.contains o) (fun c => !ssL.contains c) st.opCallees),
   .pairs "op not labelled 'Static Semantics' calls one that is [probably fine]" (callPairs (fun o => !ssL.contains o) (fun c => ssL.contains c) st.opCallees),
   .names "ops labelled 'Static Semantics' but that look runtimey [shouldn't happen?]" (sortNames (minus ssL dont)),
   .names "ops that don't look runtimey, but aren't labelled 'Static Semantics' [okay, but should be relabelled?]" (sortNames (minus dont ssL))]

/-- `analyze_static_dependencies` (Pseudocode.py:837-1180). -/
def analyze (S : Spec) : Option (St × List Part) := do
  let st ← firstLoop S
  let r ← Gram.reachAll st.calleesOf (S.ops.length + 1) st.allRoots
  let ss ← eachSs (ssReach r.unknown st.calleesOf (S.ops.length + 1)) [] ssRoots
  let d ← direct (sortAlgs S.ops)
  let rt ← spread S st.callers (S.ops.length + 1) d
  some (st, st.out ++ parts S st r.reached r.unknown ss rt)

/-! ### What the invocations are used for -/

/-- `op_info.invocations`. -/
def St.invocations (st : St) (op : String) : List Inv := (st.invs.filter (fun p => p.1 == op)).map (·.2)

def startsWith (p s : String) : Bool := p.toList.isPrefixOf s.toList

/-- `re.fullmatch(r'either a normal completion containing .+ or an abrupt completion', r)`: `.` is not a newline. -/
def isEither (r : String) : Bool :=
  let p := "either a normal completion containing ".toList
  let q := " or an abrupt completion".toList
  let mid := (r.toList.drop p.length).take (r.toList.length - p.length - q.length)
  p.isPrefixOf r.toList && q.isSuffixOf r.toList && decide (p.length + q.length < r.toList.length) && mid.all (· != '\n')

/-- What the header of an operation says it returns (Pseudocode.py:1203-1209); `none` is a failed assert. -/
def returnOf (a : Alg) (h : Head) : Option String :=
  match h.returns with
  | none => if a.name = "MV" then some "a mathematical value" else none
  | some r => some r

/-- The decision of `this_sdo_accepts_the` (Pseudocode.py:1210-1222). -/
def acceptsFor (a : Alg) (r : String) : Bool :=
  !(["a Boolean", "~unused~", "either a normal completion containing ~unused~ or an abrupt completion"].contains r
    || ["Compile", "Instantiate", "Define", "Evaluate"].any (fun p => startsWith p a.name)
    || a.name == "WithClauseToAttributes" || isEither r
    || ["a Completion Record", "a return completion", "a throw completion or a return completion"].contains r)

/-- `this_sdo_accepts_the` (Pseudocode.py:1203-1222); `none` is a failed assert. -/
def acceptsThe (a : Alg) : Option Bool :=
  match a.heads with
  | [] => none
  | h :: _ => (returnOf a h).map (acceptsFor a)

/-- The checks of one invocation (Pseudocode.py:1224-1246). -/
def checkThe (accepts : Bool) (i : Inv) : Option (List Msg) :=
  if i.node.attr.lhs ≠ "{NAMED_OPERATION_INVOCATION}" then none else
  let should := accepts && !i.inParen
  let is := occursIn "the {cap_word}".toList i.node.attr.rhs.toList
  some (if is && !should then [.noThe i.node] else if !is && should then [.needsThe i.node] else [])

def checkThes (accepts : Bool) : List Inv → Option (List Msg)
  | [] => some []
  | i :: is => do
    let x ← checkThe accepts i
    let y ← checkThes accepts is
    some (x ++ y)

/-- The body of `check_the_sdo_name` (Pseudocode.py:1195-1246) for one operation. -/
def checkSdo (st : St) (a : Alg) : Option (List Msg) :=
  if startsWith "op: discriminated by syntax" a.species then
    if (st.invocations a.name).isEmpty then some (if a.name = earlyErrors then [] else [.noInvocations a.name])
    else match acceptsThe a with
      | none => none
      | some b => checkThes b (st.invocations a.name)
  else some []

def checkSdos (st : St) : List Alg → Option (List Msg)
  | [] => some []
  | a :: as => do
    let x ← checkSdo st a
    let y ← checkSdos st as
    some (x ++ y)

/-- `check_the_sdo_name` (Pseudocode.py:1185-1246). -/
def checkSdoNames (S : Spec) (st : St) : Option (List Msg) := checkSdos st (sortAlgs S.ops)

/-- `exes_in_exlist` (Pseudocode.py:489-503): how many there are.  The items themselves are modelled for C46. -/
def exCount : ANode → Option Nat
  | .node a kids _ =>
    if a.lhs ≠ "{EXLIST}" then none
    else if a.rhs = "{EX}" then match kids with
      | [_] => some 1
      | _ => none
    else if a.rhs = "{EXLIST}, {EX}" then match kids with
      | [inner, _] => (exCount inner).map (· + 1)
      | _ => none
    else none

/-- `exes_in_exlist_opt` (Pseudocode.py:477-487): how many there are. -/
def exOptCount (t : ANode) : Option Nat :=
  if t.attr.lhs ≠ "{EXLIST_OPT}" then none
  else if t.attr.rhs = "{EPSILON}" then some 0
  else if t.attr.rhs = "{EXLIST}" then match t.kids with
    | [e] => exCount e
    | _ => none
  else if t.attr.rhs = "{var}" then match t.kids with
    | _ :: _ => some 1
    | [] => none
  else none

/-- The number of arguments of an invocation (Pseudocode.py:1282-1299). -/
def argCount (op : String) (t : ANode) : Option Nat :=
  let p := t.attr.lhs ++ " : " ++ t.attr.rhs
  if p = "{PREFIX_PAREN} : {OPN_BEFORE_PAREN}({EXLIST_OPT})" then match t.kids with
    | [_, e] => exOptCount e
    | _ => none
  else if p = "{NAMED_OPERATION_INVOCATION} : {cap_word} of {LOCAL_REF}" then some 0
  else if p = "{NAMED_OPERATION_INVOCATION} : {cap_word} of {LOCAL_REF} {WITH_ARGS}" then match t.kids with
    | [w, _, args] => if w.attr.text = op then some args.kids.length else none
    | _ => none
  else none

/-- The entries of the file `optional_param_anomalies`; the number of the parameter counts from 1. -/
inductive Anomaly where
  | noInvocations (op : String) (i : Nat) (param : String)
  | allSupply (op : String) (i : Nat) (param : String) (n : Nat)
  | noneSupplies (op : String) (i : Nat) (param : String) (n : Nat)
deriving DecidableEq, Repr

/-- Counts of the invocations that supply an argument and of those that don't (Pseudocode.py:1279-1306). -/
def supply (op : String) (i : Nat) : List Inv → Option (Nat × Nat)
  | [] => some (0, 0)
  | v :: vs => do
    let k ← argCount op v.node
    let (y, n) ← supply op i vs
    some (if i ≤ k then (y + 1, n) else (y, n + 1))

/-- The body of the loop over the parameters (Pseudocode.py:1265-1316). -/
def checkParam (op : String) (invs : List Inv) (i : Nat) (p : Param) : Option (List Anomaly) :=
  if p.punct = "" then some []
  else if p.punct ≠ "[]" then none
  else if invs.isEmpty then some [.noInvocations op i p.name]
  else match supply op i invs with
    | none => none
    | some (y, n) => some ((if n = 0 then [.allSupply op i p.name invs.length] else []) ++ (if y = 0 then [.noneSupplies op i p.name invs.length] else []))

def checkParams (op : String) (invs : List Inv) : Nat → List Param → Option (List Anomaly)
  | _, [] => some []
  | i, p :: ps => do
    let x ← checkParam op invs i p
    let rest ← checkParams op invs (i + 1) ps
    some (x ++ rest)

/-- The parameters of one operation, if it has the attribute (Pseudocode.py:1262-1265). -/
def checkAlg (st : St) (a : Alg) : Option (List Anomaly) :=
  match a.params with
  | none => some []
  | some ps => checkParams a.name (st.invocations a.name) 1 ps

def checkOptional (st : St) : List Alg → Option (List Anomaly)
  | [] => some []
  | a :: as => do
    let x ← checkAlg st a
    let y ← checkOptional st as
    some (x ++ y)

/-- `check_optional_parameters` (Pseudocode.py:1251-1318). -/
def optionalParams (S : Spec) (st : St) : Option (List Anomaly) := checkOptional st (sortAlgs S.ops)

end Verif.Deps
