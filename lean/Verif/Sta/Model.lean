/-! # Model of the interprocedural part of the static type analysis (pseudocode_semantics.py)

`do_STA_on_dependency_clusters`, `tc_alg`, `tc_header`, `TypedAlgHeader.make_env`, `change_declared_type` and `summarize_headers`.
What the analysis of one body finds (`tc_proc`) is a parameter: it may read the declared types of all operations. -/
namespace Verif.Sta

/-- The name of a parameter, or `'*return*'`. -/
abbrev Name := String

/-- The name under which the return type is kept (pseudocode_semantics.py:379, 539, 574). -/
def retName : Name := "*return*"

/-- A `TypedAlgHeader` (pseudocode_semantics.py:208-388): the fields that matter here.  `early` is `name == 'Early Errors'`, `isBif` is
`species.startswith('bif:')`, `tbd` is `started_with_TBD`, `defns` is `u_defns != []`, `required` is the number of the header's
parameters that are not optional. -/
structure Head (T : Type) where
  early : Bool
  isBif : Bool
  forParam : Option (Name × T)
  params : List (Name × T)
  ret : T
  tbd : List Name
  defns : Bool
  required : Nat
deriving DecidableEq

/-- `alg.parameters_with_types` and `alg.return_type` (pseudocode_semantics.py:163-164, 196-204): what callers read. -/
structure Summary (T : Type) where
  params : List (Name × T)
  ret : T
deriving DecidableEq

/-- An operation or built-in function.  `builtIn` is `alg.name in built_in_ops` (pseudocode_semantics.py:100-109), `discriminated` and
`moduleRec` are the two tests of the species in `summarize_headers` (:167, :169). -/
structure Alg (T : Type) where
  builtIn : Bool
  discriminated : Bool
  moduleRec : Bool
  heads : List (Head T)
  summary : Option (Summary T)
deriving DecidableEq

/-- How the return type splits at completion records (pseudocode_semantics.py:553-567): into two parts, one, or none. -/
inductive Kind where
  | mixed | pure | empty
deriving DecidableEq

/-- What is taken as given: `T_TBD`, `is_a_subtype_of_or_equal_to`, `union_of_types`, `split_by(T_Completion_Record)` and the analysis of
the definitions of a header (`tc_proc`), which sees what callers read of every operation, the position of the header and its
initial environment, and gives the errors it adds and the environment at the end, or fails. -/
structure Cfg (T E : Type) where
  tbd : T
  sub : T → T → Bool
  join : List T → T
  kind : T → Kind
  body : (Nat → Option (Summary T)) → Nat → Nat → List (Name × T) → Option (List E × Option (List (Name × T)))

/-- The messages (pseudocode_semantics.py:584, 1485, 1549 and those of `tc_proc`). -/
inductive Msg (T E : Type) where
  | body (e : E)
  | still (n : Name)
  | suggest (widening : Bool) (n : Name) (t : T)
  | change (n : Name) (old new : T)
deriving DecidableEq

/-- A message with its level prefix and the header it is about. -/
structure Entry (T E : Type) where
  level : Nat
  alg : Nat
  head : Nat
  msg : Msg T E
deriving DecidableEq

/-- The state: the operations, the installed messages in order of installation and the global `pass_errors`.  Simplification: the messages
are in one list instead of being attached to nodes. -/
structure St (T E : Type) where
  algs : List (Alg T)
  log : List (Entry T E)
  pass : List (Entry T E)
deriving DecidableEq

/-- Why the program stops: "giving up" (:1311), a return type that is both (:561), or a failed assertion or lookup. -/
inductive Why where
  | gaveUp | mixed | crash
deriving DecidableEq

/-- The outcome of a call: a value, or the end of the program (with what had been installed, which `write_modified_spec` still prints). -/
inductive Res (T E α : Type) where
  | ok (s : St T E) (a : α)
  | stop (w : Why) (s : St T E)
deriving DecidableEq

variable {T E : Type}

/-- `d[k] = v` on an ordered dict. -/
def put (k : Name) (v : T) : List (Name × T) → List (Name × T)
  | [] => [(k, v)]
  | (k', v') :: d => if k' = k then (k', v) :: d else (k', v') :: put k v d

/-- The variables of `make_env` (pseudocode_semantics.py:527-539). -/
def env (h : Head T) : List (Name × T) :=
  put retName h.ret (h.params.foldl (fun d p => put p.1 p.2 d) (h.forParam.toList))

/-- Insertion into a sorted list of names. -/
def insertName (n : Name) : List Name → List Name
  | [] => [n]
  | m :: ms => if n ≤ m then n :: m :: ms else m :: insertName n ms

/-- `sorted(names)`. -/
def sortNames (ns : List Name) : List Name := ns.foldr insertName []

/-- `init_env.vars == final_env.vars` (pseudocode_semantics.py:1488): equality of dicts. -/
def sameDict [DecidableEq T] (a b : List (Name × T)) : Bool :=
  a.all (fun p => b.lookup p.1 == some p.2) && b.all (fun p => a.lookup p.1 == some p.2)

/-- A set built by adding the elements in order. -/
def toSet [DecidableEq T] (ts : List T) : List T := ts.foldl (fun acc t => if t ∈ acc then acc else acc ++ [t]) []

/-- The asserts about the numbers of parameters (pseudocode_semantics.py:167-185). -/
def countsOk (a : Alg T) (h0 : Head T) : Bool :=
  a.discriminated && a.heads.all (fun h =>
    if a.moduleRec then h.params.length = h0.required ∨ h.params.length = h0.params.length
    else h.params.length = h0.params.length)

/-- `'|'.join(names)` (pseudocode_semantics.py:198). -/
def barJoin : List Name → Name
  | [] => ""
  | [n] => n
  | n :: ns => n ++ "|" ++ barJoin ns

/-- The summary of several headers (pseudocode_semantics.py:187-204): for each position the names, sorted, and the union of the types. -/
def joined [DecidableEq T] (cfg : Cfg T E) (heads : List (Head T)) (h0 : Head T) : Summary T where
  params := (List.range h0.params.length).map (fun i =>
    (barJoin (sortNames (toSet (heads.filterMap (fun h => (h.params[i]?).map Prod.fst)))),
     cfg.join (toSet (heads.filterMap (fun h => (h.params[i]?).map Prod.snd)))))
  ret := cfg.join (toSet (heads.map Head.ret))

/-- `summarize_headers` (pseudocode_semantics.py:158-204); `none` for a failed assertion. -/
def summarize [DecidableEq T] (cfg : Cfg T E) (a : Alg T) : Option (Alg T) :=
  match a.heads with
  | [] => some a
  | [h] => some { a with summary := some ⟨h.params, h.ret⟩ }
  | h0 :: _ =>
    if countsOk a h0 then some { a with summary := some (joined cfg a.heads h0) }
    else none

/-- What a caller reads.  With a single header `parameters_with_types` is a live view of the header's dict (pseudocode_semantics.py:163). -/
def seen (a : Alg T) : Option (Summary T) :=
  a.summary.map (fun s => match a.heads with
    | [h] => { s with params := h.params }
    | _ => s)

/-- The declared types as the analysis of a body reads them (pseudocode_semantics.py:2047-2055, 2310-2316, 2589-2590). -/
def view (algs : List (Alg T)) (b : Nat) : Option (Summary T) := (algs[b]?).bind seen

/-- `self.return_type = new_t` or `self.parameter_types[pname] = new_t` (pseudocode_semantics.py:573-579). -/
def setType (pn : Name) (t : T) (h : Head T) : Head T :=
  if pn = retName then { h with ret := t } else { h with params := put pn t h.params }

/-- The header at a position. -/
def headAt (algs : List (Alg T)) (a i : Nat) : Option (Head T) := (algs[a]?).bind (fun x => x.heads[i]?)

/-- Assignment to one header. -/
def modHead (f : Head T → Head T) (a i : Nat) (algs : List (Alg T)) : List (Alg T) :=
  algs.modify a (fun x => { x with heads := x.heads.modify i f })

/-- `add_pass_error` (pseudocode_semantics.py:1383-1387). -/
def addPass (L a i : Nat) (ms : List (Msg T E)) (s : St T E) : St T E :=
  { s with pass := s.pass ++ ms.map (fun m => ⟨L, a, i, m⟩) }

/-- `tah.change_declared_type(pn, final_t)` (pseudocode_semantics.py:573-588): the change, and the message about it, which is installed at
once. -/
def changeType (L a i : Nat) (pn : Name) (old new : T) (s : St T E) : St T E :=
  { s with algs := modHead (setType pn new) a i s.algs, log := s.log ++ [⟨L, a, i, .change pn old new⟩] }

/-- The loop over the names of the initial environment (pseudocode_semantics.py:1495-1550).  Simplification: the old type in the message
of a change is the one of the initial environment; it is the header's declared type, as the loop changes every name once. -/
def nameLoop [DecidableEq T] (cfg : Cfg T E) (L a i : Nat) (tbd : List Name) (init fin : List (Name × T)) :
    List Name → St T E → Bool → Res T E Bool
  | [], s, c => .ok s c
  | pn :: pns, s, c =>
    match init.lookup pn, fin.lookup pn with
    | some it, some ft =>
      if it = ft then nameLoop cfg L a i tbd init fin pns s c
      else if pn ∈ tbd then nameLoop cfg L a i tbd init fin pns (changeType L a i pn it ft s) true
      else if pn ≠ retName then nameLoop cfg L a i tbd init fin pns s c
      else if cfg.sub ft it then nameLoop cfg L a i tbd init fin pns s c
      else nameLoop cfg L a i tbd init fin pns (addPass L a i [.suggest (cfg.sub it ft) pn ft] s) c
    | _, _ => .stop .crash s

/-- The names that have a `fake_node_for_` (pseudocode_semantics.py:327-332). -/
def hasFake (h : Head T) (n : Name) : Bool :=
  n ∈ h.params.map Prod.fst ∨ n = "normal" ∨ n = "abrupt" ∨ n = retName

/-- `tc_header` after the analysis of the definitions (pseudocode_semantics.py:1475-1552). -/
def afterBody [DecidableEq T] (cfg : Cfg T E) (L a i : Nat) (h : Head T) (fin : Option (List (Name × T))) (s : St T E) : Res T E Bool :=
  if h.early then
    match fin with
    | none => .ok s false
    | some _ => .stop .crash s
  else
    match fin with
    | none => .stop .crash s
    | some fin =>
      if (fin.filter (fun p => p.2 = cfg.tbd)).all (fun p => hasFake h p.1) then
        if sameDict (env h) fin then .ok (addPass L a i ((fin.filter (fun p => p.2 = cfg.tbd)).map (fun p => .still p.1)) s) false
        else nameLoop cfg L a i h.tbd (env h) fin (sortNames ((env h).map Prod.fst))
          (addPass L a i ((fin.filter (fun p => p.2 = cfg.tbd)).map (fun p => .still p.1)) s) false
      else .stop .crash s

/-- The check of the return type in `make_env` (pseudocode_semantics.py:541-567); a built-in function's expected type is fixed. -/
def retCheck (cfg : Cfg T E) (h : Head T) : Option Why :=
  if h.isBif then none
  else match cfg.kind h.ret with
    | .mixed => some .mixed
    | .empty => some .crash
    | .pure => none

/-- `tc_header` (pseudocode_semantics.py:1466-1552). -/
def tcHeader [DecidableEq T] (cfg : Cfg T E) (L a i : Nat) (h : Head T) (s : St T E) : Res T E Bool :=
  match retCheck cfg h with
  | some w => .stop w s
  | none =>
    if h.defns then
      match cfg.body (view s.algs) a i (env h) with
      | none => .stop .crash s
      | some (errs, fin) => afterBody cfg L a i h fin (addPass L a i (errs.map .body) s)
    else .ok s false

/-- The loop over the headers (pseudocode_semantics.py:1447-1450): `n` headers from position `i`. -/
def headLoop [DecidableEq T] (cfg : Cfg T E) (L a : Nat) : Nat → Nat → St T E → Bool → Res T E Bool
  | 0, _, s, c => .ok s c
  | n + 1, i, s, c =>
    match headAt s.algs a i with
    | none => .stop .crash s
    | some h =>
      match tcHeader cfg L a i h s with
      | .stop w s' => .stop w s'
      | .ok s' c' => headLoop cfg L a n (i + 1) s' (c || c')

/-- `tc_alg` (pseudocode_semantics.py:1429-1462). -/
def tcAlg [DecidableEq T] (cfg : Cfg T E) (L a : Nat) (s : St T E) : Res T E Bool :=
  match s.algs[a]? with
  | none => .stop .crash s
  | some x =>
    if x.builtIn then .ok s false
    else
      match headLoop cfg L a x.heads.length 0 s false with
      | .stop w s' => .stop w s'
      | .ok s' false => .ok s' false
      | .ok s' true =>
        match (s'.algs[a]?).bind (summarize cfg) with
        | none => .stop .crash s'
        | some x' => .ok { s' with algs := s'.algs.set a x' } true

/-- One pass over the members of a cluster (pseudocode_semantics.py:1319-1324): was any operation changed? -/
def memberLoop [DecidableEq T] (cfg : Cfg T E) (L : Nat) : List Nat → St T E → Bool → Res T E Bool
  | [], s, c => .ok s c
  | a :: as, s, c =>
    match tcAlg cfg L a s with
    | .stop w s' => .stop w s'
    | .ok s' c' => memberLoop cfg L as s' (c || c')

/-- The passes over a cluster (pseudocode_semantics.py:1309-1337), with the number of passes left. -/
def settle [DecidableEq T] (cfg : Cfg T E) (L : Nat) (members : List Nat) : Nat → St T E → Res T E Unit
  | 0, s => .stop .gaveUp s
  | k + 1, s =>
    match memberLoop cfg L members { s with pass := [] } false with
    | .stop w s' => .stop w s'
    | .ok s' true => settle cfg L members k s'
    | .ok s' false => .ok { s' with log := s'.log ++ s'.pass } ()

/-- The number of passes before "giving up" (pseudocode_semantics.py:1316). -/
def maxPasses : Nat := 5

/-- The clusters of one level (pseudocode_semantics.py:1301-1337). -/
def clusterLoop [DecidableEq T] (cfg : Cfg T E) (L : Nat) : List (List Nat) → St T E → Res T E Unit
  | [], s => .ok s ()
  | c :: cs, s =>
    match settle cfg L c maxPasses s with
    | .stop w s' => .stop w s'
    | .ok s' _ => clusterLoop cfg L cs s'

/-- The levels from number `L` (pseudocode_semantics.py:1292-1300). -/
def levelLoop [DecidableEq T] (cfg : Cfg T E) : Nat → List (List (List Nat)) → St T E → Res T E Unit
  | _, [], s => .ok s ()
  | L, l :: ls, s =>
    match clusterLoop cfg L l s with
    | .stop w s' => .stop w s'
    | .ok s' _ => levelLoop cfg (L + 1) ls s'

/-- `TypedAlgHeader.__init__`, the part that notes what is TBD (pseudocode_semantics.py:373-380). -/
def noteTBD [DecidableEq T] (cfg : Cfg T E) (h : Head T) : Head T :=
  { h with tbd := (h.params.filter (fun p => p.2 = cfg.tbd)).map Prod.fst ++ (if h.ret = cfg.tbd then [retName] else []) }

/-- The headers are made, and every operation is summarized (pseudocode_semantics.py:64-65, 117-118). -/
def prepare [DecidableEq T] (cfg : Cfg T E) (algs : List (Alg T)) : Option (List (Alg T)) :=
  (algs.map (fun a => { a with heads := a.heads.map (noteTBD cfg) })).mapM (summarize cfg)

/-- The whole analysis: `compute_dependency_levels` as far as it summarizes, and `do_STA_on_dependency_clusters` on the given levels
(pseudocode_semantics.py:44-45, 111-118, 1281-1340). -/
def sta [DecidableEq T] (cfg : Cfg T E) (algs : List (Alg T)) (levels : List (List (List Nat))) : Res T E Unit :=
  match prepare cfg algs with
  | none => .stop .crash ⟨algs, [], []⟩
  | some as => levelLoop cfg 0 levels ⟨as, [], []⟩

end Verif.Sta
