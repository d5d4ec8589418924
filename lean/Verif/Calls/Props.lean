import Verif.Calls.ElementLemmas
/-!
# Properties C68 and C69
-/
namespace Verif.Calls
open Verif.Types Verif.Env

/-! ### An example world -/

def exTree : Tree := .node "Top_" [.node "Normal" [.node "Tangible_" [.node "Undefined" [], .node "Number" [], .node "String" []],
  .node "List" [], .node "Record" [], .node "proc_" []], .node "not_set" [], .node "not_returned" [], .node "not_passed" []]

def exCfg : Cfg := { tree := exTree, schema := fun _ => none, supers := fun _ => [] }

/-- Values: lists have numbers, for `true`, and strings. -/
inductive ExV where
  | undef | num | str | list (bs : List Bool) | record | fn | unset | unret | unpassed

def exNames : ExV → List String
  | .undef => ["Top_", "Normal", "Tangible_", "Undefined"]
  | .num => ["Top_", "Normal", "Tangible_", "Number"]
  | .str => ["Top_", "Normal", "Tangible_", "String"]
  | .list _ => ["Top_", "Normal", "List"]
  | .record => ["Top_", "Normal", "Record"]
  | .fn => ["Top_", "Normal", "proc_"]
  | .unset => ["Top_", "not_set"]
  | .unret => ["Top_", "not_returned"]
  | .unpassed => ["Top_", "not_passed"]

def exElem (b : Bool) : ExV := if b then .num else .str

def exI : Interp where
  V := ExV
  named := fun n v => n ∈ exNames v
  tbd := fun _ => False
  elems := fun v => match v with
    | .list bs => some (bs.map exElem)
    | _ => none
  schemaOf := fun _ => none
  field := fun _ _ => none
  procs := fun _ _ _ => False

theorem exCfg_ok : CfgOk exCfg where
  root := rfl
  nodup := by decide
  supers := by intro i j k h; simp [exCfg] at h

theorem exTree_children {p c : String} (h : ChildOf exTree p c) :
    (p = "Top_" ∧ (c = "Normal" ∨ c = "not_set" ∨ c = "not_returned" ∨ c = "not_passed")) ∨
    (p = "Normal" ∧ (c = "Tangible_" ∨ c = "List" ∨ c = "Record" ∨ c = "proc_")) ∨
    (p = "Tangible_" ∧ (c = "Undefined" ∨ c = "Number" ∨ c = "String")) := by
  have hm := h.mem_left
  obtain ⟨cs, hcs⟩ := Option.isSome_iff_exists.1 (children_isSome exTree p hm)
  have hc := (children_iff exCfg_ok.nodup hcs c).2 h
  simp only [exTree, names, namesL, List.append_nil, List.cons_append, List.nil_append, List.mem_cons, List.not_mem_nil, or_false] at hm
  rcases hm with rfl | rfl | rfl | rfl | rfl | rfl | rfl | rfl | rfl | rfl | rfl | rfl <;>
    simp [exTree, children?, childrenL?, Tree.name] at hcs <;> subst hcs <;> simp at hc <;> simp [hc]

theorem exChild {p c : String} {cs : List String} (h1 : children? exTree p = some cs) (h2 : c ∈ cs) : ChildOf exTree p c :=
  (children_iff exCfg_ok.nodup h1 _).1 h2

theorem exLeaf {n : String} (h : n ≠ "Top_" ∧ n ≠ "Normal" ∧ n ≠ "Tangible_") : IsLeaf exTree n := by
  intro c hc
  rcases exTree_children hc with ⟨e, _⟩ | ⟨e, _⟩ | ⟨e, _⟩
  · exact h.1 e
  · exact h.2.1 e
  · exact h.2.2 e

theorem exW : World exCfg Types.exOrd exI where
  cfgOk := exCfg_ok
  ordOk := Types.exOrd_ok
  leaf := exLeaf (by decide)
  respects := {
    top := fun v => by cases v <;> simp [exI, exNames, Top]
    child := by
      intro p c h v hv
      rcases exTree_children h with ⟨rfl, _⟩ | ⟨rfl, rfl | rfl | rfl | rfl⟩ | ⟨rfl, rfl | rfl | rfl⟩ <;> cases v <;> simp [exI, exNames] at hv ⊢
    list := fun v l h => by cases v <;> simp [exI, exNames, ListN] at h ⊢
    record := fun v s h => by simp [exI] at h
    proc := fun ps r v h => h.elim }
  exhaustive := by
    intro p v hv ⟨c, hc⟩
    have hk : ∀ c ∈ ["Normal", "not_set", "not_returned", "not_passed"], ChildOf exTree "Top_" c := fun c h => exChild rfl h
    have hn : ∀ c ∈ ["Tangible_", "List", "Record", "proc_"], ChildOf exTree "Normal" c := fun c h => exChild rfl h
    have ht : ∀ c ∈ ["Undefined", "Number", "String"], ChildOf exTree "Tangible_" c := fun c h => exChild rfl h
    rcases exTree_children hc with ⟨rfl, _⟩ | ⟨rfl, _⟩ | ⟨rfl, _⟩
    · cases v
      case unset => exact ⟨_, hk "not_set" (by simp), by simp [exI, exNames]⟩
      case unret => exact ⟨_, hk "not_returned" (by simp), by simp [exI, exNames]⟩
      case unpassed => exact ⟨_, hk "not_passed" (by simp), by simp [exI, exNames]⟩
      all_goals exact ⟨_, hk "Normal" (by simp), by simp [exI, exNames]⟩
    · cases v
      case list => exact ⟨_, hn "List" (by simp), by simp [exI, exNames]⟩
      case record => exact ⟨_, hn "Record" (by simp), by simp [exI, exNames]⟩
      case fn => exact ⟨_, hn "proc_" (by simp), by simp [exI, exNames]⟩
      all_goals first | (simp [exI, exNames] at hv; done) | exact ⟨_, hn "Tangible_" (by simp), by simp [exI, exNames]⟩
    · cases v
      · exact ⟨_, ht "Undefined" (by simp), by simp [exI, exNames]⟩
      · exact ⟨_, ht "Number" (by simp), by simp [exI, exNames]⟩
      · exact ⟨_, ht "String" (by simp), by simp [exI, exNames]⟩
      all_goals simp [exI, exNames] at hv
  disjoint := by
    intro p c d v h1 h2 hc hd
    rcases exTree_children h1 with ⟨rfl, e1⟩ | ⟨rfl, e1⟩ | ⟨rfl, e1⟩ <;> rcases exTree_children h2 with ⟨e, e2⟩ | ⟨e, e2⟩ | ⟨e, e2⟩ <;>
      first
      | (simp at e; done)
      | (rcases e1 with rfl | rfl | rfl | rfl <;> rcases e2 with rfl | rfl | rfl | rfl <;> first | rfl | (cases v <;> simp [exI, exNames] at hc hd))
      | (rcases e1 with rfl | rfl | rfl <;> rcases e2 with rfl | rfl | rfl <;> first | rfl | (cases v <;> simp [exI, exNames] at hc hd))
  notSet := by decide
  notReturned := by decide
  tangible := by decide
  undefinedNormal := by intro v h; cases v <;> simp [exI, exNames] at h ⊢

theorem exInhabited : LeavesInhabited exCfg exI := by
  intro n hn _
  simp only [exCfg, exTree, names, namesL, List.append_nil, List.cons_append, List.nil_append, List.mem_cons, List.not_mem_nil, or_false] at hn
  rcases hn with rfl | rfl | rfl | rfl | rfl | rfl | rfl | rfl | rfl | rfl | rfl | rfl
  · exact ⟨.num, by simp [exI, exNames]⟩
  · exact ⟨.num, by simp [exI, exNames]⟩
  · exact ⟨.num, by simp [exI, exNames]⟩
  · exact ⟨.undef, by simp [exI, exNames]⟩
  · exact ⟨.num, by simp [exI, exNames]⟩
  · exact ⟨.str, by simp [exI, exNames]⟩
  · exact ⟨.list [], by simp [exI, exNames]⟩
  · exact ⟨.record, by simp [exI, exNames]⟩
  · exact ⟨.fn, by simp [exI, exNames]⟩
  · exact ⟨.unset, by simp [exI, exNames]⟩
  · exact ⟨.unret, by simp [exI, exNames]⟩
  · exact ⟨.unpassed, by simp [exI, exNames]⟩

theorem exOnly : NoOnlyChild exCfg := by
  intro p c h
  rcases exTree_children h with ⟨rfl, e⟩ | ⟨rfl, e⟩ | ⟨rfl, e⟩
  · rcases e with rfl | rfl | rfl | rfl
    · exact ⟨"not_set", by decide, exChild (p := "Top_") rfl (by decide)⟩
    all_goals exact ⟨"Normal", by decide, exChild (p := "Top_") rfl (by decide)⟩
  · rcases e with rfl | rfl | rfl | rfl
    · exact ⟨"List", by decide, exChild (p := "Normal") rfl (by decide)⟩
    all_goals exact ⟨"Tangible_", by decide, exChild (p := "Normal") rfl (by decide)⟩
  · rcases e with rfl | rfl | rfl
    · exact ⟨"Number", by decide, exChild (p := "Tangible_") rfl (by decide)⟩
    all_goals exact ⟨"Undefined", by decide, exChild (p := "Tangible_") rfl (by decide)⟩

theorem leaf_anc {n m : String} (h : IsLeaf exTree n) (ha : Anc exTree n m) : m = n := by
  refine Classical.byContradiction (fun hne => ?_)
  obtain ⟨c, hc⟩ := exists_child exCfg_ok.nodup ha (fun e => hne e.symm)
  exact h c hc

theorem exHas : HasNotPassed exCfg where
  mem := by decide
  leaf := exLeaf (by decide)
  apart := by
    intro n hn
    simp only [List.mem_cons, List.not_mem_nil, or_false] at hn
    rcases hn with rfl | rfl | rfl
    · exact ⟨by decide, fun h => absurd (leaf_anc (exLeaf (by decide)) h) (by decide)⟩
    · exact ⟨by decide, fun h => absurd (leaf_anc (exLeaf (by decide)) h) (by decide)⟩
    · exact ⟨by decide, fun h => absurd (leaf_anc (exLeaf (by decide)) h) (by decide)⟩

/-- Expressions: some number, some string, a list. -/
def exL : Lang Unit (Fin 3) Unit Unit where
  cfg := exCfg
  ord := Types.exOrd
  expr := fun e env => some ((if e = 0 then .hier "Number" else if e = 1 then .hier "String" else .hier "List", env), [])
  cond := fun _ env _ => some ((some env, some env), [])
  bracket := fun _ => (T0, .hier "Tangible_")
  expected := fun _ => .hier "Tangible_"
  wraps := fun _ => false
  outerVars := fun _ => []

def exS : Sem (Fin 3) Unit Unit exI where
  eval := fun e _ v => if e = 0 then v = ExV.num else if e = 1 then v = ExV.str else ∃ bs, v = ExV.list bs
  holds := fun _ _ => True
  desc := fun _ v => v = ExV.num

def exTxt : Fin 3 → Text := fun _ => .other

/-- `xs` is a list of numbers, `ys` just a list. -/
def exEnv : Env Unit := { ctx := (), vars := [(.var "xs", .list (.hier "Number")), (.var "ys", .hier "List"), (.var "n", .hier "Number")] }
def exEnvT : Env Unit := { ctx := (), vars := [(.var "t", .tbd)] }
def exFlat : Env Unit := { ctx := (), vars := [(.var "n", .hier "Number"), (.var "s", .hier "String")] }

/-- Parameters: a number, and an optional value of the language. -/
def exParams : List (String × Ty) := [("_a_", .hier "Number"), ("_b_", .union [.hier "Tangible_", .hier "not_passed"])]

variable {K X T C : Type} [DecidableEq K] {L : Lang K X T C} {I : Interp}

/-! ## C68 -/

/-- C68, all messages.  Where parameters and arguments have types given by names, and there are no more arguments than
parameters, the analysis of a call gives each argument's type, and exactly these messages: those of the argument itself, a
complaint if some value of its type is not accepted by its parameter, and a complaint for each parameter that is left out
although it may not be.  The environment afterwards is right whenever those of the arguments are. -/
theorem c68_messages (hw : World L.cfg L.ord I) (hi : LeavesInhabited L.cfg I) (hoc : NoOnlyChild L.cfg) (hnp : "not_passed" ∈ names L.cfg.tree)
    (txt : X → Text) {env0 : Env K} {params : List (String × Ty)} {args : List (Expr X)} (hlen : args.length ≤ params.length)
    (hp : ∀ p ∈ params, Plain L.cfg p.2) (hargs : ArgsOk L args env0) (hf : FlatEnv L.cfg env0) (s : Acc K) :
    ∃ ts out ms, tcArgs L txt params args env0 s = some ((ts, out), { s with errs := s.errs ++ ms, log := s.log ++ ms }) ∧
      CallSays L I env0 params args ts ms ∧ FlatEnv L.cfg out ∧ out.ctx = env0.ctx ∧
      ∀ σ, Holds L.cfg I env0 σ → (∀ a ∈ args, ∀ t env1 es, Own L a env0 t env1 es → Holds L.cfg I env1 σ) → Holds L.cfg I out σ := by
  obtain ⟨ts, out, ms, h1, h2⟩ := argsLoop_says hw hi hoc hnp txt env0 params args env0 s hlen hp hargs hf rfl
  refine ⟨ts, out, ms, ?_, h2⟩
  unfold tcArgs
  rw [if_pos hlen, h1]
  rfl

/-- C68, too many arguments: the analysis stops. -/
theorem c68_too_many (txt : X → Text) {env0 : Env K} {params : List (String × Ty)} {args : List (Expr X)} (hlen : params.length < args.length)
    (s : Acc K) : tcArgs L txt params args env0 s = none := by
  unfold tcArgs
  rw [if_neg (by omega)]
  rfl

/-- C68, lists, records and procedures.  If the analysis of a call complains of no parameter, then each parameter that is left
out may be, and each argument fits its parameter. -/
theorem c68_sound (hw : World L.cfg L.ord I) (hpr : ProcsByResult I) (hi : LeavesInhabited L.cfg I) (hnp : HasNotPassed L.cfg)
    {txt : X → Text} {env0 out : Env K} {params : List (String × Ty)} {args : List (Expr X)} {ts : List Ty} {s s' : Acc K} {ms : List Err}
    (hp : ∀ p ∈ params, p.2 = .tbd ∨ ParamTy L.cfg p.2) (h : tcArgs L txt params args env0 s = some ((ts, out), s')) (hms : NewMessages s s' ms)
    (hq : ∀ p ∈ params, .argType p.1 ∉ ms ∧ .noArg p.1 ∉ ms) :
    ts.length = args.length ∧ args.length ≤ params.length ∧ ∀ (i : Nat) (p : String × Ty), params[i]? = some p →
      (args[i]? = none → p.2 = .tbd ∨ Optional L.cfg I p.2) ∧ ∀ t, ts[i]? = some t → Fits L.cfg I p.2 t := by
  unfold tcArgs at h
  split at h
  · rename_i hlen
    obtain ⟨ms', he, hall⟩ := argsLoop_sound hw.cfgOk hw.leaf hw.ordOk hnp hw.respects hw.exhaustive hw.disjoint hpr hi txt env0 params args env0 s s' ts out hlen hp h
    have : ms' = ms := by
      unfold NewMessages at hms
      rw [he] at hms
      exact List.append_cancel_left hms
    subst this
    obtain ⟨h1, h2⟩ := hall hq
    exact ⟨h1, hlen, h2⟩
  · cases h

theorem exFlat_flat : FlatEnv exCfg exFlat := by
  intro k t h
  simp only [exFlat, Verif.Env.get] at h
  split at h
  · injection h with h; subst h; exact flat_hier (by decide)
  · split at h
    · injection h with h; subst h; exact flat_hier (by decide)
    · cases h

theorem exNotList {n : String} (h : n ∈ ["Number", "not_passed", "Undefined", "String"]) : ¬ Anc exTree n "List" := by
  intro ha
  simp only [List.mem_cons, List.not_mem_nil, or_false] at h
  rcases h with rfl | rfl | rfl | rfl <;> exact absurd (leaf_anc (exLeaf (by decide)) ha) (by decide)

theorem exPlain : ∀ p ∈ exParams, Plain exCfg p.2 := by
  have ht : ¬ Anc exTree "Tangible_" "List" := by
    intro h
    obtain ⟨c, hc, h⟩ := child_toward exCfg_ok.nodup h (by decide)
    rcases exTree_children hc with ⟨e, _⟩ | ⟨e, _⟩ | ⟨_, rfl | rfl | rfl⟩
    · exact absurd e (by decide)
    · exact absurd e (by decide)
    all_goals exact exNotList (by decide) h
  intro p hp m hm
  simp only [exParams, List.mem_cons, List.not_mem_nil, or_false] at hp
  rcases hp with rfl | rfl
  · simp only [members, List.mem_singleton] at hm
    exact ⟨"Number", by decide, hm, exNotList (by decide)⟩
  · simp only [members, List.mem_cons, List.not_mem_nil, or_false] at hm
    rcases hm with rfl | rfl
    · exact ⟨_, by decide, rfl, ht⟩
    · exact ⟨_, by decide, rfl, exNotList (by decide)⟩

theorem exArgs : ArgsOk exL [.other 0, .var "s"] exFlat := by
  intro a ha
  simp only [List.mem_cons, List.not_mem_nil, or_false] at ha
  rcases ha with rfl | rfl
  · exact ⟨.hier "Number", exFlat, [], fun s => by simp [tcExpr, exL, bind, M.bind, reportAll, M.pure], flat_hier (by decide), exFlat_flat, rfl⟩
  · exact ⟨.hier "String", exFlat, [], fun s => by simp [tcExpr, exFlat, Verif.Env.get, M.pure], flat_hier (by decide), exFlat_flat, rfl⟩

example : World exL.cfg exL.ord exI ∧ LeavesInhabited exL.cfg exI ∧ NoOnlyChild exL.cfg ∧ HasNotPassed exL.cfg ∧ (∀ p ∈ exParams, Plain exL.cfg p.2) ∧
    ArgsOk exL [.other 0, .var "s"] exFlat ∧ FlatEnv exL.cfg exFlat ∧ ProcsByResult exI :=
  ⟨exW, exInhabited, exOnly, exHas, exPlain, exArgs, exFlat_flat, fun _ _ _ _ _ _ _ h => h.elim⟩
-- what the analysis says of some calls
example : (tcArgs exL exTxt exParams [.other 0, .var "s"] exFlat ⟨[], [], []⟩).map (fun r => (r.1.1, r.2.log)) = some ([.hier "Number", .hier "String"], []) := by decide +kernel
example : (tcArgs exL exTxt exParams [.other 0] exFlat ⟨[], [], []⟩).map (fun r => (r.1.1, r.2.log)) = some ([.hier "Number"], []) := by decide +kernel
example : (tcArgs exL exTxt exParams [.var "s", .other 2] exFlat ⟨[], [], []⟩).map (fun r => (r.1.1, r.2.log)) =
    some ([.hier "String", .hier "List"], [.argType "_a_", .argType "_b_"]) := by decide +kernel
example : (tcArgs exL exTxt exParams [] exFlat ⟨[], [], []⟩).map (fun r => (r.1.1, r.2.log)) = some ([], [.noArg "_a_"]) := by decide +kernel
example : (tcArgs exL exTxt exParams [.other 0, .other 0, .other 0] exFlat ⟨[], [], []⟩).isNone = true := by decide +kernel
-- a parameter that is a list of numbers, or not passed
example : ParamTy exCfg (.union [.list (.hier "Number"), .hier "not_passed"]) := by
  refine ⟨.list (.hier "Number"), .list _, by simp [FieldsOk, Deep], fun m hm => ?_, fun _ n hn => ?_⟩
  · simp only [members, List.mem_cons, List.not_mem_nil, or_false] at hm
    rcases hm with rfl | rfl
    · exact .inr rfl
    · exact .inl ⟨_, by decide, rfl⟩
  · simp only [members, List.mem_cons, List.not_mem_nil, or_false, Ty.hier.injEq, reduceCtorEq, false_or] at hn
    subst hn
    exact exNotList (by decide)
example : (tcArgs exL exTxt [("_l_", .union [.list (.hier "Number"), .hier "not_passed"])] [.var "xs"] exEnv ⟨[], [], []⟩).map (fun r => (r.1.1, r.2.log)) =
    some ([.list (.hier "Number")], []) := by decide +kernel
example : (tcArgs exL exTxt [("_l_", .union [.list (.hier "String"), .hier "not_passed"])] [.var "xs"] exEnv ⟨[], [], []⟩).map (fun r => r.2.log) =
    some [.argType "_l_"] := by decide +kernel

/-- C68: an argument that is just a `List` is let through where a `List of` numbers is wanted, although it may have strings in it. -/
theorem c68_bare_list_witness : ∃ s' ts out, tcArgs exL exTxt [("_l_", .list (.hier "Number"))] [.var "ys"] exEnv ⟨[], [], []⟩ = some ((ts, out), s') ∧
    s'.log = [] ∧ ts = [.hier "List"] ∧ ∃ v, den exCfg exI (.hier "List") v ∧ ¬ Accepts exCfg exI (.list (.hier "Number")) v := by
  refine ⟨⟨[], [], []⟩, [.hier "List"], exEnv, rfl, rfl, rfl, .list [false], by simp [den, exI, exNames], ?_⟩
  rintro ⟨⟨l, hl, hall⟩, _⟩
  have hl' : [exElem false] = l := Option.some.inj hl
  subst hl'
  have := hall (exElem false) (List.mem_singleton.2 rfl)
  simp [den, exI, exNames, exElem] at this

/-! ## C69 -/

/-- C69, ensuring a type, where types are given by names: what happens is settled by whether all values of the expression's
type are of the expected one, whatever the names stand for. -/
theorem c69_ensure (hc : CfgOk L.cfg) (txt : X → Text) {e : Expr X} {A t : Ty} {env env1 : Env K} {es : List Err} (hA : Flat L.cfg A)
    (hown : Own L e env t env1 es) (ht : Flat L.cfg t) (s : Acc K) :
    (Within L.cfg t A ∧ ensureType L txt e A env s = some ((t, env1), { s with errs := s.errs ++ es, log := s.log ++ es })) ∨
    (¬ Within L.cfg t A ∧ textOf txt e = .null ∧ ensureType L txt e A env s = none) ∨
    (¬ Within L.cfg t A ∧ (textOf txt e = .undefined ∨ textOf txt e = .empty) ∧
      ensureType L txt e A env s = some ((t, env1), { s with errs := s.errs ++ (es ++ [.wrongType]), log := s.log ++ (es ++ [.wrongType]) })) ∨
    (¬ Within L.cfg t A ∧ textOf txt e = .other ∧ ∃ env', Retyped e A env1 env' ∧
      ensureType L txt e A env s = some ((A, env'), { s with errs := s.errs ++ (es ++ [.wrongType]), log := s.log ++ (es ++ [.wrongType]) })) := by
  rw [ensure_run (not_isTBD_flat hA) hown, flat_not_tbd ht]
  simp only [Bool.false_eq_true, if_false]
  rcases sub_total hc ht hA with hs | hs
  · rw [hs]
    exact .inl ⟨within_sub hc (flat_fieldsOk hA) hs, rfl⟩
  · have hno : ¬ Within L.cfg t A := fun hh => by
      rw [sub_within hc ht hA hh] at hs; cases hs
    rw [hs]
    cases htx : textOf txt e with
    | null => exact .inr (.inl ⟨hno, rfl, rfl⟩)
    | undefined => exact .inr (.inr (.inl ⟨hno, .inl rfl, rfl⟩))
    | empty => exact .inr (.inr (.inl ⟨hno, .inr rfl, rfl⟩))
    | other => exact .inr (.inr (.inr ⟨hno, rfl, _, replaced_spec e A env1, rfl⟩))

/-- C69, ensuring a type, in general: one that is not determined is never expected; if the expression's is not determined, it
becomes the expected one; otherwise, if nothing is said, all values of the expression's type are of the expected one. -/
theorem c69_ensure_sound (hc : CfgOk L.cfg) {txt : X → Text} {e : Expr X} {A t' : Ty} {env env' : Env K} (hA : FieldsOk A) {s s' : Acc K}
    (h : ensureType L txt e A env s = some ((t', env'), s')) :
    ¬ IsTBD A ∧ ∃ t env1 es, Own L e env t env1 es ∧
      ((IsTBD t ∧ t' = A ∧ Retyped e A env1 env' ∧ NewMessages s s' es) ∨
      (¬ IsTBD t ∧ Within L.cfg t A ∧ t' = t ∧ env' = env1 ∧ NewMessages s s' es) ∨
      (¬ IsTBD t ∧ NewMessages s s' (es ++ [.wrongType]))) := by
  obtain ⟨h1, t, env1, es, hown⟩ := ensure_of h
  refine ⟨h1, t, env1, es, hown, ?_⟩
  rw [ensure_run h1 hown] at h
  by_cases ht : IsTBD t
  · rw [if_pos (isTBD_iff.2 ht)] at h
    injection h with h; injection h with e1 e2; injection e1 with e1 e3
    subst e1 e2 e3
    exact .inl ⟨ht, rfl, replaced_spec e _ env1, rfl⟩
  · rw [not_isTBD ht] at h
    simp only [Bool.false_eq_true, if_false] at h
    right
    split at h
    · cases h
    · rename_i hs
      injection h with h; injection h with e1 e2; injection e1 with e1 e3
      subst e1 e2 e3
      exact .inl ⟨ht, within_sub hc hA hs, rfl, rfl, rfl⟩
    · split at h
      · cases h
      all_goals
        injection h with h; injection h with e1 e2
        subst e2
        exact .inr ⟨ht, rfl⟩

/-- C69, asserting a type: it succeeds only if the expression's type is not determined, which is said, or all its values are of the
expected type. -/
theorem c69_assert (hc : CfgOk L.cfg) {e : Expr X} {A t : Ty} {env : Env K} (hA : FieldsOk A) {s s' : Acc K} (h : assertType L e A env s = some (t, s')) :
    ¬ IsTBD A ∧ ∃ env1 es, Own L e env t env1 es ∧
      ((IsTBD t ∧ NewMessages s s' (es ++ [.isTBD])) ∨ (¬ IsTBD t ∧ Within L.cfg t A ∧ NewMessages s s' es)) := by
  unfold assertType at h
  split at h
  · cases h
  · rename_i hA'
    refine ⟨fun hh => hA' (isTBD_iff.2 hh), ?_⟩
    obtain ⟨⟨t1, env1⟩, s1, h1, h2⟩ := bind_some h
    obtain ⟨es, hown, rfl⟩ := own_of h1
    dsimp only at h2 hown
    split at h2
    · rename_i ht
      rw [bind_run (report_run _ _)] at h2
      obtain ⟨rfl, rfl⟩ := pure_of h2
      exact ⟨env1, es, hown, .inl ⟨isTBD_iff.1 ht, by simp [NewMessages, add]⟩⟩
    · rename_i ht
      obtain ⟨b, s2, h3, h4⟩ := bind_some h2
      obtain ⟨hs, rfl⟩ := isSub_of h3
      split at h4
      · rename_i hb
        subst hb
        obtain ⟨rfl, rfl⟩ := pure_of h4
        exact ⟨env1, es, hown, .inr ⟨fun hh => ht (isTBD_iff.2 hh), within_sub hc hA hs, rfl⟩⟩
      · cases h4

/-- C69, asserting a type given by names, of an expression whose type is: it stops exactly if some value need not be of the
expected type. -/
theorem c69_assert_exact (hc : CfgOk L.cfg) {e : Expr X} {A t : Ty} {env env1 : Env K} {es : List Err} (hA : Flat L.cfg A)
    (hown : Own L e env t env1 es) (ht : Flat L.cfg t) (s : Acc K) :
    (Within L.cfg t A ∧ assertType L e A env s = some (t, { s with errs := s.errs ++ es, log := s.log ++ es })) ∨
    (¬ Within L.cfg t A ∧ assertType L e A env s = none) := by
  have key : assertType L e A env s = (M.bind (isSub L t A) (fun b => if b then M.pure t else M.fail)) (add s es) := by
    unfold assertType
    rw [flat_not_tbd hA]
    simp only [Bool.false_eq_true, if_false]
    rw [bind_run (own_run hown s)]
    dsimp only
    rw [flat_not_tbd ht]
    rfl
  rw [key]
  rcases sub_total hc ht hA with hs | hs
  · refine .inl ⟨within_sub hc (flat_fieldsOk hA) hs, ?_⟩
    rw [M.bind, isSub_run hs]
    rfl
  · refine .inr ⟨fun hh => ?_, ?_⟩
    · rw [sub_within hc ht hA hh] at hs; cases hs
    · rw [M.bind, isSub_run hs]
      rfl

example : CfgOk exL.cfg ∧ Flat exL.cfg (.hier "Number") ∧ Own exL (.var "n") exEnv (.hier "Number") exEnv [] ∧ FieldsOk (.list (.hier "Number")) :=
  ⟨exCfg_ok, flat_hier (by decide), fun s => by simp [tcExpr, exEnv, Verif.Env.get, M.pure], by simp [FieldsOk, Deep]⟩
example : (ensureType exL exTxt (.var "n") (.hier "Tangible_") exEnv ⟨[], [], []⟩).map (fun r => (r.1.1, get r.1.2.vars (.var "n"), r.2.log)) =
    some (.hier "Number", some (.hier "Number"), []) := by decide +kernel
example : (ensureType exL exTxt (.var "n") (.hier "String") exEnv ⟨[], [], []⟩).map (fun r => (r.1.1, get r.1.2.vars (.var "n"), r.2.log)) =
    some (.hier "String", some (.hier "String"), [.wrongType]) := by decide +kernel
example : (ensureType exL exTxt (.var "t") (.hier "String") exEnvT ⟨[], [], []⟩).map (fun r => (r.1.1, get r.1.2.vars (.var "t"), r.2.log)) =
    some (.hier "String", some (.hier "String"), []) := by decide +kernel
example : (ensureType exL (fun _ => .null) (.other 0) (.hier "String") exEnv ⟨[], [], []⟩).isNone = true ∧
    (ensureType exL (fun _ => .empty) (.other 0) (.hier "String") exEnv ⟨[], [], []⟩).map (fun r => (r.1.1, r.2.log)) = some (.hier "Number", [.wrongType]) ∧
    (ensureType exL (fun _ => .undefined) (.other 0) (.hier "String") exEnv ⟨[], [], []⟩).map (fun r => (r.1.1, r.2.log)) = some (.hier "Number", [.wrongType]) := by
  decide +kernel
example : (assertType exL (.var "n") (.hier "Tangible_") exEnv ⟨[], [], []⟩).map (fun r => (r.1, r.2.log)) = some (.hier "Number", []) ∧
    (assertType exL (.var "n") (.hier "String") exEnv ⟨[], [], []⟩).isNone = true ∧
    (assertType exL (.var "t") (.hier "String") exEnvT ⟨[], [], []⟩).map (fun r => (r.1, r.2.log)) = some (.tbd, [.isTBD]) := by decide +kernel

/-- C69, appending.  If nothing wrong is said of appending an item to a list, where the list's static type says more than `List`,
then the environment afterwards is right about the longer list, and about everything else. -/
theorem c69_append (hc : CfgOk L.cfg) (hr : Respects L.cfg I) (hp : ProcsByResult I) (htbd : ∀ v, ¬ I.tbd v)
    (hlu : ∀ v l, I.elems v = some l → ¬ I.named "Undefined" v) {S : Sem X T C I} {txt : X → Text} {item : Expr X} {x : String} {env env' : Env K} {lt : Ty}
    (hx : get env.vars (.var x) = some lt) (hfo : FieldsOk lt) (hbare : ∃ v, ¬ (den L.cfg I lt v ↔ I.named "List" v)) (hitem : RightAbout L S item x)
    {s s' : Acc K} {ms : List Err} (h : canBeElement L txt item (.var x) env s = some (env', s')) (hms : NewMessages s s' ms)
    (hq : .wrongType ∉ ms ∧ .notAList ∉ ms ∧ ∀ y, .undefined y ∉ ms) {σ : Store I} {w v' : I.V} (hσ : Holds L.cfg I env σ) (hw : Eval S item σ w)
    (happ : Appended I (σ x) w v') : Holds L.cfg I env' (update σ x v') :=
  append_ok hc hr hp htbd hlu hx hfo hbare hitem h hms hq hσ hw happ

/-- C69, appending to what is not a list.  If the variable's type is given by names, and not all its values need be lists, then that is complained of,
and nothing else is said but of the item. -/
theorem c69_append_not_list (hc : CfgOk L.cfg) (txt : X → Text) {item : Expr X} {x : String} {env env1 : Env K} {lt it : Ty} {es : List Err}
    (hx : get env.vars (.var x) = some lt) (hlt : Flat L.cfg lt) (hl : "List" ∈ names L.cfg.tree) (hown : Own L item env it env1 es) (hit : Flat L.cfg it)
    (hno : ¬ Within L.cfg lt (.hier "List")) (s : Acc K) :
    ∃ s', canBeElement L txt item (.var x) env s = some (env1, s') ∧ NewMessages s s' (es ++ [.notAList]) := by
  have hnl : ∀ t, tyEq lt (.list t) = false := fun t => by
    cases h : tyEq lt (.list t) with
    | false => rfl
    | true =>
      obtain ⟨n, _, e⟩ := hlt (.list t) ((tyEq_iff.1 h _).2 (.head _))
      cases e
  have hn : tyEq lt (.hier "List") = false := by
    cases h : tyEq lt (.hier "List") with
    | false => rfl
    | true => exact absurd (fun I _ _ v hv => (tyEq_den (cfg := L.cfg) h v).1 hv) hno
  have hu : tyEq lt (.union [.list (.hier "PromiseReaction Record"), .hier "Undefined"]) = false := by
    cases h : tyEq lt (.union [.list (.hier "PromiseReaction Record"), .hier "Undefined"]) with
    | false => rfl
    | true =>
      obtain ⟨n, _, e⟩ := hlt (.list (.hier "PromiseReaction Record")) ((tyEq_iff.1 h _).2 (.head _))
      cases e
  have hs : sub L.cfg lt (.hier "List") = some false := by
    rcases sub_total hc hlt (flat_hier hl) with h | h
    · exact absurd (within_sub hc (flat_fieldsOk (flat_hier hl)) h) hno
    · exact h
  refine ⟨add s (es ++ [Err.notAList]), ?_, rfl⟩
  unfold canBeElement
  rw [tcExpr_found hx, bind_run (show (M.pure (lt, env) : M K _) s = some ((lt, env), s) from rfl)]
  dsimp only
  rw [bind_run (own_run hown s)]
  dsimp only
  have hcase : caseOf L lt it (isIndices (.var x : Expr X)) (add s es) = some (.notList, add s es) := by
    unfold caseOf
    simp only [hnl, hn, hu, flat_not_tbd hlt, flat_not_tbd hit, Bool.false_and, Bool.or_self, Bool.false_eq_true, if_false]
    rw [bind_run (isSub_run hs _)]
    rfl
  rw [bind_run hcase]
  unfold element
  dsimp only
  rw [bind_run (report_run _ _)]
  simp [M.pure, add]

example : Flat exL.cfg (.hier "Number") ∧ ¬ Within exL.cfg (.hier "Number") (.hier "List") := by
  refine ⟨flat_hier (by decide), fun h => ?_⟩
  have := h exI exW.respects (fun _ _ _ _ _ _ _ h => h.elim) ExV.num (by simp [den, exI, exNames])
  simp [den, exI, exNames] at this

theorem exRight (e : Fin 3) (x : String) : RightAbout exL exS (.other e) x := by
  intro env t env' es hown _
  have h := hown ⟨[], [], []⟩
  simp only [tcExpr, exL, bind, M.bind, reportAll, M.pure, Option.some.injEq, Prod.mk.injEq] at h
  obtain ⟨⟨rfl, rfl⟩, _⟩ := h
  refine ⟨rfl, fun σ w hσ hw => ⟨?_, hσ⟩⟩
  simp only [Eval, exS] at hw
  match e with
  | 0 => simp at hw; subst hw; simp [den, exI, exNames]
  | 1 => simp at hw; subst hw; simp [den, exI, exNames]
  | 2 => simp at hw; obtain ⟨bs, rfl⟩ := hw; simp [den, exI, exNames]

/-- A store for `exEnv`. -/
def exStore : Store exI := fun x => if x = "xs" then ExV.list [true, true] else if x = "ys" then ExV.list [true] else if x = "n" then ExV.num else ExV.unset

example : Respects exCfg exI ∧ (∀ v, ¬ exI.tbd v) ∧ (∀ v l, exI.elems v = some l → ¬ exI.named "Undefined" v) ∧ RightAbout exL exS (.other 0) "xs" ∧
    Appended exI (exStore "xs") ExV.num (ExV.list [true, true, true]) :=
  ⟨exW.respects, fun v h => h, fun v l h => by cases v <;> simp [exI, exNames] at h ⊢, exRight 0 "xs", [.num, .num], rfl, rfl⟩
example : (canBeElement exL exTxt (.other 0) (.var "xs") exEnv ⟨[], [], []⟩).map (fun r => (get r.1.vars (.var "xs"), r.2.log)) =
    some (some (.list (.hier "Number")), []) := by decide +kernel
example : (canBeElement exL exTxt (.other 1) (.var "xs") exEnv ⟨[], [], []⟩).map (fun r => r.2.log) = some [.wrongType] := by decide +kernel
example : (canBeElement exL exTxt (.other 1) (.var "n") exEnv ⟨[], [], []⟩).map (fun r => r.2.log) = some [.notAList] := by decide +kernel
example : (canBeElement exL exTxt (.other 1) (.var "l") { exEnv with vars := [(.var "l", .list T0)] } ⟨[], [], []⟩).map (fun r => (get r.1.vars (.var "l"), r.2.log)) =
    some (some (.list (.hier "String")), []) := by decide +kernel
-- the other cases
example : (caseOf exL (.union [.hier "Undefined", .list (.hier "PromiseReaction Record")]) (.hier "PromiseReaction Record") false ⟨[], [], []⟩).map (·.1) = some .dropUndefined ∧
    (caseOf exL (.list (.hier "String")) (.hier "Symbol") false ⟨[], [], []⟩).map (·.1) = some .addSymbol ∧
    (caseOf exL (.list (.hier "Match Record")) (.hier "Undefined") true ⟨[], [], []⟩).map (·.1) = some .addUndefined ∧
    (caseOf exL (.list (.hier "String")) .tbd false ⟨[], [], []⟩).map (·.1) = some .fromList ∧
    (caseOf exL (.list (.hier "String")) (.union [.hier "Null", .hier "String"]) false ⟨[], [], []⟩).map (·.1) = some .dropNull ∧
    (caseOf exL (.list .tbd) .tbd false ⟨[], [], []⟩).map (·.1) = some .shrug := by decide +kernel

/-- C69: a list whose static type is just `List` is taken to have items of the type of what is appended, although it has others. -/
theorem c69_bare_witness : ∃ env' s', canBeElement exL exTxt (.other 1) (.var "ys") exEnv ⟨[], [], []⟩ = some (env', s') ∧ s'.log = [] ∧
    Holds exCfg exI exEnv exStore ∧ Eval exS (.other 1) exStore ExV.str ∧
    Appended exI (exStore "ys") ExV.str (ExV.list [true, false]) ∧ ¬ Holds exCfg exI env' (update exStore "ys" (ExV.list [true, false])) := by
  refine ⟨exEnv.set (.var "ys") (.list (.hier "String")), ⟨[], [], []⟩, rfl, rfl, ?_, rfl, ⟨[.num], rfl, rfl⟩, ?_⟩
  · intro x
    simp only [exEnv, Verif.Env.get, exStore]
    by_cases h1 : x = "xs"
    · subst h1
      refine ⟨fun t ht => ?_, fun ht => by simp at ht⟩
      simp only [if_true, Option.some.injEq] at ht
      subst ht
      exact ⟨[.num, .num], rfl, fun y hy => by
        have hy' : y = ExV.num := by
          rcases List.mem_cons.1 hy with h | h
          · exact h
          · exact List.mem_singleton.1 h
        subst hy'
        simp [den, exI, exNames]⟩
    · by_cases h2 : x = "ys"
      · subst h2
        refine ⟨fun t ht => ?_, fun ht => by simp at ht⟩
        simp at ht
        subst ht
        simp [den, exI, exNames]
      · by_cases h3 : x = "n"
        · subst h3
          refine ⟨fun t ht => ?_, fun ht => by simp at ht⟩
          simp at ht
          subst ht
          simp [den, exI, exNames]
        · have e1 : ¬ ("xs" = x) := fun h => h1 h.symm
          have e2 : ¬ ("ys" = x) := fun h => h2 h.symm
          have e3 : ¬ ("n" = x) := fun h => h3 h.symm
          simp [h1, h2, h3, e1, e2, e3, Unset, exI, exNames]
  · intro h
    obtain ⟨l, hl, hall⟩ := (h "ys").1 (.list (.hier "String")) (get_put_self _ _ _)
    have hl' : [ExV.num, ExV.str] = l := Option.some.inj hl
    subst hl'
    have := hall ExV.num (List.mem_cons_self ..)
    simp [den, exI, exNames] at this

end Verif.Calls
