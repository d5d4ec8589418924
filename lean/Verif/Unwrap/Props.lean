import Verif.Unwrap.ReturnLemmas
import Verif.Unwrap.Example
/-!
# Properties C76 and C77
-/
namespace Verif.Unwrap
open Verif.Types Verif.Env Verif.Calls

section
variable {K X T C : Type} [DecidableEq K] {L : Lang K X T C} {I : Interp} {S : Sem X T C I}

/-! ### C76 -/

/-- C76, values and returns.  If the operand of `?` or `!` is right about the type `t`, which has only Completion Records, then the type given to
the shorthand has each value that it can have, and the environment given is right afterwards; and each abrupt completion that `?` can return is
recorded, as one that the operation may return or else with a message. -/
theorem c76_sound (hr : Ready L.cfg) (ho : SetOrder L.ord) (hcomp : Completions L.cfg I) (hR : Respects L.cfg I) (hE : Exhaustive L.cfg I)
    (hD : SiblingsDisjoint L.cfg I) (hP : ProcsByResult I) {o : Op} {callOf : X → Option (String × List (Expr X))} {slot : Expr X → Option (Ty × Ty)}
    {e : Expr X} {env env1 env' : Env K} {t rt : Ty} {es : List Err} (hown : Own L e env t env1 es) (ht : OperandTy L.cfg t) (hoc : OnlyCompletions t)
    (hx : FieldsOk (L.expected env1.ctx)) (hright : Right L.cfg S e env t env1) (hch : ChecksFirst L.cfg S callOf slot e env1) {s s' : Acc K}
    (h : unwrap L o callOf slot e env s = some ((rt, env'), s')) {σ : Store I} (hσ : Holds L.cfg I env σ) :
    (∀ w σ', Runs L.cfg S o e σ (.value w σ') → den L.cfg I rt w ∧ Holds L.cfg I env' σ') ∧
    ∀ v, Runs L.cfg S o e σ (.returned v) → Recorded L env1 s'.rets s'.log σ v := by
  have hval : ∀ {w σ'}, Runs L.cfg S o e σ (.value w σ') → ∃ v, Eval S e σ v ∧ NormalOf L.cfg I v w ∧ (o = .bang → σ' = σ) := by
    intro w σ' hrun
    cases hrun with
    | «variable» hn => exact ⟨_, rfl, hn, fun e => by cases e⟩
    | question hev hn => exact ⟨_, hev, hn, fun _ => rfl⟩
    | bang hev hn => exact ⟨_, hev, hn, fun _ => rfl⟩
  rcases unwrap_of hr ho hown ht h with ⟨hno, _⟩ | ⟨_, a, n, ms, hp, _, hd, hcase⟩
  · -- no values at all
    have hnone : ∀ v, Eval S e σ v → False := fun v hv => by
      have := (hright σ v hσ hv).1
      rw [den_members] at this
      obtain ⟨m, hm, _⟩ := this
      exact hno m hm (hoc m hm)
    refine ⟨fun w σ' hrun => ?_, fun v hrun => ?_⟩
    · obtain ⟨v, hv, _⟩ := hval hrun
      exact (hnone v hv).elim
    · cases hrun with
      | returned hv _ => exact (hnone v hv).elim
  · refine ⟨fun w σ' hrun => ?_, fun v hrun => ?_⟩
    · obtain ⟨v, hv, hn, hb⟩ := hval hrun
      obtain ⟨g1, g2⟩ := hright σ v hσ hv
      have hw := value_type ho hcomp ht hoc hp hd g1 hn
      refine ⟨hw, ?_⟩
      rcases hcase with ⟨rfl, _, rfl, _⟩ | ⟨rfl, rest, s3, _, _, _, hafter⟩
      · rw [hb rfl]; exact g2
      · exact after_holds hr ho hR hE hD hch hafter g2 hrun hw
    · cases hrun with
      | returned hv ha =>
        obtain ⟨g1, g2⟩ := hright σ v hσ hv
        have hva := abrupt_part hcomp hoc hp g1 ha
        rcases hcase with ⟨e, _⟩ | ⟨_, rest, s3, _, hr2, rfl, hafter⟩
        · cases e
        · obtain ⟨ms', rfl, _⟩ := after_adds hafter
          refine ⟨⟨env1.set .ret a, by simp [add], holds_ret g2 hva⟩, ?_⟩
          by_cases hsub : sub L.cfg a (L.expected env1.ctx) = some true
          · exact .inr (c14_sound hr.ok hR hP hx hsub v hva)
          · have := hr2.2 hsub
            exact .inl (by simp [add, this])

-- the world, and operands and what they give
example : Ready exL.cfg ∧ SetOrder exL.ord ∧ Completions exL.cfg exI ∧ Respects exL.cfg exI ∧ Exhaustive exL.cfg exI ∧ SiblingsDisjoint exL.cfg exI ∧
    ProcsByResult exI := ⟨exReady, Types.exOrd_ok, exCompletions, exRespects, exExhaustive, exDisjoint, exProcs⟩
example : Own exL (.var "c") (exEnv .completions) (exTy .call) (exEnv .completions) [] ∧ OperandTy exL.cfg (exTy .call) ∧ OnlyCompletions (exTy .call) ∧
    FieldsOk (exL.expected .completions) ∧ Right exL.cfg exS (.var "c") (exEnv .completions) (exTy .call) (exEnv .completions) ∧
    ChecksFirst exL.cfg exS exCall exSlot (.other .check) (exEnv .completions) ∧ Holds exL.cfg exI (exEnv .completions) (exStore (.comp .normal true)) :=
  ⟨exVar rfl, exOperand (by decide), exOnly (by decide), by simp [exL, anyCompletion, FieldsOk, Deep, DeepF], exRightVar rfl, exChecks _ _, exHolds _ (.inl rfl)⟩
example : Runs exL.cfg exS .question (.var "c") (exStore (.comp .normal true)) (.value ExV.num (update (exStore (.comp .normal true)) "c" ExV.num)) :=
  .variable exNormalOf
example (b : Bool) : Runs exL.cfg exS .question (.var "c") (exStore (.comp .throw b)) (.returned (ExV.comp .throw b)) := .returned rfl exAbrupt
example : (unwrap exL .question exCall exSlot (.var "c") (exEnv .completions) ⟨[], [], []⟩).map (fun r => (r.1.1, get r.1.2.vars (.var "c"), r.2.log)) =
    some (.hier "Number", some (.hier "Number"), []) := by decide +kernel
example : (unwrap exL .question exCall exSlot (.var "c") (exEnv .completions) ⟨[], [], []⟩).map (fun r => r.2.rets.map (fun e => get e.vars .ret)) =
    some [some (comp "tilde_throw_" none)] := by decide +kernel
example : (unwrap exL .question exCall exSlot (.other .call) (exEnv .promises) ⟨[], [], []⟩).map (fun r => (r.1.1, r.2.log)) =
    some (.hier "Number", [.returnType]) := by decide +kernel
example : (unwrap exL .bang exCall exSlot (.other .any) (exEnv .promises) ⟨[], [], []⟩).map (fun r => (r.1.1, r.2.log)) = some (.hier "Normal", []) := by decide +kernel

/-- C76, messages.  After those of the operand, there are the messages that the shorthand deserves for the type of its operand, and
otherwise only what is said about what is returned, and about the argument of an operation that checks it. -/
theorem c76_messages (hr : Ready L.cfg) (ho : SetOrder L.ord) {o : Op} {callOf : X → Option (String × List (Expr X))} {slot : Expr X → Option (Ty × Ty)}
    {e : Expr X} {env env1 env' : Env K} {t rt : Ty} {es : List Err} (hown : Own L e env t env1 es) (ht : OperandTy L.cfg t) {s s' : Acc K}
    (h : unwrap L o callOf slot e env s = some ((rt, env'), s')) :
    ∃ ms rest, s'.log = s.log ++ es ++ ms ++ rest ∧ (∀ m, m ∈ ms ↔ Deserved o t m) ∧ (o = .bang → rest = []) ∧
      (PlainOperand callOf e → ∀ m ∈ rest, m = .returnType ∨ m = .notReturned) := by
  rcases unwrap_of hr ho hown ht h with ⟨hno, _, rfl, _⟩ | ⟨hex, a, n, ms, hp, hms, hd, hcase⟩
  · refine ⟨[noPart], [], by simp [add], fun m => ?_, fun _ => rfl, by simp⟩
    rw [List.mem_singleton]
    constructor
    · exact fun e => .inl ⟨e, hno⟩
    · rintro (⟨e, _⟩ | ⟨⟨m', hm', hc⟩, _⟩)
      · exact e
      · exact absurd hc (hno m' hm')
  · rcases hcase with ⟨rfl, _, _, rfl⟩ | ⟨rfl, rest, s3, hr1, _, rfl, hafter⟩
    · exact ⟨ms, [], by simp [add], hms, fun _ => rfl, by simp⟩
    · obtain ⟨ms', rfl, hpl⟩ := after_adds hafter
      refine ⟨ms, rest ++ ms', by simp [add], hms, (fun e => by cases e), fun hpo m hm => ?_⟩
      rw [hpl hpo, List.append_nil] at hm
      exact hr1 m hm

example : (unwrap exL .question exCall exSlot (.other .num) (exEnv .completions) ⟨[], [], []⟩).map (fun r => (r.1.1, r.2.log)) =
    some (.hier "Number", [noPart]) := by decide +kernel
example : (unwrap exL .question exCall exSlot (.other .normal) (exEnv .completions) ⟨[], [], []⟩).map (fun r => (r.1.1, r.2.log)) =
    some (.hier "Normal", [noAbrupt]) := by decide +kernel
example : (unwrap exL .question exCall exSlot (.other .threw) (exEnv .completions) ⟨[], [], []⟩).map (fun r => (members r.1.1, r.2.log)) =
    some ([], [noNormal]) := by decide +kernel
example : (unwrap exL .bang exCall exSlot (.var "m") { ctx := .anything, vars := [(.var "m", .union [anyCompletion, .hier "String"])] } ⟨[], [], []⟩).map
    (fun r => (r.1.1, r.2.log)) = some (.hier "Normal", [omitted]) := by decide +kernel
example : PlainOperand exCall (.var "c") ∧ PlainOperand exCall (.other .call) ∧ ¬ PlainOperand exCall (.other .check) :=
  ⟨(fun a op args h => by cases h), (fun a op args h hc => by cases h; cases hc), fun h => (h .check _ _ rfl rfl).2 "Generator_object_" (by decide)⟩

/-- C76, types.  The shorthand has the type that the normal completions contain; any normal value, if the type does not say; no
type, if there is none; and if the operand has no Completion Records at all, the values of the operand.  `!` leaves the environment alone. -/
theorem c76_type (hr : Ready L.cfg) (ho : SetOrder L.ord) {o : Op} {callOf : X → Option (String × List (Expr X))} {slot : Expr X → Option (Ty × Ty)}
    {e : Expr X} {env env1 env' : Env K} {t rt : Ty} {es : List Err} (hown : Own L e env t env1 es) (ht : OperandTy L.cfg t) {s s' : Acc K}
    (h : unwrap L o callOf slot e env s = some ((rt, env'), s')) :
    (∀ u, comp normalN (some u) ∈ members t → rt = u) ∧
    (comp normalN none ∈ members t ∨ anyCompletion ∈ members t → rt = .hier "Normal") ∧
    ((∃ m ∈ members t, IsComp m) → anyCompletion ∉ members t → (∀ u, comp normalN u ∉ members t) → members rt = []) ∧
    ((∀ m ∈ members t, ¬ IsComp m) → Respects L.cfg I → Exhaustive L.cfg I → ∀ v, den L.cfg I rt v ↔ den L.cfg I t v) ∧
    (o = .bang → env' = env1 ∧ s'.rets = s.rets) := by
  rcases unwrap_of hr ho hown ht h with ⟨hno, rfl, rfl, hd⟩ | ⟨⟨m', hm', hc'⟩, a, n, ms, hp, hms, hd, hcase⟩
  · refine ⟨fun u hu => absurd (comp_isComp normal_kind.1 _) (hno _ hu), fun hh => ?_, fun ⟨m, hm, hc⟩ => absurd hc (hno m hm), fun _ h1 h2 => hd I h1 h2, fun _ => ⟨rfl, rfl⟩⟩
    rcases hh with hh | hh
    · exact absurd (comp_isComp normal_kind.1 _) (hno _ hh)
    · exact absurd (.inl rfl) (hno _ hh)
  · obtain ⟨p1, p2, p3⟩ := hp.value (cfg := L.cfg) ho ht
    refine ⟨fun u hu => ?_, fun hh => ?_, fun _ h1 h2 => ?_, fun hno => absurd hc' (hno m' hm'), fun ho => ?_⟩
    · rw [p1 u hu] at hd; injection hd with hd; exact hd.symm
    · rw [p2 hh] at hd; injection hd with hd; exact hd.symm
    · rw [p3 (List.eq_nil_iff_forall_not_mem.2 (fun m hm => by
        obtain ⟨u, _, hu | ⟨_, hu⟩⟩ := (hp.normal m).1 hm
        · exact h2 u hu
        · exact h1 hu))] at hd
      injection hd with hd; rw [← hd]; rfl
    · subst ho
      rcases hcase with ⟨_, _, rfl, rfl⟩ | ⟨e, _⟩
      · exact ⟨rfl, rfl⟩
      · cases e

example : OperandTy exL.cfg (exTy .num) ∧ (∀ m ∈ members (exTy .num), ¬ IsComp m) := by
  refine ⟨exOperand (by decide), fun m hm hc => ?_⟩
  simp only [exTy, members, List.mem_singleton] at hm
  subst hm
  rcases hc with e | ⟨k, _, u, e⟩
  · cases e
  · cases u <;> cases e
example : comp normalN (some (.hier "Number")) ∈ members (exTy .call) ∧ anyCompletion ∈ members (exTy .any) ∧ comp "tilde_throw_" none ∈ members (exTy .threw) :=
  ⟨.head _, .head _, .head _⟩
-- a type that is not known stays that
example : (unwrap exL .question exCall exSlot (.other .tbd) (exEnv .completions) ⟨[], [], []⟩).map (fun r => (r.1.1, r.2.log, r.2.rets.length)) =
    some (.tbd, [], 0) := by decide +kernel

/-- C76, operations that check their first argument.  After `? GeneratorValidate(x)` and the like, `x` has a type all of whose values the operation lets pass. -/
theorem c76_checked (hr : Ready L.cfg) (ho : SetOrder L.ord) (hR : Respects L.cfg I) (hP : ProcsByResult I) {callOf : X → Option (String × List (Expr X))}
    {slot : Expr X → Option (Ty × Ty)} {a : X} {op n x : String} {rest : List (Expr X)} (hc : callOf a = some (op, .var x :: rest)) (hn : (op, n) ∈ checkers)
    {env env1 env' : Env K} {t rt lt : Ty} {es : List Err} (hown : Own L (.other a) env t env1 es) (ht : OperandTy L.cfg t) (hex : ∃ m ∈ members t, IsComp m)
    (hx : get env1.vars (.var x) = some lt) (hhl : x ≠ "_highest_" ∧ x ≠ "_lowest_") {s s' : Acc K}
    (h : unwrap L .question callOf slot (.other a) env s = some ((rt, env'), s')) :
    ∃ T, get env'.vars (.var x) = some T ∧ ∀ v, den L.cfg I T v → I.named n v := by
  rcases unwrap_of hr ho hown ht h with ⟨hno, _⟩ | ⟨_, _, _, _, _, _, _, ⟨e, _⟩ | ⟨_, _, _, _, _, _, hafter⟩⟩
  · obtain ⟨m, hm, hcm⟩ := hex
    exact absurd hcm (hno m hm)
  · cases e
  · exact after_checked hr hR hP hc hn hx hhl hafter

example : exCall .check = some ("GeneratorValidate", [.var "g"]) ∧ ("GeneratorValidate", "Generator_object_") ∈ checkers ∧
    Own exL (.other .check) (exEnv .completions) (exTy .check) (exEnv .completions) [] ∧ (∃ m ∈ members (exTy .check), IsComp m) :=
  ⟨rfl, by decide, exOwn _ _, _, .head _, comp_isComp (k := "tilde_normal_") (by decide) _⟩
example : (unwrap exL .question exCall exSlot (.other .check) (exEnv .completions) ⟨[], [], []⟩).map (fun r => (r.1.1, get r.1.2.vars (.var "g"), r.2.log)) =
    some (.hier "String", some (.hier "Generator_object_"), []) := by decide +kernel

/-- C76, where the analysis goes on.  It stops at `!` exactly if the operand has Completion Records and none of them normal. -/
theorem c76_bang_defined (hr : Ready L.cfg) (ho : SetOrder L.ord) {callOf : X → Option (String × List (Expr X))} {slot : Expr X → Option (Ty × Ty)}
    {e : Expr X} {env env1 : Env K} {t : Ty} {es : List Err} (hown : Own L e env t env1 es) (ht : OperandTy L.cfg t) (s : Acc K) :
    unwrap L .bang callOf slot e env s = none ↔
      (∃ m ∈ members t, IsComp m) ∧ anyCompletion ∉ members t ∧ ∀ u, comp normalN u ∉ members t := by
  constructor
  · intro h
    refine Classical.byContradiction (fun hh => ?_)
    obtain ⟨r, hs⟩ := bang_runs (callOf := callOf) (slot := slot) hr ho hown ht s (by
      refine Classical.byContradiction (fun hn => hh ⟨?_, fun h1 => hn (.inr (.inl h1)), fun u hu => hn (.inr (.inr ⟨u, hu⟩))⟩)
      exact Classical.byContradiction (fun hne => hn (.inl (fun m hm hc => hne ⟨m, hm, hc⟩))))
    rw [h] at hs; cases hs
  · rintro ⟨hex, h1, h2⟩
    cases h : unwrap L .bang callOf slot e env s with
    | none => rfl
    | some r =>
      obtain ⟨⟨rt, env'⟩, s'⟩ := r
      rcases unwrap_of hr ho hown ht h with ⟨hno, _⟩ | ⟨_, a, n, ms, hp, _, _, ⟨_, hn, _⟩ | ⟨e, _⟩⟩
      · obtain ⟨m, hm, hc⟩ := hex
        exact absurd hc (hno m hm)
      · obtain ⟨m, hm⟩ := List.exists_mem_of_ne_nil _ hn
        obtain ⟨u, _, hu | ⟨_, hu⟩⟩ := (hp.normal m).1 hm
        · exact absurd hu (h2 u)
        · exact absurd hu h1
      · cases e

/-- C76: `!` of an operand that can only be abrupt is not complained of: the analysis stops with an exception. -/
theorem c76_bang_stops_witness : OperandTy exL.cfg (exTy .threw) ∧ unwrap exL .bang exCall exSlot (.other .threw) (exEnv .completions) ⟨[], [], []⟩ = none ∧
    (unwrap exL .question exCall exSlot (.other .threw) (exEnv .completions) ⟨[], [], []⟩).isSome = true := by
  refine ⟨exOperand (by decide), ?_, by decide +kernel⟩
  refine (c76_bang_defined exReady Types.exOrd_ok (exOwn .threw _) (exOperand (by decide)) _).2 ⟨⟨comp "tilde_throw_" none, .head _, comp_isComp (by decide) _⟩, ?_, fun u => ?_⟩
  · simp [exTy, members, comp, anyCompletion]
  · cases u <;> simp [exTy, members, comp, normalN]

/-! ### C77 -/

/-- C77, returns.  What is returned of a value of type `t` is recorded, and is as the operation should return, or there is a message. -/
theorem c77_return (hr : Ready L.cfg) (ho : SetOrder L.ord) (hR : Respects L.cfg I) (hE : Exhaustive L.cfg I) (hP : ProcsByResult I) {t : Ty} {env : Env K}
    (ht : OperandTy L.cfg t) (hmix : (∃ n, .hier n ∈ members t) → anyCompletion ∉ members t ∧ ∀ u, comp normalN u ∉ members t)
    (hnc : ∀ n, .hier n ∈ members t → ∀ w, I.named n w → ¬ IsCompletion L.cfg I w) (hx : FieldsOk (L.expected env.ctx)) {s s' : Acc K} {u : Unit}
    (h : addReturnOf L env t s = some (u, s')) {σ : Store I} (hσ : Holds L.cfg I env σ) {w v : I.V} (hw : den L.cfg I t w)
    (hv : ReturnedAs L.cfg I (L.wraps env.ctx) w v) : Recorded L env s'.rets s'.log σ v := by
  obtain ⟨T, hT, hTs⟩ := wrapped_sound hr ho hR hE ht hmix hnc env
  obtain ⟨ms, _, rfl, hrt⟩ := addReturn_of h hT
  have hvT := hTs w v hw hv
  refine ⟨⟨env.set .ret T, by simp, holds_ret hσ hvT⟩, ?_⟩
  by_cases hsub : sub L.cfg T (L.expected env.ctx) = some true
  · exact .inr (c14_sound hr.ok hR hP hx hsub v hvT)
  · have := hrt.2 hsub
    exact .inl (by simp [add, this])

example : OperandTy exL.cfg (exTy .num) ∧ (∀ n, .hier n ∈ members (exTy .num) → ∀ w, exI.named n w → ¬ IsCompletion exL.cfg exI w) ∧
    ReturnedAs exL.cfg exI (exL.wraps .completions) ExV.num (ExV.comp .normal true) ∧ ReturnedAs exL.cfg exI (exL.wraps .promises) ExV.num ExV.num := by
  have hno : ¬ IsCompletion exCfg exI ExV.num := fun h => by obtain ⟨_, _, e⟩ := exIsCompletion.1 h; cases e
  refine ⟨exOperand (by decide), fun n hn w hw hc => ?_, .inl ⟨by decide, hno, exNormalOf⟩, .inr ⟨.inl (by decide), rfl⟩⟩
  simp only [exTy, members, List.mem_singleton, Ty.hier.injEq] at hn
  subst hn
  obtain ⟨k, b, rfl⟩ := exIsCompletion.1 hc
  simp [exI, exNames] at hw
example : (addReturnOf exL (exEnv .completions) (.hier "Number") ⟨[], [], []⟩).map (fun r => (r.2.log, r.2.rets.map (fun e => get e.vars .ret))) =
    some ([], [some (comp "tilde_normal_" (some (.hier "Number")))]) := by decide +kernel
example : (addReturnOf exL (exEnv .promises) (.hier "Number") ⟨[], [], []⟩).map (fun r => (r.2.log, r.2.rets.map (fun e => get e.vars .ret))) =
    some ([.returnType], [some (.hier "Number")]) := by decide +kernel

theorem throw_operand {t : Ty} : OperandTy L.cfg (throwType t) ∧ OnlyCompletions (throwType t) := by
  have hc : throwType t = comp "tilde_throw_" (some t) := rfl
  have hm : members (throwType t) = [comp "tilde_throw_" (some t)] := rfl
  have hk : IsComp (comp "tilde_throw_" (some t)) := comp_isComp (by decide) _
  refine ⟨⟨fun m h => .inl ?_, fun k u u' h1 h2 => ?_, fun h => ?_⟩, fun m h => ?_⟩
  · rw [hm, List.mem_singleton] at h; rw [h]; exact hk
  · rw [hm, List.mem_singleton] at h1 h2
    exact (comp_inj h1).2.trans (comp_inj h2).2.symm
  · rw [hm, List.mem_singleton] at h
    exact absurd h.symm (comp_ne_any _ _)
  · rw [hm, List.mem_singleton] at h; rw [h]; exact hk

/-- C77, `Throw`.  Control goes no further, and the throw completion is recorded. -/
theorem c77_throw (hr : Ready L.cfg) (ho : SetOrder L.ord) (hR : Respects L.cfg I) (hP : ProcsByResult I) {e : Expr X} {env env1 : Env K} {t : Ty}
    {es : List Err} (hown : Own L e env t env1 es) (hright : Right L.cfg S e env t env1) (hx : FieldsOk (L.expected env1.ctx)) {s s' : Acc K}
    {r : Option (Env K)} (h : throwValue L e env s = some (r, s')) :
    r = none ∧ ∀ σ w v, Holds L.cfg I env σ → Eval S e σ w → Thrown L.cfg I v → Contains I v w → Recorded L env1 s'.rets s'.log σ v := by
  unfold throwValue at h
  rw [bind_run (own_run hown s)] at h
  dsimp only at h
  obtain ⟨_, s1, h1, k1⟩ := bind_some h
  obtain ⟨rfl, rfl⟩ := pure_of k1
  obtain ⟨hto, htc⟩ := throw_operand (L := L) (t := t)
  obtain ⟨ms, _, rfl, hrt⟩ := addReturn_of h1 (wrapped_comps hr ho hto htc env1)
  refine ⟨rfl, fun σ w v hσ hw hv hc => ?_⟩
  obtain ⟨g1, g2⟩ := hright σ w hσ hw
  have hvT : den L.cfg I (throwType t) v := (den_comp (k := "tilde_throw_") (u := some t)).2 ⟨hv.1, hv.2, fun t' e => ⟨w, hc, by injection e with e; exact e ▸ g1⟩⟩
  refine ⟨⟨env1.set .ret (throwType t), by simp, holds_ret g2 hvT⟩, ?_⟩
  by_cases hsub : sub L.cfg (throwType t) (L.expected env1.ctx) = some true
  · exact .inr (c14_sound hr.ok hR hP hx hsub v hvT)
  · have := hrt.2 hsub
    exact .inl (by simp [add, this])

example : Right exL.cfg exS (.other .num) (exEnv .completions) (.hier "Number") (exEnv .completions) ∧ Thrown exL.cfg exI (ExV.comp .throw true) ∧
    Contains exI (ExV.comp .throw true) ExV.num := ⟨exRight .num _, exThrown, exContains.2 rfl⟩
example : (throwValue exL (.other .num) (exEnv .completions) ⟨[], [], []⟩).map (fun r => (r.1.isNone, r.2.log, r.2.rets.map (fun e => get e.vars .ret))) =
    some (true, [], [some (comp "tilde_throw_" (some (.hier "Number")))]) := by decide +kernel
example : (throwValue exL (.other .num) (exEnv .anything) ⟨[], [], []⟩).map (fun r => (r.1.isNone, r.2.log)) = some (true, []) ∧
    (throwValue exL (.other .num) (exEnv .promises) ⟨[], [], []⟩).map (fun r => (r.1.isNone, r.2.log)) = some (true, [.returnType]) := by decide +kernel

/-- C77, `Throw a TypeError exception` and the like. -/
theorem c77_throw_error (hr : Ready L.cfg) (ho : SetOrder L.ord) (hR : Respects L.cfg I) (hP : ProcsByResult I) {name : String} {env : Env K}
    (hx : FieldsOk (L.expected env.ctx)) {s s' : Acc K} {r : Option (Env K)} (h : throwError L name env s = some (r, s')) :
    r = none ∧ ∀ σ w v, Holds L.cfg I env σ → I.named name w → Thrown L.cfg I v → Contains I v w → Recorded L env s'.rets s'.log σ v := by
  unfold throwError at h
  obtain ⟨_, s1, h1, k1⟩ := bind_some h
  obtain ⟨rfl, rfl⟩ := pure_of k1
  obtain ⟨hto, htc⟩ := throw_operand (L := L) (t := .hier name)
  obtain ⟨ms, _, rfl, hrt⟩ := addReturn_of h1 (wrapped_comps hr ho hto htc env)
  refine ⟨rfl, fun σ w v hσ hw hv hc => ?_⟩
  have hvT : den L.cfg I (throwType (.hier name)) v :=
    (den_comp (k := "tilde_throw_") (u := some (.hier name))).2 ⟨hv.1, hv.2, fun t' e => ⟨w, hc, by injection e with e; rw [← e]; simpa only [den] using hw⟩⟩
  refine ⟨⟨env.set .ret (throwType (.hier name)), by simp, holds_ret hσ hvT⟩, ?_⟩
  by_cases hsub : sub L.cfg (throwType (.hier name)) (L.expected env.ctx) = some true
  · exact .inr (c14_sound hr.ok hR hP hx hsub v hvT)
  · have := hrt.2 hsub
    exact .inl (by simp [add, this])

example : (throwError exL "TypeError" (exEnv .completions) ⟨[], [], []⟩).map (fun r => (r.1.isNone, r.2.log, r.2.rets.map (fun e => get e.vars .ret))) =
    some (true, [], [some (comp "tilde_throw_" (some (.hier "TypeError")))]) := by decide +kernel

/-- C77, `IfAbruptCloseIterator` and the like.  Where the variable has a normal completion, it has afterwards what that contains, and the environment
is right; where it has an abrupt one, that and any throw completion are recorded.  There is a complaint exactly if it cannot have an abrupt one. -/
theorem c77_close (hr : Ready L.cfg) (ho : SetOrder L.ord) (hcomp : Completions L.cfg I) (hR : Respects L.cfg I) (hP : ProcsByResult I) {x y : String} {second t ty : Ty}
    {env env' : Env K} (hgx : get env.vars (.var x) = some t) (hgy : get env.vars (.var y) = some ty) (hty : ¬ IsTBD ty) (ht : OperandTy L.cfg t) (hoc : OnlyCompletions t)
    (hth : ∀ u, comp "tilde_throw_" (some u) ∉ members t) (hx : FieldsOk (L.expected env.ctx)) {s s' : Acc K}
    (h : closeIterator L x y second env s = some (env', s')) :
    (∀ σ, Holds L.cfg I env σ → (∀ w, NormalOf L.cfg I (σ x) w → Holds L.cfg I env' (update σ x w)) ∧
      ∀ v, Abrupt L.cfg I (σ x) → v = σ x ∨ Thrown L.cfg I v → Recorded L env s'.rets s'.log σ v) ∧
    ∃ ms, s'.log = s.log ++ ms ∧ (cantBeAbrupt ∈ ms ↔ anyCompletion ∉ members t ∧ ∀ k ∈ abruptNs, ∀ u, comp k u ∉ members t) := by
  unfold closeIterator at h
  obtain ⟨t', s1, h1, k1⟩ := bind_some h
  obtain ⟨e1, e1'⟩ := assert_quiet hgx (operand_not_tbd ht) h1
  subst e1; subst e1'
  obtain ⟨ty', s2, h2, k2⟩ := bind_some k1
  have hty' : tyEq ty .tbd = false := by
    cases he : tyEq ty .tbd with
    | false => rfl
    | true => exact absurd (isTBD_iff.1 he) hty
  obtain ⟨_, e2⟩ := assert_quiet hgy hty' h2
  subst e2
  obtain ⟨n, a, hs, hp⟩ := parts_normal hr ho ht hoc
  rw [bind_run (lift_run hs _)] at k2
  dsimp only at k2
  obtain ⟨rt, hrt⟩ := value_some (L := L) ho ht hp
  have hnext : ∀ σ w, Holds L.cfg I env σ → NormalOf L.cfg I (σ x) w → Holds L.cfg I (env.set (.var x) rt) (update σ x w) := fun σ w hσ hn =>
    holds_set hσ (value_type ho hcomp ht hoc hp hrt ((hσ x).1 _ hgx) hn)
  have ha0 : members a = [] ↔ anyCompletion ∉ members t' ∧ ∀ k ∈ abruptNs, ∀ u, comp k u ∉ members t' := by
    rw [List.eq_nil_iff_forall_not_mem]
    constructor
    · intro h
      refine ⟨fun hm => h (comp "tilde_break_" none) ((hp.abrupt _).2 ⟨_, by decide, none, rfl, .inr ⟨rfl, hm⟩⟩), fun k hk u hm => h _ ((hp.abrupt _).2 ⟨k, hk, u, rfl, .inl hm⟩)⟩
    · rintro ⟨g1, g2⟩ m hm
      obtain ⟨k, hk, u, _, hh | ⟨_, hh⟩⟩ := (hp.abrupt m).1 hm
      · exact g2 k hk u hh
      · exact g1 hh
  cases hc : tyEq a T0 with
  | true =>
    rw [hc] at k2
    simp only [if_true] at k2
    rw [bind_run (report_run _ _), bind_run (lift_run hrt _)] at k2
    obtain ⟨rfl, rfl⟩ := pure_of k2
    refine ⟨fun σ hσ => ⟨fun w => hnext σ w hσ, fun v hab _ => ?_⟩, [cantBeAbrupt], rfl, by simp [← ha0, tyEq_none.1 hc]⟩
    have := abrupt_part hcomp hoc hp ((hσ x).1 _ hgx) hab
    rw [den_members, tyEq_none.1 hc] at this
    obtain ⟨m, hm, _⟩ := this
    cases hm
  | false =>
    rw [hc] at k2
    simp only [Bool.false_eq_true, if_false] at k2
    have hne : members a ≠ [] := fun e => by rw [tyEq_none.2 e] at hc; cases hc
    obtain ⟨T, hT, hmT, hTo, hTc⟩ := or_throw ho ht hp hne hth
    rw [bind_run (lift_run hT _)] at k2
    obtain ⟨_, s3, h3, k3⟩ := bind_some k2
    obtain ⟨ms, hms, rfl, hrt'⟩ := addReturn_of h3 (wrapped_comps hr ho hTo hTc env)
    rw [bind_run (lift_run hrt _)] at k3
    obtain ⟨rfl, rfl⟩ := pure_of k3
    refine ⟨fun σ hσ => ⟨fun w => hnext σ w hσ, fun v hab hv => ?_⟩, ms, rfl, ?_⟩
    · have hvT : den L.cfg I T v := by
        rcases hv with rfl | hv
        · have := abrupt_part hcomp hoc hp ((hσ x).1 _ hgx) hab
          rw [den_members] at this ⊢
          obtain ⟨m, hm, hd⟩ := this
          exact ⟨m, (hmT m).2 (.inl hm), hd⟩
        · rw [den_members]
          exact ⟨_, (hmT _).2 (.inr rfl), (den_comp (k := "tilde_throw_") (u := none)).2 ⟨hv.1, hv.2, fun t e => by cases e⟩⟩
      refine ⟨⟨env.set .ret T, by simp, holds_ret hσ hvT⟩, ?_⟩
      by_cases hsub : sub L.cfg T (L.expected env.ctx) = some true
      · exact .inr (c14_sound hr.ok hR hP hx hsub v hvT)
      · have := hrt'.2 hsub
        exact .inl (by simp [add, this])
    · rw [← ha0]
      refine ⟨fun h => ?_, fun h => absurd h hne⟩
      rcases hms _ h with e | e <;> cases e

example : get (exEnv .completions).vars (.var "c") = some (exTy .call) ∧ get (exEnv .completions).vars (.var "i") = some (.hier "Tangible_") ∧
    ¬ IsTBD (.hier "Tangible_") ∧ ∀ u, comp "tilde_throw_" (some u) ∉ members (exTy .call) :=
  ⟨rfl, rfl, (fun h => by have := (h .tbd).2 rfl; simp [members] at this), fun u h => by simp [exTy, members, comp] at h⟩
example : (closeIterator exL "c" "i" (.hier "Tangible_") (exEnv .completions) ⟨[], [], []⟩).map (fun r => (get r.1.vars (.var "c"), r.2.log,
    r.2.rets.map (fun e => get e.vars .ret))) = some (some (.hier "Number"), [], [some (comp "tilde_throw_" none)]) := by decide +kernel
example : (closeIterator exL "a" "i" (.hier "Tangible_") (exEnv .completions) ⟨[], [], []⟩).map (fun r => (get r.1.vars (.var "a"), r.2.log)) =
    some (some (.hier "Normal"), []) := by decide +kernel
example : (closeIterator exL "n" "i" (.hier "Tangible_") { ctx := .completions, vars := [(.var "n", exTy .normal), (.var "i", .hier "Number")] } ⟨[], [], []⟩).map
    (fun r => (get r.1.vars (.var "n"), r.2.log)) = some (some (.hier "Normal"), [cantBeAbrupt]) := by decide +kernel

/-- C77, `IfAbruptRejectPromise`.  The promise that is returned is recorded, in whatever way the operation returns. -/
theorem c77_reject (hr : Ready L.cfg) (ho : SetOrder L.ord) (hcomp : Completions L.cfg I) (hR : Respects L.cfg I) (hE : Exhaustive L.cfg I) (hP : ProcsByResult I)
    {x y : String} {t : Ty} {env env' : Env K} (hgx : get env.vars (.var x) = some t) (ht : OperandTy L.cfg t) (hoc : OnlyCompletions t)
    (hpn : "Promise_object_" ∈ names L.cfg.tree) (hpr : ¬ Anc L.cfg.tree "Promise_object_" "Record") (hpc : ∀ w, I.named "Promise_object_" w → ¬ IsCompletion L.cfg I w)
    (hx : FieldsOk (L.expected env.ctx)) {s s' : Acc K} (h : rejectPromise L x y env s = some (env', s')) {σ : Store I} (hσ : Holds L.cfg I env σ) :
    (∀ w, NormalOf L.cfg I (σ x) w → Holds L.cfg I env' (update σ x w)) ∧
    ∀ p v, I.named "Promise_object_" p → ReturnedAs L.cfg I (L.wraps env.ctx) p v → Recorded L env s'.rets s'.log σ v := by
  unfold rejectPromise at h
  obtain ⟨ty, s1, h1, k1⟩ := bind_some h
  obtain ⟨_, _, ms1, _, e1⟩ := assert_adds h1
  rw [tcExpr_found hgx, bind_run (show (M.pure (t, env) : M K _) s1 = some ((t, env), s1) from rfl)] at k1
  dsimp only at k1
  obtain ⟨t', s2, h2, k2⟩ := bind_some k1
  obtain ⟨_, e2⟩ := assert_quiet hgx (operand_not_tbd ht) h2
  subst e2
  obtain ⟨n, a, hs, hp⟩ := parts_normal hr ho ht hoc
  rw [bind_run (lift_run hs _)] at k2
  dsimp only at k2
  obtain ⟨rt, hrt⟩ := value_some (L := L) ho ht hp
  obtain ⟨_, s3, h3, k3⟩ := bind_some k2
  rw [bind_run (lift_run hrt _)] at k3
  obtain ⟨rfl, rfl⟩ := pure_of k3
  refine ⟨fun w hn => holds_set hσ (value_type ho hcomp ht hoc hp hrt ((hσ x).1 _ hgx) hn), fun p v hpp hv => ?_⟩
  have hm : members (.hier "Promise_object_") = [.hier "Promise_object_"] := rfl
  have hnoc : ∀ k u, comp k u ∉ members (.hier "Promise_object_") := fun k u hh => by
    rw [hm, List.mem_singleton] at hh
    cases u <;> simp [comp] at hh
  have hnoa : anyCompletion ∉ members (.hier "Promise_object_") := fun hh => by
    rw [hm, List.mem_singleton] at hh
    simp [anyCompletion] at hh
  refine c77_return hr ho hR hE hP (t := .hier "Promise_object_") (w := p) ⟨fun m h => ?_, fun k u _ h => absurd h (hnoc k u), fun h => absurd h hnoa⟩
    (fun _ => ⟨hnoa, hnoc normalN⟩) (fun n hn => ?_) hx h3 hσ (by simpa only [den] using hpp) hv
  · rw [hm, List.mem_singleton] at h
    exact .inr ⟨_, hpn, h, .inr hpr⟩
  · rw [hm, List.mem_singleton] at hn
    injection hn with hn; subst hn
    exact hpc

example : "Promise_object_" ∈ names exL.cfg.tree ∧ ¬ Anc exL.cfg.tree "Promise_object_" "Record" ∧ ∀ w, exI.named "Promise_object_" w → ¬ IsCompletion exL.cfg exI w := by
  refine ⟨by decide, fun ha => ?_, fun w hw hc => ?_⟩
  · obtain ⟨c, hc⟩ := exists_child exCfg_ok.nodup ha (by decide)
    exact exLeaf (n := "Promise_object_") (by decide) c hc
  · obtain ⟨k, b, rfl⟩ := exIsCompletion.1 hc
    simp [exI, exNames] at hw
example : (rejectPromise exL "c" "p" (exEnv .promises) ⟨[], [], []⟩).map (fun r => (get r.1.vars (.var "c"), r.2.log,
    r.2.rets.map (fun e => get e.vars .ret))) = some (some (.hier "Number"), [], [some (.hier "Promise_object_")]) := by decide +kernel
example : (rejectPromise exL "c" "p" (exEnv .completions) ⟨[], [], []⟩).map (fun r => (get r.1.vars (.var "c"), r.2.log,
    r.2.rets.map (fun e => get e.vars .ret))) = some (some (.hier "Number"), [], [some (comp "tilde_normal_" (some (.hier "Promise_object_")))]) := by decide +kernel

end

end Verif.Unwrap
