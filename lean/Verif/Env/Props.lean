import Verif.Env.ProcLemmas
/-!
# Properties C33, C34, C35 and C41
-/
namespace Verif.Env
open Verif.Types

/-! ### An example world -/

/-- A small hierarchy of types. -/
def exTree : Tree := .node "Top_" [.node "Normal" [.node "Tangible_" [.node "Undefined" [], .node "Number" [], .node "String" []]],
  .node "List" [], .node "not_set" [], .node "not_returned" []]

def exCfg : Cfg := { tree := exTree, schema := fun _ => none, supers := fun _ => [] }

/-- Values: `list` is a list with a number. -/
inductive ExV where
  | undef | num | str | list | unset | unret

/-- The names a value has. -/
def exNames : ExV → List String
  | .undef => ["Top_", "Normal", "Tangible_", "Undefined"]
  | .num => ["Top_", "Normal", "Tangible_", "Number"]
  | .str => ["Top_", "Normal", "Tangible_", "String"]
  | .list => ["Top_", "List"]
  | .unset => ["Top_", "not_set"]
  | .unret => ["Top_", "not_returned"]

def exI : Interp where
  V := ExV
  named := fun n v => n ∈ exNames v
  tbd := fun _ => False
  elems := fun v => match v with
    | .list => some [.num]
    | _ => none
  schemaOf := fun _ => none
  field := fun _ _ => none
  procs := fun _ _ _ => False

theorem exCfg_ok : CfgOk exCfg where
  root := rfl
  nodup := by decide
  supers := by intro i j k h; simp [exCfg] at h

theorem exTree_children {p c : String} (h : ChildOf exTree p c) :
    (p = "Top_" ∧ (c = "Normal" ∨ c = "List" ∨ c = "not_set" ∨ c = "not_returned")) ∨ (p = "Normal" ∧ c = "Tangible_") ∨
    (p = "Tangible_" ∧ (c = "Undefined" ∨ c = "Number" ∨ c = "String")) := by
  have hm := h.mem_left
  obtain ⟨cs, hcs⟩ := Option.isSome_iff_exists.1 (children_isSome exTree p hm)
  have hc := (children_iff exCfg_ok.nodup hcs c).2 h
  simp only [exTree, names, namesL, List.append_nil, List.cons_append, List.nil_append, List.mem_cons, List.not_mem_nil, or_false] at hm
  rcases hm with rfl | rfl | rfl | rfl | rfl | rfl | rfl | rfl | rfl <;>
    simp [exTree, children?, childrenL?, Tree.name] at hcs <;> subst hcs <;> simp at hc <;> simp [hc]

theorem exW : World exCfg Types.exOrd exI where
  cfgOk := exCfg_ok
  ordOk := Types.exOrd_ok
  leaf := by
    intro c h
    rcases exTree_children h with ⟨h, _⟩ | ⟨h, _⟩ | ⟨h, _⟩ <;> simp at h
  respects := {
    top := fun v => by cases v <;> simp [exI, exNames, Top]
    child := by
      intro p c h v hv
      rcases exTree_children h with ⟨rfl, _⟩ | ⟨rfl, rfl⟩ | ⟨rfl, rfl | rfl | rfl⟩ <;> cases v <;> simp [exI, exNames] at hv ⊢
    list := fun v l h => by cases v <;> simp [exI, exNames, ListN] at h ⊢
    record := fun v s h => by simp [exI] at h
    proc := fun ps r v h => h.elim }
  exhaustive := by
    intro p v hv ⟨c, hc⟩
    have mk : ∀ {p c : String} {cs}, children? exTree p = some cs → c ∈ cs → ChildOf exTree p c :=
      fun h1 h2 => (children_iff exCfg_ok.nodup h1 _).1 h2
    rcases exTree_children hc with ⟨rfl, _⟩ | ⟨rfl, _⟩ | ⟨rfl, _⟩
    · have hk : ∀ c ∈ ["Normal", "List", "not_set", "not_returned"], ChildOf exTree "Top_" c := fun c h => mk rfl h
      cases v
      · exact ⟨_, hk "Normal" (by simp), by simp [exI, exNames]⟩
      · exact ⟨_, hk "Normal" (by simp), by simp [exI, exNames]⟩
      · exact ⟨_, hk "Normal" (by simp), by simp [exI, exNames]⟩
      · exact ⟨_, hk "List" (by simp), by simp [exI, exNames]⟩
      · exact ⟨_, hk "not_set" (by simp), by simp [exI, exNames]⟩
      · exact ⟨_, hk "not_returned" (by simp), by simp [exI, exNames]⟩
    · exact ⟨"Tangible_", hc |> fun _ => mk (cs := ["Tangible_"]) rfl (by simp), by cases v <;> simp [exI, exNames] at hv ⊢⟩
    · have hk : ∀ c ∈ ["Undefined", "Number", "String"], ChildOf exTree "Tangible_" c := fun c h => mk rfl h
      cases v
      · exact ⟨_, hk "Undefined" (by simp), by simp [exI, exNames]⟩
      · exact ⟨_, hk "Number" (by simp), by simp [exI, exNames]⟩
      · exact ⟨_, hk "String" (by simp), by simp [exI, exNames]⟩
      all_goals simp [exI, exNames] at hv
  disjoint := by
    intro p c d v h1 h2 hc hd
    rcases exTree_children h1 with ⟨rfl, e1⟩ | ⟨rfl, rfl⟩ | ⟨rfl, e1⟩ <;> rcases exTree_children h2 with ⟨e, e2⟩ | ⟨e, e2⟩ | ⟨e, e2⟩ <;>
      first
      | (simp at e; done)
      | exact e2.symm
      | (rcases e1 with rfl | rfl | rfl | rfl <;> rcases e2 with rfl | rfl | rfl | rfl <;> first | rfl | (cases v <;> simp [exI, exNames] at hc hd))
      | (rcases e1 with rfl | rfl | rfl <;> rcases e2 with rfl | rfl | rfl <;> first | rfl | (cases v <;> simp [exI, exNames] at hc hd))
  notSet := by decide
  notReturned := by decide
  tangible := by decide
  undefinedNormal := by intro v h; cases v <;> simp [exI, exNames] at h ⊢

theorem exInhabited : Inhabited' exCfg exI := by
  intro n hn
  simp only [exCfg, exTree, names, namesL, List.append_nil, List.cons_append, List.nil_append, List.mem_cons, List.not_mem_nil, or_false] at hn
  rcases hn with rfl | rfl | rfl | rfl | rfl | rfl | rfl | rfl | rfl
  · exact ⟨.num, by simp [exI, exNames]⟩
  · exact ⟨.num, by simp [exI, exNames]⟩
  · exact ⟨.num, by simp [exI, exNames]⟩
  · exact ⟨.undef, by simp [exI, exNames]⟩
  · exact ⟨.num, by simp [exI, exNames]⟩
  · exact ⟨.str, by simp [exI, exNames]⟩
  · exact ⟨.list, by simp [exI, exNames]⟩
  · exact ⟨.unset, by simp [exI, exNames]⟩
  · exact ⟨.unret, by simp [exI, exNames]⟩

/-- Expressions: some number, some string.  Value descriptions: names, read exactly.  One other condition, about which
nothing is known. -/
def exL : Lang Unit Bool (Fin 3) Unit where
  cfg := exCfg
  ord := Types.exOrd
  expr := fun e env => some ((if e then .hier "Number" else .hier "String", env), [])
  cond := fun _ env _ => some ((some env, some env), [])
  bracket := fun t => if t = 0 then (.hier "Number", .hier "Number") else if t = 1 then (.hier "String", .hier "String")
    else (T0, .hier "Tangible_")
  expected := fun _ => .hier "Tangible_"
  wraps := fun _ => false
  outerVars := fun _ => []

/-- The third description is a set of values that no type gives exactly. -/
def exS : Sem Bool (Fin 3) Unit exI where
  eval := fun e _ v => if e then v = ExV.num else v = ExV.str
  holds := fun _ _ => True
  desc := fun t v => if t = 0 then v = ExV.num else if t = 1 then v = ExV.str else v = ExV.num ∨ v = ExV.undef

theorem flatOf {cfg : Cfg} {n : String} (h : n ∈ names cfg.tree) : Flat cfg (.hier n) := flat_hier h

theorem exAtoms : AtomsOk exL exS where
  expr := by
    intro e env t env' es h _ hf
    simp only [exL, Option.some.injEq, Prod.mk.injEq] at h
    obtain ⟨⟨rfl, rfl⟩, _⟩ := h
    refine ⟨?_, hf, rfl, fun σ v hσ hv => ⟨?_, hσ⟩⟩
    · cases e
      · exact flatOf (by decide)
      · exact flatOf (by decide)
    · cases e <;> simp only [exS] at hv <;> simp at hv <;> subst hv <;> simp [den, exI, exNames]
  cond := by
    intro c env b t f es h _ hf
    simp only [exL, Option.some.injEq, Prod.mk.injEq] at h
    obtain ⟨⟨rfl, rfl⟩, _⟩ := h
    refine ⟨?_, fun σ hσ => ⟨fun _ => ⟨env, rfl, hσ⟩, fun _ => ⟨env, rfl, hσ⟩⟩⟩
    intro e he
    have : env = e := by rcases he with h | h <;> (injection h)
    subst this
    exact ⟨hf, rfl⟩
  bracket := by
    intro t
    have hn : Flat exCfg (.hier "Number") := flatOf (by decide)
    have hs : Flat exCfg (.hier "String") := flatOf (by decide)
    have ht : Flat exCfg (.hier "Tangible_") := flatOf (by decide)
    match t with
    | 0 => exact ⟨hn, hn, fun v => by cases v <;> simp [exL, exS, den, exI, exNames]⟩
    | 1 => exact ⟨hs, hs, fun v => by cases v <;> simp [exL, exS, den, exI, exNames]⟩
    | 2 => exact ⟨flat_T0, ht, fun v => by cases v <;> simp [exL, exS, den, denAny, T0, exI, exNames]⟩

/-- `a` is a number, and nothing has been returned. -/
def exEnv : Env Unit := { ctx := (), vars := [(.var "a", .hier "Number"), (.ret, .hier "Tangible_")] }
def exEnv2 : Env Unit := { ctx := (), vars := [(.var "b", .hier "String")] }

theorem exEnv_flat : FlatEnv exCfg exEnv := by
  intro k t h
  simp only [exEnv, get] at h
  split at h
  · injection h with h; subst h; exact flatOf (by decide)
  · split at h
    · injection h with h; subst h; exact flatOf (by decide)
    · cases h

theorem exEnv2_flat : FlatEnv exCfg exEnv2 := by
  intro k t h
  simp only [exEnv2, get] at h
  split at h
  · injection h with h; subst h; exact flatOf (by decide)
  · cases h

section
variable {K : Type} [DecidableEq K] {cfg : Cfg} {ord : List Ty → List Ty}

/-! ### C33 -/

/-- C33: joining always succeeds for environments of one algorithm whose types are given by names. There is no
result if and only if no branch gets there.  Otherwise a variable has a static type if and only if it has one in
some branch; the values of that type are exactly those it may have in some branch that gets there,
where a branch without an entry counts as leaving the variable unset. -/
theorem c33_or (hc : CfgOk cfg) (ho : SetOrder ord) (hns : "not_set" ∈ names cfg.tree) {envs : List (Option (Env K))} {k : K}
    (hf : ∀ e, some e ∈ envs → FlatEnv cfg e ∧ e.ctx = k) :
    ∃ r, envsOr cfg ord envs = some r ∧ (r = none ↔ ∀ e, some e ∉ envs) ∧ ∀ e, r = some e → e.ctx = k ∧ FlatEnv cfg e ∧
      ∀ x, (get e.vars x = none ↔ ∀ e', some e' ∈ envs → get e'.vars x = none) ∧
        ∀ t, get e.vars x = some t → ∀ I : Interp, Respects cfg I → Exhaustive cfg I → ∀ v : I.V,
          den cfg I t v ↔ (∃ e' u, some e' ∈ envs ∧ get e'.vars x = some u ∧ den cfg I u v) ∨
            (∃ e', some e' ∈ envs ∧ get e'.vars x = none ∧ Unset I v) := by
  obtain ⟨r, h1, h2, h3⟩ := envsOr_flat hc ho hns hf
  refine ⟨r, h1, h2, fun e he => ⟨(h3 e he).2.1, (h3 e he).1, fun x => ⟨((h3 e he).2.2 x).1, fun t ht I hr hx v => ?_⟩⟩⟩
  rw [((h3 e he).2.2 x).2 t ht I hr hx v]
  constructor
  · rintro ⟨e', he', hv⟩
    unfold typeOr at hv
    cases hg : get e'.vars x with
    | none => rw [hg] at hv; exact .inr ⟨e', he', hg, hv⟩
    | some u => rw [hg] at hv; exact .inl ⟨e', u, he', hg, hv⟩
  · rintro (⟨e', u, he', hg, hv⟩ | ⟨e', he', hg, hv⟩)
    · exact ⟨e', he', by unfold typeOr; rw [hg]; exact hv⟩
    · exact ⟨e', he', by unfold typeOr; rw [hg]; exact hv⟩

/-- C33, in terms of stores: whatever a branch is right about, the join is right about. -/
theorem c33_or_covers {I : Interp} (hw : World cfg ord I) {envs : List (Option (Env K))} {k : K}
    (hf : ∀ e, some e ∈ envs → FlatEnv cfg e ∧ e.ctx = k) {r : Option (Env K)} (h : envsOr cfg ord envs = some r)
    {e : Option (Env K)} (he : e ∈ envs) {σ : Store I} (hσ : Covers cfg I e σ) : Covers cfg I r σ := by
  obtain ⟨e', rfl, hσ⟩ := hσ
  obtain ⟨r', h1, h2, h3⟩ := envsOr_flat hw.cfgOk hw.ordOk hw.notSet hf
  rw [h] at h1; injection h1 with h1; subst h1
  cases hr : r with
  | none => exact absurd he (h2.1 hr e')
  | some e1 =>
    refine ⟨e1, rfl, fun x => ⟨fun t ht => ?_, fun hn => ?_⟩⟩
    · exact (((h3 e1 hr).2.2 _).2 t ht I hw.respects hw.exhaustive _).2 ⟨e', he, typeOr_den hσ⟩
    · exact (hσ x).2 (((h3 e1 hr).2.2 _).1.1 hn e' he)

/-- C33 for all types, as far as unions contain their parts (see C16): what a branch is right about, a join that succeeds is right about. -/
theorem c33_or_contains {I : Interp} (hc : CfgOk cfg) (hr : Respects cfg I) (ho : SetOrder ord) {envs : List (Option (Env K))} {r : Option (Env K)}
    (hty : (∀ e, some e ∈ envs → ∀ x t, get e.vars x = some t → TBDFree t ∧ NoBareList t) ∨
      (∀ e, some e ∈ envs → ∀ x t, get e.vars x = some t → TBDFree t ∧ NoListOf t))
    (h : envsOr cfg ord envs = some r) {e : Env K} (he : some e ∈ envs) {σ : Store I} (hσ : Holds cfg I e σ) : Covers cfg I r σ := by
  rcases hty with hty | hty
  · exact envsOr_upper (P := fun t => TBDFree t ∧ NoBareList t)
      (fun ts T hts hT t ht v hv => c16_contains hc hr ho (fun t ht => (hts t ht).1) (.inl (fun t ht => (hts t ht).2)) hT ht hv)
      (by simp [notSet, TBDFree, NoBareList, Deep]) hty h he hσ
  · exact envsOr_upper (P := fun t => TBDFree t ∧ NoListOf t)
      (fun ts T hts hT t ht v hv => c16_contains hc hr ho (fun t ht => (hts t ht).1) (.inr (fun t ht => (hts t ht).2)) hT ht hv)
      (by simp [notSet, TBDFree, NoListOf, Deep]) hty h he hσ

/-- Two branches, one unreachable branch between: the join. -/
example : ((envsOr exCfg Types.exOrd [some exEnv, none, some exEnv2]).map (fun e => e.map (fun e => (get e.vars (.var "a"), get e.vars (.var "b"), get e.vars (.var "c"))))) =
    some (some (some (.union [.hier "Number", .hier "not_set"]), some (.union [.hier "not_set", .hier "String"]), none)) := by decide
example : ∀ e, some e ∈ [some exEnv, none, some exEnv2] → FlatEnv exCfg e ∧ e.ctx = () := by
  intro e he
  simp only [List.mem_cons, Option.some.injEq, List.not_mem_nil, or_false] at he
  rcases he with rfl | he | rfl
  · exact ⟨exEnv_flat, rfl⟩
  · cases he
  · exact ⟨exEnv2_flat, rfl⟩
example : Holds exCfg exI exEnv (fun x => if x = "a" then ExV.num else ExV.unset) := by
  intro x
  by_cases hx : x = "a"
  · subst hx; simp [exEnv, get, den, exI, exNames]
  · have : ¬ "a" = x := fun h => hx h.symm
    simp [exEnv, get, hx, this, Unset, exI, exNames]

/-- C33: the conjunction of environments (whose types are given by names, or TBD) always succeeds. A variable has a
static type if and only if it has one in all of them; if it is TBD in all of them it is TBD, and otherwise the
values of its type are exactly those allowed by all of them (where TBD allows everything). -/
theorem c33_and (hc : CfgOk cfg) (hleaf : IsLeaf cfg.tree "List") (ho : SetOrder ord) {es : List (Env K)} (hne : es ≠ [])
    (h : ∀ e ∈ es, ∀ x t, get e.vars x = some t → Flat cfg t ∨ t = .tbd) :
    ∃ e, envsAnd cfg ord es = some e ∧ (∃ e0 ∈ es, e.ctx = e0.ctx) ∧ ∀ x,
      (get e.vars x = none ↔ ∃ e' ∈ es, get e'.vars x = none) ∧
      ∀ t, get e.vars x = some t → (t = .tbd ∧ (∀ e' ∈ es, get e'.vars x = some .tbd) ∨
        Flat cfg t ∧ (∃ e' ∈ es, get e'.vars x ≠ some .tbd) ∧
        ∀ I : Interp, Respects cfg I → Exhaustive cfg I → SiblingsDisjoint cfg I → ∀ v : I.V,
          den cfg I t v ↔ ∀ e' ∈ es, ∀ u, get e'.vars x = some u → u ≠ .tbd → den cfg I u v) :=
  envsAnd_flat hc hleaf ho hne h

example : ((envsAnd exCfg Types.exOrd [{ exEnv with vars := [(.var "a", .hier "Tangible_"), (.var "b", .tbd), (.var "c", .hier "List")] },
      { exEnv with vars := [(.var "b", .hier "Number"), (.var "a", .union [.hier "String", .hier "List"])] }]).map
    (fun e => (get e.vars (.var "a"), get e.vars (.var "b"), get e.vars (.var "c")))) =
    some (some (.hier "String"), some (.hier "Number"), none) := by decide

end

section
variable {K X T C : Type} [DecidableEq K] {L : Lang K X T C} {I : Interp} {S : Sem X T C I}

/-! ### C34 -/

/-- C34: a type test of a variable against any set `P` of values between the types `sub` and `sup` gives two
environments, of which the first is right if the test succeeds and the second if it fails. -/
theorem c34_test (hw : World L.cfg L.ord I) {env : Env K} (hf : FlatEnv L.cfg env) {x : String} {t : Ty} (hx : get env.vars (.var x) = some t)
    {sub sup : Ty} (hsub : Flat L.cfg sub) (hsup : Flat L.cfg sup) {P : I.V → Prop} (h1 : ∀ v, den L.cfg I sub v → P v)
    (h2 : ∀ v, P v → den L.cfg I sup v) {isA asserting : Bool} {s s' : Acc K} {yes no : Option (Env K)}
    (h : withTypeTest L env x isA (sub, sup) asserting s = some ((yes, no), s')) {σ : Store I} (hσ : Holds L.cfg I env σ) :
    ((if isA then P (σ x) else ¬ P (σ x)) → Covers L.cfg I yes σ) ∧ (¬ (if isA then P (σ x) else ¬ P (σ x)) → Covers L.cfg I no σ) := by
  exact (test_core hw (k := env.ctx) ⟨hf, rfl⟩ hx hsub hsup h1 h2 h).2.2 σ hσ

/-- C34, the messages: asserting that something is not what it can only be is an assertion failure of the
analysis; in all other cases the messages are exactly the right ones. -/
theorem c34_messages (hw : World L.cfg L.ord I) (hi : Inhabited' L.cfg I) {env : Env K} {x : String} {t sub sup : Ty} (hx : get env.vars (.var x) = some t)
    (ht : Flat L.cfg t) (hne : ∃ v, den L.cfg I t v) (hsub : Flat L.cfg sub) (hsup : Flat L.cfg sup) (isA asserting : Bool) (s : Acc K) :
    ((asserting = true ∧ isA = false ∧ ∀ v, den L.cfg I t v → den L.cfg I sub v) →
      withTypeTest L env x isA (sub, sup) asserting s = none) ∧
    (¬ (asserting = true ∧ isA = false ∧ ∀ v, den L.cfg I t v → den L.cfg I sub v) → ∃ r es,
      withTypeTest L env x isA (sub, sup) asserting s = some (r, { s with errs := s.errs ++ es, log := s.log ++ es }) ∧
      ∀ m, m ∈ es ↔ Says L.cfg I x t sub sup isA asserting m) :=
  test_says hw hi hx ht hne hsub hsup isA asserting s

/-- C34, combined conditions: however conditions are combined, the first environment is right if the whole is true and the
second if it is false, as long as no undefined variable is reported. -/
theorem c34_logical (hw : World L.cfg L.ord I) (ha : AtomsOk L S) {c : Cond T C} {env : Env K} (hf : FlatEnv L.cfg env) {asserting : Bool}
    {s s' : Acc K} {yes no : Option (Env K)} (h : tcCond L c (some env) asserting s = some ((yes, no), s')) (hq : ∀ x, .undefined x ∉ s'.log)
    {σ : Store I} (hσ : Holds L.cfg I env σ) :
    (True' S c σ → Covers L.cfg I yes σ) ∧ (¬ True' S c σ → Covers L.cfg I no σ) :=
  ((wp_tcCond hw ha c (some env) asserting env.ctx s (flatO_some ⟨hf, rfl⟩)).out _ _ h hq).2.2 σ (covers_some.2 hσ)

/-- `a` is known to be a number or a string. -/
def exEnv3 : Env Unit := { ctx := (), vars := [(.var "a", .union [.hier "Number", .hier "String"])] }

/-- The third description holds of some numbers-or-undefined: the first environment takes away the string only if the bracket allows it. -/
example : (withTypeTest exL exEnv3 "a" true (exL.bracket 2) false ⟨[], [], []⟩).map (fun r => (r.1.1.map (fun e => get e.vars (.var "a")), r.1.2.map (fun e => get e.vars (.var "a")), r.2.errs)) =
    some (some (some (.union [.hier "Number", .hier "String"])), some (some (.union [.hier "Number", .hier "String"])), []) := by decide
example : (withTypeTest exL exEnv3 "a" true (exL.bracket 0) false ⟨[], [], []⟩).map (fun r => (r.1.1.map (fun e => get e.vars (.var "a")), r.1.2.map (fun e => get e.vars (.var "a")), r.2.errs)) =
    some (some (some (.hier "Number")), some (some (.hier "String")), []) := by decide
example : (withTypeTest exL exEnv3 "a" true (exL.bracket 0) true ⟨[], [], []⟩).map (fun r => r.2.errs) = some [.unconfirmed "a"] := by decide
example : (tcCond exL (.or [.test "a" true 0, .and [.plain (), .test "a" false 1]]) (some exEnv3) false ⟨[], [], []⟩).map
    (fun r => (r.1.1.map (fun e => get e.vars (.var "a")), r.1.2.map (fun e => get e.vars (.var "a")), r.2.log)) =
    some (some (some (.hier "Number")), some (some (.hier "String")), [.mustBe "a"]) := by decide
example : World exL.cfg exL.ord exI ∧ AtomsOk exL exS ∧ Inhabited' exL.cfg exI := ⟨exW, exAtoms, exInhabited⟩

/-- C34 fails for list types, since splitting by them is no partition (see C18): a list that is not a list of strings
is covered by neither environment after testing whether it is a list of strings. -/
theorem c34_lists_witness : ∃ (K X T C : Type) (_ : DecidableEq K) (L : Lang K X T C) (I : Interp) (env : Env K) (x : String) (t : Ty)
    (yes no : Option (Env K)) (s s' : Acc K) (σ : Store I), World L.cfg L.ord I ∧ withTypeTest L env x true (t, t) false s = some ((yes, no), s') ∧
    Holds L.cfg I env σ ∧ ¬ Covers L.cfg I yes σ ∧ ¬ Covers L.cfg I no σ := by
  have hno : ∀ (n : String), n ≠ "Top_" → n ≠ "Normal" → n ≠ "Tangible_" → n ≠ "Number" →
      ¬ Covers exCfg exI (some (⟨(), [(.var "a", .list (.hier n))]⟩ : Env Unit)) (fun x => if x = "a" then ExV.list else ExV.unset) := by
    intro n h1 h2 h3 h4 h
    have := ((covers_some.1 h) "a").1 (.list (.hier n)) (by simp [get])
    simp only [den] at this
    obtain ⟨l, hl, hall⟩ := this
    have hl' : some [ExV.num] = some l := hl
    injection hl' with hl'
    subst hl'
    have := hall ExV.num (List.mem_cons_self)
    simp [exI, exNames, h1, h2, h3, h4] at this
  refine ⟨Unit, Bool, Fin 3, Unit, inferInstance, exL, exI, ⟨(), [(.var "a", .hier "List")]⟩, "a", .list (.hier "String"),
    some ⟨(), [(.var "a", .list (.hier "String"))]⟩, some ⟨(), [(.var "a", .list (.hier "other_"))]⟩, ⟨[], [], []⟩, ⟨[], [], []⟩,
    fun x => if x = "a" then ExV.list else ExV.unset, exW, by rfl, ?_, hno _ (by decide) (by decide) (by decide) (by decide),
    hno _ (by decide) (by decide) (by decide) (by decide)⟩
  intro x
  by_cases hx : x = "a"
  · subst hx; simp [get, den, exI, exNames]
  · have : ¬ "a" = x := fun h => hx h.symm
    simp [get, hx, this, Unset, exI, exNames]

/-! ### C35 -/

/-- C35: when the analysis of a loop returns, then with some environment `top` at the head of the loop, the check before the body
and the body were analysed in turn, starting with the messages of before the loop and ending with those the
loop leaves; the result is what that check says about leaving; and joining the end of the body
(without the variables introduced in it) with the environment before the loop gives `top` again. -/
theorem c35_fixpoint {check : Env K → M K (Option (Env K) × Option (Env K))} {body : Option (Env K) → M K (Option (Env K))}
    (hc : ∀ e, Appends (check e)) (hb : ∀ e, Appends (body e)) {pre : Env K} {s s' : Acc K} {exit : Option (Env K)}
    (h : tcLoop L check body pre s = some (exit, s')) :
    ∃ top s0 s1 stay bottom again, s0.errs = s.errs ∧ check top s0 = some ((stay, exit), s1) ∧ body stay s1 = some (some bottom, s') ∧
      envsOr L.cfg L.ord [some { bottom with vars := bottom.vars.filter (fun p => decide (p.1 ∈ pre.vars.map (·.1))) }, some pre] = some (some again) ∧
      (∀ x, (∀ t, get again.vars x = some t → ∃ t', get top.vars x = some t' ∧ ∀ m, m ∈ members t ↔ m ∈ members t') ∧
        (get again.vars x = none → get top.vars x = none)) := by
  obtain ⟨top, s0, s1, stay, bottom, again, _, g, _⟩ := tcLoop_last L (fun e => ⟨hc e⟩) (fun e => ⟨hb e⟩) (fun _ _ => True) (fun _ => True)
    (fun _ _ _ _ => trivial) (fun _ _ _ _ => trivial) (fun _ _ _ _ _ _ _ _ _ _ _ _ _ => trivial) trivial trivial h
  refine ⟨top, s0, s1, stay, bottom, again, g.errs, g.check, g.body, g.join, fun x => ⟨fun t ht => ?_, ((sameVars_iff.1 g.same) x).2⟩⟩
  obtain ⟨t', h1, h2⟩ := ((sameVars_iff.1 g.same) x).1 t ht
  exact ⟨t', h1, tyEq_iff.1 h2⟩

/-- The loops of the language are such loops. -/
theorem c35_appends (l : Loop X T C) (c : Cmd X T C) (e : Env K) (e' : Option (Env K)) : Appends (checkBefore L l e) ∧ Appends (tc L c e') :=
  ⟨(calm_checkBefore L l e).mono.out, (mono_tc L c e').out⟩

/-- C35, what it is for: no matter how often the loop goes round, the environment that the analysis returns is right after it. -/
theorem c35_loop_sound (hw : World L.cfg L.ord I) (ha : AtomsOk L S) {l : Loop X T C} {body : Cmd X T C} {env : Env K} (hk : L.wraps env.ctx = false)
    (hf : FlatEnv L.cfg env) {s s' : Acc K} {out : Option (Env K)} (h : tc L (.loop l body) (some env) s = some (out, s'))
    (hq : ∀ x, .undefined x ∉ s'.log) {σ τ : Store I} (hσ : Holds L.cfg I env σ) (hx : Exec S (.loop l body) σ (.next τ)) : Covers L.cfg I out τ :=
  (tc_ok hw ha hk _ _ _ _ _ (flatO_some ⟨hf, rfl⟩) hq h).next σ τ (covers_some.2 hσ) hx

/-- `a` is a number before the loop and may be a string after it. -/
def exLoop : Cmd Bool (Fin 3) Unit := .loop (.until (.plain ())) (.seq (.let "b" (.var "a")) (.set "a" (.other false)))

example : (tc exL exLoop (some exEnv) ⟨[], [], []⟩).map (fun r => (r.1.map (fun e => (get e.vars (.var "a"), get e.vars (.var "b"))), r.2.errs, r.2.log)) =
    some (some (some (.union [.hier "String", .hier "Number"]), none), [], [.setChanges "a"]) := by decide
example : Exec exS (.loop (.until (.test "a" true 1)) (.set "a" (.other false)) : Cmd Bool (Fin 3) Unit)
    (fun x => if x = "a" then ExV.num else ExV.unset) (.next (fun x => if x = "a" then ExV.str else ExV.unset)) := by
  refine .loopNext (τ := fun x => if x = "a" then ExV.num else ExV.unset) (τ' := update (I := exI) (fun x => if x = "a" then ExV.num else ExV.unset) "a" ExV.str)
    (ρ := fun x => if x = "a" then ExV.str else ExV.unset) ?_ (Exec.set (S := exS) (v := ExV.str) ?_) ?_ (.loopEnd ?_)
  · simp [Stays, True', exS]
  · simp only [Eval, exS]; rfl
  · intro x
    by_cases hx : x = "a"
    · subst hx; simp [update, Unset, exI, exNames]
    · simp [update, hx, Unset, exI, exNames]
  · simp [Leaves, True', exS]; rfl

/-- A loop that settles in the third pass makes the analysis fail, although five passes are allowed for: three variables are
shifted along. -/
theorem c35_third_pass_witness : ∃ (body : Cmd Bool (Fin 3) Unit) (env : Env Unit), FlatEnv exCfg env ∧
    (∀ s : Acc Unit, tc exL (.loop .times body) (some env) s = none) ∧
    ∃ top : Env Unit, ∀ s : Acc Unit, ∃ bottom s', tc exL body (some top) s = some (some bottom, s') ∧
      ∃ again, envsOr exCfg Types.exOrd [some (bottom.reduce (keys env.vars)), some env] = some (some again) ∧ sameVars again.vars top.vars = true := by
  refine ⟨.seq (.set "c" (.var "b")) (.set "b" (.var "a")),
    ⟨(), [(.var "a", .hier "Number"), (.var "b", .hier "String"), (.var "c", .hier "Undefined")]⟩, ?_, ?_, ?_⟩
  · intro k t h
    simp only [get] at h
    split at h
    · injection h with h; subst h; exact flatOf (by decide)
    · split at h
      · injection h with h; subst h; exact flatOf (by decide)
      · split at h
        · injection h with h; subst h; exact flatOf (by decide)
        · cases h
  · intro s; rfl
  · exact ⟨⟨(), [(.var "a", .hier "Number"), (.var "b", .union [.hier "Number", .hier "String"]), (.var "c", .hier "Normal")]⟩, fun s => ⟨_, _, rfl, _, rfl, by decide⟩⟩

/-- So does a loop whose body always returns. -/
theorem c35_returning_body_witness : ∀ s : Acc Unit, tc exL (.loop .times (.ret (.other true))) (some exEnv) s = none := by
  intro s; rfl

/-! ### C41 -/

/-- C41 for one command: if the environment before it is right, then after any execution that goes on, the environment after it is
right; after any execution that returns, one of the recorded return environments is right, also about the value returned. -/
theorem c41_command (hw : World L.cfg L.ord I) (ha : AtomsOk L S) {c : Cmd X T C} {env : Env K} (hk : L.wraps env.ctx = false)
    (hf : FlatEnv L.cfg env) {s s' : Acc K} {out : Option (Env K)} (h : tc L c (some env) s = some (out, s')) (hq : ∀ x, .undefined x ∉ s'.log)
    {σ : Store I} (hσ : Holds L.cfg I env σ) :
    (∀ τ, Exec S c σ (.next τ) → Covers L.cfg I out τ) ∧ (∀ τ v, Exec S c σ (.returned τ v) → ∃ r ∈ s'.rets, HoldsRet L.cfg I r τ v) := by
  have g := tc_ok hw ha hk _ _ _ _ _ (flatO_some ⟨hf, rfl⟩) hq h
  refine ⟨fun τ hx => g.next σ τ (covers_some.2 hσ) hx, fun τ v hx => ?_⟩
  obtain ⟨r, h1, h2, t, h3, _, h4, _⟩ := g.ret σ τ v (covers_some.2 hσ) hx
  exact ⟨r, h1, h2, t, h3, h4⟩

/-- C41 for an algorithm with one or more bodies, whose return values are not wrapped: if the analysis does not complain about an
undefined variable, then: an execution that falls off the end has been warned about; a returned value has the type found for the
algorithm, header variables have the types found for them at the return, and if no return has been complained about, the value has the expected type. -/
theorem c41_algorithm (hw : World L.cfg L.ord I) (ha : AtomsOk L S) {init : Env K} (hk : L.wraps init.ctx = false) (hf : FlatEnv L.cfg init)
    (hret : .ret ∈ init.vars.map (·.1)) {bodies : List (Cmd X T C)} {r : Option (Env K)} {s' : Acc K}
    (h : tcProc L bodies init ⟨[], [], []⟩ = some (r, s')) (hq : ∀ x, .undefined x ∉ s'.log)
    {b : Cmd X T C} (hb : b ∈ bodies) {σ : Store I} (hσ : Holds L.cfg I init σ) :
    (∀ τ, Exec S b σ (.next τ) → Err.fallsOff ∈ s'.errs) ∧
    ∀ τ v, Exec S b σ (.returned τ v) → ∃ e t, r = some e ∧ get e.vars .ret = some t ∧ den L.cfg I t v ∧
      (∀ x u, get e.vars (.var x) = some u → den L.cfg I u (τ x)) ∧
      (Err.returnType ∉ s'.errs → Flat L.cfg (L.expected init.ctx) → den L.cfg I (L.expected init.ctx) v) :=
  proc_ok hw ha hk hf hret rfl hq h hb hσ

/-- Let b be a; if a is a number, set b to a string; else if we like, return a; after that, a loop, and return b. -/
def exProg : Cmd Bool (Fin 3) Unit :=
  .seq (.let "b" (.var "a")) (.seq (.ifOther (.plain ()) (.set "b" (.other false)) (.elseif (.plain ()) (.ret (.var "a")) .nil))
    (.seq exLoop (.ret (.var "b"))))

example : (tcProc exL [exProg] exEnv ⟨[], [], []⟩).map (fun r => (r.1.map (fun e => (get e.vars .ret, get e.vars (.var "a"))), r.2.log)) =
    some (some (some (.union [.hier "String", .hier "Number"]), some (.union [.hier "String", .hier "Number"])),
      [.setChanges "b", .relet "b", .narrows "b", .setChanges "a", .relet "b"]) := by decide +kernel
example : exL.wraps exEnv.ctx = false ∧ FlatEnv exL.cfg exEnv ∧ .ret ∈ exEnv.vars.map (·.1) ∧ Flat exL.cfg (exL.expected exEnv.ctx) :=
  ⟨rfl, exEnv_flat, by decide, flatOf (by decide)⟩

end
end Verif.Env
