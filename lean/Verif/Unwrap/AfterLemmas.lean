import Verif.Unwrap.RunLemmas
/-! # What is known after `? E` -/
namespace Verif.Unwrap
open Verif.Types Verif.Env Verif.Calls

section
variable {K X T C : Type} [DecidableEq K] {L : Lang K X T C}

theorem checked_iff {op n : String} : checkedBy op = some n ↔ (op, n) ∈ checkers := by
  simp only [checkers, List.mem_cons, List.not_mem_nil, or_false, Prod.mk.injEq]
  unfold checkedBy
  by_cases h1 : op = "ValidateTypedArray" ∨ op = "ValidateIntegerTypedArray" ∨ op = "ValidateAtomicAccessOnIntegerTypedArray" ∨ op = "ValidateUint8Array"
  · rw [if_pos h1]
    rcases h1 with rfl | rfl | rfl | rfl <;> simp [eq_comm]
  · rw [if_neg h1]
    simp only [not_or] at h1
    by_cases h2 : op = "GeneratorValidate"
    · subst h2; simp [eq_comm]
    · rw [if_neg h2]
      by_cases h3 : op = "NewPromiseCapability"
      · subst h3; simp [eq_comm]
      · simp [h1, h2, h3]

theorem test_adds {x : String} {isA asserting b1 b2 b3 b4 : Bool} {s s' : Acc K} {u : Unit} (h : testMessages x isA asserting b1 b2 b3 b4 s = some (u, s')) :
    ∃ ms, s' = add s ms := by
  unfold testMessages at h
  split at h
  · split at h
    · obtain ⟨_, s1, h1, h2⟩ := bind_some h
      rw [reportIf_run] at h1 h2
      injection h1 with h1; injection h1 with _ h1
      injection h2 with h2; injection h2 with _ h2
      rw [← h1, add_add] at h2
      exact ⟨_, h2.symm⟩
    · obtain ⟨_, s1, h1, h2⟩ := bind_some h
      rw [reportIf_run] at h1
      injection h1 with h1; injection h1 with _ h1
      split at h2
      · cases h2
      · obtain ⟨_, e⟩ := pure_of h2
        exact ⟨_, by rw [e, ← h1]⟩
  · obtain ⟨_, s1, h1, h2⟩ := bind_some h
    rw [reportIf_run] at h1 h2
    injection h1 with h1; injection h1 with _ h1
    injection h2 with h2; injection h2 with _ h2
    rw [← h1, add_add] at h2
    exact ⟨_, h2.symm⟩

theorem withTest_adds {env : Env K} {x : String} {isA asserting : Bool} {tb : Ty × Ty} {s s' : Acc K} {r : Option (Env K) × Option (Env K)}
    (h : withTypeTest L env x isA tb asserting s = some (r, s')) : ∃ ms, s' = add s ms := by
  unfold withTypeTest at h
  obtain ⟨⟨xt, env1⟩, s1, h1, k1⟩ := bind_some h
  obtain ⟨es, _, e1⟩ := own_of h1
  dsimp only at k1
  split at k1
  · exact ⟨es, by rw [(pure_of k1).2, e1]⟩
  split at k1
  · cases k1
  split at k1
  · split at k1
    · exact ⟨es, by rw [(pure_of k1).2, e1]⟩
    · exact ⟨es, by rw [(pure_of k1).2, e1]⟩
  · obtain ⟨⟨a1, a2⟩, s2, h2, k2⟩ := bind_some k1
    obtain ⟨_, e2⟩ := lift_of h2
    obtain ⟨⟨b1, b2⟩, s3, h3, k3⟩ := bind_some k2
    obtain ⟨_, e3⟩ := lift_of h3
    obtain ⟨_, s4, h4, k4⟩ := bind_some k3
    obtain ⟨ms, e4⟩ := test_adds h4
    refine ⟨es ++ ms, ?_⟩
    rw [← add_add, ← e1, ← e2, ← e3, ← e4]
    split at k4
    · exact (pure_of k4).2
    · exact (pure_of k4).2

theorem narrow_adds {env env' : Env K} {e : Expr X} {t : Ty} {s s' : Acc K} (h : narrow L env e t s = some (env', s')) : ∃ ms, s' = add s ms := by
  have fin : ∀ {A B : Ty} {b : Bool} {ea eb env' : Env K} {s1 s' : Acc K}, (do
      let already ← isSub L A t
      if already then M.pure ea
      else if b then M.pure eb
      else do
        let fits ← isSub L t A
        if fits then M.pure eb else M.fail : M K (Env K)) s1 = some (env', s') → s' = s1 := by
    intro A B b ea eb env' s1 s' h
    obtain ⟨b1, s2, h1, k1⟩ := bind_some h
    obtain ⟨_, e1⟩ := isSub_of h1
    split at k1
    · rw [(pure_of k1).2, e1]
    split at k1
    · rw [(pure_of k1).2, e1]
    · obtain ⟨b2, s3, h2, k2⟩ := bind_some k1
      obtain ⟨_, e2⟩ := isSub_of h2
      split at k2
      · rw [(pure_of k2).2, e2, e1]
      · cases k2
  cases e with
  | var x =>
    unfold narrow at h
    dsimp only at h
    unfold narrowed at h
    obtain ⟨r, s1, h1, k1⟩ := bind_some h
    obtain ⟨es, _, e1⟩ := own_of h1
    exact ⟨es, by rw [fin (B := t) k1, e1]⟩
  | other a =>
    unfold narrow at h
    dsimp only at h
    obtain ⟨r, s1, h1, k1⟩ := bind_some h
    obtain ⟨es, _, e1⟩ := own_of h1
    exact ⟨es, by rw [fin (B := t) k1, e1]⟩

/-- Nothing but messages is added. -/
theorem after_adds {callOf : X → Option (String × List (Expr X))} {slot : Expr X → Option (Ty × Ty)} {e : Expr X} {rt : Ty} {env env' : Env K}
    {s s' : Acc K} (h : after L callOf slot e rt env s = some (env', s')) :
    ∃ ms, s' = add s ms ∧ (PlainOperand callOf e → ms = []) := by
  cases e with
  | var x =>
    obtain ⟨_, e⟩ := pure_of h
    exact ⟨[], by rw [e, add_nil], fun _ => rfl⟩
  | other a =>
    unfold after at h
    dsimp only at h
    cases hc : callOf a with
    | none =>
      rw [hc] at h
      obtain ⟨_, e⟩ := pure_of h
      exact ⟨[], by rw [e, add_nil], fun _ => rfl⟩
    | some p =>
      obtain ⟨op, args⟩ := p
      rw [hc] at h
      dsimp only at h
      split at h
      · rename_i hop
        suffices hh : ∃ ms, s' = add s ms by
          obtain ⟨ms, e⟩ := hh
          exact ⟨ms, e, fun hp => absurd hop (hp a op args rfl hc).1⟩
        split at h
        · rename_i x y
          cases hsl : slot y with
          | none => rw [hsl] at h; cases h
          | some tb =>
            rw [hsl] at h
            obtain ⟨⟨r, r'⟩, s1, h1, k1⟩ := bind_some h
            obtain ⟨ms, e⟩ := withTest_adds h1
            refine ⟨ms, ?_⟩
            dsimp only at k1
            split at k1
            · cases k1
            · rw [(pure_of k1).2, e]
        · cases h
      · cases hk : checkedBy op with
        | none =>
          rw [hk] at h
          obtain ⟨_, e⟩ := pure_of h
          exact ⟨[], by rw [e, add_nil], fun _ => rfl⟩
        | some n =>
          rw [hk] at h
          dsimp only at h
          suffices hh : ∃ ms, s' = add s ms by
            obtain ⟨ms, e⟩ := hh
            exact ⟨ms, e, fun hp => absurd (checked_iff.1 hk) ((hp a op args rfl hc).2 n)⟩
          split at h
          · cases h
          · exact narrow_adds h

variable {I : Interp} {S : Sem X T C I}

theorem test_env (hr : Ready L.cfg) (ho : SetOrder L.ord) (hR : Respects L.cfg I) (hE : Exhaustive L.cfg I) (hD : SiblingsDisjoint L.cfg I) {env env2 : Env K}
    {x : String} {t : Ty} (hx : get env.vars (.var x) = some t) (ht : Flat L.cfg t) {tb : Ty × Ty} (h1 : Flat L.cfg tb.1) (h2 : Flat L.cfg tb.2)
    {s s' : Acc K} {r : Option (Env K)} (h : withTypeTest L env x true tb false s = some ((some env2, r), s')) {σ : Store I} (hσ : Holds L.cfg I env σ)
    (hv : den L.cfg I tb.2 (σ x)) : Holds L.cfg I env2 σ := by
  obtain ⟨sb, sp⟩ := tb
  unfold withTypeTest at h
  rw [tcExpr_found hx] at h
  obtain ⟨⟨xt, env1⟩, s1, e1, k1⟩ := bind_some h
  obtain ⟨e1, e1'⟩ := pure_of e1
  injection e1 with ea eb
  subst ea; subst eb
  dsimp only at k1 h1 h2 hv
  rw [flat_not_tbd h1, flat_not_tbd h2] at k1
  simp only [Bool.or_false, Bool.false_and, Bool.false_eq_true, if_false, if_true] at k1
  split at k1
  · have := (pure_of k1).1
    injection this with this; cases this
  · obtain ⟨⟨i1, o1⟩, s2, e2, k2⟩ := bind_some k1
    obtain ⟨e2, _⟩ := lift_of e2
    obtain ⟨⟨i2, o2⟩, s3, e3, k3⟩ := bind_some k2
    dsimp only at k3
    obtain ⟨_, s4, e4, k4⟩ := bind_some k3
    obtain ⟨i, o, g1, g2, _, g3⟩ := split_flat hr.ok hr.listLeaf ho ht h2
    rw [g1] at e2; injection e2 with e2; injection e2 with e2 e2'; subst e2; subst e2'
    have := (pure_of k4).1
    injection this with this _
    injection this with this
    subst this
    exact holds_retype hσ ((g3 I hR hE hD _).1.2 ⟨(hσ x).1 _ hx, hv⟩)

/-- The environment after `? E` is right about the store there is then. -/
theorem after_holds (hr : Ready L.cfg) (ho : SetOrder L.ord) (hR : Respects L.cfg I) (hE : Exhaustive L.cfg I) (hD : SiblingsDisjoint L.cfg I)
    {callOf : X → Option (String × List (Expr X))} {slot : Expr X → Option (Ty × Ty)} {e : Expr X} {rt : Ty} {env env' : Env K}
    (hch : ChecksFirst L.cfg S callOf slot e env) {s s' : Acc K} (h : after L callOf slot e rt env s = some (env', s')) {σ σ' : Store I} {w : I.V}
    (hσ : Holds L.cfg I env σ) (hrun : Runs L.cfg S .question e σ (.value w σ')) (hw : den L.cfg I rt w) : Holds L.cfg I env' σ' := by
  cases hrun with
  | «variable» hn =>
    obtain ⟨e, _⟩ := pure_of h
    rw [e]
    exact holds_set hσ hw
  | question hev hn =>
    rename_i a v
    unfold after at h
    dsimp only at h
    cases hc : callOf a with
    | none =>
      rw [hc] at h
      obtain ⟨e, _⟩ := pure_of h
      rw [e]; exact hσ
    | some p =>
      obtain ⟨op, args⟩ := p
      rw [hc] at h
      dsimp only at h
      obtain ⟨hk1, hk2⟩ := hch a op args rfl hc
      split at h
      · rename_i hop
        split at h
        · rename_i x y
          cases htb : slot y with
          | none => rw [htb] at h; cases h
          | some tb =>
            rw [htb] at h
            obtain ⟨f1, f2, ⟨t, hx, hft⟩, hchk⟩ := hk2 hop x y tb rfl htb
            obtain ⟨⟨r, r'⟩, s1, h1, k1⟩ := bind_some h
            dsimp only at k1
            split at k1
            · cases k1
            · rename_i env2
              rw [(pure_of k1).1]
              exact test_env hr ho hR hE hD hx hft f1 f2 h1 hσ (hchk σ v w hev hn)
        · cases h
      · rename_i hop
        cases hk : checkedBy op with
        | none =>
          rw [hk] at h
          rw [(pure_of h).1]; exact hσ
        | some n =>
          rw [hk] at h
          dsimp only at h
          obtain ⟨x, rest, t, rfl, hx, hchk⟩ := hk1 n (checked_iff.1 hk)
          dsimp only at h
          obtain ⟨_, e | e⟩ := narrow_of h hx
          · rw [e]; exact hσ
          · rw [e]
            exact holds_retype hσ (by simpa only [den] using hchk σ v w hev hn)

/-- After an operation that checks its argument, that is known to be of the type. -/
theorem after_checked (hr : Ready L.cfg) (hR : Respects L.cfg I) (hP : ProcsByResult I) {callOf : X → Option (String × List (Expr X))}
    {slot : Expr X → Option (Ty × Ty)} {a : X} {op n x : String} {rest : List (Expr X)} (hc : callOf a = some (op, .var x :: rest)) (hn : (op, n) ∈ checkers)
    {rt lt : Ty} {env env' : Env K} (hx : get env.vars (.var x) = some lt)
    (hhl : x ≠ "_highest_" ∧ x ≠ "_lowest_") {s s' : Acc K} (h : after L callOf slot (.other a) rt env s = some (env', s')) :
    ∃ T, get env'.vars (.var x) = some T ∧ ∀ v, den L.cfg I T v → I.named n v := by
  unfold after at h
  dsimp only at h
  rw [hc] at h
  dsimp only at h
  have hop : op ≠ "RequireInternalSlot" := by
    rintro rfl
    simp [checkers] at hn
  rw [if_neg hop, checked_iff.2 hn] at h
  dsimp only at h
  unfold narrow at h
  dsimp only at h
  unfold narrowed at h
  obtain ⟨r, s1, h1, h2⟩ := bind_some h
  obtain ⟨es, ho, rfl⟩ := own_of h1
  obtain ⟨e1, e2, rfl⟩ := var_own hx ho
  rw [add_nil] at h2
  dsimp only at h2
  obtain ⟨b, s2, h3, h4⟩ := bind_some h2
  obtain ⟨hb, rfl⟩ := isSub_of h3
  have hset : ∀ e : Env K, e = r.2.set (.var x) (.hier n) → ∃ T, get e.vars (.var x) = some T ∧ ∀ v, den L.cfg I T v → I.named n v := fun e he =>
    ⟨.hier n, by rw [he]; exact get_put_self _ _ _, fun v hv => by simpa only [den] using hv⟩
  cases b with
  | true =>
    simp only [if_true] at h4
    rw [(pure_of h4).1]
    refine ⟨lt, by rw [e2]; exact hx, fun v hv => ?_⟩
    have hh : highest L x r.1 = lt := by
      unfold highest
      rw [← e1]
      split
      · rw [if_neg (fun h => h.1.elim hhl.1 hhl.2)]
      · rfl
    rw [hh] at hb
    have := c14_sound hr.ok hR hP (by simp [FieldsOk, Deep]) hb v hv
    simpa only [den] using this
  | false =>
    simp only [Bool.false_eq_true, if_false] at h4
    split at h4
    · exact hset _ (pure_of h4).1
    · obtain ⟨f, s3, h5, h6⟩ := bind_some h4
      split at h6
      · exact hset _ (pure_of h6).1
      · cases h6

/-! ## Where the analysis does not stop -/

theorem bind_run {α β} {m : M K α} {f : α → M K β} {s s1 : Acc K} {a : α} (h : m s = some (a, s1)) : (m >>= f) s = f a s1 := by
  simp only [bind, M.bind, h]

theorem lift_run {α} {o : Option α} {a : α} (h : o = some a) (s : Acc K) : (M.lift o : M K α) s = some (a, s) := by
  subst h; rfl

theorem operand_not_tbd {t : Ty} (ht : OperandTy L.cfg t) : tyEq t .tbd = false := by
  cases he : tyEq t .tbd with
  | false => rfl
  | true =>
    rw [tyEq_iff] at he
    have hm := (he .tbd).2 (by simp [members])
    rcases ht.each _ hm with h | ⟨n, _, e, _⟩
    · obtain ⟨fs, e⟩ := isComp_record h
      cases e
    · cases e

theorem value_some (ho : SetOrder L.ord) {t a n : Ty} (ht : OperandTy L.cfg t) (hp : Parts t a n) : ∃ rt, dotField L.cfg L.ord n "[[Value]]" = some rt := by
  obtain ⟨p1, p2, p3⟩ := hp.value (cfg := L.cfg) ho ht
  by_cases hn : members n = []
  · exact ⟨_, p3 hn⟩
  · obtain ⟨m, hm⟩ := List.exists_mem_of_ne_nil _ hn
    obtain ⟨u, _, hu⟩ := (hp.normal m).1 hm
    cases u with
    | none => exact ⟨_, p2 (hu.imp id And.right)⟩
    | some u =>
      rcases hu with hu | ⟨e, _⟩
      · exact ⟨_, p1 u hu⟩
      · cases e

theorem bang_runs (hr : Ready L.cfg) (ho : SetOrder L.ord) {callOf : X → Option (String × List (Expr X))} {slot : Expr X → Option (Ty × Ty)}
    {e : Expr X} {env env1 : Env K} {t : Ty} {es : List Err} (hown : Own L e env t env1 es) (ht : OperandTy L.cfg t) (s : Acc K)
    (hok : (∀ m ∈ members t, ¬ IsComp m) ∨ anyCompletion ∈ members t ∨ ∃ u, comp normalN u ∈ members t) :
    ∃ r, unwrap L .bang callOf slot e env s = some r := by
  unfold unwrap
  rw [bind_run (own_run hown s)]
  dsimp only
  rw [operand_not_tbd ht]
  simp only [Bool.false_eq_true, if_false]
  obtain ⟨cr, non, hs, hcr, _⟩ := split_any hr ho ht
  rw [bind_run (lift_run hs _)]
  dsimp only
  cases hc0 : tyEq cr T0 with
  | true =>
    simp only [if_true]
    rw [bind_run (report_run _ _)]
    exact ⟨_, rfl⟩
  | false =>
    simp only [Bool.false_eq_true, if_false]
    rw [bind_run (reportIf_run _ _ _)]
    obtain ⟨ab, hab, _⟩ := abrupt_ok (cfg := L.cfg) (ord := L.ord) ho
    rw [bind_run (lift_run hab _)]
    obtain ⟨a, n, hsp, hp⟩ := parts_ok hr ho ht hcr hab
    rw [bind_run (lift_run hsp _)]
    dsimp only
    have hn : tyEq n T0 = false := by
      cases hn : tyEq n T0 with
      | false => rfl
      | true =>
        rw [tyEq_none] at hn
        have hex : ∃ m ∈ members t, IsComp m := by
          refine Classical.byContradiction (fun hh => ?_)
          have : tyEq cr T0 = true := tyEq_none.2 (List.eq_nil_iff_forall_not_mem.2 (fun m hm => hh ⟨m, (hcr m).1 hm⟩))
          rw [hc0] at this; cases this
        rcases hok with hok | hok | ⟨u, hok⟩
        · obtain ⟨m, hm, hc⟩ := hex
          exact absurd hc (hok m hm)
        · have := (hp.normal (comp normalN none)).2 ⟨none, rfl, .inr ⟨rfl, hok⟩⟩
          rw [hn] at this; cases this
        · have := (hp.normal (comp normalN u)).2 ⟨u, rfl, .inl hok⟩
          rw [hn] at this; cases this
    have hpm : partMessages (K := K) .bang a n = M.pure () := by
      unfold partMessages; dsimp only; rw [hn]; rfl
    rw [hpm]
    obtain ⟨rt, hrt⟩ := value_some (L := L) ho ht hp
    rw [bind_run (show (M.pure () : M K Unit) _ = _ from rfl)]
    unfold unwrapParts
    rw [bind_run (isSub_run (hp.sub_normal hr) _)]
    simp only [if_true]
    rw [bind_run (lift_run hrt _)]
    exact ⟨_, rfl⟩

/-! ## The values of the parts -/

theorem den_comp {k : String} {u : Option Ty} {v : I.V} : den L.cfg I (comp k u) v ↔ IsCompletion L.cfg I v ∧ Kind I v k ∧
    ∀ t, u = some t → ∃ w, Contains I v w ∧ den L.cfg I t w := by
  cases u with
  | none =>
    simp only [comp, den_record, IsCompletion, Kind, List.mem_singleton, forall_eq, den]
    exact ⟨fun h => ⟨h.1, h.2, fun t e => by cases e⟩, fun h => ⟨h.1, h.2.1⟩⟩
  | some t =>
    simp only [comp, den_record, IsCompletion, Kind, Contains, List.mem_cons, List.not_mem_nil, or_false, forall_eq_or_imp, forall_eq, den]
    exact ⟨fun h => ⟨h.1, h.2.1, fun t' e => by injection e with e; subst e; exact h.2.2⟩, fun h => ⟨h.1, h.2.1, h.2.2 t rfl⟩⟩

theorem den_any {v : I.V} : den L.cfg I anyCompletion v ↔ IsCompletion L.cfg I v := by
  simp only [anyCompletion, den_record, IsCompletion, List.not_mem_nil, false_implies, implies_true, and_true]

/-- A value of a union of types of Completion Records is in a part of it by its kind. -/
theorem in_part (hcomp : Completions L.cfg I) {t : Ty} (hoc : OnlyCompletions t) {v : I.V} (hv : den L.cfg I t v) {k : String} (hk : k ∈ kinds) (hkv : Kind I v k) :
    ∃ u, (comp k u ∈ members t ∨ u = none ∧ anyCompletion ∈ members t) ∧ den L.cfg I (comp k u) v := by
  rw [den_members] at hv
  obtain ⟨m, hm, hv⟩ := hv
  rcases hoc m hm with rfl | ⟨k', hk', u, rfl⟩
  · exact ⟨none, .inr ⟨rfl, hm⟩, den_comp.2 ⟨den_any.1 hv, hkv, fun t e => by cases e⟩⟩
  · obtain rfl := hcomp.one v k k' hk hk' hkv (den_comp.1 hv).2.1
    exact ⟨u, .inl hm, hv⟩

theorem value_type (ho : SetOrder L.ord) (hcomp : Completions L.cfg I) {t a n rt : Ty} (ht : OperandTy L.cfg t) (hoc : OnlyCompletions t) (hp : Parts t a n)
    (hd : dotField L.cfg L.ord n "[[Value]]" = some rt) {v w : I.V} (hv : den L.cfg I t v) (hn : NormalOf L.cfg I v w) : den L.cfg I rt w := by
  obtain ⟨u, hu, hvu⟩ := in_part hcomp hoc hv normal_kind.1 hn.2.1
  obtain ⟨p1, p2, _⟩ := hp.value (cfg := L.cfg) ho ht
  cases u with
  | some t' =>
    rcases hu with hu | ⟨e, _⟩
    · rw [p1 t' hu] at hd
      injection hd with hd; subst hd
      obtain ⟨w', hw', hd'⟩ := (den_comp.1 hvu).2.2 t' rfl
      have : some w' = some w := hw'.symm.trans hn.2.2
      injection this with this
      exact this ▸ hd'
    · cases e
  | none =>
    rw [p2 (hu.imp id And.right)] at hd
    injection hd with hd; subst hd
    simpa only [den] using hcomp.value v w hn.1 hn.2.2

theorem abrupt_part (hcomp : Completions L.cfg I) {t a n : Ty} (hoc : OnlyCompletions t) (hp : Parts t a n) {v : I.V} (hv : den L.cfg I t v) (ha : Abrupt L.cfg I v) :
    den L.cfg I a v := by
  obtain ⟨hc, k, hk, hkv⟩ := ha
  obtain ⟨u, hu, hvu⟩ := in_part hcomp hoc hv (abrupt_kind hk) hkv
  rw [den_members]
  exact ⟨comp k u, (hp.abrupt _).2 ⟨k, hk, u, rfl, hu⟩, hvu⟩

theorem holds_ret {env : Env K} {t : Ty} {σ : Store I} {v : I.V} (hσ : Holds L.cfg I env σ) (hv : den L.cfg I t v) : HoldsRet L.cfg I (env.set .ret t) σ v := by
  refine ⟨fun x => ?_, t, by simp [Env.set, get_put_self], hv⟩
  have := hσ x
  simpa only [Env.set, get_put_ne _ t (show Key.ret ≠ Key.var x by simp)] using this

end

end Verif.Unwrap
