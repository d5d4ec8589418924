import Verif.Arith.ClassLemmas
import Verif.Calls.ElementLemmas
/-!
# The static types of arithmetic expressions contain their values
-/
set_option linter.unusedSectionVars false
set_option linter.unusedSimpArgs false
namespace Verif.Arith
open Verif.Types Verif.Env Verif.Calls

/-! ## Computations without messages -/

theorem wbind {α β} {m : W α} {f : α → W β} {b : β} (h : (m >>= f) = some (b, [])) : ∃ a, m = some (a, []) ∧ f a = some (b, []) := by
  change W.bind m f = _ at h
  unfold W.bind at h
  cases hm : m with
  | none => rw [hm] at h; cases h
  | some r =>
    obtain ⟨a, es⟩ := r
    rw [hm] at h
    simp only at h
    cases hf : f a with
    | none => rw [hf] at h; cases h
    | some q =>
      obtain ⟨b', es'⟩ := q
      rw [hf] at h
      injection h with h
      injection h with h1 h2
      obtain ⟨rfl, rfl⟩ := List.append_eq_nil_iff.1 h2
      exact ⟨a, rfl, by rw [hf, h1]⟩

theorem wpure {α} {a b : α} (h : W.pure a = some (b, [])) : b = a := by injection h with h; injection h with h _; exact h.symm
theorem wlift {α} {a : Option α} {b : α} (h : W.lift a = some (b, [])) : a = some b := by
  cases a with
  | none => cases h
  | some x => injection h with h; injection h with h _; rw [h]
theorem wtell {m : String} {u : Unit} (h : tell m = some (u, [])) : False := by cases h
theorem wfail {α} {b : α} (h : (W.fail : W α) = some (b, [])) : False := by cases h

section
variable {K X T C : Type} [DecidableEq K] {L : Lang K X T C} {txt : X → Text}

theorem sub_names {cfg : Cfg} (hc : CfgOk cfg) {A B : Ty} (hA : Flat cfg A) (hB : Flat cfg B) (h : sub cfg A B = some true) {n : String}
    (hn : .hier n ∈ members A) : ∃ m, .hier m ∈ members B ∧ Anc cfg.tree m n := by
  have hr : Respects cfg (freeI cfg) := {
    top := fun v => by rw [← hc.root]; exact .here v.2
    child := fun p c hpc v hv => hpc.anc.trans hc.nodup hv
    list := fun v l h => by cases h
    record := fun v s h => by cases h
    proc := fun ps r v h => h.elim }
  obtain ⟨n', hn', e⟩ := hA _ hn
  injection e with e
  subst e
  have hv : den cfg (freeI cfg) A ⟨n, hn'⟩ := den_members.2 ⟨_, hn, Anc.refl hn'⟩
  obtain ⟨b, hb, hd⟩ := den_members.1 (sub_flat hc hr hA hB h _ hv)
  obtain ⟨m, _, rfl⟩ := hB b hb
  exact ⟨m, hb, hd⟩

variable {I : Interp}

theorem orTy_flat (hw : World L.cfg L.ord I) {A B t : Ty} (hA : Flat L.cfg A) (hB : Flat L.cfg B) (h : orTy L.cfg L.ord A B = some t) :
    Flat L.cfg t ∧ ∀ v : I.V, den L.cfg I A v ∨ den L.cfg I B v → den L.cfg I t v := by
  unfold orTy at h
  split at h
  · rename_i e
    subst e
    injection h with h
    subst h
    exact ⟨hA, fun v hv => hv.elim id id⟩
  · obtain ⟨T, h1, h2, h3⟩ := union_flat hw.cfgOk hw.ordOk (ts := [A, B]) (by simp [hA, hB])
    rw [h] at h1
    injection h1 with h1
    subst h1
    exact ⟨h2, fun v hv => (h3 I hw.respects hw.exhaustive v).2 (by simpa using hv)⟩

theorem anyOf_flat (hw : World L.cfg L.ord I) {ns : List String} (hns : ∀ n ∈ ns, n ∈ names L.cfg.tree) {t : Ty} (h : anyOf L ns = some (t, [])) :
    Flat L.cfg t ∧ ∀ v : I.V, den L.cfg I t v ↔ ∃ n ∈ ns, I.named n v := by
  obtain ⟨T, h1, h2, h3⟩ := union_flat hw.cfgOk hw.ordOk (ts := ns.map .hier) (by
    intro t ht
    obtain ⟨n, hn, rfl⟩ := List.mem_map.1 ht
    exact flat_hier (hns n hn))
  have := wlift h
  rw [this] at h1
  injection h1 with h1
  subst h1
  refine ⟨h2, fun v => (h3 I hw.respects hw.exhaustive v).trans ?_⟩
  constructor
  · rintro ⟨t, ht, hv⟩
    obtain ⟨n, hn, rfl⟩ := List.mem_map.1 ht
    exact ⟨n, hn, hv⟩
  · rintro ⟨n, hn, hv⟩
    exact ⟨_, List.mem_map.2 ⟨n, hn, rfl⟩, hv⟩

variable {R : Type} [Field R] [LinearOrder R] [IsStrictOrderedRing R] [FloorRing R] {num : Num R → I.V} {A : Reals R} {S : Sem X T C I}

theorem lookup_mem {α β} [BEq α] [LawfulBEq α] {l : List (α × β)} {a : α} {b : β} (h : l.lookup a = some b) : (a, b) ∈ l := by
  induction l with
  | nil => cases h
  | cons x xs ih =>
    obtain ⟨k, v⟩ := x
    rw [List.lookup_cons] at h
    split at h
    · rename_i e
      injection h with h
      rw [eq_of_beq e, h]
      exact List.mem_cons_self
    · exact List.mem_cons_of_mem _ (ih h)

/-- An entry of the table of types gives only types that hold the results. -/
def entryOk (e : (String × String × String) × Cell) : Bool :=
  match e.2 with
  | .ty n => decide (n ∈ numeric) && decide (e.1.1 ∈ numeric) && decide (e.1.2.2 ∈ numeric) && (match opOf e.1.2.1 with
    | some o => (classesOf e.1.1).all (fun c => (classesOf e.1.2.2).all (fun d => (resCls o c d).all (fun f => decide (f ∈ classesOf n))))
    | none => false)
  | _ => true

theorem table_ok : ∀ e ∈ arithTable, entryOk e = true := by decide +kernel

theorem known_numeric {cfg : Cfg} (hn : NumWorld cfg num) {n : String} (h : n ∈ numeric) : n ∈ names cfg.tree := by
  refine hn.known n ?_
  simp only [numeric, List.mem_cons, List.not_mem_nil, or_false] at h ⊢
  tauto

/-- One pair of types. -/
theorem typeArith_ok (hn : NumWorld L.cfg num) (hA : A.Ok) {a b t : Ty} {op : String} (h : typeArith a op b = some (t, [])) :
    Flat L.cfg t ∧ ∀ o x y z, opOf op = some o → den L.cfg I a (num x) → den L.cfg I b (num y) → Calc A o x y z → UsualBin o x y z →
      den L.cfg I t (num z) := by
  unfold typeArith at h
  simp only at h
  cases hch : isChar a with
  | true =>
    rw [hch] at h
    simp only [if_true] at h
    obtain ⟨_, h2, _⟩ := wbind h
    obtain ⟨_, h3, _⟩ := wbind h2
    exact (wtell h3).elim
  | false =>
    rw [hch] at h
    simp only [Bool.false_eq_true, if_false] at h
    obtain ⟨a', h1, h0⟩ := wbind h
    obtain rfl := wpure h1
    split at h0
    · exact (wfail h0).elim
    · rename_i n hcell
      have := wpure h0
      subst this
      unfold cell at hcell
      split at hcell
      · rename_i ra rb
        have ht := table_ok _ (lookup_mem hcell)
        simp only [entryOk, Bool.and_eq_true, decide_eq_true_eq] at ht
        obtain ⟨⟨⟨hnum, hna⟩, hnb⟩, hcls⟩ := ht
        refine ⟨flat_hier (known_numeric hn hnum), fun o x y z ho hx hy hc hu => ?_⟩
        obtain ⟨c, hcm, x', hcx, ex⟩ := (named_iff hn hna (num x)).1 hx
        obtain ⟨d, hdm, y', hdy, ey⟩ := (named_iff hn hnb (num y)).1 hy
        obtain rfl := hn.inj _ _ ex
        obtain rfl := hn.inj _ _ ey
        rw [ho] at hcls
        simp only [List.all_eq_true, decide_eq_true_eq] at hcls
        obtain ⟨e, he, hez⟩ := calc_cls hA hcx hdy hc hu
        exact (named_iff hn hnum _).2 ⟨e, hcls c hcm d hdm e he, z, hez, rfl⟩
      · cases hcell
    all_goals
      obtain ⟨_, h2, _⟩ := wbind h0
      exact (wtell h2).elim

theorem rowLoop_ok (hw : World L.cfg L.ord I) (hn : NumWorld L.cfg num) (hA : A.Ok) {a : Ty} {op : String} : ∀ (bs : List Ty) (acc t : Ty),
    Flat L.cfg acc → rowLoop L op a acc bs = some (t, []) → Flat L.cfg t ∧ (∀ v, den L.cfg I acc v → den L.cfg I t v) ∧
      ∀ b ∈ bs, ∀ o x y z, opOf op = some o → den L.cfg I a (num x) → den L.cfg I b (num y) → Calc A o x y z → UsualBin o x y z → den L.cfg I t (num z)
  | [], acc, t, hacc, h => by
    obtain rfl := wpure h
    exact ⟨hacc, fun _ h => h, by simp⟩
  | b :: bs, acc, t, hacc, h => by
    rw [rowLoop] at h
    obtain ⟨u, h1, h⟩ := wbind h
    obtain ⟨acc', h2, h⟩ := wbind h
    obtain ⟨hu, hsem⟩ := typeArith_ok (L := L) (A := A) hn hA h1
    obtain ⟨hacc', hsem'⟩ := orTy_flat hw hacc hu (wlift h2)
    obtain ⟨r1, r2, r3⟩ := rowLoop_ok hw hn hA bs acc' t hacc' h
    refine ⟨r1, fun v hv => r2 v (hsem' v (.inl hv)), fun b' hb' => ?_⟩
    rcases List.mem_cons.1 hb' with rfl | hb'
    · exact fun o x y z ho hx hy hc hz => r2 _ (hsem' _ (.inr (hsem o x y z ho hx hy hc hz)))
    · exact r3 b' hb'

theorem sumLoop_ok (hw : World L.cfg L.ord I) (hn : NumWorld L.cfg num) (hA : A.Ok) {bs : List Ty} {op : String} : ∀ (as : List Ty) (acc t : Ty),
    Flat L.cfg acc → sumLoop L op bs acc as = some (t, []) → Flat L.cfg t ∧ (∀ v, den L.cfg I acc v → den L.cfg I t v) ∧
      ∀ a ∈ as, ∀ b ∈ bs, ∀ o x y z, opOf op = some o → den L.cfg I a (num x) → den L.cfg I b (num y) → Calc A o x y z → UsualBin o x y z →
        den L.cfg I t (num z)
  | [], acc, t, hacc, h => by
    obtain rfl := wpure h
    exact ⟨hacc, fun _ h => h, by simp⟩
  | a :: as, acc, t, hacc, h => by
    rw [sumLoop] at h
    obtain ⟨acc', h1, h⟩ := wbind h
    obtain ⟨s1, s2, s3⟩ := rowLoop_ok (A := A) hw hn hA bs acc acc' hacc h1
    obtain ⟨r1, r2, r3⟩ := sumLoop_ok hw hn hA as acc' t s1 h
    refine ⟨r1, fun v hv => r2 v (s2 v hv), fun a' ha' => ?_⟩
    rcases List.mem_cons.1 ha' with rfl | ha'
    · exact fun b hb o x y z ho hx hy hc hz => r2 _ (s3 b hb o x y z ho hx hy hc hz)
    · exact r3 a' ha'

/-! ## Expressions -/

/-- What the analysis of `e` gives is right. -/
def Right (A : Reals R) (num : Num R → I.V) (S : Sem X T C I) (L : Lang K X T C) (e : NExpr X) (env : Env K) (t : Ty) (env' : Env K) : Prop :=
  Flat L.cfg t ∧ FlatEnv L.cfg env' ∧ env'.ctx = env.ctx ∧
    ∀ σ, Holds L.cfg I env σ → (∀ v, Value A num S True e σ v → den L.cfg I t v) ∧ ((∃ v, Value A num S True e σ v) → Holds L.cfg I env' σ)

theorem run_leaf (hl : LeavesOk S L) {e : Expr X} {env env' : Env K} {t : Ty} (hf : FlatEnv L.cfg env)
    (h : run (tcExpr L e env) = some ((t, env'), [])) : Right A num S L (.leaf e) env t env' := by
  unfold run tcExpr at h
  cases e with
  | var x =>
    simp only at h
    cases hx : Verif.Env.get env.vars (.var x) with
    | none => rw [hx] at h; cases h
    | some u =>
      rw [hx] at h
      injection h with h
      injection h with h _
      injection h with h1 h2
      subst h1 h2
      refine ⟨hf _ _ hx, hf, rfl, fun σ hσ => ⟨fun v hv => ?_, fun _ => hσ⟩⟩
      cases hv
      exact (hσ x).1 _ hx
  | other e =>
    simp only at h
    cases hx : L.expr e env with
    | none => rw [hx] at h; cases h
    | some r =>
      obtain ⟨⟨u, env1⟩, es⟩ := r
      rw [hx] at h
      injection h with h
      injection h with h h'
      injection h with h1 h2
      subst h1 h2
      have h' : [] ++ es = [] := h'
      rw [List.nil_append] at h'
      subst h'
      obtain ⟨r1, r2, r3, r4⟩ := hl e env u env1 hx hf
      exact ⟨r1, r2, r3, fun σ hσ => ⟨fun v hv => (r4 σ v hσ hv).1, fun ⟨v, hv⟩ => (r4 σ v hσ hv).2⟩⟩

theorem assert_ok (hw : World L.cfg L.ord I) {E : Ty} (hE : Flat L.cfg E) {r : Ty × Env K} (hr : Flat L.cfg r.1) {u : Unit} (h : assertW L E r = some (u, [])) :
    ∀ v : I.V, den L.cfg I r.1 v → den L.cfg I E v := by
  unfold assertW at h
  rw [flat_not_tbd hr] at h
  simp only [Bool.false_eq_true, if_false] at h
  obtain ⟨b, h1, h⟩ := wbind h
  have h1 := wlift h1
  cases b with
  | true => exact fun v hv => sub_flat hw.cfgOk hw.respects hr hE h1 v hv
  | false => simp only [Bool.false_eq_true, if_false] at h; exact (wfail h).elim

theorem ensure_ok (hw : World L.cfg L.ord I) {E : Ty} (hE : Flat L.cfg E) {e : NExpr X} {r : Ty × Env K} (hr : Flat L.cfg r.1) {env' : Env K}
    (h : ensureW L txt e E r = some (env', [])) : env' = r.2 ∧ ∀ v : I.V, den L.cfg I r.1 v → den L.cfg I E v := by
  unfold ensureW at h
  rw [flat_not_tbd hr] at h
  simp only [Bool.false_eq_true, if_false] at h
  obtain ⟨b, h1, h⟩ := wbind h
  have h1 := wlift h1
  cases b with
  | true => exact ⟨wpure h, fun v hv => sub_flat hw.cfgOk hw.respects hr hE h1 v hv⟩
  | false =>
    simp only [Bool.false_eq_true, if_false] at h
    split at h <;> cases h

theorem subW_ok (hw : World L.cfg L.ord I) {A' B : Ty} (hA : Flat L.cfg A') (hB : Flat L.cfg B) (h : subW L A' B = some (true, [])) (v : I.V)
    (hv : den L.cfg I A' v) : den L.cfg I B v := sub_flat hw.cfgOk hw.respects hA hB (wlift h) v hv

theorem anyOf_num (hw : World L.cfg L.ord I) (hn : NumWorld L.cfg num) {ns : List String} (hns : ∀ n ∈ ns, n ∈ numeric) {t : Ty}
    (h : anyOf L ns = some (t, [])) : Flat L.cfg t ∧ ∀ v : I.V, den L.cfg I t v ↔ ∃ n ∈ ns, I.named n v :=
  anyOf_flat hw (fun n hm => known_numeric hn (hns n hm)) h

theorem flat_num (hn : NumWorld L.cfg num) {n : String} (h : n ∈ numeric) : Flat L.cfg (.hier n) := flat_hier (known_numeric hn h)

theorem isInt_neg_iff {r : R} : IsInt (-r) ↔ IsInt r := by
  constructor
  · rintro ⟨n, h⟩; exact ⟨-n, by rw [Int.cast_neg, ← h, neg_neg]⟩
  · rintro ⟨n, rfl⟩; exact ⟨-n, by rw [Int.cast_neg]⟩

/-- Negation keeps the names. -/
theorem neg_named (hn : NumWorld L.cfg num) {n : String} (hnm : n ∈ numeric) (h1 : n ≠ "MathPosInfinity_") (h2 : n ≠ "MathNegInfinity_") {x z : Num R}
    (hx : I.named n (num x)) (hz : Neg x z) (hu : UsualNeg x) : I.named n (num z) := by
  obtain ⟨c, hc, x', hb, ex⟩ := (named_iff hn hnm _).1 hx
  obtain rfl := hn.inj _ _ ex
  by_cases he : n = "ExtendedMathReal_"
  · subst he
    rw [hn.extended]
    cases x with
    | math e => exact ⟨_, congrArg num hz⟩
    | _ => revert hb hc; simp only [classesOf, String.reduceEq, if_false, if_true, List.mem_cons, List.not_mem_nil, or_false]; rintro (rfl | rfl | rfl | rfl) <;> rintro ⟨_, _⟩ <;> simp_all [Belongs]
  · refine (named_iff hn hnm _).2 ⟨c, hc, z, ?_, rfl⟩
    cases c <;> simp only [Belongs] at hb ⊢
    · obtain ⟨m, rfl⟩ := hb
      exact ⟨-m, by rw [Neg] at hz; rw [hz, Ext.opp, Int.cast_neg]⟩
    · obtain ⟨r, hr, rfl⟩ := hb
      exact ⟨-r, fun h => hr (isInt_neg_iff.1 h), by rw [Neg] at hz; rw [hz, Ext.opp]⟩
    · exfalso
      simp only [numeric, List.mem_cons, List.not_mem_nil, or_false] at hnm
      rcases hnm with rfl | rfl | rfl | rfl | rfl | rfl | rfl | rfl | rfl | rfl | rfl | rfl | rfl | rfl <;> simp_all [classesOf]
    · exfalso
      simp only [numeric, List.mem_cons, List.not_mem_nil, or_false] at hnm
      rcases hnm with rfl | rfl | rfl | rfl | rfl | rfl | rfl | rfl | rfl | rfl | rfl | rfl | rfl | rfl <;> simp_all [classesOf]
    · obtain ⟨m, rfl⟩ := hb
      exact ⟨-m, by rw [Neg] at hz; rw [hz, Ext.opp, Int.cast_neg]⟩
    · obtain ⟨r, hr, rfl⟩ := hb
      exact ⟨-r, fun h => hr (isInt_neg_iff.1 h), by rw [Neg] at hz; rw [hz, Ext.opp]⟩
    · exact absurd hb hu.1
    · exact absurd hb hu.2
    · subst hb; exact hz
    · obtain ⟨m, rfl⟩ := hb
      exact ⟨-m, hz⟩

theorem negOk_ok (hw : World L.cfg L.ord I) (hn : NumWorld L.cfg num) {t : Ty} (ht : Flat L.cfg t) {u : Unit} (h : negOk L t = some (u, []))
    {x z : Num R} (hx : den L.cfg I t (num x)) (hz : Neg x z) (hu : UsualNeg x) : den L.cfg I t (num z) := by
  unfold negOk at h
  rw [flat_not_tbd ht] at h
  simp only [Bool.false_eq_true, if_false] at h
  obtain ⟨b1, h1, h⟩ := wbind h
  obtain ⟨b2, h2, h⟩ := wbind h
  obtain ⟨b3, h3, h⟩ := wbind h
  obtain ⟨m, hm, hd⟩ := den_members.1 hx
  obtain ⟨n, hnm, rfl⟩ := ht m hm
  have key : ∀ {B : String}, B ∈ numeric → subW L t (.hier B) = some (true, []) → Anc L.cfg.tree B n := by
    intro B hB hs
    obtain ⟨m', hm', ha⟩ := sub_names hw.cfgOk ht (flat_num hn hB) (wlift hs) hm
    simp only [members, List.mem_singleton, Ty.hier.injEq] at hm'
    exact hm' ▸ ha
  refine den_members.2 ⟨_, hm, ?_⟩
  cases b1 with
  | true =>
    have := hn.underReal n (key (by decide) h1)
    simp only [List.mem_cons, List.not_mem_nil, or_false] at this
    rcases this with rfl | rfl | rfl <;> exact neg_named hn (by decide) (by decide) (by decide) hd hz hu
  | false =>
    cases b2 with
    | true =>
      have := hn.underNumber n (key (by decide) h2)
      simp only [List.mem_cons, List.not_mem_nil, or_false] at this
      rcases this with rfl | rfl | rfl | rfl | rfl | rfl | rfl <;> exact neg_named hn (by decide) (by decide) (by decide) hd hz hu
    | false =>
      cases b3 with
      | true =>
        have := hn.underBigInt n (key (by decide) h3)
        subst this
        exact neg_named hn (by decide) (by decide) (by decide) hd hz hu
      | false => exact (wfail h).elim

theorem ext_of {v : I.V} (hn : NumWorld L.cfg num) {x : Num R} (h : v = num x) (hv : I.named "ExtendedMathReal_" v) : ∃ e, x = .math e := by
  obtain ⟨e, he⟩ := (hn.extended v).1 hv
  exact ⟨e, hn.inj _ _ (h ▸ he)⟩

theorem toNumber_ok (hw : World L.cfg L.ord I) (hn : NumWorld L.cfg num) (hA : A.Ok) {t t' : Ty} (ht : Flat L.cfg t) (h : toNumber L t = some (t', [])) :
    Flat L.cfg t' ∧ ∀ x z, den L.cfg I t (num x) → Fun A "𝔽" x z → UsualFun A "𝔽" x → den L.cfg I t' (num z) := by
  have fin : ∀ (r : R), Fun A "𝔽" (.math (.fin r)) (.number (A.round r)) := fun r => .inl ⟨rfl, rfl⟩
  have out : ∀ {x z}, Fun A "𝔽" x z → ∃ e, x = Num.math e ∧ z = .number (match e with | .fin r => A.round r | _ => e) := by
    intro x z hf
    cases x with
    | math e => rcases hf with ⟨_, hz⟩ | ⟨e, _⟩ | ⟨e, _⟩ | ⟨e, _⟩ | ⟨e, _⟩ | ⟨e, _⟩ <;> first | exact ⟨_, rfl, hz⟩ | (exfalso; revert e; decide)
    | number e => exact absurd hf.1 (by decide)
    | nan => exact hf.elim
    | big n => exact absurd hf.1 (by decide)
  have int : ∀ (n : ℤ) z, Fun A "𝔽" (.math (.fin (n : R))) z → UsualFun A "𝔽" (.math (.fin (n : R))) → ∃ m : ℤ, z = .number (.fin m) := by
    intro n z hf hu
    obtain ⟨e, he, hz⟩ := out hf
    injection he with he
    subst he
    obtain ⟨q, hq⟩ := hu rfl n rfl
    obtain ⟨m, rfl⟩ := hA.int n q hq
    exact ⟨m, by simp only [hq] at hz; exact hz⟩
  unfold toNumber at h
  obtain ⟨b1, h1, h⟩ := wbind h
  cases b1 with
  | true =>
    obtain rfl := wpure h
    refine ⟨flat_num hn (by decide), fun x z hx hf hu => ?_⟩
    obtain ⟨n, e⟩ := (hn.mathInteger _).1 (subW_ok hw ht (flat_num hn (by decide)) h1 _ hx)
    obtain rfl := hn.inj _ _ e
    obtain ⟨m, rfl⟩ := int n z hf hu
    exact (hn.integral _).2 ⟨m, rfl⟩
  | false =>
    simp only [Bool.false_eq_true, if_false] at h
    obtain ⟨u2, hu2, h⟩ := wbind h
    obtain ⟨f2, s2⟩ := anyOf_num hw hn (by decide) hu2
    obtain ⟨b2, h2, h⟩ := wbind h
    cases b2 with
    | true =>
      simp only [if_true] at h
      obtain ⟨f3, s3⟩ := anyOf_num hw hn (by decide) h
      refine ⟨f3, fun x z hx hf hu => ?_⟩
      obtain ⟨n, hnm, hv⟩ := (s2 _).1 (subW_ok hw ht f2 h2 _ hx)
      rw [s3]
      simp only [List.mem_cons, List.not_mem_nil, or_false] at hnm
      rcases hnm with rfl | rfl | rfl
      · obtain ⟨n, e⟩ := (hn.mathInteger _).1 hv
        obtain rfl := hn.inj _ _ e
        obtain ⟨m, rfl⟩ := int n z hf hu
        exact ⟨"IntegralNumber_", by decide, (hn.integral _).2 ⟨m, rfl⟩⟩
      · obtain rfl := hn.inj _ _ ((hn.mathPos _).1 hv)
        obtain ⟨e, he, hz⟩ := out hf
        injection he with he
        subst he
        exact ⟨"PosInfinityNumber_", by decide, (hn.posInfinity _).2 (congrArg num hz)⟩
      · obtain rfl := hn.inj _ _ ((hn.mathNeg _).1 hv)
        obtain ⟨e, he, hz⟩ := out hf
        injection he with he
        subst he
        exact ⟨"NegInfinityNumber_", by decide, (hn.negInfinity _).2 (congrArg num hz)⟩
    | false =>
      simp only [Bool.false_eq_true, if_false] at h
      obtain ⟨b3, h3, h⟩ := wbind h
      cases b3 with
      | true =>
        simp only [if_true] at h
        obtain ⟨f3, s3⟩ := anyOf_num hw hn (by decide) h
        refine ⟨f3, fun x z hx hf hu => ?_⟩
        obtain ⟨e, he, hz⟩ := out hf
        subst he
        rw [s3]
        have : ∀ w : Ext R, z = .number w → ∃ n ∈ ["FiniteNumber_", "NegInfinityNumber_", "PosInfinityNumber_"], I.named n (num z) := by
          rintro w rfl
          cases w with
          | fin r => exact ⟨"FiniteNumber_", by decide, (hn.finite _).2 ⟨r, rfl⟩⟩
          | pos => exact ⟨"PosInfinityNumber_", by decide, (hn.posInfinity _).2 rfl⟩
          | neg => exact ⟨"NegInfinityNumber_", by decide, (hn.negInfinity _).2 rfl⟩
        exact this _ hz
      | false =>
        simp only [Bool.false_eq_true, if_false, flat_not_tbd ht] at h
        obtain ⟨_, h5, _⟩ := wbind h
        exact (wtell h5).elim

theorem toMath_ok (hw : World L.cfg L.ord I) (hn : NumWorld L.cfg num) {t : Ty} {r : Ty × Bool} (ht : Flat L.cfg t) (h : toMath L t = some (r, [])) :
    Flat L.cfg r.1 ∧ ∀ x z, den L.cfg I t (num x) → Fun A "ℝ" x z → den L.cfg I r.1 (num z) := by
  have noMath : ∀ {e : Ext R} {z}, Fun A "ℝ" (.math e) z → False := by
    intro e z hf
    rcases hf with ⟨e, _⟩ | ⟨e, _⟩ | ⟨e, _⟩ | ⟨e, _⟩ | ⟨e, _⟩ | ⟨e, _⟩ <;> revert e <;> decide
  unfold toMath at h
  obtain ⟨u1, hu1, h⟩ := wbind h
  obtain ⟨f1, s1⟩ := anyOf_num hw hn (by decide) hu1
  obtain ⟨b1, h1, h⟩ := wbind h
  cases b1 with
  | true =>
    obtain rfl := wpure h
    refine ⟨flat_num hn (by decide), fun x z hx hf => ?_⟩
    obtain ⟨n, hnm, hv⟩ := (s1 _).1 (subW_ok hw ht f1 h1 _ hx)
    simp only [List.mem_cons, List.not_mem_nil, or_false] at hnm
    refine (hn.mathInteger _).2 ?_
    rcases hnm with rfl | rfl
    · obtain ⟨n, e⟩ := (hn.bigInt _).1 hv
      obtain rfl := hn.inj _ _ e
      exact ⟨n, congrArg num hf.2⟩
    · obtain ⟨n, e⟩ := (hn.integral _).1 hv
      obtain rfl := hn.inj _ _ e
      obtain ⟨_, q, hq, hz⟩ := hf
      injection hq with hq
      subst hq
      exact ⟨n, congrArg num hz⟩
  | false =>
    simp only [Bool.false_eq_true, if_false] at h
    obtain ⟨u2, hu2, h⟩ := wbind h
    obtain ⟨f2, s2⟩ := anyOf_num hw hn (by decide) hu2
    obtain ⟨b2, h2, h⟩ := wbind h
    cases b2 with
    | true =>
      obtain rfl := wpure h
      refine ⟨flat_num hn (by decide), fun x z hx hf => ?_⟩
      refine (hn.mathReal _).2 ?_
      cases x with
      | math e => exact (noMath hf).elim
      | number e => obtain ⟨_, q, hq, hz⟩ := hf; exact ⟨q, congrArg num hz⟩
      | nan => exact hf.elim
      | big n => exact ⟨n, congrArg num hf.2⟩
    | false =>
      simp only [Bool.false_eq_true, if_false] at h
      obtain ⟨_, h5, _⟩ := wbind h
      exact (wtell h5).elim

theorem absType_ok (hw : World L.cfg L.ord I) (hn : NumWorld L.cfg num) {t r : Ty} (ht : Flat L.cfg t) (h : absType L t = some (r, [])) :
    Flat L.cfg r ∧ ∀ x z, den L.cfg I t (num x) → Fun A "abs" x z → den L.cfg I r (num z) := by
  have out : ∀ {r : R} {z}, Fun A "abs" (.math (.fin r)) z → z = .math (.fin |r|) := by
    intro r z hf
    rcases hf with ⟨e, _⟩ | ⟨e, _⟩ | ⟨_, hz⟩ | ⟨e, _⟩ | ⟨e, _⟩ | ⟨e, _⟩ <;> first | exact hz | (exfalso; revert e; decide)
  unfold absType at h
  obtain ⟨b1, h1, h⟩ := wbind h
  cases b1 with
  | true =>
    obtain rfl := wpure h
    refine ⟨flat_num hn (by decide), fun x z hx hf => ?_⟩
    obtain ⟨n, e⟩ := (hn.mathInteger _).1 (subW_ok hw ht (flat_num hn (by decide)) h1 _ hx)
    obtain rfl := hn.inj _ _ e
    exact (hn.mathInteger _).2 ⟨|n|, by rw [out hf, Int.cast_abs]⟩
  | false =>
    simp only [Bool.false_eq_true, if_false] at h
    obtain ⟨b2, h2, h⟩ := wbind h
    cases b2 with
    | true =>
      obtain rfl := wpure h
      refine ⟨flat_num hn (by decide), fun x z hx hf => ?_⟩
      obtain ⟨n, e⟩ := (hn.mathReal _).1 (subW_ok hw ht (flat_num hn (by decide)) h2 _ hx)
      obtain rfl := hn.inj _ _ e
      exact (hn.mathReal _).2 ⟨|n|, by rw [out hf]⟩
    | false =>
      simp only [Bool.false_eq_true, if_false] at h
      obtain ⟨_, h5, _⟩ := wbind h
      exact (wtell h5).elim

theorem clampType_ok (hw : World L.cfg L.ord I) (hn : NumWorld L.cfg num) {t r : Ty} (ht : Flat L.cfg t) (h : clampType L t = some (r, [])) :
    Flat L.cfg r ∧ ∀ x lo hi z, den L.cfg I t (num x) → I.named "MathInteger_" (num lo) → I.named "MathInteger_" (num hi) → Clamp x lo hi z →
      den L.cfg I r (num z) := by
  unfold clampType at h
  split at h
  · rename_i he
    obtain rfl := wpure h
    refine ⟨flat_num hn (by decide), fun x lo hi z hx hlo hhi hc => ?_⟩
    obtain ⟨l, e⟩ := (hn.mathInteger _).1 hlo
    obtain rfl := hn.inj _ _ e
    obtain ⟨k, e⟩ := (hn.mathInteger _).1 hhi
    obtain rfl := hn.inj _ _ e
    refine (hn.mathReal _).2 ?_
    cases x with
    | math x =>
      obtain ⟨_, c1, c2, c3⟩ := hc
      by_cases g1 : x.lt (.fin (l : R))
      · exact ⟨_, congrArg num (c1 g1)⟩
      · by_cases g2 : Ext.lt (.fin (k : R)) x
        · exact ⟨_, congrArg num (c2 g2)⟩
        · have := c3 g1 g2
          cases x with
          | fin q => exact ⟨q, congrArg num this⟩
          | pos => exact (g2 trivial).elim
          | neg => exact (g1 trivial).elim
    | _ => exact hc.elim
  · obtain ⟨u, hu, h⟩ := wbind h
    obtain ⟨f1, s1⟩ := anyOf_num hw hn (by decide) hu
    obtain ⟨b1, h1, h⟩ := wbind h
    cases b1 with
    | false => simp only [Bool.false_eq_true, if_false] at h; exact (wfail h).elim
    | true =>
      obtain rfl := wpure h
      refine ⟨flat_num hn (by decide), fun x lo hi z hx hlo hhi hc => ?_⟩
      obtain ⟨l, e⟩ := (hn.mathInteger _).1 hlo
      obtain rfl := hn.inj _ _ e
      obtain ⟨k, e⟩ := (hn.mathInteger _).1 hhi
      obtain rfl := hn.inj _ _ e
      refine (hn.mathInteger _).2 ?_
      obtain ⟨n, hnm, hv⟩ := (s1 _).1 (subW_ok hw ht f1 h1 _ hx)
      cases x with
      | math x =>
        obtain ⟨_, c1, c2, c3⟩ := hc
        by_cases g1 : x.lt (.fin (l : R))
        · exact ⟨_, congrArg num (c1 g1)⟩
        · by_cases g2 : Ext.lt (.fin (k : R)) x
          · exact ⟨_, congrArg num (c2 g2)⟩
          · have := c3 g1 g2
            simp only [List.mem_cons, List.not_mem_nil, or_false] at hnm
            rcases hnm with rfl | rfl | rfl
            · obtain ⟨n, e⟩ := (hn.mathInteger _).1 hv
              exact ⟨n, by rw [this, e]⟩
            · have e := hn.inj _ _ ((hn.mathNeg _).1 hv)
              injection e with e
              subst e
              exact (g1 trivial).elim
            · have e := hn.inj _ _ ((hn.mathPos _).1 hv)
              injection e with e
              subst e
              exact (g2 trivial).elim
      | _ => exact hc.elim

theorem allSub_ok (hw : World L.cfg L.ord I) {u : Ty} (hu : Flat L.cfg u) : ∀ {ts : List Ty}, (∀ t ∈ ts, Flat L.cfg t) → allSub L u ts = some (true, []) →
    ∀ t ∈ ts, ∀ v : I.V, den L.cfg I t v → den L.cfg I u v
  | [], _, _ => by simp
  | t :: ts, hf, h => by
    rw [allSub] at h
    obtain ⟨b, h1, h⟩ := wbind h
    cases b with
    | false => simp only [Bool.false_eq_true, if_false] at h; exact absurd (wpure h) (by decide)
    | true =>
      simp only [if_true] at h
      intro t' ht' v hv
      rcases List.mem_cons.1 ht' with rfl | ht'
      · exact subW_ok hw (hf _ List.mem_cons_self) hu h1 v hv
      · exact allSub_ok hw hu (fun t h => hf t (List.mem_cons_of_mem _ h)) h t' ht' v hv

theorem minMaxLoop_ok (hw : World L.cfg L.ord I) (hn : NumWorld L.cfg num) {f : String} {ts : List Ty} (hts : ∀ t ∈ ts, Flat L.cfg t) {t : Ty} :
    ∀ {ms : List String}, (∀ m ∈ ms, m ∈ numeric) →
      minMaxLoop L (if f = "min" then "MathPosInfinity_" else "MathNegInfinity_") ts ms = some (t, []) →
      Flat L.cfg t ∧ ∀ xs z, (∀ x ∈ xs, ∃ u ∈ ts, den L.cfg I u (num x)) → MinMax f xs z → UsualMinMax f xs → den L.cfg I t (num z)
  | [], _, h => (wfail h).elim
  | m :: ms, hms, h => by
    rw [minMaxLoop] at h
    obtain ⟨u, hu, h⟩ := wbind h
    obtain ⟨f1, s1⟩ := anyOf_num (I := I) hw hn (by
      intro n hnm
      rcases List.mem_cons.1 hnm with rfl | hnm
      · exact hms _ List.mem_cons_self
      · obtain rfl := List.mem_singleton.1 hnm
        split <;> decide) hu
    obtain ⟨b, h1, h⟩ := wbind h
    cases b with
    | false =>
      simp only [Bool.false_eq_true, if_false] at h
      exact minMaxLoop_ok hw hn hts (fun m' h' => hms m' (List.mem_cons_of_mem _ h')) h
    | true =>
      obtain rfl := wpure h
      refine ⟨flat_num hn (hms _ List.mem_cons_self), fun xs z hxs hmm hus => ?_⟩
      obtain ⟨hz, hall, hopt⟩ := hmm
      obtain ⟨v, hv, hd⟩ := hxs z hz
      obtain ⟨n, hnm, hnv⟩ := (s1 _).1 (allSub_ok hw f1 hts h1 v hv _ hd)
      rcases List.mem_cons.1 hnm with rfl | hnm
      · exact hnv
      · exfalso
        obtain rfl := List.mem_singleton.1 hnm
        obtain ⟨x, hx, hne⟩ := hus
        obtain ⟨e, rfl⟩ := hall x hx
        rcases hopt with ⟨rfl, hopt⟩ | ⟨rfl, hopt⟩
        · simp only [if_true] at hnv hne
          obtain rfl := hn.inj _ _ ((hn.mathPos _).1 hnv)
          have := hopt e hx _ rfl
          cases e with
          | pos => exact hne rfl
          | _ => exact this trivial
        · simp only [String.reduceEq, if_false] at hnv hne
          obtain rfl := hn.inj _ _ ((hn.mathNeg _).1 hnv)
          have := hopt e hx _ rfl
          cases e with
          | neg => exact hne rfl
          | _ => exact this trivial

theorem minMaxArg_ok (hw : World L.cfg L.ord I) (hn : NumWorld L.cfg num) {t r : Ty} (h : minMaxArg L t = some (r, [])) : r = t := by
  unfold minMaxArg at h
  obtain ⟨b, h1, h⟩ := wbind h
  cases b with
  | true => exact wpure h
  | false =>
    simp only [Bool.false_eq_true, if_false] at h
    obtain ⟨_, h5, _⟩ := wbind h
    exact (wtell h5).elim

/-- What the analysis of the arguments of `min` or `max` gives is right. -/
def RightArgs (A : Reals R) (num : Num R → I.V) (S : Sem X T C I) (L : Lang K X T C) (as : List (NExpr X)) (env : Env K) (ts : List Ty) (env' : Env K) : Prop :=
  (∀ t ∈ ts, Flat L.cfg t) ∧ FlatEnv L.cfg env' ∧ env'.ctx = env.ctx ∧
    ∀ σ, Holds L.cfg I env σ → ∀ xs, Values A num S True as σ xs → (∀ x ∈ xs, ∃ t ∈ ts, den L.cfg I t (num x)) ∧ Holds L.cfg I env' σ

theorem literal {e : NExpr X} {env env' : Env K} {n : String} {t : Ty} {z : Num R} (hn : NumWorld L.cfg num) (hnm : n ∈ numeric) (hf : FlatEnv L.cfg env)
    (h : W.pure ((.hier n : Ty), env) = some ((t, env'), [])) (hv : ∀ σ v, Value A num S True e σ v → v = num z) (hz : I.named n (num z)) :
    Right A num S L e env t env' := by
  have := wpure h
  injection this with h1 h2
  subst h1 h2
  exact ⟨flat_num hn hnm, hf, rfl, fun σ hσ => ⟨fun v hval => (hv σ v hval) ▸ hz, fun _ => hσ⟩⟩

theorem digitShift_of {op : String} {a b : NExpr X} (h : isDigitShift op a b = true) : DigitShift op a b := by
  unfold isDigitShift at h
  split at h
  · simp only [decide_eq_true_eq] at h
    obtain ⟨rfl, rfl, ⟨rfl, rfl⟩ | ⟨rfl, rfl⟩⟩ := h
    · exact ⟨rfl, rfl, .inl rfl⟩
    · exact ⟨rfl, rfl, .inr rfl⟩
  · cases h

mutual
theorem tcN_ok (hw : World L.cfg L.ord I) (hn : NumWorld L.cfg num) (hA : A.Ok) (hl : LeavesOk S L) : ∀ (e : NExpr X) {env env' : Env K} {t : Ty},
    FlatEnv L.cfg env → tcN L txt e env = some ((t, env'), []) → Right A num S L e env t env'
  | .leaf e, _, _, _, hf, h => by rw [tcN] at h; exact run_leaf hl hf h
  | .int n, _, _, _, hf, h => by
    rw [tcN] at h
    exact literal hn (by decide) hf h (fun σ v hv => by rw [Value] at hv; exact hv) ((hn.mathInteger _).2 ⟨n, by rw [Int.cast_natCast]⟩)
  | .const c, _, _, _, hf, h => by
    rw [tcN] at h
    exact literal hn (by decide) hf h (fun σ v hv => by rw [Value] at hv; exact hv) ((hn.mathReal _).2 ⟨_, rfl⟩)
  | .posInf, _, _, _, hf, h => by
    rw [tcN] at h
    exact literal hn (by decide) hf h (fun σ v hv => by rw [Value] at hv; exact hv) ((hn.mathPos _).2 rfl)
  | .negInf, _, _, _, hf, h => by
    rw [tcN] at h
    exact literal hn (by decide) hf h (fun σ v hv => by rw [Value] at hv; exact hv) ((hn.mathNeg _).2 rfl)
  | .numPosInf, _, _, _, hf, h => by
    rw [tcN] at h
    exact literal hn (by decide) hf h (fun σ v hv => by rw [Value] at hv; exact hv) ((hn.posInfinity _).2 rfl)
  | .numNegInf, _, _, _, hf, h => by
    rw [tcN] at h
    exact literal hn (by decide) hf h (fun σ v hv => by rw [Value] at hv; exact hv) ((hn.negInfinity _).2 rfl)
  | .nan, _, _, _, hf, h => by
    rw [tcN] at h
    exact literal hn (by decide) hf h (fun σ v hv => by rw [Value] at hv; exact hv) ((hn.nan _).2 rfl)
  | .numHalf b, _, _, _, hf, h => by
    rw [tcN] at h
    have half : ¬ IsInt (1 / 2 : R) := by
      rintro ⟨n, hr⟩
      have h2 : ((1 : ℤ) : R) = ((2 * n : ℤ) : R) := by push_cast; linarith
      have := Int.cast_injective h2
      omega
    refine literal hn (by decide) hf h (fun σ v hv => by rw [Value] at hv; exact hv) ((hn.nonIntegral _).2 ⟨_, ?_, rfl⟩)
    cases b
    · simpa using half
    · intro h
      simp only [if_true] at h
      exact half (isInt_neg_iff.1 h)
  | .numInt n, _, _, _, hf, h => by
    rw [tcN] at h
    exact literal hn (by decide) hf h (fun σ v hv => by rw [Value] at hv; exact hv) ((hn.integral _).2 ⟨_, rfl⟩)
  | .bigInt n, _, _, _, hf, h => by
    rw [tcN] at h
    exact literal hn (by decide) hf h (fun σ v hv => by rw [Value] at hv; exact hv) ((hn.bigInt _).2 ⟨_, rfl⟩)
  | .bin op a b, env, env', t, hf, h => by
    rw [tcN] at h
    obtain ⟨⟨at', env1⟩, h1, h⟩ := wbind h
    obtain ⟨⟨bt, env2⟩, h2, h⟩ := wbind h
    obtain ⟨t', h3, h⟩ := wbind h
    obtain ⟨fa, fe1, c1, sa⟩ := tcN_ok hw hn hA hl a hf h1
    obtain ⟨fb, fe2, c2, sb⟩ := tcN_ok hw hn hA hl b fe1 h2
    obtain ⟨ft, _, st⟩ := sumLoop_ok (A := A) hw hn hA _ _ _ flat_T0 h3
    have sem : ∀ σ, Holds L.cfg I env σ → ∀ v, Value A num S True (.bin op a b) σ v → den L.cfg I t' v ∧ Holds L.cfg I env2 σ := by
      intro σ hσ v hv
      rw [Value] at hv
      obtain ⟨o, x, y, z, ho, hx, hy, hc, rfl, hu⟩ := hv
      obtain ⟨dx, e1⟩ := sa σ hσ
      obtain ⟨dy, e2⟩ := sb σ (e1 ⟨_, hx⟩)
      obtain ⟨m, hm, hdm⟩ := den_members.1 (dx _ hx)
      obtain ⟨n, hnm, hdn⟩ := den_members.1 (dy _ hy)
      exact ⟨st m hm n hnm o x y z ho hdm hdn hc (hu trivial).1, e2 ⟨_, hy⟩⟩
    split at h
    · rename_i hds
      split at h
      · have := wpure h
        injection this with g1 g2
        subst g1 g2
        refine ⟨flat_num hn (by decide), fe2, c2.trans c1, fun σ hσ => ⟨fun v hv => ?_, fun ⟨v, hv⟩ => (sem σ hσ v hv).2⟩⟩
        rw [Value] at hv
        obtain ⟨o, x, y, z, ho, hx, hy, hc, rfl, hu⟩ := hv
        obtain ⟨n, rfl⟩ := (hu trivial).2 (digitShift_of hds)
        exact (hn.mathInteger _).2 ⟨n, rfl⟩
      · exact (wfail h).elim
    · have := wpure h
      injection this with g1 g2
      subst g1 g2
      exact ⟨ft, fe2, c2.trans c1, fun σ hσ => ⟨fun v hv => (sem σ hσ v hv).1, fun ⟨v, hv⟩ => (sem σ hσ v hv).2⟩⟩
  | .neg a, env, env', t, hf, h => by
    rw [tcN] at h
    obtain ⟨⟨at', env1⟩, h1, h⟩ := wbind h
    obtain ⟨fa, fe1, c1, sa⟩ := tcN_ok hw hn hA hl a hf h1
    obtain ⟨_, h2, h⟩ := wbind h
    have := wpure h
    injection this with g1 g2
    subst g1 g2
    refine ⟨fa, fe1, c1, fun σ hσ => ⟨fun v hv => ?_, fun ⟨v, hv⟩ => ?_⟩⟩
    · rw [Value] at hv
      obtain ⟨x, z, hx, hz, rfl, hu⟩ := hv
      exact negOk_ok hw hn fa h2 ((sa σ hσ).1 _ hx) hz (hu trivial)
    · rw [Value] at hv
      obtain ⟨x, z, hx, _⟩ := hv
      exact (sa σ hσ).2 ⟨_, hx⟩
  | .negative a, env, env', t, hf, h => by
    rw [tcN] at h
    obtain ⟨⟨at', env1⟩, h1, h⟩ := wbind h
    obtain ⟨fa, fe1, c1, sa⟩ := tcN_ok hw hn hA hl a hf h1
    simp only at h
    rw [flat_not_tbd fa, Bool.false_or] at h
    split at h
    · rename_i he
      have := wpure h
      injection this with g1 g2
      subst g1 g2
      refine ⟨fa, hf, rfl, fun σ hσ => ⟨fun v hv => ?_, fun _ => hσ⟩⟩
      rw [Value] at hv
      obtain ⟨x, z, hx, hz, rfl⟩ := hv
      have dx := (sa σ hσ).1 _ hx
      have e := fun v => tyEq_den (I := I) (cfg := L.cfg) he (v := v)
      rw [e] at dx ⊢
      obtain ⟨n, en⟩ := (hn.mathInteger _).1 dx
      obtain rfl := hn.inj _ _ en
      exact (hn.mathInteger _).2 ⟨-n, by rw [Neg] at hz; rw [hz, Ext.opp, Int.cast_neg]⟩
    · exact (wfail h).elim
  | .remainder a b, env, env', t, hf, h => by
    rw [tcN] at h
    obtain ⟨_, _, h⟩ := wbind h
    obtain ⟨_, _, h⟩ := wbind h
    obtain ⟨_, _, h⟩ := wbind h
    obtain ⟨_, _, h⟩ := wbind h
    have := wpure h
    injection this with g1 g2
    subst g1 g2
    refine ⟨flat_num hn (by decide), hf, rfl, fun σ hσ => ⟨fun v hv => ?_, fun _ => hσ⟩⟩
    rw [Value] at hv
    obtain ⟨x, y, z, _, _, hr, rfl⟩ := hv
    refine (hn.mathInteger _).2 ?_
    match x, y, hr with
    | .math (.fin _), .math (.fin _), hr => obtain ⟨m, n, _, _, _, rfl⟩ := hr; exact ⟨_, rfl⟩
  | .power a b, env, env', t, hf, h => by
    rw [tcN] at h
    obtain ⟨⟨at', env1⟩, h1, h⟩ := wbind h
    obtain ⟨fa, fe1, c1, sa⟩ := tcN_ok hw hn hA hl a hf h1
    obtain ⟨b1, h2, h⟩ := wbind h
    cases b1 with
    | true =>
      obtain ⟨_, _, h⟩ := wbind h
      obtain ⟨_, _, h⟩ := wbind h
      have := wpure h
      injection this with g1 g2
      subst g1 g2
      refine ⟨flat_num hn (by decide), hf, rfl, fun σ hσ => ⟨fun v hv => ?_, fun _ => hσ⟩⟩
      rw [Value] at hv
      obtain ⟨x, y, z, hx, _, hp, rfl, hu⟩ := hv
      have hx := subW_ok hw fa (flat_num hn (by decide)) h2 _ ((sa σ hσ).1 _ hx)
      obtain ⟨n, en⟩ := (hn.mathInteger _).1 hx
      obtain rfl := hn.inj _ _ en
      refine (hn.mathInteger _).2 ?_
      match y, hp with
      | .math (.fin s), hp =>
        obtain ⟨m, k, _, rfl, rfl⟩ := hp
        have hk : 0 ≤ k := by exact_mod_cast hu trivial _ rfl
        exact ⟨m ^ k.toNat, by rw [Int.cast_pow, ← zpow_natCast, Int.toNat_of_nonneg hk]⟩
    | false =>
      simp only [Bool.false_eq_true, if_false] at h
      obtain ⟨b2, h3, h⟩ := wbind h
      cases b2 with
      | false => simp only [Bool.false_eq_true, if_false] at h; exact (wfail h).elim
      | true =>
        obtain ⟨_, _, h⟩ := wbind h
        obtain ⟨_, _, h⟩ := wbind h
        have := wpure h
        injection this with g1 g2
        subst g1 g2
        refine ⟨flat_num hn (by decide), hf, rfl, fun σ hσ => ⟨fun v hv => ?_, fun _ => hσ⟩⟩
        rw [Value] at hv
        obtain ⟨x, y, z, hx, _, hp, rfl, hu⟩ := hv
        have hx := subW_ok hw fa (flat_num hn (by decide)) h3 _ ((sa σ hσ).1 _ hx)
        obtain ⟨n, en⟩ := (hn.bigInt _).1 hx
        obtain rfl := hn.inj _ _ en
        refine (hn.bigInt _).2 ?_
        match y, hp with
        | .big k, hp => obtain ⟨_, rfl⟩ := hp; exact ⟨_, rfl⟩
  | .clamp x lo hi, env, env', t, hf, h => by
    rw [tcN] at h
    obtain ⟨⟨tl, e1⟩, h1, h⟩ := wbind h
    obtain ⟨fl, _, _, sl⟩ := tcN_ok hw hn hA hl lo hf h1
    obtain ⟨_, h2, h⟩ := wbind h
    obtain ⟨⟨th, e2⟩, h3, h⟩ := wbind h
    obtain ⟨fh, _, _, sh⟩ := tcN_ok hw hn hA hl hi hf h3
    obtain ⟨_, h4, h⟩ := wbind h
    obtain ⟨⟨tx, e3⟩, h5, h⟩ := wbind h
    obtain ⟨fx, _, _, sx⟩ := tcN_ok hw hn hA hl x hf h5
    obtain ⟨u, h6, h⟩ := wbind h
    have := wpure h
    injection this with g1 g2
    subst g1 g2
    obtain ⟨fu, su⟩ := clampType_ok (R := R) hw hn fx h6
    refine ⟨fu, hf, rfl, fun σ hσ => ⟨fun v hv => ?_, fun _ => hσ⟩⟩
    rw [Value] at hv
    obtain ⟨a, b, c, z, ha, hb, hc, hcl, rfl⟩ := hv
    exact su _ _ _ _ ((sx σ hσ).1 _ ha) (assert_ok hw (flat_num hn (by decide)) fl h2 _ ((sl σ hσ).1 _ hb))
      (assert_ok hw (flat_num hn (by decide)) fh h4 _ ((sh σ hσ).1 _ hc)) hcl
  | .extended x, env, env', t, hf, h => by
    rw [tcN] at h
    obtain ⟨_, _, h⟩ := wbind h
    obtain ⟨_, _, h⟩ := wbind h
    obtain ⟨_, _, h⟩ := wbind h
    have := wpure h
    injection this with g1 g2
    subst g1 g2
    refine ⟨flat_num hn (by decide), hf, rfl, fun σ hσ => ⟨fun v hv => ?_, fun _ => hσ⟩⟩
    rw [Value] at hv
    obtain ⟨e, _, rfl⟩ := hv
    exact (hn.extended _).2 ⟨e, rfl⟩
  | .choice a b, env, env', t, hf, h => by
    rw [tcN] at h
    obtain ⟨⟨at', env1⟩, h1, h⟩ := wbind h
    obtain ⟨⟨bt, env2⟩, h2, h⟩ := wbind h
    obtain ⟨t', h3, h⟩ := wbind h
    obtain ⟨fa, fe1, c1, sa⟩ := tcN_ok hw hn hA hl a hf h1
    obtain ⟨fb, fe2, c2, sb⟩ := tcN_ok hw hn hA hl b fe1 h2
    obtain ⟨ft, st⟩ := orTy_flat hw fa fb (wlift h3)
    have := wpure h
    injection this with g1 g2
    rw [g1, g2]
    have both : ∀ σ, Holds L.cfg I env σ → ∀ v, Value A num S True (.choice a b) σ v → den L.cfg I t' v ∧ Holds L.cfg I env2 σ := by
      intro σ hσ v hv
      rw [Value] at hv
      rcases hv with ⟨hv, w, hb⟩ | ⟨hv, w, ha⟩
      · have e1 := (sa σ hσ).2 ⟨_, hv⟩
        exact ⟨st v (.inl ((sa σ hσ).1 _ hv)), (sb σ e1).2 ⟨_, hb⟩⟩
      · have e1 := (sa σ hσ).2 ⟨_, ha⟩
        exact ⟨st v (.inr ((sb σ e1).1 _ hv)), (sb σ e1).2 ⟨_, hv⟩⟩
    exact ⟨ft, fe2, c2.trans c1, fun σ hσ => ⟨fun v hv => (both σ hσ v hv).1, fun ⟨v, hv⟩ => (both σ hσ v hv).2⟩⟩
  | .fn f a, env, env', t, hf, h => by
    rw [tcN] at h
    obtain ⟨⟨at', env1⟩, h1, h⟩ := wbind h
    obtain ⟨fa, fe1, c1, sa⟩ := tcN_ok hw hn hA hl a hf h1
    simp only at h
    have after : ∀ σ, Holds L.cfg I env σ → (∃ v, Value A num S True (.fn f a) σ v) → Holds L.cfg I env1 σ := by
      rintro σ hσ ⟨v, hv⟩
      rw [Value] at hv
      obtain ⟨x, z, hx, _⟩ := hv
      exact (sa σ hσ).2 ⟨_, hx⟩
    by_cases f1 : f = "𝔽"
    · rw [if_pos f1] at h
      obtain ⟨u, h2, h9⟩ := wbind h
      have h10 := wpure h9
      subst f1
      have := h10
      injection this with g1 g2
      subst g1 g2
      obtain ⟨fu, su⟩ := toNumber_ok (A := A) hw hn hA fa h2
      refine ⟨fu, fe1, c1, fun σ hσ => ⟨fun v hv => ?_, after σ hσ⟩⟩
      rw [Value] at hv
      obtain ⟨x, z, hx, hfz, rfl, hu⟩ := hv
      exact su x z ((sa σ hσ).1 _ hx) hfz (hu trivial)
    rw [if_neg f1] at h
    by_cases f2 : f = "ℤ"
    · rw [if_pos f2] at h
      obtain ⟨_, h2, h9⟩ := wbind h
      have h10 := wpure h9
      subst f2
      have := h10
      injection this with g1 g2
      subst g1 g2
      refine ⟨flat_num hn (by decide), hf, rfl, fun σ hσ => ⟨fun v hv => ?_, fun _ => hσ⟩⟩
      rw [Value] at hv
      obtain ⟨x, z, hx, hfz, rfl, hu⟩ := hv
      have hx := assert_ok hw (flat_num hn (by decide)) fa h2 _ ((sa σ hσ).1 _ hx)
      obtain ⟨n, en⟩ := (hn.mathInteger _).1 hx
      obtain rfl := hn.inj _ _ en
      rcases hfz with ⟨e, _⟩ | ⟨_, k, _, hz⟩ | ⟨e, _⟩ | ⟨e, _⟩ | ⟨e, _⟩ | ⟨e, _⟩ <;>
        first | exact (hn.bigInt _).2 ⟨k, congrArg num hz⟩ | (exfalso; revert e; decide)
    rw [if_neg f2] at h
    by_cases f3 : f = "ℝ"
    · rw [if_pos f3] at h
      obtain ⟨u, h2, h9⟩ := wbind h
      have h10 := wpure h9
      subst f3
      have := h10
      injection this with g1 g2
      subst g1
      obtain ⟨fu, su⟩ := toMath_ok (A := A) hw hn fa h2
      have sem : ∀ σ, Holds L.cfg I env σ → ∀ v, Value A num S True (.fn "ℝ" a) σ v → den L.cfg I u.1 v := by
        intro σ hσ v hv
        rw [Value] at hv
        obtain ⟨x, z, hx, hfz, rfl, hu⟩ := hv
        exact su x z ((sa σ hσ).1 _ hx) hfz
      split at g2
      · subst g2
        exact ⟨fu, fe1, c1, fun σ hσ => ⟨sem σ hσ, after σ hσ⟩⟩
      · subst g2
        exact ⟨fu, hf, rfl, fun σ hσ => ⟨sem σ hσ, fun _ => hσ⟩⟩
    rw [if_neg f3] at h
    by_cases f4 : f = "abs"
    · rw [if_pos f4] at h
      obtain ⟨u, h2, h9⟩ := wbind h
      have h10 := wpure h9
      subst f4
      have := h10
      injection this with g1 g2
      subst g1 g2
      obtain ⟨fu, su⟩ := absType_ok (A := A) hw hn fa h2
      refine ⟨fu, hf, rfl, fun σ hσ => ⟨fun v hv => ?_, fun _ => hσ⟩⟩
      rw [Value] at hv
      obtain ⟨x, z, hx, hfz, rfl, hu⟩ := hv
      exact su x z ((sa σ hσ).1 _ hx) hfz
    rw [if_neg f4] at h
    by_cases f5 : f = "floor" ∨ f = "truncate"
    · rw [if_pos f5] at h
      obtain ⟨env2, h2, h⟩ := wbind h
      have := wpure h
      injection this with g1 g2
      subst g1 g2
      obtain ⟨e2, s2⟩ := ensure_ok hw (flat_num hn (by decide)) fa h2
      simp only at e2
      subst e2
      refine ⟨flat_num hn (by decide), fe1, c1, fun σ hσ => ⟨fun v hv => ?_, after σ hσ⟩⟩
      rw [Value] at hv
      obtain ⟨x, z, hx, hfz, rfl, hu⟩ := hv
      obtain ⟨r, er⟩ := (hn.mathReal _).1 (s2 _ ((sa σ hσ).1 _ hx))
      obtain rfl := hn.inj _ _ er
      refine (hn.mathInteger _).2 ?_
      rcases hfz with ⟨e, _⟩ | ⟨e, _⟩ | ⟨e, _⟩ | ⟨_, q, _, hz⟩ | ⟨_, q, _, hz⟩ | ⟨e, _⟩
      · exact absurd e f1
      · exact absurd e f2
      · exact absurd e f4
      · exact ⟨_, congrArg num hz⟩
      · exact ⟨_, congrArg num hz⟩
      · rcases f5 with rfl | rfl <;> simp at e
    rw [if_neg f5] at h
    by_cases f6 : f = "ln" ∨ f = "log10" ∨ f = "log2"
    · rw [if_pos f6] at h
      obtain ⟨env2, h2, h⟩ := wbind h
      have := wpure h
      injection this with g1 g2
      subst g1 g2
      obtain ⟨e2, s2⟩ := ensure_ok hw (flat_num hn (by decide)) fa h2
      simp only at e2
      subst e2
      refine ⟨flat_num hn (by decide), fe1, c1, fun σ hσ => ⟨fun v hv => ?_, after σ hσ⟩⟩
      rw [Value] at hv
      obtain ⟨x, z, hx, hfz, rfl, hu⟩ := hv
      obtain ⟨r, er⟩ := (hn.mathReal _).1 (s2 _ ((sa σ hσ).1 _ hx))
      obtain rfl := hn.inj _ _ er
      refine (hn.mathReal _).2 ?_
      rcases hfz with ⟨e, _⟩ | ⟨e, _⟩ | ⟨e, _⟩ | ⟨e, _⟩ | ⟨e, _⟩ | ⟨_, q, s, _, _, hz⟩
      · exact absurd e f1
      · exact absurd e f2
      · exact absurd e f4
      · exact absurd (.inl e) f5
      · exact absurd (.inr e) f5
      · exact ⟨_, congrArg num hz⟩
    rw [if_neg f6] at h
    exact (wfail h).elim
  | .minMax f args, env, env', t, hf, h => by
    rw [tcN] at h
    split at h
    · exact (wfail h).elim
    · obtain ⟨⟨ts, env1⟩, h1, h⟩ := wbind h
      obtain ⟨fts, fe1, c1, sa⟩ := tcArgs_ok hw hn hA hl args hf h1
      obtain ⟨u, h2, h⟩ := wbind h
      have := wpure h
      injection this with g1 g2
      subst g1 g2
      obtain ⟨fu, su⟩ := minMaxLoop_ok (R := R) hw hn fts (by decide) h2
      refine ⟨fu, fe1, c1, fun σ hσ => ⟨fun v hv => ?_, fun ⟨v, hv⟩ => ?_⟩⟩
      · rw [Value] at hv
        obtain ⟨xs, z, hxs, hm, rfl, hu⟩ := hv
        exact su xs z (sa σ hσ xs hxs).1 hm (hu trivial)
      · rw [Value] at hv
        obtain ⟨xs, z, hxs, _⟩ := hv
        exact (sa σ hσ xs hxs).2
theorem tcArgs_ok (hw : World L.cfg L.ord I) (hn : NumWorld L.cfg num) (hA : A.Ok) (hl : LeavesOk S L) : ∀ (as : List (NExpr X)) {env env' : Env K}
    {ts : List Ty}, FlatEnv L.cfg env → tcArgs L txt as env = some ((ts, env'), []) → RightArgs A num S L as env ts env'
  | [], _, _, _, hf, h => by
    rw [tcArgs] at h
    have := wpure h
    injection this with g1 g2
    subst g1 g2
    refine ⟨by simp, hf, rfl, fun σ hσ xs hxs => ⟨?_, hσ⟩⟩
    rw [Values] at hxs
    subst hxs
    simp
  | a :: as, env, env', ts, hf, h => by
    rw [tcArgs] at h
    obtain ⟨⟨t, env1⟩, h1, h⟩ := wbind h
    obtain ⟨fa, fe1, c1, sa⟩ := tcN_ok hw hn hA hl a hf h1
    obtain ⟨t', h2, h⟩ := wbind h
    obtain ⟨⟨ts', env2⟩, h3, h⟩ := wbind h
    rw [minMaxArg_ok hw hn h2] at h
    obtain ⟨fts, fe2, c2, sb⟩ := tcArgs_ok hw hn hA hl as fe1 h3
    have := wpure h
    injection this with g1 g2
    subst g1 g2
    refine ⟨by simpa using ⟨fa, fts⟩, fe2, c2.trans c1, fun σ hσ xs hxs => ?_⟩
    rw [Values] at hxs
    obtain ⟨x, r, hx, hr, rfl⟩ := hxs
    obtain ⟨hall, he⟩ := sb σ ((sa σ hσ).2 ⟨_, hx⟩) r hr
    refine ⟨fun y hy => ?_, he⟩
    rcases List.mem_cons.1 hy with rfl | hy
    · exact ⟨_, List.mem_cons_self, (sa σ hσ).1 _ hx⟩
    · obtain ⟨t, ht, hd⟩ := hall y hy
      exact ⟨t, List.mem_cons_of_mem _ ht, hd⟩
end

end
end Verif.Arith
