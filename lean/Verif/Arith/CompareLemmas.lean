import Verif.Arith.SoundLemmas
/-!
# Comparisons: the verdicts of the table, and the environments
-/
set_option linter.unusedSectionVars false
set_option linter.unusedSimpArgs false
namespace Verif.Arith
open Verif.Types Verif.Env Verif.Calls

/-- The relations between two comparable numbers of given classes. -/
def relCls : Cls → Cls → List Ordering
  | .int, .int | .frac, .frac | .nint, .nint | .nfrac, .nfrac | .big, .big => [.lt, .eq, .gt]
  | .int, .frac | .frac, .int | .nint, .nfrac | .nfrac, .nint => [.lt, .gt]
  | .int, .mpos | .frac, .mpos | .mneg, .int | .mneg, .frac | .mneg, .mpos => [.lt]
  | .nint, .npos | .nfrac, .npos | .nneg, .nint | .nneg, .nfrac | .nneg, .npos => [.lt]
  | .mpos, .int | .mpos, .frac | .int, .mneg | .frac, .mneg | .mpos, .mneg => [.gt]
  | .npos, .nint | .npos, .nfrac | .nint, .nneg | .nfrac, .nneg | .npos, .nneg => [.gt]
  | .mpos, .mpos | .mneg, .mneg | .npos, .npos | .nneg, .nneg => [.eq]
  | _, _ => []

/-- What a comparator says of a relation. -/
def cmpOrd (op : String) (r : Ordering) : Bool :=
  decide ((op = "&lt;" ∧ r = .lt) ∨ (op = ">" ∧ r = .gt) ∨ (op = "is strictly greater than" ∧ r = .gt) ∨ (op = "=" ∧ r = .eq) ∨ (op = "≠" ∧ r ≠ .eq) ∨
    (op = "≤" ∧ r ≠ .gt) ∨ (op = "≥" ∧ r ≠ .lt) ∨ (op = "is greater than or equal to" ∧ r ≠ .lt))

section
variable {R : Type} [Field R] [LinearOrder R] [IsStrictOrderedRing R] [FloorRing R]

/-- The relation between two numbers. -/
def Rel (r : Ordering) (x y : Num R) : Prop :=
  match r with
  | .lt => Less x y ∧ ¬ Less y x ∧ x ≠ y
  | .eq => x = y ∧ ¬ Less x y ∧ ¬ Less y x
  | .gt => Less y x ∧ ¬ Less x y ∧ x ≠ y

theorem rel_compares {r : Ordering} {x y : Num R} (h : Rel r x y) (op : String) : Compares op x y ↔ cmpOrd op r = true := by
  unfold Compares cmpOrd
  cases r <;> simp only [Rel] at h
  · obtain ⟨h1, h2, h3⟩ := h; simp [*]
  · obtain ⟨rfl, h2, h3⟩ := h; simp [*]
  · obtain ⟨h1, h2, h3⟩ := h; simp [*]; try tauto

theorem extRel (x y : Ext R) : (Ext.lt x y ∧ ¬ Ext.lt y x ∧ x ≠ y) ∨ (x = y ∧ ¬ Ext.lt x y ∧ ¬ Ext.lt y x) ∨ (Ext.lt y x ∧ ¬ Ext.lt x y ∧ x ≠ y) := by
  cases x <;> cases y <;> simp only [Ext.lt, Ext.fin.injEq, ne_eq, reduceCtorEq, not_true_eq_false, not_false_eq_true, true_and, and_true, and_self, or_true, true_or, false_and, and_false, or_false, false_or]
  rename_i r s
  rcases lt_trichotomy r s with h | h | h
  · exact .inl ⟨h, not_lt.2 h.le, h.ne⟩
  · exact .inr (.inl ⟨h, by rw [h]; exact ⟨lt_irrefl _, lt_irrefl _⟩⟩)
  · exact .inr (.inr ⟨h, not_lt.2 h.le, h.ne'⟩)

theorem rel_total {x y : Num R} (h : Sense x y) : ∃ r, Rel r x y := by
  cases x <;> cases y <;> simp only [Sense] at h
  · rename_i x y
    rcases extRel x y with ⟨h1, h2, h3⟩ | ⟨h1, h2, h3⟩ | ⟨h1, h2, h3⟩
    · exact ⟨.lt, h1, h2, fun h => h3 (by injection h)⟩
    · exact ⟨.eq, by rw [h1], h2, h3⟩
    · exact ⟨.gt, h1, h2, fun h => h3 (by injection h)⟩
  · rename_i x y
    rcases extRel x y with ⟨h1, h2, h3⟩ | ⟨h1, h2, h3⟩ | ⟨h1, h2, h3⟩
    · exact ⟨.lt, h1, h2, fun h => h3 (by injection h)⟩
    · exact ⟨.eq, by rw [h1], h2, h3⟩
    · exact ⟨.gt, h1, h2, fun h => h3 (by injection h)⟩
  · rename_i m n
    rcases lt_trichotomy m n with h | h | h
    · exact ⟨.lt, h, not_lt.2 (le_of_lt h), fun e => by injection e with e; exact absurd e h.ne⟩
    · exact ⟨.eq, by rw [h], by rw [h]; exact ⟨lt_irrefl n, lt_irrefl n⟩⟩
    · exact ⟨.gt, h, not_lt.2 (le_of_lt h), fun e => by injection e with e; exact absurd e h.ne'⟩

/-- Two comparable numbers have one of the relations of their classes. -/
theorem rel_mem {c d : Cls} {x y : Num R} {r : Ordering} (hc : Belongs c x) (hd : Belongs d y) (hs : Sense x y) (hr : Rel r x y) : r ∈ relCls c d := by
  cases c <;> simp only [Belongs] at hc <;>
  (cases d <;> simp only [Belongs] at hd <;>
    (first | subst hc | (obtain ⟨m, rfl⟩ := hc) | (obtain ⟨q, hq, rfl⟩ := hc)) <;>
    (first | subst hd | (obtain ⟨n, rfl⟩ := hd) | (obtain ⟨s, hs', rfl⟩ := hd)) <;>
    simp only [Sense] at hs <;> (cases r <;> simp_all [Rel, Less, Ext.lt, relCls, IsInt]))
  all_goals exact hs' _ hr.1.symm

theorem sense_iff {c d : Cls} {x y : Num R} (hc : Belongs c x) (hd : Belongs d y) : Sense x y ↔ kind c = kind d ∧ kind c ≠ 2 := by
  have kc := belongs_kind hc
  have kd := belongs_kind hd
  cases x <;> cases y <;> simp only at kc kd <;> simp [Sense, kc, kd]

theorem not_int (k : ℤ) : ¬ IsInt ((k : R) + 1 / 2) := by
  rintro ⟨n, hr⟩
  have h2 : ((2 * k + 1 : ℤ) : R) = ((2 * n : ℤ) : R) := by push_cast; linarith
  have := Int.cast_injective h2
  omega

/-- A sample number of a class. -/
def sample : Cls → ℤ → Num R
  | .int, k => .math (.fin k)
  | .frac, k => .math (.fin (k + 1 / 2))
  | .mpos, _ => .math .pos
  | .mneg, _ => .math .neg
  | .nint, k => .number (.fin k)
  | .nfrac, k => .number (.fin (k + 1 / 2))
  | .npos, _ => .number .pos
  | .nneg, _ => .number .neg
  | .nan, _ => .nan
  | .big, k => .big k

theorem sample_belongs (c : Cls) (k : ℤ) : Belongs c (sample c k : Num R) := by
  cases c <;> simp only [Belongs, sample]
  all_goals first
    | exact ⟨k, rfl⟩
    | exact ⟨_, not_int k, rfl⟩

theorem rel_lt_of (c d : Cls) (k l : ℤ) (h : k < l) (hr : Ordering.lt ∈ relCls c d) : Rel .lt (sample c k : Num R) (sample d l) := by
  have hx : (k : R) + 1 ≤ l := by exact_mod_cast h
  cases c <;> cases d <;> simp only [relCls, List.mem_cons, List.not_mem_nil, or_false, reduceCtorEq, or_true, true_or, or_self] at hr <;>
    simp only [Rel, sample, Less, Ext.lt, Num.math.injEq, Num.number.injEq, Num.big.injEq, Ext.fin.injEq, ne_eq, reduceCtorEq, not_false_eq_true, not_lt, true_and, and_true, and_self]
  all_goals first
    | (refine ⟨by linarith, by linarith, fun e => ?_⟩; linarith)
    | (refine ⟨h, h.le, h.ne⟩)

theorem rel_gt_of (c d : Cls) (k l : ℤ) (h : l < k) (hr : Ordering.gt ∈ relCls c d) : Rel .gt (sample c k : Num R) (sample d l) := by
  have hx : (l : R) + 1 ≤ k := by exact_mod_cast h
  cases c <;> cases d <;> simp only [relCls, List.mem_cons, List.not_mem_nil, or_false, reduceCtorEq, or_true, true_or, or_self] at hr <;>
    simp only [Rel, sample, Less, Ext.lt, Num.math.injEq, Num.number.injEq, Num.big.injEq, Ext.fin.injEq, ne_eq, reduceCtorEq, not_false_eq_true, not_lt, true_and, and_true, and_self]
  all_goals first
    | (refine ⟨by linarith, by linarith, fun e => ?_⟩; linarith)
    | (refine ⟨h, h.le, h.ne'⟩)

theorem rel_eq_of (c d : Cls) (hr : Ordering.eq ∈ relCls c d) : Rel .eq (sample c 0 : Num R) (sample d 0) := by
  cases c <;> cases d <;> simp only [relCls, List.mem_cons, List.not_mem_nil, or_false, reduceCtorEq, or_true, true_or, or_self] at hr <;>
    simp [Rel, sample, Less, Ext.lt]

theorem rel_exists {c d : Cls} {r : Ordering} (hr : r ∈ relCls c d) : ∃ x y : Num R, Belongs c x ∧ Belongs d y ∧ Rel r x y := by
  cases r with
  | lt => exact ⟨_, _, sample_belongs c 0, sample_belongs d 2, rel_lt_of c d 0 2 (by decide) hr⟩
  | eq => exact ⟨_, _, sample_belongs c 0, sample_belongs d 0, rel_eq_of c d hr⟩
  | gt => exact ⟨_, _, sample_belongs c 2, sample_belongs d 0, rel_gt_of c d 2 0 (by decide) hr⟩

theorem rel_kind {c d : Cls} {r : Ordering} (hr : r ∈ relCls c d) : kind c = kind d ∧ kind c ≠ 2 := by
  cases c <;> cases d <;> simp [relCls] at hr <;> simp [kind]

/-! ## The table -/

/-- The verdict of an entry about numeric types is what the classes say. -/
def verdictOk (e : (String × String × String) × String) : Bool :=
  let pairs := (classesOf e.1.1).flatMap (fun c => (classesOf e.1.2.2).map (fun d => (c, d)))
  let rels := pairs.flatMap (fun p => relCls p.1 p.2)
  decide (e.2.toList.contains 'T' = rels.any (cmpOrd e.1.2.1)) && decide (e.2.toList.contains 'F' = rels.any (fun r => !cmpOrd e.1.2.1 r)) &&
    decide (e.2.toList.contains 'E' = pairs.any (fun p => decide (kind p.1 ≠ kind p.2 ∨ kind p.1 = 2)))

/-- The entry that does not fit. -/
def odd : String × String × String := ("MathPosInfinity_", ">", "FiniteNumber_")

def offTypes : List String := ["not_passed", "tilde_empty_", "tilde_detached_", "tilde_bigint_", "tilde_number_"]

theorem cmp_ok : ∀ e ∈ cmpTable, e.1 = odd ∨ e = (("IntegralNumber_", "≥", "Tangible_"), "TFE") ∨
    (e.1.1 ∈ numeric ∧ e.1.2.2 ∈ numeric ∧ verdictOk e = true) ∨
    ((e.1.1 ∈ offTypes ∨ e.1.2.2 ∈ offTypes) ∧ e.2.toList.contains 'E' = true) := by decide +kernel

theorem off_tf : ∀ e ∈ cmpTable, (e.1.1 ∈ offTypes ∨ e.1.2.2 ∈ offTypes) → (e.1.1 ≠ "tilde_bigint_" ∧ e.1.1 ≠ "tilde_number_") → e.2 = "E" := by decide +kernel

variable {I : Interp} {cfg : Cfg} {num : Num R → I.V}

theorem off_named (hn : NumWorld cfg num) {n : String} (h : n ∈ offTypes) (z : Num R) : ¬ I.named n (num z) := hn.other n h z

theorem numeric_value (hn : NumWorld cfg num) {n : String} (h : n ∈ numeric) (k : ℤ) : ∃ c ∈ classesOf n, I.named n (num (sample c k)) := by
  have : ∃ c, c ∈ classesOf n := by
    simp only [numeric, List.mem_cons, List.not_mem_nil, or_false] at h
    rcases h with rfl | rfl | rfl | rfl | rfl | rfl | rfl | rfl | rfl | rfl | rfl | rfl | rfl | rfl <;> exact ⟨_, List.mem_cons_self⟩
  obtain ⟨c, hc⟩ := this
  exact ⟨c, hc, (named_iff hn h _).2 ⟨c, hc, _, sample_belongs c k, rfl⟩⟩

/-- What the letters of an entry mean. -/
theorem verdict (hn : NumWorld cfg num) {a b op s : String} (h : cell cmpTable (.hier a) op (.hier b) = some s) (hne : (a, op, b) ≠ odd) :
    (∀ v w : I.V, I.named a v → I.named b w → (CmpTrue num op v w → 'T' ∈ s.toList) ∧ (CmpFalse num op v w → 'F' ∈ s.toList) ∧
      (¬ Comparable num v w → 'E' ∈ s.toList)) ∧
    ('T' ∈ s.toList → a ≠ "tilde_bigint_" → a ≠ "tilde_number_" → ∃ v w : I.V, I.named a v ∧ I.named b w ∧ CmpTrue num op v w) ∧
    ('F' ∈ s.toList → a ≠ "tilde_bigint_" → a ≠ "tilde_number_" → ∃ v w : I.V, I.named a v ∧ I.named b w ∧ CmpFalse num op v w) ∧
    ('E' ∈ s.toList → (∃ v, I.named a v) → (∃ w, I.named b w) → ∃ v w : I.V, I.named a v ∧ I.named b w ∧ ¬ Comparable num v w) := by
  simp only [← List.contains_iff_mem]
  have hmem := lookup_mem (l := cmpTable) (a := (a, op, b)) (b := s) h
  rcases cmp_ok _ hmem with e | e | ⟨ha, hb, hv⟩ | ⟨hoff, he⟩
  · exact absurd e hne
  · injection e with e1 e2
    injection e1 with e1 e3
    injection e3 with e3 e4
    subst e1 e3 e4 e2
    refine ⟨fun v w hv hw => ⟨fun _ => by decide, fun _ => by decide, fun _ => by decide⟩, fun _ _ _ => ?_, fun _ _ _ => ?_, fun _ _ _ => ?_⟩
    · refine ⟨num (.number (.fin (0 : ℤ))), num (.number (.fin (0 : ℤ))), (hn.integral _).2 ⟨0, rfl⟩, hn.tangible _ (.inl ((hn.number _).2 (.inl ⟨_, rfl⟩))), _, _, rfl, rfl, trivial, ?_⟩
      simp [Compares]
    · refine ⟨num (.number (.fin (0 : ℤ))), num (.number (.fin (1 : ℤ))), (hn.integral _).2 ⟨0, rfl⟩, hn.tangible _ (.inl ((hn.number _).2 (.inl ⟨_, rfl⟩))), _, _, rfl, rfl, trivial, ?_⟩
      simp [Compares, Less, Ext.lt]
    · refine ⟨num (.number (.fin (0 : ℤ))), num (.big 0), (hn.integral _).2 ⟨0, rfl⟩, hn.tangible _ (.inr ((hn.bigInt _).2 ⟨_, rfl⟩)), ?_⟩
      rintro ⟨x, y, hx, hy, hs⟩
      obtain rfl := hn.inj _ _ hx
      obtain rfl := hn.inj _ _ hy
      exact hs
  · simp only at ha hb
    simp only [verdictOk, Bool.and_eq_true, decide_eq_true_eq] at hv
    obtain ⟨⟨hT, hF⟩, hE⟩ := hv
    rw [hT, hF, hE]
    simp only [List.any_eq_true, List.mem_flatMap, List.mem_map, decide_eq_true_eq, Bool.not_eq_true', Prod.exists, Prod.mk.injEq]
    refine ⟨fun v w hv hw => ?_, ?_, ?_, ?_⟩
    · obtain ⟨c, hc, x, hx, rfl⟩ := (named_iff hn ha _).1 hv
      obtain ⟨d, hd, y, hy, rfl⟩ := (named_iff hn hb _).1 hw
      refine ⟨?_, ?_, ?_⟩
      · rintro ⟨x', y', ex, ey, hs, hcm⟩
        obtain rfl := hn.inj _ _ ex
        obtain rfl := hn.inj _ _ ey
        obtain ⟨r, hr⟩ := rel_total hs
        exact ⟨r, ⟨c, d, ⟨c, hc, d, hd, rfl, rfl⟩, rel_mem hx hy hs hr⟩, (rel_compares hr op).1 hcm⟩
      · rintro ⟨x', y', ex, ey, hs, hcm⟩
        obtain rfl := hn.inj _ _ ex
        obtain rfl := hn.inj _ _ ey
        obtain ⟨r, hr⟩ := rel_total hs
        exact ⟨r, ⟨c, d, ⟨c, hc, d, hd, rfl, rfl⟩, rel_mem hx hy hs hr⟩, by
          rw [← Bool.not_eq_true]; exact fun h => hcm ((rel_compares hr op).2 h)⟩
      · intro hnc
        refine ⟨c, d, ⟨c, hc, d, hd, rfl, rfl⟩, ?_⟩
        by_contra hk
        exact hnc ⟨x, y, rfl, rfl, (sense_iff hx hy).2 (by tauto)⟩
    · rintro ⟨r, ⟨c, d, ⟨_, hc, _, hd, rfl, rfl⟩, hr⟩, hcm⟩ _ _
      obtain ⟨x, y, hx, hy, hrel⟩ := rel_exists (R := R) hr
      exact ⟨num x, num y, (named_iff hn ha _).2 ⟨_, hc, x, hx, rfl⟩, (named_iff hn hb _).2 ⟨_, hd, y, hy, rfl⟩, x, y, rfl, rfl, (sense_iff hx hy).2 (rel_kind hr), (rel_compares hrel op).2 hcm⟩
    · rintro ⟨r, ⟨c, d, ⟨_, hc, _, hd, rfl, rfl⟩, hr⟩, hcm⟩ _ _
      obtain ⟨x, y, hx, hy, hrel⟩ := rel_exists (R := R) hr
      exact ⟨num x, num y, (named_iff hn ha _).2 ⟨_, hc, x, hx, rfl⟩, (named_iff hn hb _).2 ⟨_, hd, y, hy, rfl⟩, x, y, rfl, rfl, (sense_iff hx hy).2 (rel_kind hr), fun h => by
        rw [(rel_compares hrel op).1 h] at hcm; cases hcm⟩
    · rintro ⟨c0, d0, ⟨c, hc, d, hd, rfl, rfl⟩, hk⟩ _ _
      have hx := sample_belongs (R := R) c 0
      have hy := sample_belongs (R := R) d 0
      refine ⟨num (sample c 0), num (sample d 0), (named_iff hn ha _).2 ⟨_, hc, _, hx, rfl⟩, (named_iff hn hb _).2 ⟨_, hd, _, hy, rfl⟩, ?_⟩
      rintro ⟨x, y, ex, ey, hs⟩
      obtain rfl := hn.inj _ _ ex
      obtain rfl := hn.inj _ _ ey
      have := (sense_iff hx hy).1 hs
      tauto
  · have hno : ∀ v w : I.V, I.named a v → I.named b w → ¬ Comparable num v w := by
      rintro v w hv hw ⟨x, y, rfl, rfl, _⟩
      rcases hoff with ho | ho
      · exact hn.other _ ho x hv
      · exact hn.other _ ho y hw
    have htf := off_tf _ hmem hoff
    refine ⟨fun v w hv hw => ⟨?_, ?_, fun _ => he⟩, ?_, ?_, ?_⟩
    · rintro ⟨x, y, ex, ey, hs, _⟩; exact absurd ⟨x, y, ex, ey, hs⟩ (hno v w hv hw)
    · rintro ⟨x, y, ex, ey, hs, _⟩; exact absurd ⟨x, y, ex, ey, hs⟩ (hno v w hv hw)
    · intro hT h1 h2
      have : s = "E" := htf ⟨h1, h2⟩
      rw [this] at hT
      exact absurd hT (by decide)
    · intro hT h1 h2
      have : s = "E" := htf ⟨h1, h2⟩
      rw [this] at hT
      exact absurd hT (by decide)
    · rintro _ ⟨v, hv⟩ ⟨w, hw⟩
      exact ⟨v, w, hv, hw, hno v w hv hw⟩

end

/-! ## Environments -/

section
variable {K X T C : Type} [DecidableEq K] {L : Lang K X T C} {txt : X → Text}
variable {R : Type} [Field R] [LinearOrder R] [IsStrictOrderedRing R] [FloorRing R] {I : Interp} {num : Num R → I.V} {A : Reals R} {S : Sem X T C I}

theorem highest_flat (hn : NumWorld L.cfg num) {x : String} {t : Ty} (ht : Flat L.cfg t) : Flat L.cfg (highest L x t) := by
  unfold highest
  split
  · split
    · exact flat_num hn (by decide)
    · exact ht
  · exact ht

theorem ite_or {α : Type} {c : Prop} [Decidable c] {x y r : α} (h : (if c then x else y) = r) : x = r ∨ y = r := by
  split at h
  · exact .inl h
  · exact .inr h

/-- Narrowing to a type that the value has. -/
theorem narrow_ok (hw : World L.cfg L.ord I) (hn : NumWorld L.cfg num) (hA : A.Ok) (hl : LeavesOk S L) {e : NExpr X} {env env' : Env K} {t : Ty}
    (hf : FlatEnv L.cfg env) (ht : Flat L.cfg t) (h : narrowN L txt env e t = some (env', [])) :
    FlatEnv L.cfg env' ∧ env'.ctx = env.ctx ∧
    ∀ σ v, Holds L.cfg I env σ → Value A num S True e σ v → den L.cfg I t v → Holds L.cfg I env' σ := by
  unfold narrowN at h
  obtain ⟨⟨et, env1⟩, h1, h⟩ := wbind h
  obtain ⟨fe, fe1, c1, se⟩ := tcN_ok (A := A) hw hn hA hl e hf h1
  simp only at h
  obtain ⟨b, h2, h⟩ := wbind h
  have rep : FlatEnv L.cfg (replacedN env1 e t) ∧ (replacedN env1 e t).ctx = env.ctx ∧
      ∀ σ v, Holds L.cfg I env σ → Value A num S True e σ v → den L.cfg I t v → Holds L.cfg I (replacedN env1 e t) σ := by
    match e, se with
    | .leaf (.var x), se =>
      refine ⟨flat_set fe1 ht, c1, fun σ v hσ hv hd => ?_⟩
      refine holds_retype ((se σ hσ).2 ⟨_, hv⟩) ?_
      rw [Value] at hv
      cases hv
      exact hd
    | .leaf (.other e), se => exact ⟨fe1, c1, fun σ v hσ hv _ => (se σ hσ).2 ⟨_, hv⟩⟩
    | .int _, se | .const _, se | .posInf, se | .negInf, se | .numPosInf, se | .numNegInf, se | .nan, se | .numHalf _, se | .numInt _, se
    | .bigInt _, se | .bin _ _ _, se | .neg _, se | .negative _, se | .remainder _ _, se | .power _ _, se | .clamp _ _ _, se | .extended _, se
    | .choice _ _, se | .fn _ _, se | .minMax _ _, se => exact ⟨fe1, c1, fun σ v hσ hv _ => (se σ hσ).2 ⟨_, hv⟩⟩
  cases b with
  | true =>
    obtain rfl := wpure h
    exact ⟨fe1, c1, fun σ v hσ hv _ => (se σ hσ).2 ⟨_, hv⟩⟩
  | false =>
    simp only [Bool.false_eq_true, if_false] at h
    rcases ite_or h with h | h
    · obtain rfl := wpure h
      exact rep
    · obtain ⟨b3, h3, h⟩ := wbind h
      cases b3 with
      | true => obtain rfl := wpure h; exact rep
      | false => simp only [Bool.false_eq_true, if_false] at h; exact (wfail h).elim

/-- One pair of types. -/
theorem pair_ok (hw : World L.cfg L.ord I) (hn : NumWorld L.cfg num) (hA : A.Ok) (hl : LeavesOk S L) {op : String} {a b : NExpr X} {env2 : Env K}
    {p q : String} {ts fs : List (Env K)} (hf : FlatEnv L.cfg env2) (hp : Flat L.cfg (.hier p)) (hq : Flat L.cfg (.hier q))
    (h : comparePair L txt op a b env2 (.hier p) (.hier q) = some ((ts, fs), [])) :
    (∀ e ∈ ts ++ fs, FlatEnv L.cfg e ∧ e.ctx = env2.ctx) ∧
    ∀ σ v w, Holds L.cfg I env2 σ → Value A num S True a σ v → Value A num S True b σ w → I.named p v → I.named q w →
      (CmpTrue num op v w → ∃ e ∈ ts, Holds L.cfg I e σ) ∧ (CmpFalse num op v w → ∃ e ∈ fs, Holds L.cfg I e σ) ∧
      (¬ Comparable num v w → (p, op, q) = odd) := by
  unfold comparePair at h
  split at h
  · exact (wfail h).elim
  · split at h
    · exact (wfail h).elim
    · rename_i s hs
      obtain ⟨ea, h1, h⟩ := wbind h
      obtain ⟨env3, h2, h⟩ := wbind h
      have hE : 'E' ∉ s.toList ∧ ts = (if s.toList.contains 'T' then [env3] else []) ∧ fs = (if s.toList.contains 'F' then [env3] else []) := by
        simp only at h
        split at h
        · obtain ⟨_, h3, _⟩ := wbind h
          exact (wtell h3).elim
        · rename_i hne
          obtain ⟨_, _, h⟩ := wbind h
          have := wpure h
          injection this with g1 g2
          exact ⟨fun hm => hne (List.contains_iff_mem.2 hm), g1, g2⟩
      obtain ⟨hE, rfl, rfl⟩ := hE
      obtain ⟨fa, ca, sa⟩ := narrow_ok (A := A) (S := S) hw hn hA hl hf hp h1
      obtain ⟨fb, cb, sb⟩ := narrow_ok (A := A) (S := S) hw hn hA hl fa hq h2
      refine ⟨?_, fun σ v w hσ hv hw' hpv hqw => ?_⟩
      · intro e he
        have : e = env3 := by
          rcases List.mem_append.1 he with he | he <;> split at he <;> simp at he <;> exact he
        exact this ▸ ⟨fb, cb.trans ca⟩
      · have h3 := sb σ w (sa σ v hσ hv hpv) hw' hqw
        by_cases hodd : (p, op, q) = odd
        · unfold odd at hodd
          injection hodd with o1 o2
          injection o2 with o2 o3
          subst o1 o2 o3
          have hno : ∀ x y : Num R, v = num x → w = num y → ¬ Sense x y := by
            rintro x y rfl rfl hsn
            obtain rfl := hn.inj _ _ ((hn.mathPos _).1 hpv)
            obtain ⟨r, e⟩ := (hn.finite _).1 hqw
            obtain rfl := hn.inj _ _ e
            exact hsn
          refine ⟨?_, ?_, fun _ => rfl⟩
          · rintro ⟨x, y, ex, ey, hsn, _⟩; exact absurd hsn (hno x y ex ey)
          · rintro ⟨x, y, ex, ey, hsn, _⟩; exact absurd hsn (hno x y ex ey)
        · obtain ⟨g1, g2, g3⟩ := (verdict hn hs hodd).1 v w hpv hqw
          refine ⟨fun hc => ⟨env3, ?_, h3⟩, fun hc => ⟨env3, ?_, h3⟩, fun hc => absurd (g3 hc) hE⟩
          · rw [if_pos (List.contains_iff_mem.2 (g1 hc))]; exact List.mem_singleton.2 rfl
          · rw [if_pos (List.contains_iff_mem.2 (g2 hc))]; exact List.mem_singleton.2 rfl

theorem loop_ok (hw : World L.cfg L.ord I) (hn : NumWorld L.cfg num) (hA : A.Ok) (hl : LeavesOk S L) {op : String} {a b : NExpr X} {env2 : Env K}
    (hf : FlatEnv L.cfg env2) : ∀ {ps : List (Ty × Ty)} {ts fs : List (Env K)}, (∀ p ∈ ps, Flat L.cfg p.1 ∧ Flat L.cfg p.2) →
    compareLoop L txt op a b env2 ps = some ((ts, fs), []) →
    (∀ e ∈ ts ++ fs, FlatEnv L.cfg e ∧ e.ctx = env2.ctx) ∧
    ∀ p q, (Ty.hier p, Ty.hier q) ∈ ps → ∀ σ v w, Holds L.cfg I env2 σ → Value A num S True a σ v → Value A num S True b σ w → I.named p v → I.named q w →
      (CmpTrue num op v w → ∃ e ∈ ts, Holds L.cfg I e σ) ∧ (CmpFalse num op v w → ∃ e ∈ fs, Holds L.cfg I e σ) ∧
      (¬ Comparable num v w → (p, op, q) = odd)
  | [], ts, fs, _, h => by
    have := wpure h
    injection this with g1 g2
    subst g1 g2
    exact ⟨by simp, by simp⟩
  | (x, y) :: ps, ts, fs, hps, h => by
    rw [compareLoop] at h
    obtain ⟨⟨t1, f1⟩, h1, h⟩ := wbind h
    obtain ⟨⟨t2, f2⟩, h2, h⟩ := wbind h
    have := wpure h
    injection this with g1 g2
    subst g1 g2
    obtain ⟨r1, r2⟩ := loop_ok hw hn hA hl hf (fun p hp => hps p (List.mem_cons_of_mem _ hp)) h2
    have hxy : ∃ p q, x = .hier p ∧ y = .hier q := by
      unfold comparePair at h1
      split at h1
      · exact (wfail h1).elim
      · split at h1
        · exact (wfail h1).elim
        · rename_i s hs
          unfold cell at hs
          split at hs
          · exact ⟨_, _, rfl, rfl⟩
          · cases hs
    obtain ⟨p0, q0, rfl, rfl⟩ := hxy
    obtain ⟨s1, s2⟩ := pair_ok (A := A) (S := S) hw hn hA hl hf (hps _ List.mem_cons_self).1 (hps _ List.mem_cons_self).2 h1
    refine ⟨fun e he => ?_, fun p q hpq σ v w hσ hv hw' hpv hqw => ?_⟩
    · simp only [List.mem_append] at he
      rcases he with (he | he) | (he | he)
      · exact s1 e (List.mem_append_left _ he)
      · exact r1 e (List.mem_append_left _ he)
      · exact s1 e (List.mem_append_right _ he)
      · exact r1 e (List.mem_append_right _ he)
    · rcases List.mem_cons.1 hpq with e | hpq
      · injection e with e1 e2
        injection e1 with e1
        injection e2 with e2
        subst e1 e2
        obtain ⟨k1, k2, k3⟩ := s2 σ v w hσ hv hw' hpv hqw
        exact ⟨fun hc => by obtain ⟨e, he, hh⟩ := k1 hc; exact ⟨e, List.mem_append_left _ he, hh⟩,
          fun hc => by obtain ⟨e, he, hh⟩ := k2 hc; exact ⟨e, List.mem_append_left _ he, hh⟩, k3⟩
      · obtain ⟨k1, k2, k3⟩ := r2 p q hpq σ v w hσ hv hw' hpv hqw
        exact ⟨fun hc => by obtain ⟨e, he, hh⟩ := k1 hc; exact ⟨e, List.mem_append_right _ he, hh⟩,
          fun hc => by obtain ⟨e, he, hh⟩ := k2 hc; exact ⟨e, List.mem_append_right _ he, hh⟩, k3⟩

end
end Verif.Arith
