import Verif.Arith.CompareLemmas
import Mathlib.Tactic.NormNum
/-!
# No entry of the table of arithmetic is too wide
-/
set_option linter.unusedSectionVars false
set_option linter.unusedSimpArgs false
set_option linter.unusedTactic false
namespace Verif.Arith
open Verif.Types Verif.Env Verif.Calls

/-- Results that are reached: `(i, j, f, k)` says that the samples `i` and `j` give sample `k` of the class `f`. -/
def reach : Op → Cls → Cls → List (ℤ × ℤ × Cls × ℤ)
  | .add, .int, .int => [(0, 0, .int, 0)]
  | .add, .frac, .int => [(0, 0, .frac, 0)]
  | .add, .int, .frac => [(0, 0, .frac, 0)]
  | .add, .mpos, .int => [(0, 0, .mpos, 0)]
  | .add, .int, .mpos => [(0, 0, .mpos, 0)]
  | .add, .mneg, .int => [(0, 0, .mneg, 0)]
  | .add, .int, .mneg => [(0, 0, .mneg, 0)]
  | .sub, .int, .int => [(0, 0, .int, 0)]
  | .sub, .frac, .int => [(0, 0, .frac, 0)]
  | .sub, .int, .frac => [(0, 0, .frac, -1)]
  | .sub, .mpos, .int => [(0, 0, .mpos, 0)]
  | .sub, .mneg, .int => [(0, 0, .mneg, 0)]
  | .mul, .int, .int => [(0, 0, .int, 0)]
  | .mul, .int, .frac => [(1, 0, .frac, 0)]
  | .mul, .frac, .int => [(0, 1, .frac, 0)]
  | .mul, .mpos, .int => [(0, 1, .mpos, 0)]
  | .mul, .int, .mpos => [(1, 0, .mpos, 0)]
  | .mul, .mneg, .int => [(0, 1, .mneg, 0)]
  | .mul, .int, .mneg => [(1, 0, .mneg, 0)]
  | .div, .int, .int => [(0, 1, .int, 0), (1, 2, .frac, 0)]
  | .div, .frac, .int => [(0, 1, .frac, 0)]
  | .div, .mpos, .int => [(0, 1, .mpos, 0)]
  | .div, .mneg, .int => [(0, 1, .mneg, 0)]
  | .mod, .int, .int => [(0, 1, .int, 0)]
  | .mod, .frac, .int => [(0, 1, .frac, 0)]
  | .add, .nint, .nint => [(0, 0, .nint, 0)]
  | .add, .nfrac, .nint => [(0, 0, .nfrac, 0)]
  | .add, .npos, .nint => [(0, 0, .npos, 0)]
  | .add, .nint, .npos => [(0, 0, .npos, 0)]
  | .add, .nneg, .nint => [(0, 0, .nneg, 0)]
  | .add, .nint, .nneg => [(0, 0, .nneg, 0)]
  | .sub, .nint, .nint => [(0, 0, .nint, 0)]
  | .sub, .nfrac, .nint => [(0, 0, .nfrac, 0)]
  | .sub, .npos, .nint => [(0, 0, .npos, 0)]
  | .sub, .nneg, .nint => [(0, 0, .nneg, 0)]
  | .sub, .nint, .npos => [(0, 0, .nneg, 0)]
  | .sub, .nint, .nneg => [(0, 0, .npos, 0)]
  | .mul, .nint, .nint => [(0, 0, .nint, 0)]
  | .mul, .nfrac, .nint => [(0, 1, .nfrac, 0)]
  | .mul, .nint, .npos => [(1, 0, .npos, 0)]
  | .mul, .nint, .nneg => [(1, 0, .nneg, 0)]
  | .div, .nint, .nint => [(0, 1, .nint, 0), (1, 2, .nfrac, 0)]
  | .div, .npos, .nint => [(0, 1, .npos, 0)]
  | .div, .nneg, .nint => [(0, 1, .nneg, 0)]
  | .add, .big, .big => [(0, 0, .big, 0)]
  | .sub, .big, .big => [(0, 0, .big, 0)]
  | .mul, .big, .big => [(0, 0, .big, 0)]
  | _, _, _ => []

section
variable {R : Type} [Field R] [LinearOrder R] [IsStrictOrderedRing R] [FloorRing R] {A : Reals R}

theorem round_zero (hA : A.Ok) : A.round 0 = .fin 0 := by
  have := hA.small 0 (by decide)
  simpa using this
theorem round_half (hA : A.Ok) : A.round (2⁻¹) = .fin (2⁻¹) := by
  have := hA.small 2 (by decide)
  have e : (((2 : ℤ) : R) / 4) = 2⁻¹ := by norm_num
  rwa [e] at this

theorem floor_half : ⌊(2⁻¹ : R)⌋ = 0 := by
  rw [Int.floor_eq_iff]; norm_num

theorem reach_ok (hA : A.Ok) {o : Op} {c d f : Cls} {i j k : ℤ} (h : (i, j, f, k) ∈ reach o c d) :
    Calc A o (sample c i) (sample d j) (sample f k : Num R) ∧ UsualBin o (sample c i) (sample d j) (sample f k : Num R) := by
  have h0 := round_zero hA
  have h1 := round_half hA
  have h1' : A.round (1 / 2) = .fin (1 / 2) := by rw [one_div]; exact h1
  have h2 := floor_half (R := R)
  have h3 : Int.fract (1 / 2 : R) = 1 / 2 := by rw [Int.fract, one_div, h2]; norm_num
  cases o <;> cases c <;> cases d <;> simp only [reach, List.mem_cons, List.not_mem_nil, or_false, Prod.mk.injEq] at h
  all_goals first
    | (cases h with
       | inl h => (obtain ⟨rfl, rfl, rfl, rfl⟩ := h; norm_num [Calc, UsualBin, sample, extOp, addX, mulX, divX, modX, Ext.opp, h0, h1, h1', h2, h3] <;> try decide)
       | inr h => (obtain ⟨rfl, rfl, rfl, rfl⟩ := h; norm_num [Calc, UsualBin, sample, extOp, addX, mulX, divX, modX, Ext.opp, h0, h1, h1', h2, h3] <;> try decide))
    | (obtain ⟨rfl, rfl, rfl, rfl⟩ := h
       norm_num [Calc, UsualBin, sample, extOp, addX, mulX, divX, modX, Ext.opp, h0, h1, h1', h2, h3] <;> try decide)

/-- Every class of the type of an entry is reached. -/
def tightOk (e : (String × String × String) × Cell) : Bool :=
  match e.2 with
  | .ty n => (match opOf e.1.2.1 with
    | some o => (classesOf n).all (fun f => (classesOf e.1.1).any (fun c => (classesOf e.1.2.2).any (fun d => (reach o c d).any (fun q => decide (q.2.2.1 = f)))))
    | none => false)
  | _ => true

theorem tight_ok : ∀ e ∈ arithTable, tightOk e = true := by decide +kernel

/-- Classes are disjoint, and a type has all or nothing of a class. -/
theorem class_unique {c d : Cls} {z : Num R} (hc : Belongs c z) (hd : Belongs d z) : c = d := by
  cases c <;> cases d <;> first | rfl | (exfalso; simp only [Belongs] at hc hd)
  all_goals first
    | (obtain ⟨m, rfl⟩ := hc; obtain ⟨r, hr, e⟩ := hd; injection e with e; injection e with e; exact hr ⟨m, e.symm⟩)
    | (obtain ⟨m, rfl⟩ := hd; obtain ⟨r, hr, e⟩ := hc; injection e with e; injection e with e; exact hr ⟨m, e.symm⟩)
    | (obtain ⟨m, rfl⟩ := hc; obtain ⟨r, hr, e⟩ := hd; cases e; done)
    | (obtain ⟨m, rfl⟩ := hc; obtain ⟨n, e⟩ := hd; cases e; done)
    | (obtain ⟨r, hr, rfl⟩ := hc; obtain ⟨m, e⟩ := hd; cases e; done)
    | (obtain ⟨r, hr, rfl⟩ := hc; obtain ⟨s, hs, e⟩ := hd; cases e; done)
    | (obtain ⟨m, rfl⟩ := hc; cases hd)
    | (obtain ⟨r, hr, rfl⟩ := hc; cases hd)
    | (obtain ⟨m, rfl⟩ := hd; cases hc)
    | (obtain ⟨r, hr, rfl⟩ := hd; cases hc)
    | (rw [hc] at hd; cases hd)

variable {I : Interp} {cfg : Cfg} {num : Num R → I.V}

theorem tight (hn : NumWorld cfg num) (hA : A.Ok) {a b op n m : String} {o : Op} (h : cell arithTable (.hier a) op (.hier b) = some (.ty n))
    (ho : opOf op = some o) (hm : m ∈ numeric)
    (hall : ∀ x y z, I.named a (num x) → I.named b (num y) → Calc A o x y z → UsualBin o x y z → I.named m (num z)) :
    ∀ v, I.named n v → I.named m v := by
  intro v hv
  have hmem := lookup_mem (l := arithTable) (a := (a, op, b)) (b := Cell.ty n) h
  have h1 := table_ok _ hmem
  have h2 := tight_ok _ hmem
  simp only [entryOk, ho, decide_eq_true_eq, Bool.and_eq_true, List.contains_iff_mem] at h1
  simp only [tightOk, ho, List.all_eq_true, List.any_eq_true, decide_eq_true_eq] at h2
  obtain ⟨f, hf, z, hz, rfl⟩ := (named_iff hn (by tauto) v).1 hv
  obtain ⟨c, hc, d, hd, ⟨i, j, f', k⟩, hq, e⟩ := h2 f hf
  simp only at e
  subst e
  obtain ⟨k1, k2⟩ := reach_ok hA hq
  have hr := hall _ _ _ ((named_iff hn (by tauto) _).2 ⟨c, hc, _, sample_belongs c i, rfl⟩) ((named_iff hn (by tauto) _).2 ⟨d, hd, _, sample_belongs d j, rfl⟩) k1 k2
  obtain ⟨g, hg, w, hw, e⟩ := (named_iff hn hm _).1 hr
  have e := hn.inj _ _ e
  subst e
  have := class_unique hw (sample_belongs f' k)
  subst this
  exact (named_iff hn hm _).2 ⟨g, hg, z, hz, rfl⟩

end
end Verif.Arith
