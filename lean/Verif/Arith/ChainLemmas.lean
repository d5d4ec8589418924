import Verif.Arith.CompareLemmas
import Mathlib.Tactic.Ring
/-!
# Chains of comparisons, and intervals
-/
set_option linter.unusedSectionVars false
set_option linter.unusedSimpArgs false
namespace Verif.Arith
open Verif.Types Verif.Env Verif.Calls

section
variable {R : Type} [Field R] [LinearOrder R] [IsStrictOrderedRing R] [FloorRing R]

/-! ## Modulo -/

theorem modulo_iff {r s k : R} (hs : s ≠ 0) : Modulo r s k ↔ k = r - s * ⌊r / s⌋ := by
  constructor
  · rintro ⟨h1, h2, q, h3⟩
    have hq : ⌊r / s⌋ = q := by
      rw [Int.floor_eq_iff]
      rcases lt_or_gt_of_ne hs with hs' | hs'
      · have hk : k ≤ 0 := by
          rcases h1 with h1 | h1
          · exact h1.le
          · exact not_lt.1 (fun h => absurd (h1.1 h) (not_lt.2 hs'.le))
        rw [abs_of_nonpos hk, abs_of_neg hs'] at h2
        rw [le_div_iff_of_neg hs', div_lt_iff_of_neg hs']
        constructor <;> linarith
      · have hk : 0 ≤ k := by
          rcases h1 with h1 | h1
          · exact h1.ge
          · exact (h1.2 hs').le
        rw [abs_of_nonneg hk, abs_of_pos hs'] at h2
        rw [le_div_iff₀ hs', div_lt_iff₀ hs']
        constructor <;> linarith
    rw [hq]; linarith [mul_comm s (q : R)]
  · rintro rfl
    have h1 := Int.floor_le (r / s)
    have h2 := Int.lt_floor_add_one (r / s)
    rcases lt_or_gt_of_ne hs with hs' | hs'
    · rw [le_div_iff_of_neg hs'] at h1
      rw [div_lt_iff_of_neg hs'] at h2
      have hk : r - s * ⌊r / s⌋ ≤ 0 := by linarith [mul_comm s (⌊r / s⌋ : R)]
      refine ⟨?_, ?_, ⌊r / s⌋, by ring⟩
      · right; constructor
        · intro h; exact absurd h (not_lt.2 hk)
        · intro h; exact absurd h (not_lt.2 hs'.le)
      · rw [abs_of_nonpos hk, abs_of_neg hs']; linarith [mul_comm s (⌊r / s⌋ : R)]
    · rw [le_div_iff₀ hs'] at h1
      rw [div_lt_iff₀ hs'] at h2
      have hk : 0 ≤ r - s * ⌊r / s⌋ := by linarith [mul_comm s (⌊r / s⌋ : R)]
      refine ⟨?_, ?_, ⌊r / s⌋, by ring⟩
      · rcases hk.eq_or_lt with h | h
        · exact .inl h.symm
        · exact .inr ⟨fun _ => hs', fun _ => h⟩
      · rw [abs_of_nonneg hk, abs_of_pos hs']; linarith [mul_comm s (⌊r / s⌋ : R)]

theorem fmod_neg {x y : ℤ} (hy : y < 0) : y < x.fmod y ∧ x.fmod y ≤ 0 := by
  rw [Int.fmod_eq_emod]
  have h1 := Int.emod_nonneg x hy.ne
  have h2 := Int.emod_lt_of_neg x hy
  by_cases h : y ∣ x
  · rw [if_pos (.inr h), Int.emod_eq_zero_of_dvd h]; omega
  · rw [if_neg (by rintro (h' | h'); · omega
                   · exact h h')]
    have : x % y ≠ 0 := fun h' => h (Int.dvd_of_emod_eq_zero h')
    omega

/-- Python's `%`. -/
theorem fmod_modulo {x y : ℤ} (hy : y ≠ 0) : Modulo (x : R) (y : R) ((x.fmod y : ℤ) : R) := by
  have e : x - x.fmod y = x.fdiv y * y := by have := Int.mul_fdiv_add_fmod x y; rw [mul_comm]; omega
  refine ⟨?_, ?_, x.fdiv y, by exact_mod_cast e⟩
  · rcases lt_or_gt_of_ne hy with h | h
    · right
      have : ¬ 0 < x.fmod y := by have := (fmod_neg (x := x) h).2; omega
      constructor
      · intro h'; exact absurd (by exact_mod_cast h') this
      · intro h'; have : 0 < y := by exact_mod_cast h'
        omega
    · have := Int.fmod_nonneg_of_pos x h
      rcases this.eq_or_lt with h' | h'
      · left; rw [← h']; simp
      · right; exact ⟨fun _ => by exact_mod_cast h, fun _ => by exact_mod_cast h'⟩
  · have : |x.fmod y| < |y| := by
      rcases lt_or_gt_of_ne hy with h | h
      · rw [abs_of_nonpos (fmod_neg h).2, abs_of_neg h]
        have := (fmod_neg (x := x) h).1
        omega
      · rw [abs_of_nonneg (Int.fmod_nonneg_of_pos x h), abs_of_pos h]
        exact Int.fmod_lt_of_pos x h
    exact_mod_cast this

end

section
variable {K X T C : Type} [DecidableEq K] {L : Lang K X T C} {txt : X → Text}
variable {R : Type} [Field R] [LinearOrder R] [IsStrictOrderedRing R] [FloorRing R] {I : Interp} {num : Num R → I.V} {A : Reals R} {S : Sem X T C I}

theorem den_hier {n : String} {v : I.V} : den L.cfg I (.hier n) v ↔ I.named n v := by simp [den]

/-- A number between two integers is finite. -/
theorem chain_finite (hn : NumWorld L.cfg num) {op1 op2 : String} {v w z : I.V} (ho : SameWay op1 op2) (hv : I.named "MathInteger_" v)
    (hz : I.named "MathInteger_" z) (h1 : CmpTrue num op1 v w) (h2 : CmpTrue num op2 w z) : w ≠ num (.math .pos) ∧ w ≠ num (.math .neg) := by
  obtain ⟨n, rfl⟩ := (hn.mathInteger _).1 hv
  obtain ⟨m, rfl⟩ := (hn.mathInteger _).1 hz
  obtain ⟨x, y, ex, ey, s1, c1⟩ := h1
  obtain ⟨x', y', ex', ey', s2, c2⟩ := h2
  have ex := hn.inj _ _ ex
  have ey' := hn.inj _ _ ey'
  subst ex ey'
  subst ey
  have ex' := hn.inj _ _ ex'
  subst ex'
  constructor <;> intro h <;> (have h := hn.inj _ _ h; subst h) <;>
    (rcases ho with ⟨g1, g2⟩ | ⟨g1, g2⟩ <;>
     simp only [List.mem_cons, List.not_mem_nil, or_false] at g1 g2 <;>
     first
     | (rcases g1 with rfl | rfl | rfl <;> rcases g2 with rfl | rfl | rfl <;> simp [Compares, Less, Ext.lt] at c1 c2)
     | (rcases g1 with rfl | rfl | rfl | rfl | rfl <;> rcases g2 with rfl | rfl | rfl | rfl | rfl <;> simp [Compares, Less, Ext.lt] at c1 c2))

theorem chain_true (hw : World L.cfg L.ord I) (hn : NumWorld L.cfg num) (hA : A.Ok) (hl : LeavesOk S L) {number : Bool} {a b c : NExpr X}
    {env yes no : Env K} (hf : FlatEnv L.cfg env) (h : tcChain L txt number a b c env = some ((yes, no), [])) {op1 op2 : String} (ho : SameWay op1 op2)
    {σ : Store I} {v w z : I.V} (hσ : Holds L.cfg I env σ) (ha : Value A num S True a σ v) (hb : Value A num S True b σ w)
    (hc : Value A num S True c σ z) (h1 : CmpTrue num op1 v w) (h2 : CmpTrue num op2 w z) : Holds L.cfg I yes σ := by
  have fi : Flat L.cfg mathInt := flat_num hn (by decide)
  unfold tcChain at h
  cases number with
  | true =>
    simp only [if_true] at h
    obtain ⟨_, _, h⟩ := wbind h
    obtain ⟨_, _, h⟩ := wbind h
    obtain ⟨_, _, h⟩ := wbind h
    obtain ⟨_, _, h⟩ := wbind h
    obtain ⟨_, _, h⟩ := wbind h
    obtain ⟨_, _, h⟩ := wbind h
    have := wpure h
    injection this with g1 _
    rw [g1]; exact hσ
  | false =>
    simp only [Bool.false_eq_true, if_false] at h
    obtain ⟨⟨ta, ea⟩, ha1, h⟩ := wbind h
    obtain ⟨_, ha2, h⟩ := wbind h
    obtain ⟨⟨tb, eb⟩, hb1, h⟩ := wbind h
    obtain ⟨u, hu, h⟩ := wbind h
    obtain ⟨env1, he1, h⟩ := wbind h
    obtain ⟨⟨tc, ec⟩, hc1, h⟩ := wbind h
    obtain ⟨_, hc2, h⟩ := wbind h
    obtain ⟨env2, hn2, h⟩ := wbind h
    have := wpure h
    injection this with g1 _
    rw [g1]
    obtain ⟨fu, du⟩ := anyOf_num hw hn (by decide) hu
    obtain ⟨fa, _, _, ra⟩ := tcN_ok (A := A) hw hn hA hl a hf ha1
    obtain ⟨fb, feb, _, rb⟩ := tcN_ok (A := A) hw hn hA hl b hf hb1
    obtain ⟨fc, _, _, rc⟩ := tcN_ok (A := A) hw hn hA hl c hf hc1
    have va := den_hier.1 (assert_ok hw fi fa ha2 v ((ra σ hσ).1 v ha))
    have vc := den_hier.1 (assert_ok hw fi fc hc2 z ((rc σ hσ).1 z hc))
    obtain ⟨e1, hu1⟩ := ensure_ok hw fu fb he1
    simp only at e1
    subst e1
    have hb' := (rb σ hσ).2 ⟨w, hb⟩
    have vb := (du w).1 (hu1 w ((rb σ hσ).1 w hb))
    have hnot := chain_finite hn ho va vc h1 h2
    have vb' : I.named "MathInteger_" w := by
      obtain ⟨n, hnm, hv'⟩ := vb
      simp only [List.mem_cons, List.not_mem_nil, or_false] at hnm
      rcases hnm with rfl | rfl | rfl
      · exact hv'
      · exact absurd ((hn.mathNeg _).1 hv') hnot.2
      · exact absurd ((hn.mathPos _).1 hv') hnot.1
    exact (narrow_ok (A := A) (S := S) hw hn hA hl feb fi hn2).2.2 σ w hb' hb (den_hier.2 vb')

theorem in_ok (hw : World L.cfg L.ord I) (hn : NumWorld L.cfg num) (hA : A.Ok) (hl : LeavesOk S L) {isIn closed : Bool} {x : String} {lo hi : NExpr X}
    {env yes no : Env K} (hf : FlatEnv L.cfg env) (h : tcIn L txt isIn x lo hi env = some ((yes, no), [])) {σ : Store I} (hσ : Holds L.cfg I env σ)
    {v w : I.V} (hlo : Value A num S True lo σ v) (hhi : Value A num S True hi σ w) :
    ∃ (l m : ℤ) (e : Ext R), v = num (.math (.fin l)) ∧ w = num (.math (.fin m)) ∧ σ x = num (.math e) ∧
      ((Within closed l m e ↔ isIn = true) → Holds L.cfg I yes σ) ∧ (¬ (Within closed l m e ↔ isIn = true) → Holds L.cfg I no σ) := by
  have fi : Flat L.cfg mathInt := flat_num hn (by decide)
  unfold tcIn at h
  obtain ⟨⟨ta, ea⟩, ha1, h⟩ := wbind h
  obtain ⟨_, ha2, h⟩ := wbind h
  obtain ⟨⟨tb, eb⟩, hb1, h⟩ := wbind h
  obtain ⟨_, hb2, h⟩ := wbind h
  obtain ⟨⟨t, env1⟩, hx, h⟩ := wbind h
  obtain ⟨fa, _, _, ra⟩ := tcN_ok (A := A) hw hn hA hl lo hf ha1
  obtain ⟨fb, _, _, rb⟩ := tcN_ok (A := A) hw hn hA hl hi hf hb1
  have va := den_hier.1 (assert_ok hw fi fa ha2 v ((ra σ hσ).1 v hlo))
  have vb := den_hier.1 (assert_ok hw fi fb hb2 w ((rb σ hσ).1 w hhi))
  obtain ⟨l, el⟩ := (hn.mathInteger _).1 va
  obtain ⟨m, em⟩ := (hn.mathInteger _).1 vb
  obtain ⟨ft, fe, _, rx⟩ := run_leaf (A := A) (num := num) hl hf hx
  have hvx : Value A num S True (.leaf (.var x)) σ (σ x) := by rw [Value]; rfl
  have h1 := (rx σ hσ).2 ⟨_, hvx⟩
  have dx := (rx σ hσ).1 _ hvx
  simp only at h
  by_cases he : tyEq t mathInt = true
  · rw [if_pos he] at h
    have := wpure h
    injection this with g1 g2
    have dx := den_hier.1 ((tyEq_den he _).1 dx)
    obtain ⟨k, ek⟩ := (hn.mathInteger _).1 dx
    exact ⟨l, m, .fin k, el, em, ek, fun _ => by rw [g1]; exact h1, fun _ => by rw [g2]; exact h1⟩
  · rw [if_neg he] at h
    obtain ⟨u, hu, h⟩ := wbind h
    obtain ⟨fu, du⟩ := anyOf_num hw hn (by decide) hu
    by_cases he2 : tyEq t u = true
    · rw [if_pos he2] at h
      obtain ⟨inside, hin, h⟩ := wbind h
      have := wpure h
      have dx := (du _).1 ((tyEq_den he2 _).1 dx)
      have hex : ∃ e : Ext R, σ x = num (.math e) := by
        obtain ⟨n, hnm, hv'⟩ := dx
        simp only [List.mem_cons, List.not_mem_nil, or_false] at hnm
        rcases hnm with rfl | rfl | rfl
        · obtain ⟨k, ek⟩ := (hn.mathInteger _).1 hv'; exact ⟨_, ek⟩
        · exact ⟨_, (hn.mathNeg _).1 hv'⟩
        · exact ⟨_, (hn.mathPos _).1 hv'⟩
      obtain ⟨e, ee⟩ := hex
      have key : Within closed l m e → Holds L.cfg I inside σ := by
        intro hwi
        have vi : I.named "MathInteger_" (σ x) := by
          obtain ⟨n, hnm, hv'⟩ := dx
          simp only [List.mem_cons, List.not_mem_nil, or_false] at hnm
          rcases hnm with rfl | rfl | rfl
          · exact hv'
          · have := hn.inj _ _ (ee.symm.trans ((hn.mathNeg _).1 hv'))
            injection this with this
            subst this
            exact absurd trivial hwi.1
          · have := hn.inj _ _ (ee.symm.trans ((hn.mathPos _).1 hv'))
            injection this with this
            subst this
            have := hwi.2
            cases closed
            · exact absurd this (by simp [Ext.lt])
            · exact absurd this (by simp [Ext.lt])
        exact (narrow_ok (A := A) (S := S) hw hn hA hl fe fi hin).2.2 σ _ h1 hvx (den_hier.2 vi)
      refine ⟨l, m, e, el, em, ee, fun hh => ?_, fun hh => ?_⟩
      · cases isIn with
        | true =>
          simp only [if_true] at this
          injection this with g1 g2
          rw [g1]; exact key (hh.2 rfl)
        | false =>
          simp only [Bool.false_eq_true, if_false] at this
          injection this with g1 g2
          rw [g1]; exact h1
      · cases isIn with
        | true =>
          simp only [if_true] at this
          injection this with g1 g2
          rw [g2]; exact h1
        | false =>
          simp only [Bool.false_eq_true, if_false] at this
          injection this with g1 g2
          rw [g2]
          refine key ?_
          by_contra hc
          exact hh ⟨fun k => absurd k hc, fun k => by cases k⟩
    · rw [if_neg he2] at h
      exact (wfail h).elim

end

/-! ## Execution -/

section
variable {X T C : Type} {R : Type} [Field R] [LinearOrder R] [IsStrictOrderedRing R] [FloorRing R] {I : Interp} {num : Num R → I.V} {A : Reals R} {S : Sem X T C I}

theorem exec_ok {ρ : Expr X → Option Int} {σ : Store I} (hρ : ∀ e n, ρ e = some n → Eval S e σ (num (.math (.fin (n : R))))) :
    ∀ (e : NExpr X) (n : ℤ), exec ρ e = some n → Value A num S True e σ (num (.math (.fin (n : R))))
  | .leaf e, n, h => by rw [exec] at h; rw [Value]; exact hρ e n h
  | .int k, n, h => by
    rw [exec] at h; injection h with h; subst h; rw [Value]; simp
  | .bin op a b, n, h => by
    rw [exec] at h
    cases ha : exec ρ a with
    | none => rw [ha] at h; cases h
    | some x =>
      cases hb : exec ρ b with
      | none => rw [ha, hb] at h; cases h
      | some y =>
        rw [ha, hb] at h
        simp only [Option.bind_eq_bind, Option.bind_some] at h
        have va := exec_ok hρ a x ha
        have vb := exec_ok hρ b y hb
        have nd : op ≠ "/" := by rintro rfl; simp at h
        rw [Value]
        by_cases h1 : op = "+" ∨ op = "plus"
        · rw [if_pos h1] at h
          injection h with h; subst h
          refine ⟨.add, _, _, _, by simp [opOf, h1], va, vb, ⟨_, rfl, rfl⟩, by rw [Int.cast_add], fun _ => ⟨trivial, fun hd => absurd hd.1 nd⟩⟩
        · rw [if_neg h1] at h
          by_cases h2 : op = "&times;" ∨ op = "times" ∨ op = "×"
          · rw [if_pos h2] at h
            injection h with h; subst h
            refine ⟨.mul, _, _, _, ?_, va, vb, ⟨_, rfl, rfl⟩, by rw [Int.cast_mul], fun _ => ⟨trivial, fun hd => absurd hd.1 nd⟩⟩
            rcases h2 with rfl | rfl | rfl <;> simp [opOf]
          · rw [if_neg h2] at h
            by_cases h3 : op = "-"
            · rw [if_pos h3] at h
              injection h with h; subst h
              refine ⟨.sub, _, _, _, by simp [opOf, h3], va, vb, ⟨_, rfl, rfl⟩, by rw [Int.cast_sub, sub_eq_add_neg], fun _ => ⟨trivial, fun hd => absurd hd.1 nd⟩⟩
            · rw [if_neg h3] at h
              by_cases h4 : op = "modulo"
              · rw [if_pos h4] at h
                by_cases h5 : y = 0
                · rw [if_pos h5] at h; cases h
                · rw [if_neg h5] at h
                  injection h with h; subst h
                  have hy : (y : R) ≠ 0 := by exact_mod_cast h5
                  refine ⟨.mod, _, _, .math (.fin ((x.fmod y : ℤ) : R)), by simp [opOf, h4], va, vb, ⟨.fin ((x.fmod y : ℤ) : R), ?_, rfl⟩, rfl, fun _ => ⟨trivial, fun hd => absurd hd.1 nd⟩⟩
                  rw [(modulo_iff hy).1 (fmod_modulo h5)]
                  simp [extOp, modX, hy]
              · rw [if_neg h4] at h; cases h
  | .power a b, n, h => by
    rw [exec] at h
    cases ha : exec ρ a with
    | none => rw [ha] at h; cases h
    | some x =>
      cases hb : exec ρ b with
      | none => rw [ha, hb] at h; cases h
      | some y =>
        rw [ha, hb] at h
        simp only [Option.bind_eq_bind, Option.bind_some] at h
        by_cases hy : 0 ≤ y
        · rw [if_pos hy] at h
          injection h with h; subst h
          rw [Value]
          refine ⟨_, _, _, exec_ok hρ a x ha, exec_ok hρ b y hb, ⟨x, y, rfl, rfl, rfl⟩, ?_, fun _ s hs => ?_⟩
          · obtain ⟨k, rfl⟩ := Int.eq_ofNat_of_zero_le hy
            simp
          · injection hs with hs; injection hs with hs; rw [← hs]; exact_mod_cast hy
        · rw [if_neg hy] at h; cases h
  | .fn f a, n, h => by
    rw [exec] at h
    cases ha : exec ρ a with
    | none => rw [ha] at h; cases h
    | some x =>
      rw [ha] at h
      simp only [Option.bind_eq_bind, Option.bind_some] at h
      by_cases hf : f = "floor"
      · rw [if_pos hf] at h
        injection h with h; subst h
        rw [Value]
        refine ⟨_, .math (.fin ((x : ℤ) : R)), exec_ok hρ a x ha, ?_, rfl, fun _ h' => by rw [hf] at h'; exact absurd h' (by decide)⟩
        exact .inr (.inr (.inr (.inl ⟨hf, x, rfl, by rw [Int.floor_intCast]⟩)))
      · rw [if_neg hf] at h; cases h
  | .const _, _, h | .posInf, _, h | .negInf, _, h | .numPosInf, _, h | .numNegInf, _, h | .nan, _, h | .numHalf _, _, h | .numInt _, _, h
  | .bigInt _, _, h | .neg _, _, h | .negative _, _, h | .remainder _ _, _, h | .clamp _ _ _, _, h | .extended _, _, h | .choice _ _, _, h
  | .minMax _ _, _, h => by rw [exec] at h; cases h; all_goals (intros; simp_all)

theorem compareInts_ok {x y : ℤ} {op : String} {b : Bool} (h : compareInts x op y = some b) (ho : op ≠ "&gt;") :
    b = true ↔ Compares op (.math (.fin (x : R))) (.math (.fin (y : R))) := by
  unfold compareInts at h
  by_cases h1 : op = "≤"
  · rw [if_pos h1] at h
    injection h with h; subst h; subst h1
    simp [Compares, Less, Ext.lt, le_iff_lt_or_eq]
  · rw [if_neg h1] at h
    by_cases h2 : op = "≥" ∨ op = "is greater than or equal to"
    · rw [if_pos h2] at h
      injection h with h; subst h
      have e : y ≤ x ↔ y < x ∨ x = y := by omega
      rcases h2 with rfl | rfl <;> simp [Compares, Less, Ext.lt, e]
    · rw [if_neg h2] at h
      by_cases h3 : op = "&gt;" ∨ op = "is strictly greater than"
      · rw [if_pos h3] at h
        injection h with h; subst h
        rcases h3 with rfl | rfl
        · exact absurd rfl ho
        · simp [Compares, Less, Ext.lt]
      · rw [if_neg h3] at h; cases h

end
end Verif.Arith
