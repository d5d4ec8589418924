import Verif.Arith.ChainLemmas
import Verif.Arith.TightLemmas
import Verif.Arith.World
import Verif.Env.Props
/-!
# Properties of the analysis of arithmetic and comparisons, and of their execution
-/
set_option linter.unusedSectionVars false
namespace Verif.Arith
open Verif.Types Verif.Env Verif.Calls

/-! ## The values of expressions, case by case -/

section
variable {X T C : Type} {R : Type} [Field R] [LinearOrder R] [IsStrictOrderedRing R] [FloorRing R] {I : Interp} {num : Num R → I.V} {A : Reals R} {S : Sem X T C I}
  {u : Prop} {σ : Store I} {v : I.V}

theorem value_leaf {e : Expr X} (h : Eval S e σ v) : Value A num S u (.leaf e) σ v := by rw [Value]; exact h
theorem value_int {n : Nat} : Value A num S u (.int n) σ (num (.math (.fin (n : R)))) := by rw [Value]
theorem value_posInf : Value A num S u .posInf σ (num (.math .pos)) := by rw [Value]
theorem value_numPosInf : Value A num S u .numPosInf σ (num (.number .pos)) := by rw [Value]
theorem value_bin {op : String} {a b : NExpr X} (h : ∃ o x y z, opOf op = some o ∧ Value A num S u a σ (num x) ∧ Value A num S u b σ (num y) ∧ Calc A o x y z ∧
    v = num z ∧ (u → UsualBin o x y z ∧ (DigitShift op a b → ∃ n : ℤ, z = .math (.fin n)))) : Value A num S u (.bin op a b) σ v := by rw [Value]; exact h
theorem value_neg {a : NExpr X} (h : ∃ x z, Value A num S u a σ (num x) ∧ Neg x z ∧ v = num z ∧ (u → UsualNeg x)) : Value A num S u (.neg a) σ v := by
  rw [Value]; exact h
theorem value_power {a b : NExpr X} (h : ∃ x y z, Value A num S u a σ (num x) ∧ Value A num S u b σ (num y) ∧ Pow x y z ∧ v = num z ∧ (u → UsualPow y)) :
    Value A num S u (.power a b) σ v := by rw [Value]; exact h
theorem value_fn {f : String} {a : NExpr X} (h : ∃ x z, Value A num S u a σ (num x) ∧ Fun A f x z ∧ v = num z ∧ (u → UsualFun A f x)) :
    Value A num S u (.fn f a) σ v := by rw [Value]; exact h
theorem value_minMax {f : String} {as : List (NExpr X)} (h : ∃ xs z, Values A num S u as σ xs ∧ MinMax f xs z ∧ v = num z ∧ (u → UsualMinMax f xs)) :
    Value A num S u (.minMax f as) σ v := by rw [Value]; exact h
theorem values_nil : Values A num S u [] σ ([] : List (Num R)) := by rw [Values]
theorem values_cons {a : NExpr X} {as : List (NExpr X)} {x : Num R} {xs : List (Num R)} (h : Value A num S u a σ (num x)) (hs : Values A num S u as σ xs) :
    Values A num S u (a :: as) σ (x :: xs) := by rw [Values]; exact ⟨x, xs, h, hs, rfl⟩

end

/-! ## The example -/

/-- Numbers are rounded to themselves, up to 1000. -/
def wA : Reals ℚ where
  round := fun r => if |r| ≤ 1000 then .fin r else if r < 0 then .neg else .pos
  log := fun f r s => f = "log2" ∧ 0 < r ∧ ∃ n : ℕ, r = 2 ^ n ∧ s = n
  const := fun c => if c = .half then 1 / 2 else 3

theorem wA_ok : wA.Ok where
  int := by
    intro n r h
    simp only [wA] at h
    split at h
    · injection h with h; exact ⟨n, h.symm⟩
    · split at h <;> cases h
  small := by
    intro n h
    have h' : |(n : ℚ)| ≤ 64 := by exact_mod_cast h
    have h2 : |(n : ℚ) / 4| ≤ 1000 := by rw [abs_div, div_le_iff₀ (by norm_num)]; norm_num; linarith
    simp [wA, h2]

/-- The only other expression is of some mathematical value. -/
def wL : Lang Unit Unit Unit Unit where
  cfg := wCfg
  ord := Types.exOrd
  expr := fun _ env => some ((.hier "MathReal_", env), [])
  cond := fun _ env _ => some ((some env, some env), [])
  bracket := fun _ => (T0, .hier "Tangible_")
  expected := fun _ => .hier "Tangible_"
  wraps := fun _ => false
  outerVars := fun _ => []

def wS : Sem Unit Unit Unit wI where
  eval := fun _ _ v => v = WV.num (.math (.fin (1 / 2)))
  holds := fun _ _ => True
  desc := fun _ _ => False

def wTxt : Unit → Text := fun _ => .other

theorem wLeaves : LeavesOk (I := wI) wS wL := by
  intro e env t env' h hf
  simp only [wL, Option.some.injEq, Prod.mk.injEq, and_true] at h
  obtain ⟨rfl, rfl⟩ := h
  refine ⟨flat_hier (by decide), hf, rfl, fun σ v hσ hv => ⟨?_, hσ⟩⟩
  simp only [wS] at hv
  subst hv
  exact den_hier (L := wL).2 ((wN.mathReal _).2 ⟨_, rfl⟩)

/-- `_m_` is an integer or infinite, `_x_` a finite Number, `_n_` an integer. -/
def wEnv : Env Unit := ⟨(), [(.var "_m_", .union [.hier "MathInteger_", .hier "MathNegInfinity_", .hier "MathPosInfinity_"]), (.var "_x_", .hier "FiniteNumber_"), (.var "_n_", .hier "MathInteger_")]⟩

theorem wEnv_flat : FlatEnv wL.cfg wEnv := by
  intro k t h
  simp only [wEnv, Verif.Env.get] at h
  split at h
  · injection h with h; subst h
    intro m hm
    simp only [members, List.mem_cons, List.not_mem_nil, or_false] at hm
    rcases hm with rfl | rfl | rfl <;> exact ⟨_, by decide, rfl⟩
  · split at h
    · injection h with h; subst h; exact flat_hier (by decide)
    · split at h
      · injection h with h; subst h; exact flat_hier (by decide)
      · cases h

def wStore (m : Ext ℚ) (x : ℚ) (n : ℤ) : Store wI := fun y =>
  if y = "_m_" then WV.num (.math m) else if y = "_x_" then WV.num (.number (.fin x)) else if y = "_n_" then WV.num (.math (.fin n)) else WV.unset

theorem wStore_holds (m : Ext ℚ) (x : ℚ) (n : ℤ) (hm : ∀ r, m = .fin r → IsInt r) : Holds wL.cfg wI wEnv (wStore m x n) := by
  intro y
  constructor
  · intro t h
    simp only [wEnv, Verif.Env.get] at h
    split at h
    · rename_i e; injection h with h; subst h; injection e with e; subst e
      refine den_members.2 ?_
      have : wStore m x n "_m_" = WV.num (.math m) := rfl
      rw [this]
      cases m with
      | fin r =>
        obtain ⟨k, rfl⟩ := hm r rfl
        exact ⟨_, List.mem_cons_self, den_hier (L := wL).2 ((wN.mathInteger _).2 ⟨k, rfl⟩)⟩
      | neg => exact ⟨_, List.mem_cons_of_mem _ List.mem_cons_self, den_hier (L := wL).2 ((wN.mathNeg _).2 rfl)⟩
      | pos => exact ⟨_, List.mem_cons_of_mem _ (List.mem_cons_of_mem _ List.mem_cons_self), den_hier (L := wL).2 ((wN.mathPos _).2 rfl)⟩
    · split at h
      · rename_i e; injection h with h; subst h; injection e with e; subst e
        exact den_hier (L := wL).2 ((wN.finite _).2 ⟨x, rfl⟩)
      · split at h
        · rename_i e; injection h with h; subst h; injection e with e; subst e
          exact den_hier (L := wL).2 ((wN.mathInteger _).2 ⟨n, rfl⟩)
        · cases h
  · intro h
    have h1 : y ≠ "_m_" := by rintro rfl; simp [wEnv, Verif.Env.get] at h
    have h2 : y ≠ "_x_" := by rintro rfl; simp [wEnv, Verif.Env.get] at h
    have h3 : y ≠ "_n_" := by rintro rfl; simp [wEnv, Verif.Env.get] at h
    have : wStore m x n y = WV.unset := (if_neg h1).trans ((if_neg h2).trans (if_neg h3))
    rw [this]
    exact wNamed.2 (by decide +kernel)

abbrev var (x : String) : NExpr Unit := .leaf (.var x)

section
variable {K X T C : Type} [DecidableEq K] {L : Lang K X T C} {txt : X → Text}
variable {R : Type} [Field R] [LinearOrder R] [IsStrictOrderedRing R] [FloorRing R] {I : Interp} {num : Num R → I.V} {A : Reals R} {S : Sem X T C I}

/-! ## C70 -/

/-- C70.  If the analysis of an arithmetic expression gives no message, each value that the expression can have is of the static type it gives,
and the environment afterwards is right, in all executions where everything is as the analysis takes for granted. -/
theorem c70_sound (hw : World L.cfg L.ord I) (hn : NumWorld L.cfg num) (hA : A.Ok) (hl : LeavesOk S L) {e : NExpr X} {env env' : Env K} {t : Ty}
    (hf : FlatEnv L.cfg env) (h : tcN L txt e env = some ((t, env'), [])) {σ : Store I} (hσ : Holds L.cfg I env σ) {v : I.V}
    (hv : Value A num S True e σ v) : den L.cfg I t v ∧ Holds L.cfg I env' σ := by
  obtain ⟨_, _, _, hr⟩ := tcN_ok hw hn hA hl e hf h
  exact ⟨(hr σ hσ).1 v hv, (hr σ hσ).2 ⟨v, hv⟩⟩

/-- C70, no entry of the table is too wide: a numeric type that has all results which operands of the two types can have is no narrower. -/
theorem c70_tight (hn : NumWorld L.cfg num) (hA : A.Ok) {a b op n m : String} {o : Op} (h : cell arithTable (.hier a) op (.hier b) = some (.ty n))
    (ho : opOf op = some o) (hm : m ∈ numeric)
    (hall : ∀ x y z, I.named a (num x) → I.named b (num y) → Calc A o x y z → UsualBin o x y z → I.named m (num z)) :
    ∀ v, I.named n v → I.named m v :=
  tight (cfg := L.cfg) hn hA h ho hm hall

/-- C70, complaints: they are given where the table has no type, and each is to the point.  An operand said to be no number is none; one said to
include NaN, or infinities, does. -/
theorem c70_complaints (hn : NumWorld L.cfg num) (hoff : ∀ n ∈ ["not_set", "tilde_empty_", "tilde_auto_"], ∀ z, ¬ I.named n (num z)) {a b op : String} {c : Cell}
    (h : cell arithTable (.hier a) op (.hier b) = some c) :
    (c = .aNonNumeric → ∀ z, ¬ I.named a (num z)) ∧ (c = .bNonNumeric → ∀ z, ¬ I.named b (num z)) ∧ (c = .aNaN → I.named a (num .nan)) ∧
    (c = .aInfinite → I.named a (num (.math .pos)) ∧ I.named a (num (.math .neg))) ∧
    ((∀ n, c ≠ .ty n) → isChar (.hier a) = false → ∃ t m, typeArith (.hier a) op (.hier b) = some (t, [m])) := by
  have hmem := lookup_mem (l := arithTable) (a := (a, op, b)) (b := c) h
  have k1 : ∀ e ∈ arithTable, e.2 = .aNonNumeric → e.1.1 ∈ ["not_set", "tilde_empty_", "tilde_auto_"] := by decide +kernel
  have k2 : ∀ e ∈ arithTable, e.2 = .bNonNumeric → e.1.2.2 ∈ ["not_set", "tilde_empty_", "tilde_auto_"] := by decide +kernel
  have k3 : ∀ e ∈ arithTable, e.2 = .aNaN → e.1.1 = "Number" := by decide +kernel
  have k4 : ∀ e ∈ arithTable, e.2 = .aInfinite → e.1.1 = "ExtendedMathReal_" := by decide +kernel
  refine ⟨fun e => hoff _ (k1 _ hmem e), fun e => hoff _ (k2 _ hmem e), fun e => ?_, fun e => ?_, fun hc hch => ?_⟩
  · have := k3 _ hmem e
    simp only at this
    rw [this]
    exact (hn.number _).2 (.inr rfl)
  · have := k4 _ hmem e
    simp only at this
    rw [this]
    exact ⟨(hn.extended _).2 ⟨_, rfl⟩, (hn.extended _).2 ⟨_, rfl⟩⟩
  · unfold typeArith
    rw [hch]
    simp only [Bool.false_eq_true, if_false]
    simp only [bind, W.bind, W.pure, h]
    cases c with
    | ty n => exact absurd rfl (hc n)
    | aNonNumeric => exact ⟨_, _, rfl⟩
    | bNonNumeric => exact ⟨_, _, rfl⟩
    | aNaN => exact ⟨_, _, rfl⟩
    | aInfinite => exact ⟨_, _, rfl⟩

/-- C70: the value the specification has for `modulo` is the only one that fits ECMA-262's definition. -/
theorem c70_modulo {r s k : R} (hs : s ≠ 0) : Modulo r s k ↔ modX (.fin r) (.fin s) = some (.fin k) := by
  rw [modulo_iff hs, modX, if_neg hs, Option.some.injEq, Ext.fin.injEq, eq_comm]

end

example : World wL.cfg wL.ord wI ∧ NumWorld (R := ℚ) (I := wI) wL.cfg WV.num ∧ wA.Ok ∧ LeavesOk (I := wI) wS wL ∧ FlatEnv wL.cfg wEnv ∧ Holds wL.cfg wI wEnv (wStore .pos (1 / 2) 3) :=
  ⟨wW, wN, wA_ok, wLeaves, wEnv_flat, wStore_holds _ _ _ (fun _ h => by cases h)⟩
example : ∀ n ∈ ["not_set", "tilde_empty_", "tilde_auto_"], ∀ z, ¬ wI.named n (WV.num z) := by
  intro n hn z h
  have h := wNamed.1 h
  have hl : leafOf (WV.num z) ∈ ["MathInteger_", "MathOther_", "MathPosInfinity_", "MathNegInfinity_", "IntegralNumber_", "NonIntegralFiniteNumber_", "PosInfinityNumber_", "NegInfinityNumber_", "NaN_Number_", "BigInt"] := by
    unfold leafOf
    split <;> (try split) <;> simp_all
  have key : ∀ l ∈ ["MathInteger_", "MathOther_", "MathPosInfinity_", "MathNegInfinity_", "IntegralNumber_", "NonIntegralFiniteNumber_", "PosInfinityNumber_", "NegInfinityNumber_", "NaN_Number_", "BigInt"],
    ∀ n ∈ ["not_set", "tilde_empty_", "tilde_auto_"], n ∉ above l := by decide +kernel
  exact key _ hl n hn h
example : cell arithTable (.hier "Number") "-" (.hier "IntegralNumber_") = some .aNaN := by decide +kernel
-- what the analysis says
def tyOf (e : NExpr Unit) : Option (Ty × List Err) := (tcN wL wTxt e wEnv).map (fun r => (r.1.1, r.2))
example : tyOf (.bin "+" (var "_n_") (.int 1)) = some (.hier "MathInteger_", []) := by decide +kernel
example : tyOf (.bin "/" (var "_n_") (.int 2)) = some (.hier "MathReal_", []) := by decide +kernel
example : tyOf (.bin "modulo" (.bin "×" (var "_n_") (.const .half)) (.int 2)) = some (.hier "MathReal_", []) := by decide +kernel
example : tyOf (.bin "×" (var "_x_") .numPosInf) = some (.hier "PosInfinityNumber_", []) := by decide +kernel
example : tyOf (.fn "𝔽" (.fn "floor" (.leaf (.other ())))) = some (.hier "IntegralNumber_", []) := by decide +kernel
example : tyOf (.fn "ℝ" (.bin "-" (var "_x_") (var "_x_"))) = some (.hier "MathReal_", []) := by decide +kernel
example : tyOf (.minMax "min" [var "_m_", .posInf]) = some (.hier "ExtendedMathReal_", []) := by decide +kernel
example : tyOf (.minMax "max" [var "_n_", .negInf]) = some (.hier "MathInteger_", []) := by decide +kernel
example : tyOf (.clamp (var "_m_") (.int 0) (var "_n_")) = some (.hier "MathInteger_", []) := by decide +kernel
example : (tyOf (.bin "+" (var "_n_") (.numInt 1))).isNone = true := by decide +kernel
example : (tyOf (.neg .posInf)).isNone = true := by decide +kernel
example : tyOf (.bin "-" .nan (var "_x_")) = none := by decide +kernel
-- values
example : Value wA (I := wI) WV.num wS True (.bin "/" (var "_n_") (.int 2)) (wStore .pos (1 / 2) 3) (WV.num (.math (.fin (3 / 2)))) := by
  refine value_bin ⟨.div, .math (.fin (3 : ℤ)), .math (.fin (2 : ℕ)), .math (.fin (3 / 2)), rfl, value_leaf rfl, value_int, ⟨.fin (3 / 2), ?_, rfl⟩, rfl, fun _ => ⟨trivial, fun h => ?_⟩⟩
  · norm_num [extOp, divX]
  · rcases h.2.2 with h | h <;> cases h
example : opOf "modulo" = some .mod ∧ cell arithTable (.hier "MathReal_") "modulo" (.hier "MathInteger_") = some (.ty "MathReal_") := by decide +kernel
example : Modulo (-7 : ℚ) 3 2 ∧ Modulo (7 : ℚ) (-3) (-2) :=
  ⟨⟨.inr (by norm_num), by norm_num, -3, by norm_num⟩, ⟨.inr (by norm_num), by norm_num, -3, by norm_num⟩⟩

/-- C70: what the analysis takes for granted is needed.  There are expressions without messages that have values not of their static type: a
negative Number times an infinity, the negation of an infinite Number, a power with a negative exponent, a Number that is too great, and the
minimum of infinities. -/
theorem c70_usual_witness :
    ∀ e ∈ [(.bin "×" (var "_x_") .numPosInf : NExpr Unit), .neg .numPosInf, .power (.int 2) (.neg (.int 1)), .fn "𝔽" (.int 2000), .minMax "min" [.posInf, .posInf]],
      ∃ t env' v, tcN wL wTxt e wEnv = some ((t, env'), []) ∧ Value wA (I := wI) WV.num wS False e (wStore .pos (-1) 3) v ∧ ¬ den wCfg wI t v := by
  intro e he
  simp only [List.mem_cons, List.not_mem_nil, or_false] at he
  rcases he with rfl | rfl | rfl | rfl | rfl
  · refine ⟨.hier "PosInfinityNumber_", wEnv, WV.num (.number .neg), by rfl, ?_, ?_⟩
    · refine value_bin ⟨.mul, .number (.fin (-1)), .number .pos, .number .neg, rfl, value_leaf rfl, value_numPosInf, ⟨by decide, ?_⟩, rfl, fun h => h.elim⟩
      norm_num [extOp, mulX, Ext.opp]
    · intro h
      have := (wN.posInfinity _).1 (den_hier (L := wL).1 h)
      cases this
  · refine ⟨.hier "PosInfinityNumber_", wEnv, WV.num (.number .neg), by rfl, ?_, ?_⟩
    · exact value_neg ⟨.number .pos, .number .neg, value_numPosInf, rfl, rfl, fun h => h.elim⟩
    · intro h
      have := (wN.posInfinity _).1 (den_hier (L := wL).1 h)
      cases this
  · refine ⟨.hier "MathInteger_", wEnv, WV.num (.math (.fin (2 ^ (-1 : ℤ)))), by rfl, ?_, ?_⟩
    · refine value_power ⟨.math (.fin (2 : ℕ)), .math (.fin (-(1 : ℕ))), .math (.fin (2 ^ (-1 : ℤ))), value_int,
        value_neg ⟨.math (.fin (1 : ℕ)), .math (.fin (-(1 : ℕ))), value_int, rfl, rfl, fun h => h.elim⟩, ⟨2, -1, by norm_num, by norm_num, by norm_num⟩, rfl, fun h => h.elim⟩
    · intro h
      obtain ⟨n, h⟩ := (wN.mathInteger _).1 (den_hier (L := wL).1 h)
      injection h with h; injection h with h; injection h with h
      have h1 : (1 : ℚ) = 2 * n := by rw [← h]; norm_num
      have h2 : (1 : ℤ) = 2 * n := by exact_mod_cast h1
      omega
  · refine ⟨.hier "IntegralNumber_", wEnv, WV.num (.number .pos), by rfl, ?_, ?_⟩
    · refine value_fn ⟨.math (.fin (2000 : ℕ)), .number .pos, value_int, .inl ⟨rfl, ?_⟩, rfl, fun h => h.elim⟩
      norm_num [wA]
    · intro h
      obtain ⟨n, h⟩ := (wN.integral _).1 (den_hier (L := wL).1 h)
      injection h with h; injection h with h; cases h
  · refine ⟨.hier "MathInteger_", wEnv, WV.num (.math .pos), by rfl, ?_, ?_⟩
    · refine value_minMax ⟨[.math .pos, .math .pos], .math .pos, values_cons value_posInf (values_cons value_posInf values_nil), ?_, rfl, fun h => h.elim⟩
      · refine ⟨by simp, fun x hx => ⟨.pos, by simpa using hx⟩, .inl ⟨rfl, fun x hx e he => ?_⟩⟩
        injection he with he
        subst he
        cases x <;> simp [Ext.lt] at hx ⊢
    · intro h
      obtain ⟨n, h⟩ := (wN.mathInteger _).1 (den_hier (L := wL).1 h)
      injection h with h; injection h with h; cases h

/-! ## C71 -/

section
variable {K X T C : Type} [DecidableEq K] {L : Lang K X T C} {txt : X → Text}
variable {R : Type} [Field R] [LinearOrder R] [IsStrictOrderedRing R] [FloorRing R] {I : Interp} {num : Num R → I.V} {A : Reals R} {S : Sem X T C I}

/-- C71, the table of comparisons.  For each entry but one: if a comparison of values of the two types can be true, false or an error, the entry says
so; and if the entry says so, then it can. -/
theorem c71_verdict (hn : NumWorld L.cfg num) {a b op s : String} (h : cell cmpTable (.hier a) op (.hier b) = some s)
    (hne : ¬ (a = "MathPosInfinity_" ∧ op = ">" ∧ b = "FiniteNumber_")) (ha : a ≠ "tilde_bigint_") (ha' : a ≠ "tilde_number_")
    (hia : ∃ v, I.named a v) (hib : ∃ w, I.named b w) :
    ('T' ∈ s.toList ↔ ∃ v w : I.V, I.named a v ∧ I.named b w ∧ CmpTrue num op v w) ∧
    ('F' ∈ s.toList ↔ ∃ v w : I.V, I.named a v ∧ I.named b w ∧ CmpFalse num op v w) ∧
    ('E' ∈ s.toList ↔ ∃ v w : I.V, I.named a v ∧ I.named b w ∧ ¬ Comparable num v w) := by
  obtain ⟨h1, h2, h3, h4⟩ := verdict hn h (fun e => hne (by injection e with e1 e2; injection e2 with e2 e3; exact ⟨e1, e2, e3⟩))
  exact ⟨⟨fun hT => h2 hT ha ha', fun ⟨v, w, hv, hw, hc⟩ => (h1 v w hv hw).1 hc⟩, ⟨fun hF => h3 hF ha ha', fun ⟨v, w, hv, hw, hc⟩ => (h1 v w hv hw).2.1 hc⟩,
    ⟨fun hE => h4 hE hia hib, fun ⟨v, w, hv, hw, hc⟩ => (h1 v w hv hw).2.2 hc⟩⟩

/-- C71: the exception.  Nothing is said of the comparison of a mathematical infinity with a Number. -/
theorem c71_mixed_witness : cell cmpTable (.hier "MathPosInfinity_") ">" (.hier "FiniteNumber_") = some "T" ∧
    ∃ v w, wI.named "MathPosInfinity_" v ∧ wI.named "FiniteNumber_" w ∧ ¬ Comparable (I := wI) WV.num v w := by
  refine ⟨by decide +kernel, WV.num (.math .pos), WV.num (.number (.fin 0)), (wN.mathPos _).2 rfl, (wN.finite _).2 ⟨_, rfl⟩, ?_⟩
  rintro ⟨x, y, hx, hy, hs⟩
  injection hx with hx
  injection hy with hy
  subst hx hy
  exact hs

/-- C71.  If the analysis of a comparison gives no message, then the environment for the case that it holds is right when it holds, and that for the
case that it does not hold is right when it does not; and the two values can be compared, apart from the exception. -/
theorem c71_sound (hw : World L.cfg L.ord I) (hn : NumWorld L.cfg num) (hA : A.Ok) (hl : LeavesOk S L) {op : String} {a b : NExpr X} {inAssert : Bool}
    {env : Env K} {yes no : Option (Env K)} (hf : FlatEnv L.cfg env) (h : tcCompare L txt op a b inAssert env = some ((yes, no), [])) {σ : Store I}
    (hσ : Holds L.cfg I env σ) {v w : I.V} (hv : Value A num S True a σ v) (hw' : Value A num S True b σ w) :
    (CmpTrue num op v w → Covers L.cfg I yes σ) ∧ (CmpFalse num op v w → Covers L.cfg I no σ) ∧
    (¬ Comparable num v w → op = ">" ∧ v = num (.math .pos) ∧ ∃ r, w = num (.number (.fin r))) := by
  unfold tcCompare at h
  obtain ⟨⟨ta, env1⟩, h1, h⟩ := wbind h
  obtain ⟨⟨tb, env2⟩, h2, h⟩ := wbind h
  simp only at h
  by_cases h0 : (tyEq ta T0 || tyEq tb T0) = true
  · rw [if_pos h0] at h; exact (wfail h).elim
  rw [if_neg h0] at h
  have h : ∃ r, compareLoop L txt op a b env2 ((L.ord (members ta)).flatMap (fun x => (L.ord (members tb)).map (fun y => (x, y)))) = some (r, []) ∧
      ∃ y', W.lift (envsOr L.cfg L.ord (r.1.map some)) = some (y', []) ∧ ∃ n', W.lift (envsOr L.cfg L.ord (r.2.map some)) = some (n', []) ∧
        W.pure (y', n') = some ((yes, no), []) := by
    by_cases ho : op = "=" ∨ op = "≠"
    · rw [if_pos ho] at h
      obtain ⟨p, _, h⟩ := wbind h
      by_cases hp : p = Comparator.eq
      · rw [if_pos hp] at h
        obtain ⟨_, _, h⟩ := wbind h
        obtain ⟨r, hr, h⟩ := wbind h
        obtain ⟨y', hy, h⟩ := wbind h
        obtain ⟨n', hn', h⟩ := wbind h
        exact ⟨r, hr, y', hy, n', hn', h⟩
      · rw [if_neg hp] at h
        obtain ⟨_, ht, _⟩ := wbind h
        exact (wtell ht).elim
    · rw [if_neg ho] at h
      obtain ⟨_, _, h⟩ := wbind h
      obtain ⟨r, hr, h⟩ := wbind h
      obtain ⟨y', hy, h⟩ := wbind h
      obtain ⟨n', hn', h⟩ := wbind h
      exact ⟨r, hr, y', hy, n', hn', h⟩
  obtain ⟨⟨ts, fs⟩, hr, y', hy, n', hn', h⟩ := h
  have := wpure h
  injection this with g1 g2
  subst g1 g2
  obtain ⟨fa, fe1, c1, ra⟩ := tcN_ok (A := A) hw hn hA hl a hf h1
  obtain ⟨fb, fe2, c2, rb⟩ := tcN_ok (A := A) hw hn hA hl b fe1 h2
  have hσ1 := (ra σ hσ).2 ⟨v, hv⟩
  have hσ2 := (rb σ hσ1).2 ⟨w, hw'⟩
  obtain ⟨mp, hmp, dp⟩ := den_members.1 ((ra σ hσ).1 v hv)
  obtain ⟨mq, hmq, dq⟩ := den_members.1 ((rb σ hσ1).1 w hw')
  obtain ⟨p, _, rfl⟩ := fa mp hmp
  obtain ⟨q, _, rfl⟩ := fb mq hmq
  have hps : ∀ z ∈ ((L.ord (members ta)).flatMap (fun x => (L.ord (members tb)).map (fun y => (x, y)))), Flat L.cfg z.1 ∧ Flat L.cfg z.2 := by
    intro z hz
    obtain ⟨x, hx, hz⟩ := List.mem_flatMap.1 hz
    obtain ⟨y, hy, rfl⟩ := List.mem_map.1 hz
    obtain ⟨n1, k1, rfl⟩ := fa x (((hw.ordOk _).2 _).1 hx)
    obtain ⟨n2, k2, rfl⟩ := fb y (((hw.ordOk _).2 _).1 hy)
    exact ⟨flat_hier k1, flat_hier k2⟩
  obtain ⟨l1, l2⟩ := loop_ok (A := A) (S := S) hw hn hA hl fe2 hps hr
  have hmem : (Ty.hier p, Ty.hier q) ∈ ((L.ord (members ta)).flatMap (fun x => (L.ord (members tb)).map (fun y => (x, y)))) :=
    List.mem_flatMap.2 ⟨_, ((hw.ordOk _).2 _).2 hmp, List.mem_map.2 ⟨_, ((hw.ordOk _).2 _).2 hmq, rfl⟩⟩
  obtain ⟨k1, k2, k3⟩ := l2 p q hmem σ v w hσ2 hv hw' (den_hier.1 dp) (den_hier.1 dq)
  refine ⟨fun hc => ?_, fun hc => ?_, fun hc => ?_⟩
  · obtain ⟨e, he, hh⟩ := k1 hc
    exact c33_or_covers hw (k := env2.ctx) (fun e' he' => by
      obtain ⟨e'', m1, m2⟩ := List.mem_map.1 he'; injection m2 with m2; subst m2; exact l1 e'' (List.mem_append_left _ m1)) (wlift hy) (List.mem_map.2 ⟨e, he, rfl⟩) ⟨e, rfl, hh⟩
  · obtain ⟨e, he, hh⟩ := k2 hc
    exact c33_or_covers hw (k := env2.ctx) (fun e' he' => by
      obtain ⟨e'', m1, m2⟩ := List.mem_map.1 he'; injection m2 with m2; subst m2; exact l1 e'' (List.mem_append_right _ m1)) (wlift hn') (List.mem_map.2 ⟨e, he, rfl⟩) ⟨e, rfl, hh⟩
  · have e := k3 hc
    injection e with e1 e2
    injection e2 with e2 e3
    subst e1 e2 e3
    exact ⟨rfl, (hn.mathPos _).1 (den_hier.1 dp), (hn.finite _).1 (den_hier.1 dq)⟩

end

-- `_m_ ≥ 0`, where `_m_` may be infinite: if it holds, `_m_` isn't -∞; if it doesn't hold, `_m_` isn't +∞
def varsOf (r : Option (Env Unit)) (x : String) : Option Ty := r.bind (fun e => Verif.Env.get e.vars (.var x))
def wCompare (op : String) (a b : NExpr Unit) (x : String) : Option (Option Ty × Option Ty × List Err) :=
  (tcCompare wL wTxt op a b false wEnv).map (fun r => (varsOf r.1.1 x, varsOf r.1.2 x, r.2))
example : wCompare "≥" (var "_m_") (.int 0) "_m_" =
    some (some (.union [.hier "MathInteger_", .hier "MathPosInfinity_"]), some (.union [.hier "MathInteger_", .hier "MathNegInfinity_"]), []) := by decide +kernel
example : wCompare "=" (var "_n_") (.int 0) "_n_" = some (some (.hier "MathInteger_"), some (.hier "MathInteger_"), []) := by decide +kernel
example : wCompare "≤" (var "_n_") (.int 0) "_n_" = some (some (.hier "MathInteger_"), some (.hier "MathInteger_"), []) := by decide +kernel
-- in an assertion, `=` should not be used
example : (tcCompare wL wTxt "=" (var "_n_") (.int 0) true wEnv).map (fun r => r.2.length) = some 1 := by decide +kernel
-- comparing different kinds
example : wCompare "≥" (var "_n_") (var "_x_") "_n_" = none := by decide +kernel
example : CmpTrue (I := wI) WV.num "≥" (WV.num (.math .pos)) (WV.num (.math (.fin 0))) :=
  ⟨_, _, rfl, rfl, trivial, by simp [Compares, Less, Ext.lt]⟩
example : CmpFalse (I := wI) WV.num "&lt;" (WV.num (.number (.fin 1))) (WV.num (.number (.fin 0))) :=
  ⟨_, _, rfl, rfl, trivial, by norm_num [Compares, Less, Ext.lt]; decide⟩
example : (∃ v, wI.named "FiniteNumber_" v) ∧ (∃ v, wI.named "IntegralNumber_" v) ∧ cell cmpTable (.hier "FiniteNumber_") ">" (.hier "IntegralNumber_") = some "TF" :=
  ⟨⟨WV.num (.number (.fin 0)), (wN.finite _).2 ⟨_, rfl⟩⟩, ⟨WV.num (.number (.fin (0 : ℤ))), (wN.integral _).2 ⟨_, rfl⟩⟩, by decide +kernel⟩

/-! ## C72 -/

section
variable {K X T C : Type} [DecidableEq K] {L : Lang K X T C} {txt : X → Text}
variable {R : Type} [Field R] [LinearOrder R] [IsStrictOrderedRing R] [FloorRing R] {I : Interp} {num : Num R → I.V} {A : Reals R} {S : Sem X T C I}

/-- C72, chains.  If the analysis of `a ≤ b ≤ c` gives no message, then the environment for the case that it holds is right when it holds, as
long as the two comparators go the same way. -/
theorem c72_chain (hw : World L.cfg L.ord I) (hn : NumWorld L.cfg num) (hA : A.Ok) (hl : LeavesOk S L) {number : Bool} {a b c : NExpr X}
    {env yes no : Env K} (hf : FlatEnv L.cfg env) (h : tcChain L txt number a b c env = some ((yes, no), [])) {op1 op2 : String} (ho : SameWay op1 op2)
    {σ : Store I} {v w z : I.V} (hσ : Holds L.cfg I env σ) (ha : Value A num S True a σ v) (hb : Value A num S True b σ w)
    (hc : Value A num S True c σ z) (h1 : CmpTrue num op1 v w) (h2 : CmpTrue num op2 w z) : Holds L.cfg I yes σ :=
  chain_true hw hn hA hl hf h ho hσ ha hb hc h1 h2

/-- C72, intervals.  If the analysis of `x is in the interval from lo to hi` (or: `is not in`) gives no message, then the bounds are integers, and the
environments for the cases that it holds and that it does not hold are right, whether or not the upper bound belongs to the interval. -/
theorem c72_interval (hw : World L.cfg L.ord I) (hn : NumWorld L.cfg num) (hA : A.Ok) (hl : LeavesOk S L) {isIn closed : Bool} {x : String} {lo hi : NExpr X}
    {env yes no : Env K} (hf : FlatEnv L.cfg env) (h : tcIn L txt isIn x lo hi env = some ((yes, no), [])) {σ : Store I} (hσ : Holds L.cfg I env σ)
    {v w : I.V} (hlo : Value A num S True lo σ v) (hhi : Value A num S True hi σ w) :
    ∃ (l m : ℤ) (e : Ext R), v = num (.math (.fin l)) ∧ w = num (.math (.fin m)) ∧ σ x = num (.math e) ∧
      ((Within closed l m e ↔ isIn = true) → Holds L.cfg I yes σ) ∧ (¬ (Within closed l m e ↔ isIn = true) → Holds L.cfg I no σ) :=
  in_ok hw hn hA hl hf h hσ hlo hhi

end

/-- `0 ≤ _m_ ≤ 5`. -/
def wChain : Option ((Env Unit × Env Unit) × List Err) := tcChain wL wTxt false (.int 0) (var "_m_") (.int 5) wEnv
def wNarrow : Env Unit := ⟨(), [(.var "_m_", .hier "MathInteger_"), (.var "_x_", .hier "FiniteNumber_"), (.var "_n_", .hier "MathInteger_")]⟩

theorem wChain_eq : wChain = some ((wNarrow, wNarrow), []) := by rfl

theorem wNarrow_not (x : ℚ) (n : ℤ) : ¬ Holds wCfg wI wNarrow (wStore .pos x n) := by
  intro h
  have h := (h "_m_").1 (.hier "MathInteger_") (by simp [wNarrow, Verif.Env.get])
  obtain ⟨k, hk⟩ := (wN.mathInteger _).1 (den_hier (L := wL).1 h)
  have : wStore .pos x n "_m_" = WV.num (.math .pos) := rfl
  rw [this] at hk
  injection hk with hk; injection hk with hk; cases hk

/-- C72: in the other case it is wrong.  After `0 ≤ _m_ ≤ 5` has turned out false, `_m_` is taken to be an integer, although it may be `+∞`. -/
theorem c72_chain_false_witness : ∃ yes no, tcChain wL wTxt false (.int 0) (var "_m_") (.int 5) wEnv = some ((yes, no), []) ∧
    Holds wCfg wI wEnv (wStore .pos 0 0) ∧ CmpFalse (I := wI) WV.num "≤" (wStore .pos 0 0 "_m_") (WV.num (.math (.fin 5))) ∧
    ¬ Holds wCfg wI no (wStore .pos 0 0) :=
  ⟨wNarrow, wNarrow, wChain_eq, wStore_holds _ _ _ (fun _ h => by cases h), ⟨_, _, rfl, rfl, trivial, by simp [Compares, Less, Ext.lt]⟩, wNarrow_not 0 0⟩

/-- C72: and so it is if the comparators go different ways: `0 ≤ _m_ ≥ 5`. -/
theorem c72_mixed_witness : ∃ yes no, tcChain wL wTxt false (.int 0) (var "_m_") (.int 5) wEnv = some ((yes, no), []) ∧
    Holds wCfg wI wEnv (wStore .pos 0 0) ∧ CmpTrue (I := wI) WV.num "≤" (WV.num (.math (.fin 0))) (wStore .pos 0 0 "_m_") ∧
    CmpTrue (I := wI) WV.num "≥" (wStore .pos 0 0 "_m_") (WV.num (.math (.fin 5))) ∧ ¬ Holds wCfg wI yes (wStore .pos 0 0) :=
  ⟨wNarrow, wNarrow, wChain_eq, wStore_holds _ _ _ (fun _ h => by cases h), ⟨_, _, rfl, rfl, trivial, by simp [Compares, Less, Ext.lt]⟩,
    ⟨_, _, rfl, rfl, trivial, by simp [Compares, Less, Ext.lt]⟩, wNarrow_not 0 0⟩

example : SameWay "≤" "&lt;" ∧ SameWay ">" "≥" ∧ ¬ SameWay "≤" "≥" := by simp [SameWay]
example : wChain.isSome = true ∧ (tcChain wL wTxt true (.numInt 0) (.numInt 1) (.numInt 5) wEnv).isSome = true := by decide +kernel
def wIn (isIn : Bool) : Option (Option Ty × Option Ty × List Err) :=
  (tcIn wL wTxt isIn "_m_" (.int 0) (var "_n_") wEnv).map (fun r => (varsOf (some r.1.1) "_m_", varsOf (some r.1.2) "_m_", r.2))
example : wIn true = some (some (.hier "MathInteger_"), some (.union [.hier "MathInteger_", .hier "MathNegInfinity_", .hier "MathPosInfinity_"]), []) := by decide +kernel
example : wIn false = some (some (.union [.hier "MathInteger_", .hier "MathNegInfinity_", .hier "MathPosInfinity_"]), some (.hier "MathInteger_"), []) := by decide +kernel
example : Within true 0 5 (.fin 5 : Ext ℚ) ∧ ¬ Within false 0 5 (.fin 5 : Ext ℚ) ∧ Within false 0 5 (.fin 0 : Ext ℚ) ∧ ¬ Within true 0 5 (.pos : Ext ℚ) := by
  norm_num [Within, Ext.lt]

/-! ## C73 -/

section
variable {X T C : Type} {R : Type} [Field R] [LinearOrder R] [IsStrictOrderedRing R] [FloorRing R] {I : Interp} {num : Num R → I.V} {A : Reals R} {S : Sem X T C I}

/-- C73.  If executing an arithmetic expression on integers gives an integer, then this is a value of the expression, if it is so for the variables
and the other expressions in it. -/
theorem c73_exec {ρ : Expr X → Option Int} {σ : Store I} (hρ : ∀ e n, ρ e = some n → Eval S e σ (num (.math (.fin (n : R))))) {e : NExpr X} {n : ℤ}
    (h : exec ρ e = some n) : Value A num S True e σ (num (.math (.fin (n : R)))) := exec_ok hρ e n h

/-- C73, comparisons: if executing one gives an answer, the operands have values and the answer is right. -/
theorem c73_compare {ρ : Expr X → Option Int} {σ : Store I} (hρ : ∀ e n, ρ e = some n → Eval S e σ (num (.math (.fin (n : R))))) {a b : NExpr X} {op : String}
    {r : Bool} (h : execCompare ρ a op b = some r) (ho : op ≠ "&gt;") :
    ∃ x y, Value A num S True a σ (num x) ∧ Value A num S True b σ (num y) ∧ Sense x y ∧ (r = true ↔ Compares op x y) := by
  unfold execCompare at h
  cases ha : exec ρ a with
  | none => rw [ha] at h; cases h
  | some x =>
    cases hb : exec ρ b with
    | none => rw [ha, hb] at h; cases h
    | some y =>
      rw [ha, hb] at h
      exact ⟨_, _, exec_ok hρ a x ha, exec_ok hρ b y hb, trivial, compareInts_ok h ho⟩

/-- C73, chains. -/
theorem c73_chain {ρ : Expr X → Option Int} {σ : Store I} (hρ : ∀ e n, ρ e = some n → Eval S e σ (num (.math (.fin (n : R))))) {a b c : NExpr X}
    {op1 op2 : String} {r : Bool} (h : execChain ρ a op1 b op2 c = some r) (h1 : op1 ≠ "&gt;") (h2 : op2 ≠ "&gt;") :
    ∃ x y z, Value A num S True a σ (num x) ∧ Value A num S True b σ (num y) ∧ Value A num S True c σ (num z) ∧ Sense x y ∧ Sense y z ∧
      (r = true ↔ Compares op1 x y ∧ Compares op2 y z) := by
  unfold execChain at h
  cases ha : exec ρ a with
  | none => rw [ha] at h; cases h
  | some x =>
    cases hb : exec ρ b with
    | none => rw [ha, hb] at h; cases h
    | some y =>
      cases hc : exec ρ c with
      | none => rw [ha, hb, hc] at h; cases h
      | some z =>
        rw [ha, hb, hc] at h
        simp only [Option.bind_eq_bind, Option.bind_some] at h
        cases hq : compareInts x op1 y with
        | none => rw [hq] at h; cases h
        | some q =>
          rw [hq] at h
          have k1 := compareInts_ok (R := R) hq h1
          refine ⟨_, _, _, exec_ok hρ a x ha, exec_ok hρ b y hb, exec_ok hρ c z hc, trivial, trivial, ?_⟩
          simp only [Option.bind_some] at h
          cases q with
          | true =>
            simp only [if_true] at h
            rw [compareInts_ok (R := R) h h2]
            exact ⟨fun k => ⟨k1.1 rfl, k⟩, fun k => k.2⟩
          | false =>
            simp only [Bool.false_eq_true, if_false, Option.some.injEq] at h
            subst h
            exact ⟨fun k => (Bool.false_ne_true k).elim, fun k => k1.2 k.1⟩

/-- C73: which comparators can be executed. -/
theorem c73_comparators (x y : ℤ) (op : String) : (compareInts x op y).isSome = true ↔
    op ∈ ["≤", "≥", "is greater than or equal to", "&gt;", "is strictly greater than"] := by
  unfold compareInts
  simp only [List.mem_cons, List.not_mem_nil, or_false]
  split
  · simp_all
  · split
    · simp_all
      try tauto
    · split
      · simp_all
        try tauto
      · simp_all

end

/-- C73: the comparators `>`, `&lt;`, `=` and `≠`, which the analysis knows, stop the execution. -/
theorem c73_stops_witness : ∀ op ∈ [">", "&lt;", "=", "≠"], (cell cmpTable (.hier "MathInteger_") op (.hier "MathInteger_")).isSome = true ∧
    ∀ x y, compareInts x op y = none := by
  intro op h
  simp only [List.mem_cons, List.not_mem_nil, or_false] at h
  rcases h with rfl | rfl | rfl | rfl <;> exact ⟨by decide +kernel, fun x y => by simp [compareInts]⟩

/-- `_n_` is 3. -/
def wRho : Expr Unit → Option Int := fun e => match e with
  | .var x => if x = "_n_" then some 3 else none
  | .other _ => none
example : ∀ e n, wRho e = some n → Eval wS e (wStore .pos 0 3) (WV.num (.math (.fin (n : ℚ)))) := by
  intro e n h
  cases e with
  | var x =>
    simp only [wRho] at h
    split at h
    · rename_i he; injection h with h; subst h he; rfl
    · cases h
  | other _ => cases h
example : exec wRho (.bin "-" (.bin "×" (var "_n_") (.int 5)) (.power (.int 2) (var "_n_"))) = some 7 := by decide +kernel
example : exec wRho (.bin "modulo" (.bin "-" (.int 0) (.int 7)) (var "_n_")) = some 2 := by decide +kernel
example : exec wRho (.bin "modulo" (.int 7) (.bin "-" (.int 0) (var "_n_"))) = some (-2) := by decide +kernel
example : exec wRho (.bin "/" (.int 6) (var "_n_")) = none := by decide +kernel
example : execCompare wRho (var "_n_") "≥" (.int 3) = some true ∧ execCompare wRho (var "_n_") "is strictly greater than" (.int 3) = some false := by decide +kernel
example : execChain wRho (.int 0) "≤" (var "_n_") "≤" (.int 2) = some false ∧ execChain wRho (.int 0) "≤" (var "_n_") "≤" (.int 3) = some true := by decide +kernel
-- the second comparison is left out
example : execChain wRho (.int 5) "≤" (var "_n_") ">" (.int 2) = some false := by decide +kernel

end Verif.Arith
