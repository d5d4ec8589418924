import Verif.Arith.Spec
import Mathlib.Tactic.Linarith
/-!
# Classes of numbers, and the classes of results
-/
set_option linter.unusedSectionVars false
set_option linter.unusedSimpArgs false
namespace Verif.Arith
open Verif.Types Verif.Env

/-- Classes of numbers. -/
inductive Cls where
  | int | frac | mpos | mneg | nint | nfrac | npos | nneg | nan | big
deriving DecidableEq

section
variable {R : Type} [Field R] [LinearOrder R] [IsStrictOrderedRing R] [FloorRing R]

/-- A number of a class. -/
def Belongs : Cls → Num R → Prop
  | .int, z => ∃ n : ℤ, z = .math (.fin n)
  | .frac, z => ∃ r, ¬ IsInt r ∧ z = .math (.fin r)
  | .mpos, z => z = .math .pos
  | .mneg, z => z = .math .neg
  | .nint, z => ∃ n : ℤ, z = .number (.fin n)
  | .nfrac, z => ∃ r, ¬ IsInt r ∧ z = .number (.fin r)
  | .npos, z => z = .number .pos
  | .nneg, z => z = .number .neg
  | .nan, z => z = .nan
  | .big, z => ∃ n, z = .big n

/-- The classes of a named type. -/
def classesOf (n : String) : List Cls :=
  if n = "MathInteger_" then [.int]
  else if n = "MathOther_" then [.frac]
  else if n = "MathReal_" then [.int, .frac]
  else if n = "MathPosInfinity_" then [.mpos]
  else if n = "MathNegInfinity_" then [.mneg]
  else if n = "ExtendedMathReal_" then [.int, .frac, .mpos, .mneg]
  else if n = "IntegralNumber_" then [.nint]
  else if n = "NonIntegralFiniteNumber_" then [.nfrac]
  else if n = "FiniteNumber_" then [.nint, .nfrac]
  else if n = "PosInfinityNumber_" then [.npos]
  else if n = "NegInfinityNumber_" then [.nneg]
  else if n = "NaN_Number_" then [.nan]
  else if n = "Number" then [.nint, .nfrac, .npos, .nneg, .nan]
  else if n = "BigInt" then [.big]
  else []

theorem belongs_math (r : R) : Belongs .int (.math (.fin r) : Num R) ∨ Belongs .frac (.math (.fin r) : Num R) := by
  by_cases h : IsInt r
  · obtain ⟨n, rfl⟩ := h; exact .inl ⟨n, rfl⟩
  · exact .inr ⟨r, h, rfl⟩

theorem belongs_number (r : R) : Belongs .nint (.number (.fin r) : Num R) ∨ Belongs .nfrac (.number (.fin r) : Num R) := by
  by_cases h : IsInt r
  · obtain ⟨n, rfl⟩ := h; exact .inl ⟨n, rfl⟩
  · exact .inr ⟨r, h, rfl⟩

theorem named_iff {I : Interp} {cfg : Cfg} {num : Num R → I.V} (hn : NumWorld cfg num) {n : String} (h : n ∈ numeric) (v : I.V) :
    I.named n v ↔ ∃ c ∈ classesOf n, ∃ z, Belongs c z ∧ v = num z := by
  simp only [numeric, List.mem_cons, List.not_mem_nil, or_false] at h
  rcases h with rfl | rfl | rfl | rfl | rfl | rfl | rfl | rfl | rfl | rfl | rfl | rfl | rfl | rfl <;>
    simp only [classesOf, String.reduceEq, if_false, if_true, List.mem_cons, List.not_mem_nil, or_false, exists_eq_or_imp, exists_eq_left, Belongs]
  · rw [hn.mathInteger]; constructor
    · rintro ⟨n, rfl⟩; exact ⟨_, ⟨n, rfl⟩, rfl⟩
    · rintro ⟨_, ⟨n, rfl⟩, rfl⟩; exact ⟨n, rfl⟩
  · rw [hn.mathOther]; constructor
    · rintro ⟨r, h, rfl⟩; exact ⟨_, ⟨r, h, rfl⟩, rfl⟩
    · rintro ⟨_, ⟨r, h, rfl⟩, rfl⟩; exact ⟨r, h, rfl⟩
  · rw [hn.mathReal]; constructor
    · rintro ⟨r, rfl⟩
      rcases belongs_math r with h | h
      · exact .inl ⟨_, h, rfl⟩
      · exact .inr ⟨_, h, rfl⟩
    · rintro (⟨_, ⟨n, rfl⟩, rfl⟩ | ⟨_, ⟨r, h, rfl⟩, rfl⟩) <;> exact ⟨_, rfl⟩
  · rw [hn.mathPos]
  · rw [hn.mathNeg]
  · rw [hn.extended]; constructor
    · rintro ⟨x, rfl⟩
      cases x with
      | fin r =>
        rcases belongs_math r with h | h
        · exact .inl ⟨_, h, rfl⟩
        · exact .inr (.inl ⟨_, h, rfl⟩)
      | pos => exact .inr (.inr (.inl rfl))
      | neg => exact .inr (.inr (.inr rfl))
    · rintro (⟨_, ⟨n, rfl⟩, rfl⟩ | ⟨_, ⟨r, h, rfl⟩, rfl⟩ | rfl | rfl) <;> exact ⟨_, rfl⟩
  · rw [hn.integral]; constructor
    · rintro ⟨n, rfl⟩; exact ⟨_, ⟨n, rfl⟩, rfl⟩
    · rintro ⟨_, ⟨n, rfl⟩, rfl⟩; exact ⟨n, rfl⟩
  · rw [hn.nonIntegral]; constructor
    · rintro ⟨r, h, rfl⟩; exact ⟨_, ⟨r, h, rfl⟩, rfl⟩
    · rintro ⟨_, ⟨r, h, rfl⟩, rfl⟩; exact ⟨r, h, rfl⟩
  · rw [hn.finite]; constructor
    · rintro ⟨r, rfl⟩
      rcases belongs_number r with h | h
      · exact .inl ⟨_, h, rfl⟩
      · exact .inr ⟨_, h, rfl⟩
    · rintro (⟨_, ⟨n, rfl⟩, rfl⟩ | ⟨_, ⟨r, h, rfl⟩, rfl⟩) <;> exact ⟨_, rfl⟩
  · rw [hn.posInfinity]
  · rw [hn.negInfinity]
  · rw [hn.nan]
  · rw [hn.number]; constructor
    · rintro (⟨x, rfl⟩ | rfl)
      · cases x with
        | fin r =>
          rcases belongs_number r with h | h
          · exact .inl ⟨_, h, rfl⟩
          · exact .inr (.inl ⟨_, h, rfl⟩)
        | pos => exact .inr (.inr (.inl rfl))
        | neg => exact .inr (.inr (.inr (.inl rfl)))
      · exact .inr (.inr (.inr (.inr rfl)))
    · rintro (⟨_, ⟨n, rfl⟩, rfl⟩ | ⟨_, ⟨r, h, rfl⟩, rfl⟩ | rfl | rfl | rfl)
      · exact .inl ⟨_, rfl⟩
      · exact .inl ⟨_, rfl⟩
      · exact .inl ⟨_, rfl⟩
      · exact .inl ⟨_, rfl⟩
      · exact .inr rfl
  · rw [hn.bigInt]; constructor
    · rintro ⟨n, rfl⟩; exact ⟨_, ⟨n, rfl⟩, rfl⟩
    · rintro ⟨_, ⟨n, rfl⟩, rfl⟩; exact ⟨n, rfl⟩

/-! ## Results of operations -/

/-- The classes an operation can lead to, when all is as usual. -/
def resCls (o : Op) (c d : Cls) : List Cls :=
  match c, d with
  | .int, .int => match o with
    | .div => [.int, .frac]
    | _ => [.int]
  | .int, .frac => [.int, .frac]
  | .frac, .int => [.int, .frac]
  | .frac, .frac => [.int, .frac]
  | .int, .mpos | .frac, .mpos => match o with
    | .add => [.mpos]
    | .sub => [.mneg]
    | .mul => [.mpos, .mneg]
    | .div => [.int]
    | .mod => []
  | .int, .mneg | .frac, .mneg => match o with
    | .add => [.mneg]
    | .sub => [.mpos]
    | .mul => [.mpos, .mneg]
    | .div => [.int]
    | .mod => []
  | .mpos, .int | .mpos, .frac => match o with
    | .add | .sub => [.mpos]
    | .mul | .div => [.mpos, .mneg]
    | .mod => []
  | .mneg, .int | .mneg, .frac => match o with
    | .add | .sub => [.mneg]
    | .mul | .div => [.mpos, .mneg]
    | .mod => []
  | .mpos, .mpos | .mpos, .mneg | .mneg, .mpos | .mneg, .mneg => [.mpos, .mneg]
  | .nint, .nint => match o with
    | .div => [.nint, .nfrac]
    | .mod => []
    | _ => [.nint]
  | .nint, .nfrac | .nfrac, .nint | .nfrac, .nfrac => [.nint, .nfrac]
  | .nint, .npos | .nfrac, .npos => match o with
    | .add | .mul => [.npos]
    | .sub => [.nneg]
    | .div => [.nint, .nfrac, .npos, .nneg]
    | .mod => []
  | .nint, .nneg | .nfrac, .nneg => match o with
    | .add | .mul => [.nneg]
    | .sub => [.npos]
    | .div => [.nint, .nfrac, .npos, .nneg]
    | .mod => []
  | .npos, .nint | .npos, .nfrac => match o with
    | .add | .sub | .div => [.npos]
    | .mul => [.npos, .nneg, .nan]
    | .mod => []
  | .nneg, .nint | .nneg, .nfrac => match o with
    | .add | .sub | .div => [.nneg]
    | .mul => [.npos, .nneg, .nan]
    | .mod => []
  | .npos, .npos | .npos, .nneg | .nneg, .npos | .nneg, .nneg => [.npos, .nneg, .nan]
  | .nan, .nan | .nan, .nint | .nan, .nfrac | .nan, .npos | .nan, .nneg | .nint, .nan | .nfrac, .nan | .npos, .nan | .nneg, .nan => [.nan]
  | .big, .big => match o with
    | .add | .sub | .mul => [.big]
    | _ => []
  | _, _ => []

theorem isInt_add {r s : R} (hr : IsInt r) (hs : IsInt s) : IsInt (r + s) := by
  obtain ⟨m, rfl⟩ := hr; obtain ⟨n, rfl⟩ := hs; exact ⟨m + n, by push_cast; rfl⟩
theorem isInt_sub {r s : R} (hr : IsInt r) (hs : IsInt s) : IsInt (r - s) := by
  obtain ⟨m, rfl⟩ := hr; obtain ⟨n, rfl⟩ := hs; exact ⟨m - n, by push_cast; rfl⟩
theorem isInt_mul {r s : R} (hr : IsInt r) (hs : IsInt s) : IsInt (r * s) := by
  obtain ⟨m, rfl⟩ := hr; obtain ⟨n, rfl⟩ := hs; exact ⟨m * n, by push_cast; rfl⟩
theorem isInt_neg {r : R} (hr : IsInt r) : IsInt (-r) := by
  obtain ⟨m, rfl⟩ := hr; exact ⟨-m, by push_cast; rfl⟩
theorem isInt_math {r : R} (hr : IsInt r) : Belongs .int (.math (.fin r) : Num R) := by
  obtain ⟨m, rfl⟩ := hr; exact ⟨m, rfl⟩
theorem isInt_cast (n : ℤ) : IsInt (n : R) := ⟨n, rfl⟩

/-- A finite mathematical value is of one of the two classes. -/
theorem of_math (r : R) : ∃ e ∈ [Cls.int, Cls.frac], Belongs e (.math (.fin r) : Num R) := by
  rcases belongs_math r with h | h
  · exact ⟨.int, by simp, h⟩
  · exact ⟨.frac, by simp, h⟩
theorem of_number (r : R) : ∃ e ∈ [Cls.nint, Cls.nfrac], Belongs e (.number (.fin r) : Num R) := by
  rcases belongs_number r with h | h
  · exact ⟨.nint, by simp, h⟩
  · exact ⟨.nfrac, by simp, h⟩

/-- The kinds of classes: mathematical, Number, NaN, BigInt. -/
def kind : Cls → Nat
  | .int | .frac | .mpos | .mneg => 0
  | .nint | .nfrac | .npos | .nneg => 1
  | .nan => 2
  | .big => 3

theorem belongs_kind {c : Cls} {z : Num R} (h : Belongs c z) :
    match z with
    | .math _ => kind c = 0
    | .number _ => kind c = 1
    | .nan => kind c = 2
    | .big _ => kind c = 3 := by
  cases c <;> simp only [Belongs] at h
  all_goals first
    | (obtain ⟨n, rfl⟩ := h; rfl)
    | (obtain ⟨r, _, rfl⟩ := h; rfl)

theorem calc_math {A : Reals R} {o : Op} {c d : Cls} {x y : Ext R} {z : Num R} (hc : Belongs c (.math x : Num R)) (hd : Belongs d (.math y : Num R))
    (h : Calc A o (.math x) (.math y) z) : ∃ e ∈ resCls o c d, Belongs e z := by
  obtain ⟨w, hw, rfl⟩ := h
  cases c <;> simp only [Belongs, reduceCtorEq, false_and, exists_false, Num.math.injEq, and_false] at hc
  all_goals (cases d <;> simp only [Belongs, reduceCtorEq, false_and, exists_false, Num.math.injEq, and_false] at hd)
  all_goals (first | subst hc | (obtain ⟨m, rfl⟩ := hc) | (obtain ⟨r, hr, rfl⟩ := hc))
  all_goals (first | subst hd | (obtain ⟨n, rfl⟩ := hd) | (obtain ⟨s, hs, rfl⟩ := hd))
  all_goals (cases o <;> simp only [extOp, addX, mulX, divX, modX, Ext.opp, Option.some.injEq, reduceCtorEq] at hw)
  all_goals (try (split at hw))
  all_goals (try (split at hw))
  all_goals (try (simp only [Option.some.injEq, reduceCtorEq] at hw))
  all_goals (try subst hw)
  all_goals first
    | exact of_math _
    | (refine ⟨.mpos, ?_, rfl⟩; simp [resCls])
    | (refine ⟨.mneg, ?_, rfl⟩; simp [resCls])
    | (refine ⟨.int, ?_, ⟨0, congrArg (fun r => Num.math (.fin r)) Int.cast_zero.symm⟩⟩; simp [resCls])
    | (refine ⟨.int, by simp [resCls], ?_⟩
       first
        | exact isInt_math (isInt_add (isInt_cast m) (isInt_cast n))
        | exact isInt_math (isInt_mul (isInt_cast m) (isInt_cast n))
        | exact isInt_math (isInt_sub (isInt_cast m) (isInt_mul (isInt_cast n) (isInt_cast _)))
        | exact isInt_math (isInt_add (isInt_cast m) (isInt_neg (isInt_cast n))))

theorem sign_cases {A : Reals R} {s : R} {z : Num R} {a b : Ext R} (ha : a = .pos ∨ a = .neg) (hb : b = .pos ∨ b = .neg)
    (hw : match (if 0 < s then some a else if s < 0 then some b else none) with
      | some (.fin r) => z = .number (A.round r)
      | some w => z = .number w
      | none => z = .nan) : z = .number .pos ∨ z = .number .neg ∨ z = .nan := by
  by_cases h1 : 0 < s
  · rw [if_pos h1] at hw
    rcases ha with rfl | rfl
    · exact .inl hw
    · exact .inr (.inl hw)
  · rw [if_neg h1] at hw
    by_cases h2 : s < 0
    · rw [if_pos h2] at hw
      rcases hb with rfl | rfl
      · exact .inl hw
      · exact .inr (.inl hw)
    · rw [if_neg h2] at hw
      exact .inr (.inr hw)

theorem calc_number {A : Reals R} (hA : A.Ok) {o : Op} {c d : Cls} {x y : Ext R} {z : Num R} (hc : Belongs c (.number x : Num R))
    (hd : Belongs d (.number y : Num R)) (h : Calc A o (.number x) (.number y) z) (hu : UsualBin o (.number x) (.number y) z) :
    ∃ e ∈ resCls o c d, Belongs e z := by
  obtain ⟨ho, hw⟩ := h
  have fin : ∀ {w : Ext R}, z = .number w → ∃ e ∈ [Cls.nint, .nfrac, .npos, .nneg], Belongs e z := by
    rintro (r | _ | _) rfl
    · obtain ⟨e, he, h⟩ := of_number r
      exact ⟨e, by simp at he ⊢; rcases he with rfl | rfl <;> simp, h⟩
    · exact ⟨.npos, by simp, rfl⟩
    · exact ⟨.nneg, by simp, rfl⟩
  have two : (∃ q, z = .number (.fin q)) → ∃ e ∈ [Cls.nint, .nfrac], Belongs e z := by
    rintro ⟨q, rfl⟩; exact of_number q
  have one : ∀ {r : R}, IsInt r → (∃ q, z = .number (.fin q)) → z = .number (A.round r) → ∃ e ∈ [Cls.nint], Belongs e z := by
    rintro r ⟨n, rfl⟩ ⟨q, rfl⟩ h
    injection h with h
    obtain ⟨k, rfl⟩ := hA.int n q h.symm
    exact ⟨.nint, by simp, k, rfl⟩
  cases c <;> simp only [Belongs, reduceCtorEq, false_and, exists_false, Num.number.injEq, and_false] at hc
  all_goals (cases d <;> simp only [Belongs, reduceCtorEq, false_and, exists_false, Num.number.injEq, and_false] at hd)
  all_goals (first | subst hc | (obtain ⟨m, rfl⟩ := hc) | (obtain ⟨r, hr, rfl⟩ := hc))
  all_goals (first | subst hd | (obtain ⟨n, rfl⟩ := hd) | (obtain ⟨s, hs, rfl⟩ := hd))
  all_goals (cases o <;> simp only [extOp, addX, mulX, divX, modX, Ext.opp, UsualBin, ne_eq, reduceCtorEq, not_true_eq_false, not_false_eq_true, forall_const, true_and, false_and, or_false] at hw hu ho)
  all_goals first
    | exact two hu
    | exact one (isInt_add (isInt_cast m) (isInt_cast n)) hu hw
    | exact one (isInt_add (isInt_cast m) (isInt_neg (isInt_cast n))) hu hw
    | exact one (isInt_mul (isInt_cast m) (isInt_cast n)) hu hw
    | exact ⟨.npos, by simp [resCls], hw⟩
    | exact ⟨.nneg, by simp [resCls], hw⟩
    | exact ⟨.nan, by simp [resCls], hw⟩
    | exact fin hw
    | (rw [if_pos hu] at hw; exact ⟨.npos, by simp [resCls], hw⟩)
    | (rw [if_pos hu] at hw; exact ⟨.nneg, by simp [resCls], hw⟩)
    | skip
  all_goals (rcases sign_cases (by simp) (by simp) hw with h | h | h)
  all_goals first
    | exact ⟨.npos, by simp [resCls], h⟩
    | exact ⟨.nneg, by simp [resCls], h⟩
    | exact ⟨.nan, by simp [resCls], h⟩

/-- The result of an operation is of one of those classes. -/
theorem calc_cls {A : Reals R} (hA : A.Ok) {o : Op} {c d : Cls} {x y z : Num R} (hc : Belongs c x) (hd : Belongs d y)
    (h : Calc A o x y z) (hu : UsualBin o x y z) : ∃ e ∈ resCls o c d, Belongs e z := by
  have kc := belongs_kind hc
  have kd := belongs_kind hd
  match x, y, h, hc, hd, kc, kd, hu with
  | .math x, .math y, h, hc, hd, _, _, _ => exact calc_math hc hd h
  | .number x, .number y, h, hc, hd, _, _, hu => exact calc_number hA hc hd h hu
  | .nan, .number _, h, _, _, kc, kd, _ => exact ⟨.nan, by cases c <;> cases d <;> simp [kind, resCls] at kc kd ⊢, h.2⟩
  | .number _, .nan, h, _, _, kc, kd, _ => exact ⟨.nan, by cases c <;> cases d <;> simp [kind, resCls] at kc kd ⊢, h.2⟩
  | .nan, .nan, h, _, _, kc, kd, _ => exact ⟨.nan, by cases c <;> cases d <;> simp [kind, resCls] at kc kd ⊢, h.2⟩
  | .big m, .big n, h, _, _, kc, kd, _ =>
    have hb : o = .add ∨ o = .sub ∨ o = .mul := by cases o <;> simp_all [Calc]
    refine ⟨.big, by rcases hb with rfl | rfl | rfl <;> cases c <;> cases d <;> simp [kind, resCls] at kc kd ⊢, ?_⟩
    rcases hb with rfl | rfl | rfl <;> exact ⟨_, h⟩

end
end Verif.Arith
