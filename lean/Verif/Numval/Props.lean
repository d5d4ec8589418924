import Verif.Numval.Spec
/-!
# C103: Numbers made from mathematical values
-/
namespace Verif.Numval

theorem one_pos : 0 < one := Int.pow_pos (by decide)

theorem finite_of_small {x : Int} (h0 : 0 ≤ x) (h : x < 2 ^ 53) : Finite (x * one) :=
  ⟨x, 1074, by decide, by omega, rfl⟩

theorem bound_eq : (2 : Int) ^ 1024 * one = 2 ^ 53 * 2 ^ 2045 := by
  unfold one
  rw [← Int.pow_add, ← Int.pow_add]

/-- No finite Number reaches 2^1024. -/
theorem finite_lt {w : Int} (h : Finite w) : w < 2 ^ 1024 * one := by
  obtain ⟨m, k, hk, hm, rfl⟩ := h
  rw [bound_eq]
  have h1 : m < 2 ^ 53 := by omega
  have hp : (0 : Int) < 2 ^ k := Int.pow_pos (by decide)
  have h2 : m * 2 ^ k < 2 ^ 53 * 2 ^ k := Int.mul_lt_mul_of_pos_right h1 hp
  have h3 : (2 : Int) ^ k ≤ 2 ^ 2045 := by
    have := Nat.pow_le_pow_right (n := 2) (by decide) hk
    exact_mod_cast this
  have h4 : (2 : Int) ^ 53 * 2 ^ k ≤ 2 ^ 53 * 2 ^ 2045 := Int.mul_le_mul_of_nonneg_left h3 (by decide)
  exact Int.lt_of_lt_of_le h2 h4

/-- **C103.**  If a Number is given for an integer, it is the Number value for it as the specification says: the only member of the set that is closest. -/
theorem c103_right {x : Int} {r : Num} (h : numberValueFor x = some r) : ∃ w, Nearest x w ∧ Stands r w := by
  unfold numberValueFor at h
  split at h
  · next hx =>
    rw [mkFinite, if_pos hx.1] at h
    rw [← Option.some.inj h]
    refine ⟨x * one, ⟨.inl (finite_of_small hx.1 (by omega)), fun w' _ hne => by omega⟩, ?_⟩
    have := Stands.plus x.toNat
    rw [Int.toNat_of_nonneg hx.1] at this
    exact this
  · split at h
    · next hx =>
      rw [← Option.some.inj h]
      refine ⟨_, ⟨.inr (.inl rfl), fun w' hw hne => ?_⟩, .up⟩
      have hle : 2 ^ 1024 * one ≤ x * one := Int.mul_le_mul_of_nonneg_right hx (Int.le_of_lt one_pos)
      have hpos : 0 < 2 ^ 1024 * one := Int.mul_pos (Int.pow_pos (by decide)) one_pos
      have hlt : w' < 2 ^ 1024 * one := by
        rcases hw with hw | hw | hw
        · exact finite_lt hw
        · exact absurd hw hne
        · rw [hw]; exact Int.lt_trans (Int.neg_neg_of_pos hpos) hpos
      clear hw hne hpos
      revert hle hlt
      generalize 2 ^ 1024 * one = b
      generalize x * one = y
      intro hle hlt
      omega
    · exact nomatch h

/-- **C103.**  A Number is given for the integers from 0 to 2^53 - 2 and from 2^1024 on, and there is an exception for all others. -/
theorem c103_when (x : Int) : (numberValueFor x).isSome = true ↔ (0 ≤ x ∧ x < 2 ^ 53 - 1) ∨ 2 ^ 1024 ≤ x := by
  unfold numberValueFor
  split
  · next h =>
    rw [mkFinite, if_pos h.1]
    exact ⟨fun _ => .inl h, fun _ => rfl⟩
  · next h =>
    split
    · next h' => exact ⟨fun _ => .inr h', fun _ => rfl⟩
    · next h' => exact ⟨fun e => (nomatch e), fun e => (e.elim (fun e => absurd e h) (fun e => absurd e h'))⟩

/-- **C103.**  (A departure.)  2^53 - 1, the largest safe integer, is a Number too, and -1 is, but there is an exception for them. -/
theorem c103_gap : numberValueFor (2 ^ 53 - 1) = none ∧ Nearest (2 ^ 53 - 1) ((2 ^ 53 - 1) * one) ∧ numberValueFor (-1) = none ∧ Nearest (-1) (-1 * one) := by
  have hb : (2 : Int) ^ 53 ≤ 2 ^ 1024 := by
    have := Nat.pow_le_pow_right (n := 2) (i := 53) (j := 1024) (by decide) (by decide)
    exact_mod_cast this
  refine ⟨?_, ⟨.inl (finite_of_small (by decide) (by decide)), fun w' _ hne => by omega⟩, ?_, ⟨.inl ⟨-1, 1074, by decide, by decide, rfl⟩, fun w' _ hne => by omega⟩⟩
  · unfold numberValueFor
    rw [if_neg (fun h => by omega), if_neg (fun h => by omega)]
  · unfold numberValueFor
    rw [if_neg (fun h => by omega), if_neg (fun h => by omega)]

/-- **C103.**  The remainder is what the specification calls `x modulo y`: zero or with the sign of y, smaller than y, and x minus it is a multiple of y; nothing else is. -/
theorem c103_modulo {x y : Int} (hy : y ≠ 0) (k : Int) :
    mathMod x y = some k ↔ (k = 0 ∨ (0 < k ↔ 0 < y)) ∧ k.natAbs < y.natAbs ∧ ∃ q, x - k = q * y := by
  have hq : x - Int.fmod x y = Int.fdiv x y * y := by
    have := Int.mul_fdiv_add_fmod x y
    rw [Int.mul_comm] at this
    omega
  have hr : (Int.fmod x y = 0 ∨ (0 < Int.fmod x y ↔ 0 < y)) ∧ (Int.fmod x y).natAbs < y.natAbs := by
    by_cases hp : 0 < y
    · have h1 := Int.fmod_nonneg_of_pos x hp
      have h2 := Int.fmod_lt_of_pos x hp
      omega
    · have h1 : 0 ≤ Int.fmod (-x) (-y) := Int.fmod_nonneg_of_pos (-x) (by omega)
      have h2 : Int.fmod (-x) (-y) < -y := Int.fmod_lt_of_pos (-x) (by omega)
      have h3 : Int.fmod (-x) (-y) = - Int.fmod x y := by simp
      omega
  unfold mathMod
  rw [if_neg hy]
  constructor
  · intro h
    rw [← Option.some.inj h]
    exact ⟨hr.1, hr.2, _, hq⟩
  · rintro ⟨h1, h2, q, h3⟩
    congr 1
    have he : k - Int.fmod x y = (Int.fdiv x y - q) * y := by rw [Int.sub_mul]; omega
    have hz : (k - Int.fmod x y).natAbs < y.natAbs := by omega
    rw [he, Int.natAbs_mul] at hz
    have : (Int.fdiv x y - q).natAbs = 0 := by
      rcases Nat.eq_zero_or_pos (Int.fdiv x y - q).natAbs with h | h
      · exact h
      · have := Nat.le_mul_of_pos_left y.natAbs h
        omega
    rw [Int.natAbs_eq_zero.1 this, Int.zero_mul] at he
    omega

/-- **C103.**  There is an exception for the remainder by zero. -/
theorem c103_modulo_zero (x : Int) : mathMod x 0 = none := rfl

/-- **C103.**  The comparisons say what their signs say. -/
theorem c103_compare (a b : Int) : (compare a .le b = some true ↔ a ≤ b) ∧ (compare a .ge b = some true ↔ a ≥ b) ∧ (compare a .gt b = some true ↔ a > b) ∧
    (∀ r, r ≠ .other → (compare a r b).isSome = true) := by
  refine ⟨?_, ?_, ?_, ?_⟩
  · simp [compare]
  · simp [compare]
  · simp [compare]
  · intro r hr
    cases r <;> first | rfl | exact absurd rfl hr

/-! ## Examples -/

example : numberValueFor 10 = some (.finite false 10) ∧ numberValueFor 0 = some (.finite false 0) := by decide +kernel
example : numberValueFor (2 ^ 1024) = some .positiveInfinity := by decide +kernel
example : numberValueFor (2 ^ 1024 - 1) = none := by decide +kernel
example : mathMod (-7) 3 = some 2 ∧ mathMod 7 (-3) = some (-2) ∧ mathMod 7 3 = some 1 := by decide +kernel

end Verif.Numval
