import Mathlib.Data.Rat.Floor
import Verif.Arith.Spec
import Verif.Calls.ExactLemmas
import Verif.Types.Props
/-!
# An example world with all numeric types

The hierarchy is the part of the one of static_types.py that matters here.
-/
set_option linter.unusedSimpArgs false
namespace Verif.Arith
open Verif.Types Verif.Env Verif.Calls

def wTree : Tree := .node "Top_" [.node "Normal" [.node "Tangible_" [.node "Undefined" [], .node "Number" [.node "FiniteNumber_" [.node "IntegralNumber_" [],
  .node "NonIntegralFiniteNumber_" []], .node "PosInfinityNumber_" [], .node "NegInfinityNumber_" [], .node "NaN_Number_" []], .node "BigInt" [], .node "String" []],
  .node "ExtendedMathReal_" [.node "MathReal_" [.node "MathInteger_" [], .node "MathOther_" []], .node "MathPosInfinity_" [], .node "MathNegInfinity_" []],
  .node "tilde_empty_" [], .node "tilde_detached_" [], .node "tilde_bigint_" [], .node "tilde_number_" []],
  .node "List" [], .node "not_set" [], .node "not_passed" [], .node "not_returned" [], .node "code_point_" []]

def wCfg : Cfg := { tree := wTree, schema := fun _ => none, supers := fun _ => [] }

/-- Values. -/
inductive WV where
  | num (z : Num ℚ)
  | undef | str | unset | unret | notPassed | tildeEmpty | tildeDetached | tildeBig | tildeNum | codePoint
  | list

/-- The most precise name of a value. -/
def leafOf : WV → String
  | .num (.math (.fin r)) => if (⌊r⌋ : ℚ) = r then "MathInteger_" else "MathOther_"
  | .num (.math .pos) => "MathPosInfinity_"
  | .num (.math .neg) => "MathNegInfinity_"
  | .num (.number (.fin r)) => if (⌊r⌋ : ℚ) = r then "IntegralNumber_" else "NonIntegralFiniteNumber_"
  | .num (.number .pos) => "PosInfinityNumber_"
  | .num (.number .neg) => "NegInfinityNumber_"
  | .num .nan => "NaN_Number_"
  | .num (.big _) => "BigInt"
  | .undef => "Undefined"
  | .str => "String"
  | .unset => "not_set"
  | .unret => "not_returned"
  | .notPassed => "not_passed"
  | .tildeEmpty => "tilde_empty_"
  | .tildeDetached => "tilde_detached_"
  | .tildeBig => "tilde_bigint_"
  | .tildeNum => "tilde_number_"
  | .codePoint => "code_point_"
  | .list => "List"

def wI : Interp where
  V := WV
  named := fun n v => Anc wTree n (leafOf v)
  tbd := fun _ => False
  elems := fun _ => none
  schemaOf := fun _ => none
  field := fun _ _ => none
  procs := fun _ _ _ => False

theorem wCfg_ok : CfgOk wCfg where
  root := rfl
  nodup := by decide +kernel
  supers := by intro i j k h; simp [wCfg] at h

/-- The names above a name. -/
def above (n : String) : List String := (path? wTree n).getD []

theorem anc_above {a n : String} (h : n ∈ names wTree) : Anc wTree a n ↔ a ∈ above n := by
  have : (path? wTree n).isSome = true := by
    revert n; decide +kernel
  obtain ⟨p, hp⟩ := Option.isSome_iff_exists.1 this
  unfold above
  rw [hp]
  constructor
  · intro ha
    obtain ⟨q, r, _, e, _⟩ := path_prefix wCfg_ok.nodup hp ha
    simp [e]
  · intro ha
    exact path_anc hp a ha

def leaves : List String := ["MathInteger_", "MathOther_", "MathPosInfinity_", "MathNegInfinity_", "IntegralNumber_", "NonIntegralFiniteNumber_",
  "PosInfinityNumber_", "NegInfinityNumber_", "NaN_Number_", "BigInt", "Undefined", "String", "not_set", "not_returned", "not_passed", "tilde_empty_",
  "tilde_detached_", "tilde_bigint_", "tilde_number_", "code_point_", "List"]

theorem leafOf_mem (v : WV) : leafOf v ∈ leaves := by
  unfold leafOf
  split
  all_goals (try split) <;> decide

theorem leaves_names : ∀ n ∈ leaves, n ∈ names wTree := by decide +kernel

theorem leaves_leaf {n : String} (h : n ∈ leaves) : IsLeaf wTree n := by
  intro c hc
  have : ∀ n ∈ leaves, children? wTree n = some [] := by decide +kernel
  exact absurd ((children_iff wCfg_ok.nodup (this n h) c).2 hc) (by simp)

theorem wNamed {n : String} {v : WV} : wI.named n v ↔ n ∈ above (leafOf v) := anc_above (leaves_names _ (leafOf_mem v))

theorem wW : World wCfg Types.exOrd wI where
  cfgOk := wCfg_ok
  ordOk := Types.exOrd_ok
  leaf := leaves_leaf (by decide)
  respects := {
    top := fun v => .here (leaves_names _ (leafOf_mem v))
    child := fun p c hpc v hv => hpc.anc.trans wCfg_ok.nodup hv
    list := fun v l h => by cases h
    record := fun v s h => by cases h
    proc := fun ps r v h => h.elim }
  exhaustive := by
    rintro p v hv ⟨c, hc⟩
    by_cases hp : p = leafOf v
    · exact absurd (hp ▸ hc) (leaves_leaf (leafOf_mem v) c)
    · exact child_toward wCfg_ok.nodup hv hp
  disjoint := fun p c d v h1 h2 h3 h4 => children_apart wCfg_ok.nodup h1 h2 h3 h4
  notSet := by decide +kernel
  notReturned := by decide +kernel
  tangible := by decide +kernel
  undefinedNormal := by
    intro v hv
    have hv := wNamed.1 hv
    refine ⟨wNamed.2 ?_, wNamed.2 ?_⟩
    all_goals have : ∀ n ∈ leaves, "Undefined" ∈ above n → "Normal" ∈ above n ∧ "Tangible_" ∈ above n := by decide +kernel
    · exact (this _ (leafOf_mem v) hv).1
    · exact (this _ (leafOf_mem v) hv).2

theorem floor_int {r : ℚ} : (⌊r⌋ : ℚ) = r ↔ IsInt r :=
  ⟨fun h => ⟨_, h.symm⟩, by rintro ⟨n, rfl⟩; rw [Int.floor_intCast]⟩

theorem floor_cast (n : ℤ) : ((⌊(n : ℚ)⌋ : ℤ) : ℚ) = n := by rw [Int.floor_intCast]

/-- A name has the values whose leaf is in a list. -/
theorem named_leaves {n : String} {ls : List String} (h : ∀ l ∈ leaves, n ∈ above l ↔ l ∈ ls) (v : WV) : wI.named n v ↔ leafOf v ∈ ls := by
  rw [wNamed]; exact h _ (leafOf_mem v)

/-- The values with a given leaf. -/
theorem leaf_mathInt {v : WV} : leafOf v = "MathInteger_" ↔ ∃ n : ℤ, v = .num (.math (.fin n)) := by
  constructor
  · intro h
    unfold leafOf at h
    split at h <;> (try split at h) <;> simp at h
    rename_i r e; exact ⟨_, by rw [e]⟩
  · rintro ⟨n, rfl⟩; simp [leafOf, floor_cast]
theorem leaf_mathOther {v : WV} : leafOf v = "MathOther_" ↔ ∃ r : ℚ, ¬ IsInt r ∧ v = .num (.math (.fin r)) := by
  constructor
  · intro h
    unfold leafOf at h
    split at h <;> (try split at h) <;> simp at h
    rename_i r e; exact ⟨r, fun h => e (floor_int.2 h), rfl⟩
  · rintro ⟨r, hr, rfl⟩; simp [leafOf, floor_int, hr]
theorem leaf_integral {v : WV} : leafOf v = "IntegralNumber_" ↔ ∃ n : ℤ, v = .num (.number (.fin n)) := by
  constructor
  · intro h
    unfold leafOf at h
    split at h <;> (try split at h) <;> simp at h
    rename_i r e; exact ⟨_, by rw [e]⟩
  · rintro ⟨n, rfl⟩; simp [leafOf, floor_cast]
theorem leaf_nonIntegral {v : WV} : leafOf v = "NonIntegralFiniteNumber_" ↔ ∃ r : ℚ, ¬ IsInt r ∧ v = .num (.number (.fin r)) := by
  constructor
  · intro h
    unfold leafOf at h
    split at h <;> (try split at h) <;> simp at h
    rename_i r e; exact ⟨r, fun h => e (floor_int.2 h), rfl⟩
  · rintro ⟨r, hr, rfl⟩; simp [leafOf, floor_int, hr]
theorem leaf_mpos {v : WV} : leafOf v = "MathPosInfinity_" ↔ v = .num (.math .pos) := by
  constructor
  · intro h
    unfold leafOf at h
    split at h <;> (try split at h) <;> simp at h
    rfl
  · rintro rfl; rfl
theorem leaf_mneg {v : WV} : leafOf v = "MathNegInfinity_" ↔ v = .num (.math .neg) := by
  constructor
  · intro h
    unfold leafOf at h
    split at h <;> (try split at h) <;> simp at h
    rfl
  · rintro rfl; rfl
theorem leaf_npos {v : WV} : leafOf v = "PosInfinityNumber_" ↔ v = .num (.number .pos) := by
  constructor
  · intro h
    unfold leafOf at h
    split at h <;> (try split at h) <;> simp at h
    rfl
  · rintro rfl; rfl
theorem leaf_nneg {v : WV} : leafOf v = "NegInfinityNumber_" ↔ v = .num (.number .neg) := by
  constructor
  · intro h
    unfold leafOf at h
    split at h <;> (try split at h) <;> simp at h
    rfl
  · rintro rfl; rfl
theorem leaf_nan {v : WV} : leafOf v = "NaN_Number_" ↔ v = .num .nan := by
  constructor
  · intro h
    unfold leafOf at h
    split at h <;> (try split at h) <;> simp at h
    rfl
  · rintro rfl; rfl
theorem leaf_big {v : WV} : leafOf v = "BigInt" ↔ ∃ n, v = .num (.big n) := by
  constructor
  · intro h
    unfold leafOf at h
    split at h <;> (try split at h) <;> simp at h
    exact ⟨_, rfl⟩
  · rintro ⟨n, rfl⟩; rfl

theorem wReal {v : WV} : leafOf v ∈ ["MathInteger_", "MathOther_"] ↔ ∃ r, v = .num (.math (.fin r)) := by
  simp only [List.mem_cons, List.not_mem_nil, or_false, leaf_mathInt, leaf_mathOther]
  constructor
  · rintro (⟨n, rfl⟩ | ⟨r, _, rfl⟩) <;> exact ⟨_, rfl⟩
  · rintro ⟨r, rfl⟩
    by_cases h : IsInt r
    · obtain ⟨n, rfl⟩ := h; exact .inl ⟨n, rfl⟩
    · exact .inr ⟨r, h, rfl⟩

theorem wFinite {v : WV} : leafOf v ∈ ["IntegralNumber_", "NonIntegralFiniteNumber_"] ↔ ∃ r, v = .num (.number (.fin r)) := by
  simp only [List.mem_cons, List.not_mem_nil, or_false, leaf_integral, leaf_nonIntegral]
  constructor
  · rintro (⟨n, rfl⟩ | ⟨r, _, rfl⟩) <;> exact ⟨_, rfl⟩
  · rintro ⟨r, rfl⟩
    by_cases h : IsInt r
    · obtain ⟨n, rfl⟩ := h; exact .inl ⟨n, rfl⟩
    · exact .inr ⟨r, h, rfl⟩

theorem anc_names {a : String} (f : String → Prop) [DecidablePred f] (h : ∀ n ∈ names wTree, a ∈ above n → f n) (n : String) (ha : Anc wTree a n) : f n :=
  h n ha.mem_right ((anc_above ha.mem_right).1 ha)

theorem wN : NumWorld (R := ℚ) (I := wI) wCfg WV.num where
  inj := fun x y h => by injection h
  mathInteger := fun v => (named_leaves (ls := ["MathInteger_"]) (by decide +kernel) v).trans (List.mem_singleton.trans leaf_mathInt)
  mathOther := fun v => (named_leaves (ls := ["MathOther_"]) (by decide +kernel) v).trans (List.mem_singleton.trans leaf_mathOther)
  mathReal := fun v => (named_leaves (ls := ["MathInteger_", "MathOther_"]) (by decide +kernel) v).trans wReal
  mathPos := fun v => (named_leaves (ls := ["MathPosInfinity_"]) (by decide +kernel) v).trans (List.mem_singleton.trans leaf_mpos)
  mathNeg := fun v => (named_leaves (ls := ["MathNegInfinity_"]) (by decide +kernel) v).trans (List.mem_singleton.trans leaf_mneg)
  extended := fun (v : WV) => (named_leaves (ls := ["MathPosInfinity_", "MathNegInfinity_"] ++ ["MathInteger_", "MathOther_"]) (by decide +kernel) v).trans (by
    refine List.mem_append.trans ((or_congr Iff.rfl wReal).trans ?_)
    simp only [List.mem_cons, List.not_mem_nil, or_false, leaf_mpos, leaf_mneg]
    constructor
    · rintro ((rfl | rfl) | ⟨r, rfl⟩) <;> exact ⟨_, rfl⟩
    · rintro ⟨x, rfl⟩; cases x with
      | fin r => exact .inr ⟨r, rfl⟩
      | pos => exact .inl (.inl rfl)
      | neg => exact .inl (.inr rfl))
  integral := fun v => (named_leaves (ls := ["IntegralNumber_"]) (by decide +kernel) v).trans (List.mem_singleton.trans leaf_integral)
  nonIntegral := fun v => (named_leaves (ls := ["NonIntegralFiniteNumber_"]) (by decide +kernel) v).trans (List.mem_singleton.trans leaf_nonIntegral)
  finite := fun v => (named_leaves (ls := ["IntegralNumber_", "NonIntegralFiniteNumber_"]) (by decide +kernel) v).trans wFinite
  posInfinity := fun v => (named_leaves (ls := ["PosInfinityNumber_"]) (by decide +kernel) v).trans (List.mem_singleton.trans leaf_npos)
  negInfinity := fun v => (named_leaves (ls := ["NegInfinityNumber_"]) (by decide +kernel) v).trans (List.mem_singleton.trans leaf_nneg)
  nan := fun v => (named_leaves (ls := ["NaN_Number_"]) (by decide +kernel) v).trans (List.mem_singleton.trans leaf_nan)
  number := fun (v : WV) => (named_leaves (ls := ["PosInfinityNumber_", "NegInfinityNumber_", "NaN_Number_"] ++ ["IntegralNumber_", "NonIntegralFiniteNumber_"]) (by decide +kernel) v).trans (by
    refine List.mem_append.trans ((or_congr Iff.rfl wFinite).trans ?_)
    simp only [List.mem_cons, List.not_mem_nil, or_false, leaf_npos, leaf_nneg, leaf_nan]
    constructor
    · rintro ((rfl | rfl | rfl) | ⟨r, rfl⟩)
      · exact .inl ⟨_, rfl⟩
      · exact .inl ⟨_, rfl⟩
      · exact .inr rfl
      · exact .inl ⟨_, rfl⟩
    · rintro (⟨x, rfl⟩ | rfl)
      · cases x with
        | fin r => exact .inr ⟨r, rfl⟩
        | pos => exact .inl (.inl rfl)
        | neg => exact .inl (.inr (.inl rfl))
      · exact .inl (.inr (.inr rfl)))
  bigInt := fun v => (named_leaves (ls := ["BigInt"]) (by decide +kernel) v).trans (List.mem_singleton.trans leaf_big)
  tangible := by
    intro v hv
    refine wNamed.2 ?_
    have hv := hv.imp wNamed.1 wNamed.1
    have : ∀ n ∈ leaves, "Number" ∈ above n ∨ "BigInt" ∈ above n → "Tangible_" ∈ above n := by decide +kernel
    exact this _ (leafOf_mem v) hv
  other := by
    intro n hn z h0
    have h := wNamed.1 h0
    have key : ∀ n ∈ ["not_passed", "tilde_empty_", "tilde_detached_", "tilde_bigint_", "tilde_number_"], ∀ l ∈ leaves, n ∈ above l → l = n := by decide +kernel
    have e := key n hn _ (leafOf_mem _) h
    have : ∀ n ∈ ["not_passed", "tilde_empty_", "tilde_detached_", "tilde_bigint_", "tilde_number_"], leafOf (.num z) ≠ n := by
      intro n hn e
      simp only [List.mem_cons, List.not_mem_nil, or_false] at hn
      unfold leafOf at e
      rcases hn with rfl | rfl | rfl | rfl | rfl <;> (split at e <;> (try split at e) <;> simp at e) <;> simp_all
    exact this n hn e
  known := by decide +kernel
  underReal := anc_names (fun n => n ∈ ["MathReal_", "MathInteger_", "MathOther_"]) (by decide +kernel)
  underNumber := anc_names (fun n => n ∈ ["Number", "FiniteNumber_", "IntegralNumber_", "NonIntegralFiniteNumber_", "PosInfinityNumber_",
    "NegInfinityNumber_", "NaN_Number_"]) (by decide +kernel)
  underBigInt := anc_names (fun n => n = "BigInt") (by decide +kernel)

end Verif.Arith
