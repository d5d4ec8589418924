import Verif.Algs.HeadLemmas
import Verif.Paths.Props
import Verif.Titles.IdLemmas
import Verif.Facts.Spec
/-!
# C89: what is noted for a fact about an intrinsic object
-/
namespace Verif.Facts
open Verif.Algs (replace replaced_iff Replaced)
open Verif.Paths (getPdn c74_name c74_only)
open Verif.Titles (hasSub hasSub_iff)
open Spec

theorem has_iff {t : String} {s : Str} : hasSub t.toList s = true ↔ Has t s := hasSub_iff _ _

theorem starts_iff {t : String} {s : Str} : t.toList.isPrefixOf s = true ↔ Starts t s := by
  rw [List.isPrefixOf_iff_prefix]
  constructor
  · rintro ⟨r, h⟩; exact ⟨r, h.symm⟩
  · rintro ⟨r, h⟩; exact ⟨r, h.symm⟩

theorem phrases_eq (x e : Str) : phrases x e = pairs x e := by
  unfold phrases pairs
  simp only [show "_".toList = ['_'] from rfl, show "the corresponding _".toList = "the corresponding ".toList ++ ['_'] from rfl, show "_ prototype intrinsic object (<emu-xref href=\"#sec-properties-of-typedarray-prototype-objects\"></emu-xref>)".toList =
      ['_'] ++ " prototype intrinsic object (<emu-xref href=\"#sec-properties-of-typedarray-prototype-objects\"></emu-xref>)".toList from rfl,
    show "each _".toList = "each ".toList ++ ['_'] from rfl, show "a _".toList = "a ".toList ++ ['_'] from rfl, List.append_assoc, List.cons_append, List.nil_append]

theorem steps_iff : ∀ (ps : List (Str × Str)) (_ : ∀ p ∈ ps, p.1 ≠ []) (s t : Str), Steps ps s t ↔ t = ps.foldl (fun s p => replace p.1 p.2 0 s) s
  | [], _, s, t => by
    constructor
    · intro h; cases h; rfl
    · intro h; rw [h]; exact .done
  | p :: ps, hp, s, t => by
    have ih := steps_iff ps (fun q hq => hp q (.tail _ hq)) (replace p.1 p.2 0 s) t
    rw [List.foldl_cons, ← ih]
    constructor
    · intro h
      cases h with
      | step h1 h2 => rw [replaced_iff _ _ (hp p (.head _))] at h1; rw [← h1]; exact h2
    · intro h
      exact .step ((replaced_iff _ _ (hp p (.head _)) _ _).2 rfl) h

theorem for_iff (x e s t : Str) : For x e s t ↔ t = expandStr x e s := by
  unfold For expandStr
  rw [← phrases_eq, steps_iff]
  intro p hp
  unfold phrases at hp
  simp only [List.mem_cons, List.not_mem_nil, or_false] at hp
  rcases hp with h | h | h | h | h | h | h | h <;> rw [h] <;> simp

theorem attrsFor_iff (x e : Str) : ∀ (as bs : List (Str × Str)), AttrsFor x e as bs ↔ bs = as.map (fun a => (a.1, expandStr x e a.2))
  | [], bs => by
    constructor
    · intro h; cases h; rfl
    · intro h; rw [h]; exact .nil
  | (n, v) :: as, bs => by
    rw [List.map_cons]
    constructor
    · intro h
      cases h with
      | cons h1 h2 => rw [(for_iff _ _ _ _).1 h1, (attrsFor_iff x e as _).1 h2]
    · intro h
      rw [h]
      exact .cons ((for_iff _ _ _ _).2 rfl) ((attrsFor_iff x e as _).2 rfl)

theorem factFor_iff (x e : Str) (f g : Fact) : FactFor x e f g ↔ g = expandFact (expandStr x e) f := by
  constructor
  · intro h
    cases h with
    | «exists» h => rw [(for_iff _ _ _ _).1 h]; rfl
    | aka h h' => rw [(for_iff _ _ _ _).1 h, (for_iff _ _ _ _).1 h']; rfl
    | is h h' => rw [(for_iff _ _ _ _).1 h, (for_iff _ _ _ _).1 h']; rfl
    | slot h h' => rw [(for_iff _ _ _ _).1 h, (for_iff _ _ _ _).1 h']; rfl
    | prop h h' h'' => rw [(for_iff _ _ _ _).1 h, (for_iff _ _ _ _).1 h', (attrsFor_iff _ _ _ _).1 h'']; rfl
  · intro h
    rw [h]
    have hf : ∀ s, For x e s (expandStr x e s) := fun s => (for_iff _ _ _ _).2 rfl
    cases f with
    | «exists» => exact .exists (hf _)
    | aka => exact .aka (hf _) (hf _)
    | is => exact .is (hf _) (hf _)
    | slot => exact .slot (hf _) (hf _)
    | prop => exact .prop (hf _) (hf _) ((attrsFor_iff _ _ _ _).2 rfl)

theorem variable_iff (ne ta : List Str) (title x : Str) (es : List Str) : variable? ne ta title = some (x, es) ↔ Variable ne ta title x es := by
  unfold variable?
  by_cases h1 : Has "_NativeError_" title
  · rw [if_pos (has_iff.2 h1)]
    constructor
    · intro h; cases h; exact .native h1
    · intro h
      cases h with
      | native => rfl
      | typed h => exact absurd h1 h
  · rw [if_neg (fun h => h1 (has_iff.1 h))]
    by_cases h2 : Has "_TypedArray_" title
    · rw [if_pos (has_iff.2 h2)]
      constructor
      · intro h; cases h; exact .typed h1 h2
      · intro h
        cases h with
        | native h => exact absurd h h1
        | typed => rfl
    · rw [if_neg (fun h => h2 (has_iff.1 h))]
      constructor
      · intro h; cases h
      · intro h
        cases h with
        | native h => exact absurd h h1
        | typed _ h => exact absurd h h2

theorem object_iff (s n : Str) : getPdn s = some n ↔ Object s n := by
  constructor
  · intro h; exact c74_only h
  · rintro ⟨ph, h, rfl, rfl⟩; exact c74_name h

theorem plain_iff (s : Str) : plain.any (fun t => t.toList.isPrefixOf s) = true ↔ NoObject s := by
  unfold plain NoObject
  simp only [List.any_cons, List.any_nil, Bool.or_eq_true, starts_iff, Bool.false_eq_true, or_false, or_assoc]

theorem value_iff (s n : Str) : normalizeStr s = some n ↔ Value s n := by
  unfold normalizeStr
  by_cases h : NoObject s
  · rw [if_pos ((plain_iff s).2 h)]
    constructor
    · intro e; obtain rfl := Option.some.inj e; exact .plain h
    · intro hv
      cases hv with
      | plain => rfl
      | object hn => exact absurd h hn
  · rw [if_neg (fun e => h ((plain_iff s).1 e)), object_iff]
    constructor
    · exact .object h
    · intro hv
      cases hv with
      | plain hn => exact absurd hn h
      | object _ ho => exact ho

theorem values_iff : ∀ (as bs : List (Str × Str)), normalizeAttrs as = some bs ↔ Values as bs
  | [], bs => by
    constructor
    · intro e; obtain rfl := Option.some.inj e; exact .nil
    · intro h; cases h; rfl
  | (n, v) :: as, bs => by
    rw [normalizeAttrs]
    constructor
    · intro h
      cases hv : normalizeStr v with
      | none => rw [hv] at h; cases h
      | some w =>
        rw [hv] at h
        dsimp only at h
        obtain ⟨cs, h1, rfl⟩ := Option.map_eq_some_iff.1 h
        exact .cons ((value_iff _ _).1 hv) ((values_iff as cs).1 h1)
    · intro h
      cases h with
      | cons h1 h2 => rw [(value_iff _ _).2 h1]; dsimp only; rw [(values_iff as _).2 h2]; rfl

theorem noted_iff (f : Fact) (a : List Fact) : cook f = some a ↔ Noted f a := by
  cases f with
  | «exists» l =>
    unfold cook
    rw [Option.map_eq_some_iff]
    simp only [object_iff]
    constructor
    · rintro ⟨n, h, rfl⟩; exact .exists h
    · intro h; cases h with | «exists» h => exact ⟨_, h, rfl⟩
  | is l r =>
    unfold cook
    rw [Option.map_eq_some_iff]
    simp only [object_iff]
    constructor
    · rintro ⟨n, h, rfl⟩; exact .is h
    · intro h; cases h with | is h => exact ⟨_, h, rfl⟩
  | aka l r =>
    unfold cook
    dsimp only
    constructor
    · intro h
      cases hl : getPdn l with
      | none => rw [hl] at h; cases h
      | some n =>
        rw [hl] at h
        cases hr : normalizeStr r with
        | none => rw [hr] at h; cases h
        | some m =>
          rw [hr] at h
          dsimp only at h
          by_cases e : n = m
          · rw [if_pos e] at h
            obtain rfl := Option.some.inj h
            exact .aka ((object_iff _ _).1 hl) ((value_iff _ _).1 (e ▸ hr))
          · rw [if_neg e] at h; cases h
    · intro h
      cases h with
      | aka h1 h2 => rw [(object_iff _ _).2 h1]; dsimp only; rw [(value_iff _ _).2 h2]; dsimp only; rw [if_pos rfl]
  | slot l s v =>
    unfold cook
    dsimp only
    constructor
    · intro h
      cases hl : getPdn l with
      | none => rw [hl] at h; cases h
      | some n =>
        rw [hl] at h
        dsimp only at h
        obtain ⟨w, hw, rfl⟩ := Option.map_eq_some_iff.1 h
        exact .slot ((object_iff _ _).1 hl) ((value_iff _ _).1 hw)
    · intro h
      cases h with
      | slot h1 h2 => rw [(object_iff _ _).2 h1]; dsimp only; rw [(value_iff _ _).2 h2]; rfl
  | prop l k as =>
    unfold cook
    dsimp only
    constructor
    · intro h
      cases hl : getPdn l with
      | none => rw [hl] at h; cases h
      | some n =>
        rw [hl] at h
        dsimp only at h
        obtain ⟨w, hw, rfl⟩ := Option.map_eq_some_iff.1 h
        exact .prop ((object_iff _ _).1 hl) ((values_iff _ _).1 hw)
    · intro h
      cases h with
      | prop h1 h2 => rw [(object_iff _ _).2 h1]; dsimp only; rw [(values_iff _ _).2 h2]; rfl

theorem each_iff (x : Str) (f : Fact) : ∀ (es : List Str) (a : List Fact), cookAll (es.map (fun e => expandFact (expandStr x e) f)) = some a ↔ Each x f es a
  | [], a => by
    constructor
    · intro e; obtain rfl := Option.some.inj e; exact .nil
    · intro h; cases h; rfl
  | e :: es, a => by
    rw [List.map_cons, cookAll]
    constructor
    · intro h
      cases hc : cook (expandFact (expandStr x e) f) with
      | none => rw [hc] at h; cases h
      | some b =>
        rw [hc] at h
        dsimp only at h
        obtain ⟨c, h1, rfl⟩ := Option.map_eq_some_iff.1 h
        exact .cons ((factFor_iff _ _ _ _).2 rfl) ((noted_iff _ _).1 hc) ((each_iff x f es c).1 h1)
    · intro h
      cases h with
      | cons h1 h2 h3 =>
        rw [(factFor_iff _ _ _ _).1 h1] at h2
        rw [(noted_iff _ _).2 h2]
        dsimp only
        rw [(each_iff x f es _).2 h3]
        rfl

/-- C89: what is noted for a fact in a section, with any title and names for the variables; it is refused otherwise. -/
theorem c89_put (nativeErrors typedArrays : List Str) (title : Str) (f : Fact) (a : List Fact) :
    put nativeErrors typedArrays title f = some a ↔ Puts nativeErrors typedArrays title f a := by
  unfold put expanded
  cases hv : variable? nativeErrors typedArrays title with
  | some q =>
    obtain ⟨x, es⟩ := q
    have hx := (variable_iff _ _ _ _ _).1 hv
    dsimp only
    rw [each_iff]
    constructor
    · exact .each hx
    · intro h
      cases h with
      | once hn => exact absurd ⟨_, _, hx⟩ hn
      | each hy h =>
        have := (variable_iff _ _ _ _ _).2 hy
        rw [hv] at this
        cases this
        exact h
  | none =>
    have hn : ¬ ∃ x es, Variable nativeErrors typedArrays title x es := by
      rintro ⟨x, es, h⟩
      rw [← variable_iff, hv] at h; cases h
    dsimp only
    have e : cookAll [f] = cook f := by
      unfold cookAll
      cases cook f with
      | none => rfl
      | some b => simp [cookAll]
    rw [e, noted_iff]
    constructor
    · exact .once hn
    · intro h
      cases h with
      | once _ h => exact h
      | each hx => exact absurd ⟨_, _, hx⟩ hn

/-- How many facts are noted for one. -/
def weight : Fact → Nat
  | .aka _ _ => 0
  | _ => 1

theorem noted_length {f : Fact} {a : List Fact} (h : Noted f a) : a.length = weight f := by cases h <;> rfl

theorem for_weight {x e : Str} {f g : Fact} (h : FactFor x e f g) : weight g = weight f := by cases h <;> rfl

/-- C89: that two phrases are for the same object is checked and not noted; any other fact is noted once, or once for each name of the variable. -/
theorem c89_count (nativeErrors typedArrays : List Str) (title : Str) (f : Fact) (a : List Fact) (h : put nativeErrors typedArrays title f = some a) :
    ((∃ l r, f = .aka l r) → a = []) ∧
    ((¬ ∃ l r, f = .aka l r) → (∀ x es, Variable nativeErrors typedArrays title x es → a.length = es.length) ∧ ((¬ ∃ x es, Variable nativeErrors typedArrays title x es) → a.length = 1)) := by
  have hE : ∀ (x : Str) (es : List Str) (a : List Fact), Each x f es a → a.length = es.length * weight f := by
    intro x es
    induction es with
    | nil => intro a h; cases h; simp
    | cons e es ih =>
      intro a h
      cases h with
      | cons h1 h2 h3 => rw [List.length_append, noted_length h2, for_weight h1, ih _ h3, List.length_cons, Nat.succ_mul, Nat.add_comm]
  have hw : (¬ ∃ l r, f = .aka l r) → weight f = 1 := by
    intro h
    cases f with
    | aka l r => exact absurd ⟨_, _, rfl⟩ h
    | _ => rfl
  have hp := (c89_put _ _ _ _ _).1 h
  cases hp with
  | once hn ha =>
    refine ⟨?_, fun hf => ⟨fun x es hx => absurd ⟨_, _, hx⟩ hn, fun _ => ?_⟩⟩
    · rintro ⟨l, r, rfl⟩
      exact List.eq_nil_of_length_eq_zero (noted_length ha)
    · rw [noted_length ha, hw hf]
  | each hx ha =>
    refine ⟨?_, fun hf => ⟨fun y es' hy => ?_, fun hn => absurd ⟨_, _, hx⟩ hn⟩⟩
    · rintro ⟨l, r, rfl⟩
      exact List.eq_nil_of_length_eq_zero (by rw [hE _ _ _ ha]; rfl)
    · have h1 := (variable_iff _ _ _ _ _).2 hx
      rw [(variable_iff _ _ _ _ _).2 hy] at h1
      cases h1
      rw [hE _ _ _ ha, hw hf, Nat.mul_one]

/-- C89: everything that is noted is about an object by its name. -/
theorem c89_subject (nativeErrors typedArrays : List Str) (title : Str) (f : Fact) (a : List Fact) (h : put nativeErrors typedArrays title f = some a) (g : Fact) (hg : g ∈ a) :
    ∃ s, Object s (subject g) := by
  have hN : ∀ (f : Fact) (a : List Fact), Noted f a → ∀ g ∈ a, ∃ s, Object s (subject g) := by
    intro f a h g hg
    cases h with
    | aka => cases hg
    | «exists» h => rw [List.mem_singleton.1 hg]; exact ⟨_, h⟩
    | is h => rw [List.mem_singleton.1 hg]; exact ⟨_, h⟩
    | slot h => rw [List.mem_singleton.1 hg]; exact ⟨_, h⟩
    | prop h => rw [List.mem_singleton.1 hg]; exact ⟨_, h⟩
  have hp := (c89_put _ _ _ _ _).1 h
  cases hp with
  | once _ ha => exact hN _ _ ha g hg
  | each hv ha =>
    clear h hv
    induction ha with
    | nil => cases hg
    | cons h1 h2 h3 ih =>
      rcases List.mem_append.1 hg with hg | hg
      · exact hN _ _ h2 g hg
      · exact ih hg

/-! ## Texts that use the variables -/

theorem replaced_same {p n : Str} : ∀ {s : Str}, (∀ a b, s ≠ a ++ p ++ b) → Replaced p n s s
  | [], _ => .nil
  | c :: s, h => .miss (fun ⟨r, e⟩ => h [] r (by rw [List.nil_append, e])) (replaced_same (fun a b e => h (c :: a) b (by rw [e]; rfl)))

theorem no_part {c : Char} {p s : Str} (h1 : c ∈ p) (h2 : c ∉ s) (a b : Str) : s ≠ a ++ p ++ b := by
  intro e
  exact h2 (by rw [e]; simp [h1])

/-- C89: a text without any of the phrases stays as it is. -/
theorem c89_same (x e s : Str) (h : ∀ p ∈ phrases x e, ∀ a b, s ≠ a ++ p.1 ++ b) : For x e s s := by
  unfold For
  have : ∀ ps : List (Str × Str), (∀ p ∈ ps, ∀ a b, s ≠ a ++ p.1 ++ b) → Steps ps s s := by
    intro ps
    induction ps with
    | nil => intro _; exact .done
    | cons p ps ih => intro h; exact .step (replaced_same (h p (.head _))) (ih (fun q hq => h q (.tail _ hq)))
  exact this _ h

/-- A name that a variable stands for. -/
def Name (e : Str) : Prop := Paths.Spec.Word e ∧ '_' ∉ e ∧ e.head? ≠ some '1'

theorem name_no {e : Str} (h : Name e) (c : Char) (hc : c.isAlphanum = false) : c ∉ e := by
  intro hm
  by_cases hu : c = '_'
  · exact h.2.1 (hu ▸ hm)
  · rcases h.1.2 c hm with h | h
    · rw [hc] at h; cases h
    · exact hu h

def IsVar (x : Str) : Prop := x = "NativeError".toList ∨ x = "TypedArray".toList

theorem var_no {x : Str} (h : IsVar x) (c : Char) (hc : c ∉ "NativeErrorTypedArray".toList) : c ∉ x := by
  have e : "NativeErrorTypedArray".toList = "NativeError".toList ++ "TypedArray".toList := rfl
  rw [e, List.mem_append, not_or] at hc
  rcases h with rfl | rfl
  · exact hc.1
  · exact hc.2

/-- The text after the variable has no variable, no tag and no other phrase. -/
theorem for_each {x e r : Str} (hx : IsVar x) (he : Name e) (h1 : '_' ∉ r) (h2 : '<' ∉ r) (h3 : '(' ∉ r) (h4 : 'f' ∉ r) : For x e ("each _".toList ++ x ++ "_".toList ++ r) ("the ".toList ++ e ++ r) := by
  unfold For phrases
  have lt1 : '<' ∉ "each _".toList ++ x ++ "_".toList ++ r := by simp [h2, var_no hx '<' (by decide)]
  have lt2 : '<' ∉ "the ".toList ++ e ++ r := by simp [h2, name_no he '<' (by decide)]
  have un2 : '_' ∉ "the ".toList ++ e ++ r := by simp [h1, he.2.1]
  have pa1 : '(' ∉ "each _".toList ++ x ++ "_".toList ++ r := by simp [h3, var_no hx '(' (by decide)]
  have fs : 'f' ∉ "each _".toList ++ x ++ "_".toList ++ r := by simp [h4, var_no hx 'f' (by decide)]
  refine .step (replaced_same (no_part (c := '<') (by simp) lt1)) ?_
  refine .step (replaced_same (no_part (c := 'f') (by simp) fs)) ?_
  refine .step (replaced_same (no_part (c := '(') (by simp) pa1)) ?_
  refine .step (Replaced.hit (replaced_same (no_part (c := '_') (by simp) h1))) ?_
  refine .step (replaced_same (no_part (c := '_') (by simp) un2)) ?_
  refine .step (replaced_same (no_part (c := '_') (by simp) un2)) ?_
  refine .step (replaced_same (no_part (c := '<') (by simp) lt2)) ?_
  exact .step (replaced_same (no_part (c := '<') (by simp) lt2)) .done

theorem for_alone {x e r : Str} (hx : IsVar x) (he : Name e) (h1 : '_' ∉ r) (h2 : ' ' ∉ r) : For x e ("_".toList ++ x ++ "_".toList ++ r) (e ++ r) := by
  unfold For phrases
  have sp1 : ' ' ∉ "_".toList ++ x ++ "_".toList ++ r := by simp [h2, var_no hx ' ' (by decide)]
  have sp2 : ' ' ∉ e ++ r := by simp [h2, name_no he ' ' (by decide)]
  refine .step (replaced_same (no_part (c := ' ') (by simp) sp1)) ?_
  refine .step (replaced_same (no_part (c := ' ') (by simp) sp1)) ?_
  refine .step (replaced_same (no_part (c := ' ') (by simp) sp1)) ?_
  refine .step (replaced_same (no_part (c := ' ') (by simp) sp1)) ?_
  refine .step (replaced_same (no_part (c := ' ') (by simp) sp1)) ?_
  refine .step (Replaced.hit (replaced_same (no_part (c := '_') (by simp) h1))) ?_
  refine .step (replaced_same (no_part (c := ' ') (by simp) sp2)) ?_
  exact .step (replaced_same (no_part (c := ' ') (by simp) sp2)) .done

theorem an_object {e r : Str} (he : Name e) (h1 : ' ' ∉ r) (h2 : '-' ∉ r) : ¬ NoObject (e ++ r) := by
  have hs : ' ' ∉ e ++ r := by simp [h1, name_no he ' ' (by decide)]
  have hd : '-' ∉ e ++ r := by simp [h2, name_no he '-' (by decide)]
  have no : ∀ (t : String) (c : Char), c ∈ t.toList → c ∉ e ++ r → ¬ Starts t (e ++ r) := by
    rintro t c hc hn ⟨q, h⟩
    exact hn (by rw [h]; exact List.mem_append_left _ hc)
  have hh : ∀ c : Char, ¬ (e.head? = some c) → ¬ ∃ q, e ++ r = c :: q := by
    rintro c hc ⟨q, h⟩
    cases e with
    | nil => exact he.1.1 rfl
    | cons d e => rw [List.cons_append] at h; cases h; exact hc rfl
  have star : ¬ Starts "*" (e ++ r) := by
    rintro ⟨q, h⟩
    refine hh '*' ?_ ⟨q, h⟩
    intro h
    exact name_no he '*' (by decide) (List.mem_of_mem_head? h)
  have one : ¬ Starts "1" (e ++ r) := by
    rintro ⟨q, h⟩
    exact hh '1' he.2.2 ⟨q, h⟩
  unfold NoObject
  rintro ((h | h | h | h | h | h | h | h | h | h) | h | h | h)
  · exact star h
  · exact no _ ' ' (by simp) hs h
  · exact no _ ' ' (by simp) hs h
  · exact no _ ' ' (by simp) hs h
  · exact no _ ' ' (by simp) hs h
  · exact no _ ' ' (by simp) hs h
  · exact no _ ' ' (by simp) hs h
  · exact no _ ' ' (by simp) hs h
  · exact no _ ' ' (by simp) hs h
  · exact one h
  · exact no _ '-' (by simp) hd h
  · exact no _ ' ' (by simp) hs h
  · exact no _ ' ' (by simp) hs h

theorem obj_proto {e : Str} (h : Paths.Spec.Word e) : Object ("the ".toList ++ e ++ " prototype object".toList) ("%".toList ++ (e ++ ".prototype".toList) ++ "%".toList) := by
  refine ⟨Paths.Spec.Phrase.proto true e true, h, ?_, rfl⟩
  have : " prototype object".toList = " prototype".toList ++ " object".toList := rfl
  rw [this]
  show _ = "the ".toList ++ e ++ " prototype".toList ++ " object".toList
  simp only [List.append_assoc]

theorem obj_path {e : Str} (h : Paths.Spec.Word e) : Object (e ++ ".prototype".toList) ("%".toList ++ (e ++ ".prototype".toList) ++ "%".toList) := by
  refine ⟨Paths.Spec.Phrase.path ⟨.word e, [.string "prototype".toList]⟩, ⟨⟨h, ?_⟩, ?_⟩, ?_, ?_⟩
  · intro k hk
    rw [List.mem_singleton.1 hk]
    exact ⟨by decide, by decide⟩
  · rintro ⟨w, _, h⟩; cases h
  · show _ = e ++ [Paths.Spec.Key.string "prototype".toList].flatMap Paths.Spec.Key.text
    rw [List.flatMap_cons, List.flatMap_nil, List.append_nil]
    rfl
  · show _ = "%".toList ++ (e ++ [Paths.Spec.Key.string "prototype".toList].flatMap Paths.Spec.Key.name) ++ "%".toList
    rw [List.flatMap_cons, List.flatMap_nil, List.append_nil]
    rfl

theorem obj_constructor {e : Str} (h : Paths.Spec.Word e) : Object ("the ".toList ++ e ++ " constructor".toList) ("%".toList ++ e ++ "%".toList) :=
  ⟨Paths.Spec.Phrase.thing e .constructor, ⟨h, fun h => nomatch h.1⟩, rfl, rfl⟩

theorem obj_word {e : Str} (h : Paths.Spec.Word e) : Object e ("%".toList ++ e ++ "%".toList) := by
  refine ⟨Paths.Spec.Phrase.path ⟨.word e, []⟩, ⟨⟨h, fun k hk => nomatch hk⟩, ?_⟩, ?_, ?_⟩
  · rintro ⟨w, _, h⟩; cases h
  · show e = e ++ []
    rw [List.append_nil]
  · show _ = "%".toList ++ (e ++ []) ++ "%".toList
    rw [List.append_nil]

/-- C89: in a section about a variable, whatever names it has: that the prototype objects are called so, and the constructors, is accepted. -/
theorem c89_each (nativeErrors typedArrays : List Str) (title x : Str) (es : List Str) (hv : Variable nativeErrors typedArrays title x es) (hn : ∀ e ∈ es, Name e) :
    put nativeErrors typedArrays title (.aka ("each _".toList ++ x ++ "_ prototype object".toList) ("_".toList ++ x ++ "_.prototype".toList)) = some [] ∧
    put nativeErrors typedArrays title (.aka ("each _".toList ++ x ++ "_ constructor".toList) ("_".toList ++ x ++ "_".toList)) = some [] := by
  have hx : IsVar x := by
    cases hv with
    | native => exact .inl rfl
    | typed => exact .inr rfl
  have e1 : "_ prototype object".toList = "_".toList ++ " prototype object".toList := rfl
  have e2 : "_.prototype".toList = "_".toList ++ ".prototype".toList := rfl
  have e3 : "_ constructor".toList = "_".toList ++ " constructor".toList := rfl
  rw [c89_put, c89_put]
  refine ⟨.each hv ?_, .each hv ?_⟩
  · clear hv
    induction es with
    | nil => exact .nil
    | cons e es ih =>
      have he := hn e (.head _)
      have hl := for_each (r := " prototype object".toList) hx he (by simp) (by simp) (by simp) (by simp)
      have hr := for_alone (r := ".prototype".toList) hx he (by simp) (by simp)
      rw [List.append_assoc, ← e1] at hl
      rw [List.append_assoc, ← e2] at hr
      exact .cons (a := []) (.aka hl hr) (.aka (obj_proto he.1) (.object (an_object he (by simp) (by simp)) (obj_path he.1))) (ih (fun e h => hn e (.tail _ h)))
  · clear hv
    induction es with
    | nil => exact .nil
    | cons e es ih =>
      have he := hn e (.head _)
      have hl := for_each (r := " constructor".toList) hx he (by simp) (by simp) (by simp) (by simp)
      have hr := for_alone (r := []) hx he (by simp) (by simp)
      rw [List.append_assoc, ← e3] at hl
      rw [List.append_nil, List.append_nil] at hr
      have hnn := an_object (r := []) he (by simp) (by simp)
      rw [List.append_nil] at hnn
      exact .cons (a := []) (.aka hl hr) (.aka (obj_constructor he.1) (.object hnn (obj_word he.1))) (ih (fun e h => hn e (.tail _ h)))

/-- C89: the name in a cell is what is before the break. -/
theorem c89_cell (n r : Str) (h1 : '<' ∉ n) (h2 : r ≠ []) (h3 : '\n' ∉ r) (k : Nat) (hk : (n ++ "<br>\n".toList ++ r).length ≤ k) :
    cellName k (n ++ "<br>\n".toList ++ r) = n ∧ cellName k n = n := by
  have e0 : ∀ (k : Nat) (c : Char) (s : Str), c ≠ '<' → cellName (k + 1) (c :: s) = c :: cellName k s := by
    intro k c s hc
    rw [cellName, if_neg]
    rintro ⟨h, _⟩
    simp at h
    exact hc h.1.symm
  induction n generalizing k with
  | nil =>
    have hn : ∀ k, cellName k [] = [] := by intro k; cases k <;> rfl
    refine ⟨?_, hn k⟩
    cases k with
    | zero => simp at hk
    | succ k =>
      rw [List.nil_append]
      show cellName (k + 1) ('<' :: ("br>\n".toList ++ r)) = []
      rw [cellName, if_pos]
      · show cellName k (afterLine r) = []
        have : afterLine r = [] := by
          unfold afterLine
          have h := Titles.takeWhile_all (p := (· != '\n')) (w := r) (r := []) (fun c hc => by simpa using fun e : c = '\n' => h3 (e ▸ hc)) (by simp)
          rw [List.append_nil] at h
          exact h.2
        rw [this, hn]
      · refine ⟨by simp, ?_⟩
        show r.head?.any (· != '\n') = true
        cases r with
        | nil => exact absurd rfl h2
        | cons c r =>
          simp only [List.head?_cons, Option.any_some, bne_iff_ne, ne_eq]
          intro e; exact h3 (e ▸ List.mem_cons_self)
  | cons c n ih =>
    cases k with
    | zero => simp at hk
    | succ k =>
      have hc : c ≠ '<' := fun e => h1 (e ▸ List.mem_cons_self)
      have := ih (fun h => h1 (.tail _ h)) k (by simp at hk ⊢; omega)
      rw [List.cons_append, List.cons_append, e0 _ _ _ hc, e0 _ _ _ hc, this.1, this.2]
      exact ⟨rfl, rfl⟩

/-! ## Cases -/

def exErrors : List Str := ["RangeError".toList, "URIError".toList]

theorem ex_names : ∀ e ∈ exErrors, Name e := by
  intro e he
  unfold exErrors at he
  simp only [List.mem_cons, List.not_mem_nil, or_false] at he
  rcases he with rfl | rfl <;> exact ⟨⟨by decide, by decide⟩, by decide, by decide⟩

/-- A section about native errors: each fact is noted for each error. -/
example : put exErrors [] "_NativeError_.prototype.message".toList (.prop "_NativeError_.prototype".toList "*\"message\"*".toList [("[[Value]]".toList, "*\"\"*".toList)]) =
    some [.prop "%RangeError.prototype%".toList "*\"message\"*".toList [("[[Value]]".toList, "*\"\"*".toList)],
      .prop "%URIError.prototype%".toList "*\"message\"*".toList [("[[Value]]".toList, "*\"\"*".toList)]] := by decide +kernel

example : put exErrors [] "_NativeError_.prototype.constructor".toList (.prop "a _NativeError_ prototype object".toList "k".toList [("[[Value]]".toList, "the constructor itself".toList)]) =
    some [.prop "%RangeError.prototype%".toList "k".toList [("[[Value]]".toList, "%RangeError%".toList)],
      .prop "%URIError.prototype%".toList "k".toList [("[[Value]]".toList, "%URIError%".toList)]] := by decide +kernel

/-- Another section: the object is named, a wrong other name is refused. -/
example : put exErrors [] "Map".toList (.slot "the Map constructor".toList "[[Prototype]]".toList "the Function prototype object".toList) =
      some [.slot "%Map%".toList "[[Prototype]]".toList "%Function.prototype%".toList] ∧
    put exErrors [] "Map".toList (.aka "%Map%".toList "the Map constructor".toList) = some [] ∧
    put exErrors [] "Map".toList (.aka "%Map%".toList "the Set constructor".toList) = none := by decide +kernel

example : put exErrors [] "Properties of the _NativeError_ Constructors".toList (.aka ("each _".toList ++ "NativeError".toList ++ "_ prototype object".toList) ("_".toList ++ "NativeError".toList ++ "_.prototype".toList)) =
    some [] := (c89_each _ _ _ _ _ (.native ⟨"Properties of the ".toList, " Constructors".toList, rfl⟩) ex_names).1

example : cellName 40 "Int8Array<br>\n%Int8Array%".toList = "Int8Array".toList := by decide +kernel

end Verif.Facts
