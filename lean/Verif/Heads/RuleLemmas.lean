import Verif.Heads.KeyLemmas
/-!
# Lemmas on the definitions of an operation and their headings
-/
namespace Verif.Heads
open Verif.Heads.Spec
open Verif.Sdo (Puk Tree NtDef label rulesFor ChainTo OnlyBelow)
open Verif.Defs (Str Block Arena Table process)
open Verif.Defs.Spec (IsArena Defines FinalRhss Defined Counts GoodName LeftOk prodns)
open Verif.Uses (Element itemsOf)
open Verif.Uses.Spec (Match treatment IsCase)
open Verif.Gram (Item BitsOk IKind)

theorem filter_nil {α : Type} (f : α → Bool) (l : List α) : l.filter f = [] ↔ ∀ (j : Nat) y, l[j]? = some y → f y = false := by
  rw [List.filter_eq_nil_iff]
  constructor
  · intro h j y hy
    simpa using h y (List.mem_of_getElem? hy)
  · intro h y hy
    obtain ⟨j, hj⟩ := List.mem_iff_getElem?.1 hy
    simp [h j y hj]

theorem filter_one {α : Type} (f : α → Bool) (x : α) : ∀ l : List α, l.filter f = [x] ↔
    ∃ i : Nat, l[i]? = some x ∧ f x = true ∧ ∀ (j : Nat) y, l[j]? = some y → f y = true → j = i
  | [] => by simp
  | a :: l => by
    rw [List.filter_cons]
    by_cases ha : f a = true
    · rw [if_pos ha, List.cons.injEq, filter_nil]
      constructor
      · rintro ⟨rfl, h⟩
        refine ⟨0, rfl, ha, ?_⟩
        intro j y hy hf
        cases j with
        | zero => rfl
        | succ j => rw [h j y hy] at hf; cases hf
      · rintro ⟨i, h1, h2, h3⟩
        have := h3 0 a rfl ha
        subst this
        cases h1
        refine ⟨rfl, fun j y hy => ?_⟩
        cases hf : f y with
        | false => rfl
        | true => have := h3 (j + 1) y hy hf; omega
    · rw [if_neg ha, filter_one f x l]
      constructor
      · rintro ⟨i, h1, h2, h3⟩
        refine ⟨i + 1, h1, h2, ?_⟩
        intro j y hy hf
        cases j with
        | zero => cases hy; exact absurd hf ha
        | succ j => rw [h3 j y hy hf]
      · rintro ⟨i, h1, h2, h3⟩
        cases i with
        | zero => cases h1; exact absurd h2 ha
        | succ i =>
          refine ⟨i, h1, h2, ?_⟩
          intro j y hy hf
          have := h3 (j + 1) y hy hf
          omega

variable {R : Type}

/-- There is one definition for the node. -/
def OneFor (doc : List Block) (heads : List (R × Head)) (u : Tree) (d : R) : Prop :=
  ∃ (i : Nat) (hd : Head), heads[i]? = some (d, hd) ∧ IsFor doc hd u ∧ ∀ (j : Nat) (d' : R) (hd' : Head), heads[j]? = some (d', hd') → IsFor doc hd' u → j = i

theorem rules_at {t : Table} {heads : List (R × Head)} {defs : List (R × List Puk)} (hr : rules t heads = some defs) :
    defs.length = heads.length ∧ ∀ (i : Nat) d ks, defs[i]? = some (d, ks) ↔ ∃ hd, heads[i]? = some (d, hd) ∧ headKeys t hd = some ks := by
  obtain ⟨h1, h2⟩ := Uses.mapM_at _ _ _ hr
  refine ⟨h1, fun i d ks => ?_⟩
  constructor
  · intro hd
    have hlt : i < heads.length := by rw [← h1]; exact (List.getElem?_eq_some_iff.1 hd).1
    obtain ⟨b, k1, k2⟩ := h2 i _ (List.getElem?_eq_getElem hlt)
    rw [hd] at k1
    cases k1
    rw [List.getElem?_eq_getElem hlt]
    cases hh : headKeys t heads[i].2 with
    | none => rw [hh] at k2; cases k2
    | some ks' =>
      rw [hh] at k2
      simp only [Option.map_some, Option.some.injEq, Prod.mk.injEq] at k2
      obtain ⟨rfl, rfl⟩ := k2
      exact ⟨_, rfl, hh⟩
  · rintro ⟨hd, k1, k2⟩
    obtain ⟨b, k3, k4⟩ := h2 i _ k1
    rw [k3]
    simp only [k2, Option.map_some] at k4
    rw [← k4]

theorem rules_nodup {t : Table} {heads : List (R × Head)} {defs : List (R × List Puk)} (hr : rules t heads = some defs) :
    ∀ d ∈ defs, d.2.Nodup := by
  intro d hd
  obtain ⟨i, hi⟩ := List.mem_iff_getElem?.1 hd
  obtain ⟨hd, _, k⟩ := ((rules_at hr).2 i d.1 d.2).1 hi
  exact headKeys_nodup k

theorem rulesFor_one {defs : List (R × List Puk)} {p : Puk} {d : R} : rulesFor defs p = [d] ↔
    ∃ (i : Nat) (ks : List Puk), defs[i]? = some (d, ks) ∧ p ∈ ks ∧ ∀ (j : Nat) d' ks', defs[j]? = some (d', ks') → p ∈ ks' → j = i := by
  unfold rulesFor
  rw [List.map_eq_singleton_iff]
  constructor
  · rintro ⟨x, h, rfl⟩
    obtain ⟨i, h1, h2, h3⟩ := (filter_one _ _ _).1 h
    exact ⟨i, x.2, h1, by simpa using h2, fun j d' ks' hj hp => h3 j _ hj (by simpa using hp)⟩
  · rintro ⟨i, ks, h1, h2, h3⟩
    exact ⟨(d, ks), (filter_one _ _ _).2 ⟨i, h1, by simpa using h2, fun j y hj hp => h3 j y.1 y.2 hj (by simpa using hp)⟩, rfl⟩

theorem rulesFor_nil {defs : List (R × List Puk)} {p : Puk} : rulesFor defs p = [] ↔ ∀ (j : Nat) d' ks', defs[j]? = some (d', ks') → p ∉ ks' := by
  unfold rulesFor
  rw [List.map_eq_nil_iff, filter_nil]
  constructor
  · intro h j d' ks' hj hp
    have := h j _ hj
    simp [hp] at this
  · intro h j y hj
    have := h j y.1 y.2 hj
    simpa using this

section
variable {doc : List Block} {ms : List Defs.Msg} {t : Table} (h : process doc = some (ms, t))
include h

theorem leftOk_of : LeftOk doc := by
  have : process doc ≠ none := by rw [h]; simp
  rw [ne_eq, Defs.c55_stops] at this
  exact Classical.byContradiction fun hn => this (.inl hn)

/-- A defined name has only letters and digits. -/
theorem name_chars {i : Nat} {a : Arena} {n : Str} {p : Defs.Prodn} (hd : Defines doc i a n p) : n ≠ [] ∧ '*' ∉ n ∧ '?' ∉ n := by
  obtain ⟨s, h1, rfl, _⟩ := hd
  obtain ⟨_, _, hg⟩ := (leftOk_of h).prodn s p (List.mem_of_getElem? h1)
  have up : ∀ c : Char, Defs.Spec.Upper c → c ≠ '*' ∧ c ≠ '?' := by
    intro c hc
    constructor <;> (rintro rfl; revert hc; unfold Defs.Spec.Upper; decide)
  have lo : ∀ c : Char, Defs.Spec.Lower c → c ≠ '*' ∧ c ≠ '?' := by
    intro c hc
    constructor <;> (rintro rfl; revert hc; unfold Defs.Spec.Lower; decide)
  have di : ∀ c : Char, Defs.Spec.Digit c → c ≠ '*' ∧ c ≠ '?' := by
    intro c hc
    constructor <;> (rintro rfl; revert hc; unfold Defs.Spec.Digit; decide)
  rcases hg with ⟨_, e | ⟨c, w, e, hc, _, hw⟩⟩ | ⟨_, c, w, e, hc, _, hw⟩
  · rw [e]; decide
  · rw [e]
    refine ⟨by simp, ?_, ?_⟩
    · intro hm
      rcases List.mem_append.1 hm with hm | hm
      · revert hm; decide
      · rcases List.mem_cons.1 hm with rfl | hm
        · exact (up _ hc).1 rfl
        · exact (lo _ (hw _ hm)).1 rfl
    · intro hm
      rcases List.mem_append.1 hm with hm | hm
      · revert hm; decide
      · rcases List.mem_cons.1 hm with rfl | hm
        · exact (up _ hc).2 rfl
        · exact (lo _ (hw _ hm)).2 rfl
  · rw [e]
    refine ⟨by simp, ?_, ?_⟩
    · intro hm
      rcases List.mem_cons.1 hm with rfl | hm
      · exact (up _ hc).1 rfl
      · rcases hw _ hm with k | k | k
        · exact (lo _ k).1 rfl
        · exact (up _ k).1 rfl
        · exact (di _ k).1 rfl
    · intro hm
      rcases List.mem_cons.1 hm with rfl | hm
      · exact (up _ hc).2 rfl
      · rcases hw _ hm with k | k | k
        · exact (lo _ k).2 rfl
        · exact (up _ k).2 rfl
        · exact (di _ k).2 rfl

/-- The keys of a heading are of nonterminals that are defined. -/
theorem headKeys_lhs {els : List Element} {ks : List Puk} (hk : headKeys t (.uses els) = some ks) {k : Puk} (hin : k ∈ ks) : '*' ∉ k.lhs := by
  simp only [headKeys] at hk
  cases hr : els.mapM (elementKeys t) with
  | none => rw [hr] at hk; cases hk
  | some kss =>
    rw [hr] at hk
    cases hk
    rw [mem_setOf, List.mem_flatten] at hin
    obtain ⟨l, hl, hin⟩ := hin
    obtain ⟨el, hel, he⟩ := (mapM_mem hr l).1 hl
    obtain ⟨p, hp, c, ⟨a, i, q, rs, _, _, _, hc, _⟩, e, _⟩ := (elementKeys_mem h he k).1 hin
    rw [e]
    rcases hc with hc | ⟨_, hc⟩ <;> exact (name_chars h hc).2.1

theorem plain_grammar (ho : ∀ s rhss its k text, MainDef doc s rhss → its ∈ rhss → Item.qm (.other k text) ∉ its) : Sdo.Plain (grammarA t) := by
  refine ⟨?_, ?_⟩
  · intro s rhss hs
    obtain ⟨i, p, rs, hd, _⟩ := (grammarA_iff h s rhss).1 hs
    intro hl
    exact (name_chars h hd).2.2 (List.mem_of_getLast? hl)
  · intro s rhss its k text hs
    exact ho s rhss its k text ((grammarA_iff h s rhss).1 hs)

variable {heads : List (R × Head)} {defs : List (R × List Puk)} (hr : rules t heads = some defs)
  (hm : ∀ hd ∈ heads, ∀ els, hd.2 = .uses els → ∀ el ∈ els, Main doc el)
include hr hm

/-- A key of a node is one of a heading just if the heading is for the node. -/
theorem key_for {i : Nat} {d : R} {hd : Head} {ks : List Puk} (h1 : heads[i]? = some (d, hd)) (h2 : headKeys t hd = some ks) {s : Str} {r b : List Char}
    {cs : List Tree} (hs : s ≠ "*default*".toList ∨ ∀ hd ∈ heads, hd.2 ≠ .default) : ⟨s, r, b⟩ ∈ ks ↔ IsFor doc hd (.node s r b cs) := by
  cases hd with
  | default =>
    cases h2
    simp only [IsFor, List.mem_singleton, iff_false]
    intro e
    have := congrArg Puk.lhs e
    exact hs.elim (fun k => k this) (fun k => k _ (List.mem_of_getElem? h1) rfl)
  | uses els =>
    rw [← keyIn_isFor h h2 (hm _ (List.mem_of_getElem? h1) els rfl), keyIn_node]

theorem rulesFor_nil_iff {s : Str} {r b : List Char} {cs : List Tree} (hs : s ≠ "*default*".toList ∨ ∀ hd ∈ heads, hd.2 ≠ .default) :
    rulesFor defs ⟨s, r, b⟩ = [] ↔ ∀ hd ∈ heads, ¬IsFor doc hd.2 (.node s r b cs) := by
  obtain ⟨_, hat⟩ := rules_at hr
  rw [rulesFor_nil]
  constructor
  · intro k hd hin
    obtain ⟨i, hi⟩ := List.mem_iff_getElem?.1 hin
    obtain ⟨b', k3, k4⟩ := (Uses.mapM_at _ _ _ hr).2 i _ hi
    obtain ⟨hd', k5, k6⟩ := (hat i b'.1 b'.2).1 k3
    rw [hi] at k5
    cases k5
    rw [← key_for h hr hm hi k6 hs]
    exact k i _ _ k3
  · intro k j d' ks' hj
    obtain ⟨hd', k5, k6⟩ := (hat j d' ks').1 hj
    rw [key_for h hr hm k5 k6 (cs := cs) hs]
    exact k _ (List.mem_of_getElem? k5)

theorem rulesFor_one_iff {s : Str} {r b : List Char} {cs : List Tree} (hs : s ≠ "*default*".toList ∨ ∀ hd ∈ heads, hd.2 ≠ .default) (d : R) :
    rulesFor defs ⟨s, r, b⟩ = [d] ↔ OneFor doc heads (.node s r b cs) d := by
  obtain ⟨hlen, hat⟩ := rules_at hr
  have tot : ∀ {j : Nat} {d' : R} {hd' : Head}, heads[j]? = some (d', hd') → ∃ ks', defs[j]? = some (d', ks') ∧ headKeys t hd' = some ks' := by
    intro j d' hd' hj
    obtain ⟨b', k3, k4⟩ := (Uses.mapM_at _ _ _ hr).2 j _ hj
    obtain ⟨hd'', k5, k6⟩ := (hat j b'.1 b'.2).1 k3
    rw [hj] at k5
    cases k5
    exact ⟨_, k3, k6⟩
  rw [rulesFor_one]
  constructor
  · rintro ⟨i, ks, h1, h2, h3⟩
    obtain ⟨hd, k1, k2⟩ := (hat i d ks).1 h1
    refine ⟨i, hd, k1, (key_for h hr hm k1 k2 hs).1 h2, ?_⟩
    intro j d' hd' hj hf
    obtain ⟨ks', k3, k4⟩ := tot hj
    exact h3 j d' ks' k3 ((key_for h hr hm hj k4 hs).2 hf)
  · rintro ⟨i, hd, h1, h2, h3⟩
    obtain ⟨ks, k1, k2⟩ := tot h1
    refine ⟨i, ks, k1, (key_for h hr hm h1 k2 hs).2 h2, ?_⟩
    intro j d' ks' hj hp
    obtain ⟨hd', k3, k4⟩ := (hat j d' ks').1 hj
    exact h3 j d' hd' k3 ((key_for h hr hm k3 k4 hs).1 hp)

theorem rulesFor_default (d : R) : rulesFor defs ⟨"*default*".toList, [], []⟩ = [d] ↔
    ∃ i : Nat, heads[i]? = some (d, .default) ∧ ∀ (j : Nat) d', heads[j]? = some (d', .default) → j = i := by
  obtain ⟨hlen, hat⟩ := rules_at hr
  have star : ∀ {j : Nat} {d' : R} {ks' : List Puk}, defs[j]? = some (d', ks') → (⟨"*default*".toList, [], []⟩ : Puk) ∈ ks' → heads[j]? = some (d', .default) := by
    intro j d' ks' hj hin
    obtain ⟨hd, k1, k2⟩ := (hat j d' ks').1 hj
    cases hd with
    | default => exact k1
    | uses els => exact absurd (by decide) (headKeys_lhs h k2 hin)
  have back : ∀ {j : Nat} {d' : R}, heads[j]? = some (d', .default) → defs[j]? = some (d', [Sdo.defaultPuk]) :=
    fun hj => (hat _ _ _).2 ⟨_, hj, rfl⟩
  rw [rulesFor_one]
  constructor
  · rintro ⟨i, ks, h1, h2, h3⟩
    exact ⟨i, star h1 h2, fun j d' hj => h3 j d' _ (back hj) (by decide)⟩
  · rintro ⟨i, h1, h2⟩
    exact ⟨i, _, back h1, by decide, fun j d' ks' hj hp => h2 j d' (star hj hp)⟩

end

end Verif.Heads
