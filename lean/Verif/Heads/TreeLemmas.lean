import Verif.Heads.Spec
/-!
# Lemmas on the conditions about parse nodes
-/
namespace Verif.Heads
open Verif.Heads.Spec
open Verif.Sdo (Puk Tree)
open Verif.Defs (Str)

/-! ## The nearest node -/

theorem unitTo_size {t v : Tree} (h : UnitTo t v) : sizeOf v ≤ sizeOf t := by
  induction h with
  | here => exact Nat.le_refl _
  | next _ ih =>
    simp only [Tree.node.sizeOf_spec, List.cons.sizeOf_spec]
    omega

theorem unitTo_trans {t u v : Tree} (h : UnitTo t u) (k : UnitTo u v) : UnitTo t v := by
  induction h with
  | here => exact k
  | next _ ih => exact .next (ih k)

/-- Two nodes on the same chain are on a chain. -/
theorem unitTo_linear {t u v : Tree} (h : UnitTo t u) (k : UnitTo t v) : UnitTo u v ∨ UnitTo v u := by
  induction h with
  | here => exact .inl k
  | next h ih =>
    cases k with
    | here => exact .inr (.next h)
    | next k => exact ih k

/-- A function that tests `P` on a node and then goes on to the only child. -/
structure Walks (P : Tree → Prop) (f : Tree → Option Tree) : Prop where
  yes : ∀ t, P t → f t = some t
  only : ∀ s r b c, ¬P (.node s r b [c]) → f (.node s r b [c]) = f c
  other : ∀ t, ¬P t → (∀ s r b c, t ≠ .node s r b [c]) → f t = none

theorem walks_some {P : Tree → Prop} {f : Tree → Option Tree} (hw : Walks P f) {t u : Tree} (h : UnitTo t u) (hp : P u)
    (hm : ∀ v, UnitTo t v → P v → UnitTo u v) : f t = some u := by
  induction h with
  | here t => exact hw.yes t hp
  | @next s r b c v h ih =>
    by_cases hq : P (.node s r b [c])
    · have := unitTo_size (hm _ (.here _) hq)
      have := unitTo_size h
      simp only [Tree.node.sizeOf_spec, List.cons.sizeOf_spec] at *
      omega
    · rw [hw.only _ _ _ _ hq]
      exact ih hp (fun v hv hpv => hm v (.next hv) hpv)

theorem walks_total {P : Tree → Prop} {f : Tree → Option Tree} (hw : Walks P f) : ∀ (n : Nat) (t : Tree), sizeOf t ≤ n →
    (f t = none ∧ ∀ v, UnitTo t v → ¬P v) ∨ ∃ u, f t = some u ∧ Nearest P t u
  | 0, t, h => by cases t <;> simp only [Tree.leaf.sizeOf_spec, Tree.node.sizeOf_spec] at h <;> omega
  | n + 1, t, h => by
    by_cases hp : P t
    · exact .inr ⟨t, hw.yes t hp, .here t, hp, fun v hv _ => hv⟩
    · by_cases hc : ∃ s r b c, t = .node s r b [c]
      · obtain ⟨s, r, b, c, rfl⟩ := hc
        rw [hw.only _ _ _ _ hp]
        simp only [Tree.node.sizeOf_spec, List.cons.sizeOf_spec] at h
        rcases walks_total hw n c (by omega) with ⟨h1, h2⟩ | ⟨u, h1, h2, h3, h4⟩
        · refine .inl ⟨h1, fun v hv => ?_⟩
          cases hv with
          | here => exact hp
          | next hv => exact h2 v hv
        · refine .inr ⟨u, h1, .next h2, h3, fun v hv hpv => ?_⟩
          cases hv with
          | here => exact absurd hpv hp
          | next hv => exact h4 v hv hpv
      · have hc' : ∀ s r b c, t ≠ .node s r b [c] := fun s r b c e => hc ⟨s, r, b, c, e⟩
        refine .inl ⟨hw.other t hp hc', fun v hv => ?_⟩
        cases hv with
        | here => exact hp
        | next => exact absurd rfl (hc' _ _ _ _)

theorem walks_iff {P : Tree → Prop} {f : Tree → Option Tree} (hw : Walks P f) (t : Tree) :
    (∀ u, f t = some u ↔ Nearest P t u) ∧ (f t = none ↔ ∀ v, UnitTo t v → ¬P v) := by
  rcases walks_total hw _ t (Nat.le_refl _) with ⟨h1, h2⟩ | ⟨u, h1, h2⟩
  · refine ⟨fun u => ?_, by simp [h1]; exact h2⟩
    rw [h1]
    exact ⟨fun h => (by cases h), fun h => absurd h.2.1 (h2 u h.1)⟩
  · refine ⟨fun v => ?_, ?_⟩
    · constructor
      · intro h; rw [h1] at h; cases h; exact h2
      · intro h; exact walks_some hw h.1 h.2.1 h.2.2
    · rw [h1]
      exact ⟨fun h => (by cases h), fun h => absurd h2.2.1 (h u h2.1)⟩

/-- The node has one of the keys. -/
def KeyIn (ks : List Puk) (u : Tree) : Prop := ∃ p ∈ ks, u.puk? = some p

theorem keyIn_node {ks : List Puk} {s : Str} {r b cs} : KeyIn ks (.node s r b cs) ↔ ⟨s, r, b⟩ ∈ ks := by
  simp [KeyIn, Sdo.Tree.puk?]

theorem not_keyIn_leaf {ks : List Puk} : ¬KeyIn ks .leaf := by simp [KeyIn, Sdo.Tree.puk?]

theorem unitKey_walks (ks : List Puk) : Walks (KeyIn ks) (unitKey ks) := by
  refine ⟨?_, ?_, ?_⟩
  · intro t h
    cases t with
    | leaf => exact absurd h not_keyIn_leaf
    | node s r b cs => simp only [unitKey]; rw [if_pos (keyIn_node.1 h)]
  · intro s r b c h
    simp only [unitKey]
    rw [if_neg (fun k => h (keyIn_node.2 k))]
    simp only [unitKeys]
  · intro t h k
    cases t with
    | leaf => simp only [unitKey]
    | node s r b cs =>
      simp only [unitKey]
      rw [if_neg (fun k => h (keyIn_node.2 k))]
      match cs, k with
      | [], _ => simp only [unitKeys]
      | [c], k => exact absurd rfl (k s r b c)
      | _ :: _ :: _, _ => simp only [unitKeys]

theorem unitA_walks (n : Str) : Walks (IsA n) (unitA n) := by
  have hn : ∀ s r b cs, IsA n (.node s r b cs) ↔ s = n := by
    intro s r b cs
    constructor
    · rintro ⟨_, _, _, h⟩; cases h; rfl
    · rintro rfl; exact ⟨_, _, _, rfl⟩
  refine ⟨?_, ?_, ?_⟩
  · intro t h
    cases t with
    | leaf => obtain ⟨_, _, _, h⟩ := h; cases h
    | node s r b cs => simp only [unitA]; rw [if_pos ((hn ..).1 h)]
  · intro s r b c h
    simp only [unitA]
    rw [if_neg (fun k => h ((hn ..).2 k))]
    simp only [unitAs]
  · intro t h k
    cases t with
    | leaf => simp only [unitA]
    | node s r b cs =>
      simp only [unitA]
      rw [if_neg (fun k => h ((hn ..).2 k))]
      match cs, k with
      | [], _ => simp only [unitAs]
      | [c], k => exact absurd rfl (k s r b c)
      | _ :: _ :: _, _ => simp only [unitAs]

/-! ## Places -/

mutual
/-- The places of a tree, in preorder. -/
def places : Tree → List (List Nat)
  | .leaf => [[]]
  | .node _ _ _ cs => [] :: placess 0 cs

/-- The places below some children, of which the first has the position `i`. -/
def placess (i : Nat) : List Tree → List (List Nat)
  | [] => []
  | c :: cs => (places c).map (i :: ·) ++ placess (i + 1) cs
end

/-- The node at a place below some children, of which the first has the position `i`. -/
def kidAt (i : Nat) (cs : List Tree) : List Nat → Option Tree
  | [] => none
  | j :: p => if i ≤ j then (cs[j - i]?).bind (nodeAt · p) else none

theorem nodeAt_node (s : Str) (r b : List Char) (cs : List Tree) (i : Nat) (p : List Nat) : nodeAt (.node s r b cs) (i :: p) = kidAt 0 cs (i :: p) := by
  simp only [nodeAt, kidAt, Nat.zero_le, if_true, Nat.sub_zero]
  cases cs[i]? <;> rfl

theorem nodeAt_nil (t : Tree) : nodeAt t [] = some t := by cases t <;> rfl

theorem kidAt_lt {i : Nat} {cs : List Tree} {j : Nat} {p : List Nat} (h : j < i) : kidAt i cs (j :: p) = none := by
  simp only [kidAt]; rw [if_neg (by omega)]

theorem kidAt_eq {i : Nat} {c : Tree} {cs : List Tree} {p : List Nat} : kidAt i (c :: cs) (i :: p) = nodeAt c p := by
  simp [kidAt]

theorem kidAt_gt {i : Nat} {c : Tree} {cs : List Tree} {j : Nat} {p : List Nat} (h : i < j) :
    kidAt i (c :: cs) (j :: p) = kidAt (i + 1) cs (j :: p) := by
  have e : j - i = (j - (i + 1)) + 1 := by omega
  have h1 : i ≤ j := by omega
  have h2 : i + 1 ≤ j := by omega
  simp only [kidAt, h1, h2, if_true, e, List.getElem?_cons_succ]

mutual
/-- The places and the preorder traversal go together. -/
theorem places_spec : ∀ t : Tree, (places t).map (nodeAt t) = (preorder t).map some ∧ (places t).Nodup ∧
    ∀ p, p ∈ places t ↔ ∃ u, nodeAt t p = some u
  | .leaf => by
    refine ⟨by simp [places, preorder, nodeAt], by simp [places], ?_⟩
    intro p
    cases p <;> simp [places, nodeAt]
  | .node s r b cs => by
    obtain ⟨h1, h2, h3⟩ := placess_spec cs 0
    have hne : ∀ p ∈ placess 0 cs, p ≠ [] := by
      intro p hp
      obtain ⟨u, hu⟩ := (h3 p).1 hp
      rintro rfl
      cases hu
    simp only [places, preorder]
    refine ⟨?_, ?_, ?_⟩
    · rw [List.map_cons, List.map_cons, ← h1, nodeAt_nil]
      congr 1
      apply List.map_congr_left
      intro p hp
      match p, hne p hp with
      | i :: p, _ => exact nodeAt_node ..
    · exact List.nodup_cons.2 ⟨fun h => hne _ h rfl, h2⟩
    · intro p
      cases p with
      | nil => simp [nodeAt_nil]
      | cons i p =>
        rw [nodeAt_node, ← h3]
        simp

theorem placess_spec : ∀ (cs : List Tree) (i : Nat), (placess i cs).map (kidAt i cs) = (preorders cs).map some ∧ (placess i cs).Nodup ∧
    ∀ p, p ∈ placess i cs ↔ ∃ u, kidAt i cs p = some u
  | [], i => by
    refine ⟨by simp [placess, preorders], by simp [placess], ?_⟩
    intro p
    cases p <;> simp [placess, kidAt]
  | c :: cs, i => by
    obtain ⟨a1, a2, a3⟩ := places_spec c
    obtain ⟨b1, b2, b3⟩ := placess_spec cs (i + 1)
    have hgt : ∀ p ∈ placess (i + 1) cs, ∃ j q, p = j :: q ∧ i < j := by
      intro p hp
      obtain ⟨u, hu⟩ := (b3 p).1 hp
      match p with
      | [] => cases hu
      | j :: q =>
        refine ⟨j, q, rfl, ?_⟩
        by_cases h : i < j
        · exact h
        · rw [kidAt_lt (by omega)] at hu; cases hu
    simp only [placess, preorders]
    refine ⟨?_, ?_, ?_⟩
    · rw [List.map_append, List.map_append, ← a1, ← b1, List.map_map]
      congr 1
      · apply List.map_congr_left
        intro p _
        exact kidAt_eq
      · apply List.map_congr_left
        intro p hp
        obtain ⟨j, q, rfl, hj⟩ := hgt p hp
        exact kidAt_gt hj
    · refine List.nodup_append.2 ⟨?_, b2, ?_⟩
      · exact List.pairwise_map.2 (List.Pairwise.imp (fun h e => h (List.cons.inj e).2) a2)
      · intro p hp q hq e
        subst e
        obtain ⟨x, _, rfl⟩ := List.mem_map.1 hp
        obtain ⟨j, y, e, hj⟩ := hgt _ hq
        have := (List.cons.inj e).1
        omega
    · intro p
      rw [List.mem_append]
      constructor
      · rintro (h | h)
        · obtain ⟨x, hx, rfl⟩ := List.mem_map.1 h
          rw [kidAt_eq]
          exact (a3 x).1 hx
        · obtain ⟨j, q, rfl, hj⟩ := hgt p h
          rw [kidAt_gt hj]
          exact (b3 _).1 h
      · rintro ⟨u, hu⟩
        match p with
        | [] => cases hu
        | j :: q =>
          rcases Nat.lt_trichotomy j i with h | h | h
          · rw [kidAt_lt h] at hu; cases hu
          · subst h
            rw [kidAt_eq] at hu
            exact .inl (List.mem_map.2 ⟨q, (a3 q).2 ⟨u, hu⟩, rfl⟩)
          · rw [kidAt_gt h] at hu
            exact .inr ((b3 _).2 ⟨u, hu⟩)
end

theorem foldl_count {α : Type} (f : α → Bool) : ∀ (l : List α) (n : Nat), l.foldl (fun n x => if f x then n + 1 else n) n = n + (l.filter f).length
  | [], n => by simp
  | x :: l, n => by
    rw [List.foldl_cons, foldl_count f l, List.filter_cons]
    split <;> simp <;> omega

/-- The number of places whose node has `P`, as a traversal counts them. -/
theorem number_iff {P : Tree → Prop} {f : Tree → Bool} (hf : ∀ u, f u = true ↔ P u) (t : Tree) :
    Number P t ((preorder t).filter f).length := by
  obtain ⟨h1, h2, h3⟩ := places_spec t
  let g : List Nat → Bool := fun p => match nodeAt t p with
    | none => false
    | some u => f u
  refine ⟨(places t).filter g, h2.filter _, ?_, ?_⟩
  · have e : ∀ (ps : List (List Nat)) (us : List Tree), ps.map (nodeAt t) = us.map some → (ps.filter g).length = (us.filter f).length := by
      intro ps
      induction ps with
      | nil => intro us h; cases us with
        | nil => rfl
        | cons _ _ => simp at h
      | cons p ps ih =>
        intro us h
        cases us with
        | nil => simp at h
        | cons u us =>
          simp only [List.map_cons, List.cons.injEq] at h
          have hg : g p = f u := by simp only [g, h.1]
          rw [List.filter_cons, List.filter_cons, hg]
          split <;> simp [ih us h.2]
    exact e _ _ h1
  · intro p
    rw [List.mem_filter, h3]
    constructor
    · rintro ⟨⟨u, hu⟩, hg⟩
      simp only [g, hu] at hg
      exact ⟨u, hu, (hf u).1 hg⟩
    · rintro ⟨u, hu, hp⟩
      exact ⟨⟨u, hu⟩, by simp only [g, hu]; exact (hf u).2 hp⟩

theorem number_unique {P : Tree → Prop} {t : Tree} {m n : Nat} (h : Number P t m) (k : Number P t n) : m = n := by
  obtain ⟨ps, a1, rfl, a3⟩ := h
  obtain ⟨qs, b1, rfl, b3⟩ := k
  exact (List.perm_ext_iff_of_nodup a1 b1 |>.2 (fun p => (a3 p).trans (b3 p).symm)).length_eq

mutual
theorem containsA_iff (n : Str) : ∀ t : Tree, containsA n t = true ↔ ∃ p u, nodeAt t p = some u ∧ IsA n u
  | .leaf => by
    simp only [containsA, Bool.false_eq_true, false_iff]
    rintro ⟨p, u, h, r, b, cs, rfl⟩
    cases p <;> simp [nodeAt] at h
  | .node s r b cs => by
    simp only [containsA, Bool.or_eq_true, decide_eq_true_eq]
    rw [containsAny_iff n cs]
    constructor
    · rintro (rfl | ⟨i, c, p, u, h1, h2, h3⟩)
      · exact ⟨[], _, nodeAt_nil _, _, _, _, rfl⟩
      · refine ⟨i :: p, u, ?_, h3⟩
        simp only [nodeAt, h1, h2]
    · rintro ⟨p, u, h1, h2⟩
      cases p with
      | nil =>
        rw [nodeAt_nil] at h1
        cases h1
        obtain ⟨_, _, _, h2⟩ := h2
        cases h2
        exact .inl rfl
      | cons i p =>
        simp only [nodeAt] at h1
        cases hc : cs[i]? with
        | none => rw [hc] at h1; cases h1
        | some c => rw [hc] at h1; exact .inr ⟨i, c, p, u, hc, h1, h2⟩

theorem containsAny_iff (n : Str) : ∀ cs : List Tree, containsAny n cs = true ↔ ∃ (i : Nat) (c : Tree) (p : List Nat) (u : Tree), cs[i]? = some c ∧ nodeAt c p = some u ∧ IsA n u
  | [] => by simp [containsAny]
  | c :: cs => by
    simp only [containsAny, Bool.or_eq_true]
    rw [containsA_iff n c, containsAny_iff n cs]
    constructor
    · rintro (⟨p, u, h1, h2⟩ | ⟨i, d, p, u, h0, h1, h2⟩)
      · exact ⟨0, c, p, u, rfl, h1, h2⟩
      · exact ⟨i + 1, d, p, u, h0, h1, h2⟩
    · rintro ⟨i, d, p, u, h0, h1, h2⟩
      cases i with
      | zero => cases h0; exact .inl ⟨p, u, h1, h2⟩
      | succ i => exact .inr ⟨i, d, p, u, h0, h1, h2⟩
end

end Verif.Heads
