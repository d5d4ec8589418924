import Verif.Annot.NoteLemmas
import Verif.Deps.PlaceLemmas
import Verif.Refs.ScanLemmas
/-!
# Lemmas about places and connections
-/
namespace Verif.Annot
open Deps (Before Listing idx listing_idx before_asymm before_irrefl)

/-! ### The places of the two trees -/

theorem rWalks_idx : ∀ (ts : List RNode) (k : Nat), rWalks k ts = idx rWalk k ts
  | [], _ => rfl
  | t :: ts, k => by simp [rWalks, idx, rWalks_idx ts (k + 1)]

theorem hWalks_idx : ∀ (ts : List HNode) (k : Nat), hWalks k ts = idx hWalk k ts
  | [], _ => rfl
  | t :: ts, k => by simp [hWalks, idx, hWalks_idx ts (k + 1)]

theorem rAt_kid {l r x i p d} {ks : List RNode} : RAt (.node l r x ks) ((i + 1) :: p) d ↔ ∃ k, ks[i]? = some k ∧ RAt k p d := by
  constructor
  · intro h
    cases h with
    | kid h1 h2 => exact ⟨_, h1, h2⟩
  · rintro ⟨k, h1, h2⟩; exact .kid h1 h2

theorem hAt_kid {n x i p d} {ks : List HNode} : HAt (.node n x ks) ((i + 1) :: p) d ↔ ∃ k, ks[i]? = some k ∧ HAt k p d := by
  constructor
  · intro h
    cases h with
    | kid h1 h2 => exact ⟨_, h1, h2⟩
  · rintro ⟨k, h1, h2⟩; exact .kid h1 h2

/-- A listing of what is below, from the listings of the children. -/
theorem rBelow {l r x} {ks : List RNode} (h : ∀ k ∈ ks, Listing (RAt k) (rWalk k)) :
    Listing (fun p d => RAt (.node l r x ks) p d ∧ p ≠ []) (rWalks 1 ks) := by
  rw [rWalks_idx]
  refine Deps.listing_congr (listing_idx ks 1 h) (fun p d => ?_)
  constructor
  · rintro ⟨i, y, q, h1, rfl, h3⟩
    exact ⟨.kid h1 h3, by simp⟩
  · rintro ⟨h1, h2⟩
    cases h1 with
    | here => exact absurd rfl h2
    | kid h3 h4 => exact ⟨_, _, _, h3, rfl, h4⟩

theorem hBelow {n x} {ks : List HNode} (h : ∀ k ∈ ks, Listing (HAt k) (hWalk k)) :
    Listing (fun p d => HAt (.node n x ks) p d ∧ p ≠ []) (hWalks 1 ks) := by
  rw [hWalks_idx]
  refine Deps.listing_congr (listing_idx ks 1 h) (fun p d => ?_)
  constructor
  · rintro ⟨i, y, q, h1, rfl, h3⟩
    exact ⟨.kid h1 h3, by simp⟩
  · rintro ⟨h1, h2⟩
    cases h1 with
    | here => exact absurd rfl h2
    | kid h3 h4 => exact ⟨_, _, _, h3, rfl, h4⟩

/-- The node itself, and what is below. -/
theorem listing_self {X : Type} {R : List Nat → X → Prop} {t : X} {es : List (List Nat × X)} (h : Listing (fun p d => R p d ∧ p ≠ []) es)
    (h0 : ∀ d, R [] d ↔ d = t) : Listing R (([], t) :: es) := by
  constructor
  · refine List.pairwise_cons.2 ⟨fun b hb => ?_, h.1⟩
    have := ((h.2 b.1 b.2).1 hb).2
    match hb' : b.1, this with
    | _ :: _, _ => trivial
  · intro p d
    rw [List.mem_cons, h.2]
    cases p with
    | nil => simp [h0]
    | cons i p => simp

mutual
theorem rWalk_listing : ∀ t : RNode, Listing (RAt t) (rWalk t)
  | .node l r x ks => by
    rw [rWalk]
    exact listing_self (rBelow (rWalk_listings ks)) (fun d => ⟨fun h => by cases h; rfl, fun h => h ▸ .here⟩)
theorem rWalk_listings : ∀ ts : List RNode, ∀ t ∈ ts, Listing (RAt t) (rWalk t)
  | [], _, h => by cases h
  | t :: ts, u, h => by
    rcases List.mem_cons.1 h with h | h
    · rw [h]; exact rWalk_listing t
    · exact rWalk_listings ts u h
end

mutual
theorem hWalk_listing : ∀ t : HNode, Listing (HAt t) (hWalk t)
  | .node l x ks => by
    rw [hWalk]
    exact listing_self (hBelow (hWalk_listings ks)) (fun d => ⟨fun h => by cases h; rfl, fun h => h ▸ .here⟩)
theorem hWalk_listings : ∀ ts : List HNode, ∀ t ∈ ts, Listing (HAt t) (hWalk t)
  | [], _, h => by cases h
  | t :: ts, u, h => by
    rcases List.mem_cons.1 h with h | h
    · rw [h]; exact hWalk_listing t
    · exact hWalk_listings ts u h
end

/-! ### The two lists -/

theorem pairs_iff (n s : String) : pairs.contains (n, s) = true ↔ Match n s := by
  rw [List.contains_iff_mem, pairs]
  simp only [List.mem_cons, List.not_mem_nil, or_false, Prod.mk.injEq]
  constructor
  · rintro (⟨rfl, rfl⟩ | ⟨rfl, rfl⟩ | ⟨rfl, rfl⟩ | ⟨rfl, rfl⟩ | ⟨rfl, rfl⟩)
    · exact .grammar
    · exact .alg
    · exact .figure
    · exact .a
    · exact .pre
  · intro h
    cases h
    · exact Or.inl ⟨rfl, rfl⟩
    · exact Or.inr (Or.inl ⟨rfl, rfl⟩)
    · exact Or.inr (Or.inr (Or.inl ⟨rfl, rfl⟩))
    · exact Or.inr (Or.inr (Or.inr (Or.inl ⟨rfl, rfl⟩)))
    · exact Or.inr (Or.inr (Or.inr (Or.inr ⟨rfl, rfl⟩)))

theorem left_iff (n : String) : (pairs.map (·.1)).contains n = true ↔ ∃ s, Match n s := by
  rw [List.contains_iff_mem, List.mem_map]
  constructor
  · rintro ⟨⟨a, b⟩, h, rfl⟩
    exact ⟨b, (pairs_iff a b).1 (List.contains_iff_mem.2 h)⟩
  · rintro ⟨s, h⟩
    exact ⟨(n, s), List.contains_iff_mem.1 ((pairs_iff n s).2 h), rfl⟩

theorem right_iff (n : String) : (pairs.map (·.2)).contains n = true ↔ ∃ s, Match s n := by
  rw [List.contains_iff_mem, List.mem_map]
  constructor
  · rintro ⟨⟨a, b⟩, h, rfl⟩
    exact ⟨a, (pairs_iff a b).1 (List.contains_iff_mem.2 h)⟩
  · rintro ⟨s, h⟩
    exact ⟨(s, n), List.contains_iff_mem.1 ((pairs_iff s n).2 h), rfl⟩

/-- The elements, with their places. -/
def elems (h : HNode) : List (List Nat × HNode) := (hWalks 1 h.kids).filter (fun x => (pairs.map (·.1)).contains x.2.name)
/-- The nodes, with their places. -/
def nodes (t : RNode) : List (List Nat × RNode) := (rWalks 1 t.kids).filter (fun x => (pairs.map (·.2)).contains x.2.lhs)

theorem elems_spec (h : HNode) : Elements h (elems h) := by
  obtain ⟨n, x, ks⟩ := h
  have hl := hBelow (n := n) (x := x) (hWalk_listings ks)
  refine ⟨hl.1.filter _, fun p d => ?_⟩
  rw [elems, List.mem_filter]
  simp only [HNode.kids, hl.2, left_iff, and_assoc]

theorem nodes_spec (t : RNode) : Nodes t (nodes t) := by
  obtain ⟨l, r, x, ks⟩ := t
  have hl := rBelow (l := l) (r := r) (x := x) (rWalk_listings ks)
  refine ⟨hl.1.filter _, fun p d => ?_⟩
  rw [nodes, List.mem_filter]
  simp only [RNode.kids, hl.2, right_iff, and_assoc]

theorem elems_unique {h : HNode} {hs hs'} (h1 : Elements h hs) (h2 : Elements h hs') : hs = hs' :=
  Refs.pairwise_unique (fun a b => before_asymm a.1 b.1) h1.1 h2.1 (fun a => (h1.2 a.1 a.2).trans (h2.2 a.1 a.2).symm)

theorem nodes_unique {t : RNode} {as as'} (h1 : Nodes t as) (h2 : Nodes t as') : as = as' :=
  Refs.pairwise_unique (fun a b => before_asymm a.1 b.1) h1.1 h2.1 (fun a => (h1.2 a.1 a.2).trans (h2.2 a.1 a.2).symm)

/-! ### The connection -/

/-- The places of the nodes with the elements. -/
def link (hs : List (List Nat × HNode)) (as : List (List Nat × RNode)) : List (List Nat × HNode) := (hs.zip as).map (fun z => (z.2.1, z.1.2))

theorem connect_iff (h : HNode) (t : RNode) (m : List (List Nat × HNode)) :
    connect h t = some m ↔ Correspond (elems h) (nodes t) ∧ m = link (elems h) (nodes t) := by
  have hm : ((hWalks 1 h.kids).map (·.2)).filter (fun x => (pairs.map (·.1)).contains x.name) = (elems h).map (·.2) := by
    rw [elems, List.filter_map]; rfl
  have hz : ∀ (xs : List (List Nat × HNode)) (ys : List (List Nat × RNode)), (xs.map (·.2)).zip ys = (xs.zip ys).map (fun z => (z.1.2, z.2)) := by
    intro xs ys
    rw [List.zip_map_left]; rfl
  simp only [connect, hm]
  rw [show (rWalks 1 t.kids).filter (fun x => (pairs.map (·.2)).contains x.2.lhs) = nodes t from rfl, hz]
  have ha : ((elems h).zip (nodes t)).all (fun z => pairs.contains (z.1.2.name, z.2.2.lhs)) = true ↔
      ∀ (k : Nat) x y, (elems h)[k]? = some x → (nodes t)[k]? = some y → Match x.2.name y.2.lhs := by
    rw [List.all_eq_true]
    constructor
    · intro H k x y h1 h2
      exact (pairs_iff _ _).1 (H (x, y) (List.mem_of_getElem? (i := k) (by rw [List.getElem?_zip_eq_some]; exact ⟨h1, h2⟩)))
    · rintro H ⟨x, y⟩ hxy
      obtain ⟨k, hk⟩ := List.mem_iff_getElem?.1 hxy
      rw [List.getElem?_zip_eq_some] at hk
      exact (pairs_iff _ _).2 (H k x y hk.1 hk.2)
  rw [List.length_map]
  by_cases h1 : (nodes t).length = (elems h).length
  · rw [if_neg (fun h => h h1), List.all_map]
    by_cases h2 : ((elems h).zip (nodes t)).all (fun z => pairs.contains (z.1.2.name, z.2.2.lhs)) = true
    · rw [if_pos (by simpa [Function.comp_def] using h2)]
      rw [List.map_map, Option.some_inj]
      constructor
      · intro h; exact ⟨⟨h1.symm, ha.1 h2⟩, h.symm⟩
      · intro h; exact h.2.symm
    · rw [if_neg (by simpa [Function.comp_def] using h2)]
      constructor
      · intro h; cases h
      · intro h; exact absurd (ha.2 h.1.2) h2
  · rw [if_pos h1]
    constructor
    · intro h; cases h
    · intro h; exact absurd h.1.1.symm h1

theorem mem_lookup_place {X : Type} : ∀ (m : List (List Nat × X)) (p : List Nat) (x : X), m.Pairwise (fun a b => Before a.1 b.1) →
    (m.lookup p = some x ↔ (p, x) ∈ m)
  | [], p, x, _ => by simp
  | (q, y) :: m, p, x, h => by
    rw [List.pairwise_cons] at h
    rw [List.lookup_cons]
    by_cases hp : p = q
    · subst hp
      simp only [beq_self_eq_true, Option.some_inj, List.mem_cons, Prod.mk.injEq, true_and]
      constructor
      · intro h; exact Or.inl h.symm
      · rintro (h' | h')
        · exact h'.symm
        · exact absurd (h.1 _ h') (before_irrefl p)
    · rw [beq_false_of_ne hp]
      simp only [List.mem_cons, Prod.mk.injEq, hp, false_and, false_or]
      exact mem_lookup_place m p x h.2

theorem link_sorted (hs : List (List Nat × HNode)) (as : List (List Nat × RNode)) (h : as.Pairwise (fun x y => Before x.1 y.1)) :
    (link hs as).Pairwise (fun a b => Before a.1 b.1) := by
  induction hs generalizing as with
  | nil => exact .nil
  | cons x hs ih =>
    cases as with
    | nil => exact .nil
    | cons a as =>
      rw [List.pairwise_cons] at h
      refine List.pairwise_cons.2 ⟨?_, ih as h.2⟩
      intro b hb
      simp only [List.mem_map] at hb
      obtain ⟨z, hz, rfl⟩ := hb
      exact h.1 _ (List.of_mem_zip hz).2

theorem mem_link (hs : List (List Nat × HNode)) (as : List (List Nat × RNode)) (p : List Nat) (e : HNode) :
    (p, e) ∈ link hs as ↔ ∃ (k : Nat) (q : List Nat) (d : RNode), hs[k]? = some (q, e) ∧ as[k]? = some (p, d) := by
  simp only [link, List.mem_map, Prod.exists]
  constructor
  · rintro ⟨q, e', p', d, h, he⟩
    simp only [Prod.mk.injEq] at he
    obtain ⟨rfl, rfl⟩ := he
    obtain ⟨k, hk⟩ := List.mem_iff_getElem?.1 h
    rw [List.getElem?_zip_eq_some] at hk
    exact ⟨k, q, d, hk.1, hk.2⟩
  · rintro ⟨k, q, d, h1, h2⟩
    exact ⟨q, e, p, d, List.mem_of_getElem? (i := k) (by rw [List.getElem?_zip_eq_some]; exact ⟨h1, h2⟩), rfl⟩

/-! ### The annotated tree -/

/-- What `build` puts at a place. -/
def Put (m : List (List Nat × HNode)) (p : List Nat) (d : RNode) (d' : Deps.ANode) : Prop :=
  d'.attr.lhs = d.lhs ∧ d'.attr.rhs = d.rhs ∧ d'.attr.text = d.text ∧ d'.kids.length = d.kids.length ∧
  (∃ x, note d = some x ∧ d'.attr.names = x.map (·.1)) ∧ d'.emb = (m.lookup p).bind HNode.tree

mutual
theorem build_at (m : List (List Nat × HNode)) : ∀ (t : RNode) (p : List Nat) (t' : Deps.ANode), build m p t = some t' →
    ∀ q d, RAt t q d → ∃ d', KidAt t' q d' ∧ Put m (p ++ q) d d'
  | .node l r x ks, p, t', h, q, d, hq => by
    simp only [build, Option.bind_eq_bind, Option.bind_eq_some_iff] at h
    obtain ⟨n, hn, ks', hk, h⟩ := h
    cases h
    cases hq with
    | here =>
      refine ⟨_, .here, rfl, rfl, rfl, ?_, ⟨n, hn, rfl⟩, by simp [Deps.ANode.emb]⟩
      exact (builds_at m ks p 1 ks' hk).1
    | @kid _ _ _ i k q _ _ h1 h2 =>
      obtain ⟨k', d', h3, h4, h5⟩ := (builds_at m ks p 1 ks' hk).2 i k h1 q d h2
      exact ⟨d', .kid h3 h4, by simpa [Nat.add_comm] using h5⟩
theorem builds_at (m : List (List Nat × HNode)) : ∀ (ts : List RNode) (p : List Nat) (n : Nat) (ts' : List Deps.ANode), builds m p n ts = some ts' →
    ts'.length = ts.length ∧ ∀ (i : Nat) k, ts[i]? = some k → ∀ q d, RAt k q d → ∃ k' d', ts'[i]? = some k' ∧ KidAt k' q d' ∧ Put m (p ++ (n + i) :: q) d d'
  | [], p, n, ts', h => by
    simp only [builds] at h
    cases h
    exact ⟨rfl, fun i k h => by simp at h⟩
  | t :: ts, p, n, ts', h => by
    simp only [builds, Option.bind_eq_bind, Option.bind_eq_some_iff] at h
    obtain ⟨x, hx, y, hy, h⟩ := h
    cases h
    obtain ⟨h1, h2⟩ := builds_at m ts p (n + 1) y hy
    refine ⟨by simp [h1], ?_⟩
    intro i k hk q d hq
    cases i with
    | zero =>
      simp at hk; subst hk
      obtain ⟨d', h3, h4⟩ := build_at m t (p ++ [n]) x hx q d hq
      exact ⟨x, d', rfl, h3, by simpa using h4⟩
    | succ i =>
      obtain ⟨k', d', h3, h4, h5⟩ := h2 i k (by simpa using hk) q d hq
      exact ⟨k', d', by simpa using h3, h4, by rw [show n + (i + 1) = n + 1 + i by omega]; exact h5⟩
end

mutual
theorem build_some (m : List (List Nat × HNode)) : ∀ (t : RNode) (p : List Nat), (∀ q d, RAt t q d → note d ≠ none) → ∃ t', build m p t = some t'
  | .node l r x ks, p, h => by
    obtain ⟨ks', hk⟩ := builds_some m ks p 1 (fun i k h1 q d h2 => h _ d (.kid h1 h2))
    cases hn : note (.node l r x ks) with
    | none => exact absurd hn (h [] _ .here)
    | some n => exact ⟨_, by simp only [build, hn, hk]; rfl⟩
theorem builds_some (m : List (List Nat × HNode)) : ∀ (ts : List RNode) (p : List Nat) (n : Nat),
    (∀ (i : Nat) k, ts[i]? = some k → ∀ q d, RAt k q d → note d ≠ none) → ∃ ts', builds m p n ts = some ts'
  | [], p, n, _ => ⟨[], rfl⟩
  | t :: ts, p, n, h => by
    obtain ⟨x, hx⟩ := build_some m t (p ++ [n]) (h 0 t rfl)
    obtain ⟨y, hy⟩ := builds_some m ts p (n + 1) (fun i k hk => h (i + 1) k (by simpa using hk))
    exact ⟨x :: y, by simp only [builds, hx, hy]; rfl⟩
end

theorem kidAt_unique {t : Deps.ANode} {p : List Nat} {d d' : Deps.ANode} (h : KidAt t p d) (h' : KidAt t p d') : d = d' := by
  induction h with
  | here => cases h'; rfl
  | kid h1 _ ih =>
    cases h' with
    | kid h3 h4 =>
      rw [h1] at h3; cases h3
      exact ih h4

end Verif.Annot
