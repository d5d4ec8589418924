import Verif.Deps.Spec
/-!
# Lemmas about places
-/
namespace Verif.Deps

section
variable {X Y : Type}

/-- A list with places that has exactly what `R` says, in order. -/
def Listing (R : List Nat → X → Prop) (es : List (List Nat × X)) : Prop :=
  es.Pairwise (fun a b => Before a.1 b.1) ∧ ∀ p x, (p, x) ∈ es ↔ R p x

/-- The lists for several things, with their numbers in front of the places. -/
def idx (f : Y → List (List Nat × X)) : Nat → List Y → List (List Nat × X)
  | _, [] => []
  | k, y :: ys => (f y).map (fun e => (k :: e.1, e.2)) ++ idx f (k + 1) ys

theorem mem_idx (f : Y → List (List Nat × X)) : ∀ (ys : List Y) (k : Nat) (p : List Nat) (x : X),
    (p, x) ∈ idx f k ys ↔ ∃ (i : Nat) (y : Y) (q : List Nat), ys[i]? = some y ∧ p = (i + k) :: q ∧ (q, x) ∈ f y
  | [], k, p, x => by simp [idx]
  | y :: ys, k, p, x => by
    simp only [idx, List.mem_append, List.mem_map, mem_idx f ys (k + 1)]
    constructor
    · rintro (⟨e, he, h⟩ | ⟨i, y', q, h1, h2, h3⟩)
      · simp only [Prod.mk.injEq] at h
        exact ⟨0, y, e.1, rfl, by simp [h.1.symm], by rw [← h.2]; exact he⟩
      · exact ⟨i + 1, y', q, by simpa using h1, by rw [h2]; congr 1; omega, h3⟩
    · rintro ⟨i, y', q, h1, h2, h3⟩
      cases i with
      | zero =>
        simp at h1; subst h1
        exact Or.inl ⟨(q, x), h3, by simp [h2]⟩
      | succ i => exact Or.inr ⟨i, y', q, by simpa using h1, by rw [h2]; congr 1; omega, h3⟩

theorem listing_idx {f : Y → List (List Nat × X)} {R : Y → List Nat → X → Prop} : ∀ (ys : List Y) (k : Nat), (∀ y ∈ ys, Listing (R y) (f y)) →
    Listing (fun p x => ∃ (i : Nat) (y : Y) (q : List Nat), ys[i]? = some y ∧ p = (i + k) :: q ∧ R y q x) (idx f k ys) := by
  intro ys k h
  constructor
  · induction ys generalizing k with
    | nil => exact .nil
    | cons y ys ih =>
      rw [idx, List.pairwise_append]
      refine ⟨?_, ih (k + 1) (fun y' hy => h y' (by simp [hy])), ?_⟩
      · rw [List.pairwise_map]
        exact (h y (by simp)).1.imp (fun hb => Or.inr ⟨rfl, hb⟩)
      · intro a ha b hb
        simp only [List.mem_map] at ha
        obtain ⟨e, _, rfl⟩ := ha
        obtain ⟨i, _, q, _, h2, _⟩ := (mem_idx f ys (k + 1) b.1 b.2).1 hb
        rw [h2]
        exact Or.inl (by omega)
  · intro p x
    rw [mem_idx]
    constructor
    · rintro ⟨i, y, q, h1, h2, h3⟩
      exact ⟨i, y, q, h1, h2, ((h y (List.mem_of_getElem? h1)).2 q x).1 h3⟩
    · rintro ⟨i, y, q, h1, h2, h3⟩
      exact ⟨i, y, q, h1, h2, ((h y (List.mem_of_getElem? h1)).2 q x).2 h3⟩

theorem listing_congr {R R' : List Nat → X → Prop} {es : List (List Nat × X)} (h : Listing R es) (hr : ∀ p x, R p x ↔ R' p x) : Listing R' es :=
  ⟨h.1, fun p x => (h.2 p x).trans (hr p x)⟩

theorem idx_flatMap {Z : Type} (f : Y → List (List Nat × X)) (g : X → List Z) : ∀ (ys : List Y) (k : Nat),
    (idx f k ys).flatMap (fun e => g e.2) = ys.flatMap (fun y => (f y).flatMap (fun e => g e.2))
  | [], _ => rfl
  | y :: ys, k => by simp [idx, idx_flatMap f g ys (k + 1), List.flatMap_append, List.flatMap_map]

theorem idx_all (f : Y → List (List Nat × X)) (g : X → Bool) : ∀ (ys : List Y) (k : Nat),
    (idx f k ys).all (fun e => g e.2) = ys.all (fun y => (f y).all (fun e => g e.2))
  | [], _ => rfl
  | y :: ys, k => by simp [idx, idx_all f g ys (k + 1), List.all_append, List.all_map, Function.comp_def]

theorem map_flatMap_snd {Z : Type} (es : List (List Nat × X)) (h : X → Y) (g : Y → List Z) :
    (es.map (fun e => (e.1, h e.2))).flatMap (fun e => g e.2) = es.flatMap (fun e => g (h e.2)) := by
  rw [List.flatMap_map]

/-- The order is total on different places, so a listing is unique. -/
theorem before_irrefl : ∀ p, ¬ Before p p
  | [], h => h
  | _ :: p, h => by
    rcases h with h | ⟨_, h⟩
    · exact absurd h (Nat.lt_irrefl _)
    · exact before_irrefl p h

theorem before_asymm : ∀ p q, Before p q → ¬ Before q p
  | [], [], h, _ => h
  | [], _ :: _, _, h => h
  | _ :: _, [], h, _ => h
  | i :: p, j :: q, h, h' => by
    rcases h with h | ⟨h1, h2⟩ <;> rcases h' with h' | ⟨h3, h4⟩
    · omega
    · omega
    · omega
    · exact before_asymm p q h2 h4

end

/-! ### The places of a tree -/

mutual
/-- All nodes with their places. -/
def walk (up : Bool) : ANode → List (List Nat × Inv)
  | .node a ks e => ([], ⟨.node a ks e, up || a.lhs == parenLhs⟩) ::
      ((if a.names.isNone then walkEmb e else []) ++ walkAll (up || a.lhs == parenLhs) 1 ks)
def walkAll (up : Bool) : Nat → List ANode → List (List Nat × Inv)
  | _, [] => []
  | k, t :: ts => (walk up t).map (fun e => (k :: e.1, e.2)) ++ walkAll up (k + 1) ts
def walkEmb : Option ANode → List (List Nat × Inv)
  | none => []
  | some e => (walk false e).map (fun x => (0 :: x.1, x.2))
end

theorem walkAll_idx (up : Bool) : ∀ (ts : List ANode) (k : Nat), walkAll up k ts = idx (walk up) k ts
  | [], _ => rfl
  | t :: ts, k => by simp [walkAll, idx, walkAll_idx up ts (k + 1)]

/-- What `walk` lists. -/
def WalkSpec (up : Bool) (t : ANode) (p : List Nat) (i : Inv) : Prop :=
  At t p i.node ∧ (i.inParen = true ↔ (up = true ∧ 0 ∉ p) ∨ InParen t p)

theorem at_nil {t d} : At t [] d ↔ d = t := ⟨fun h => by cases h; rfl, fun h => h ▸ .here⟩

theorem at_kid {a ks e i p d} : At (.node a ks e) ((i + 1) :: p) d ↔ ∃ k, ks[i]? = some k ∧ At k p d := by
  constructor
  · intro h
    cases h with
    | kid h1 h2 => exact ⟨_, h1, h2⟩
  · rintro ⟨k, h1, h2⟩; exact .kid h1 h2

theorem at_emb {a ks e p d} : At (.node a ks e) (0 :: p) d ↔ ∃ x, e = some x ∧ a.names = none ∧ At x p d := by
  constructor
  · intro h
    cases h with
    | emb h1 h2 => exact ⟨_, rfl, h1, h2⟩
  · rintro ⟨x, rfl, h1, h2⟩; exact .emb h1 h2

theorem inParen_nil {t} : InParen t [] ↔ t.attr.lhs = parenLhs := by
  constructor
  · rintro ⟨q, r, d, h, _, h2, h3⟩
    have : q = [] := by cases q with
      | nil => rfl
      | cons _ _ => simp at h
    subst this
    rw [at_nil] at h2; subst h2; exact h3
  · intro h; exact ⟨[], [], t, rfl, by simp, .here, h⟩

theorem inParen_kid {a ks e i p k} (hk : ks[i]? = some k) :
    InParen (.node a ks e) ((i + 1) :: p) ↔ (a.lhs = parenLhs ∧ 0 ∉ p) ∨ InParen k p := by
  constructor
  · rintro ⟨q, r, d, h, h1, h2, h3⟩
    cases q with
    | nil =>
      simp at h; subst h
      rw [at_nil] at h2; subst h2
      exact Or.inl ⟨h3, fun h => h1 (by simp [h])⟩
    | cons j q =>
      simp at h
      obtain ⟨rfl, rfl⟩ := h
      rw [at_kid] at h2
      obtain ⟨k', hk', h2⟩ := h2
      rw [hk] at hk'; cases hk'
      exact Or.inr ⟨q, r, d, rfl, h1, h2, h3⟩
  · rintro (⟨h, h0⟩ | ⟨q, r, d, rfl, h1, h2, h3⟩)
    · exact ⟨[], _, _, rfl, by simp [h0], .here, h⟩
    · exact ⟨(i + 1) :: q, r, d, rfl, h1, .kid hk h2, h3⟩

theorem inParen_emb {a ks x p} (hn : a.names = none) : InParen (.node a ks (some x)) (0 :: p) ↔ InParen x p := by
  constructor
  · rintro ⟨q, r, d, h, h1, h2, h3⟩
    cases q with
    | nil => simp at h; subst h; simp at h1
    | cons j q =>
      simp at h
      obtain ⟨rfl, rfl⟩ := h
      rw [at_emb] at h2
      obtain ⟨x', hx, _, h2⟩ := h2
      cases hx
      exact ⟨q, r, d, rfl, h1, h2, h3⟩
  · rintro ⟨q, r, d, rfl, h1, h2, h3⟩
    exact ⟨0 :: q, r, d, rfl, h1, .emb hn h2, h3⟩

mutual
theorem walk_listing (up : Bool) : ∀ t : ANode, Listing (WalkSpec up t) (walk up t)
  | .node a ks e => by
    have hk := walkAll_listing (up || a.lhs == parenLhs) ks
    have hki := listing_idx (R := WalkSpec (up || a.lhs == parenLhs)) (f := walk (up || a.lhs == parenLhs)) ks 1 hk
    rw [← walkAll_idx] at hki
    have he := walkEmb_listing e
    constructor
    · rw [walk, List.pairwise_cons, List.pairwise_append]
      refine ⟨?_, ?_, hki.1, ?_⟩
      · intro b hb
        simp only [List.mem_append] at hb
        rcases hb with hb | hb
        · split at hb
          · obtain ⟨p, hp, _⟩ := (he.2 b.1 b.2).1 hb
            rw [hp]; trivial
          · cases hb
        · obtain ⟨i, y, q, _, h2, _⟩ := (hki.2 b.1 b.2).1 hb
          rw [h2]; trivial
      · split
        · exact he.1
        · exact .nil
      · intro x hx b hb
        obtain ⟨i, y, q, _, h2, _⟩ := (hki.2 b.1 b.2).1 hb
        split at hx
        · obtain ⟨p, hp, _⟩ := (he.2 x.1 x.2).1 hx
          rw [hp, h2]; exact Or.inl (by omega)
        · cases hx
    · intro p i
      simp only [walk, List.mem_cons, List.mem_append, Prod.mk.injEq]
      constructor
      · rintro (⟨rfl, rfl⟩ | h | h)
        · refine ⟨.here, ?_⟩
          rw [inParen_nil]
          simp [ANode.attr]
        · split at h
          · rename_i hn
            obtain ⟨q, rfl, x, rfl, hx⟩ := (he.2 p i).1 h
            have hn' : a.names = none := by simpa using hn
            refine ⟨.emb hn' hx.1, ?_⟩
            rw [inParen_emb hn', hx.2]
            simp
          · cases h
        · obtain ⟨j, y, q, h1, rfl, h3⟩ := (hki.2 p i).1 h
          refine ⟨.kid h1 h3.1, ?_⟩
          rw [inParen_kid h1, h3.2]
          simp only [Bool.or_eq_true, beq_iff_eq, List.mem_cons, not_or]
          constructor
          · rintro (⟨h | h, h0⟩ | h)
            · exact Or.inl ⟨h, by omega, h0⟩
            · exact Or.inr (Or.inl ⟨h, h0⟩)
            · exact Or.inr (Or.inr h)
          · rintro (⟨h, _, h0⟩ | ⟨h, h0⟩ | h)
            · exact Or.inl ⟨Or.inl h, h0⟩
            · exact Or.inl ⟨Or.inr h, h0⟩
            · exact Or.inr h
      · rintro ⟨h1, h2⟩
        cases p with
        | nil =>
          rw [at_nil] at h1
          refine Or.inl ⟨rfl, ?_⟩
          rw [inParen_nil] at h2
          cases i with
          | mk n b =>
            simp only at h1 h2
            subst h1
            simp only [ANode.attr, List.not_mem_nil, not_false_eq_true, and_true] at h2
            congr 1
            rw [Bool.eq_iff_iff, h2]; simp
        | cons j p =>
          refine Or.inr ?_
          cases j with
          | zero =>
            rw [at_emb] at h1
            obtain ⟨x, rfl, hn, hx⟩ := h1
            rw [inParen_emb hn] at h2
            left
            rw [if_pos (by simp [hn])]
            exact (he.2 _ i).2 ⟨p, rfl, x, rfl, hx, by rw [h2]; simp⟩
          | succ j =>
            rw [at_kid] at h1
            obtain ⟨k, hk1, hx⟩ := h1
            rw [inParen_kid hk1] at h2
            right
            refine (hki.2 _ i).2 ⟨j, k, p, hk1, rfl, hx, ?_⟩
            rw [h2]
            simp only [Bool.or_eq_true, beq_iff_eq, List.mem_cons, not_or]
            constructor
            · rintro (⟨h, _, h0⟩ | ⟨h, h0⟩ | h)
              · exact Or.inl ⟨Or.inl h, h0⟩
              · exact Or.inl ⟨Or.inr h, h0⟩
              · exact Or.inr h
            · rintro (⟨h | h, h0⟩ | h)
              · exact Or.inl ⟨h, by omega, h0⟩
              · exact Or.inr (Or.inl ⟨h, h0⟩)
              · exact Or.inr (Or.inr h)
theorem walkAll_listing (up : Bool) : ∀ ts : List ANode, ∀ t ∈ ts, Listing (WalkSpec up t) (walk up t)
  | [], _, h => by cases h
  | t :: ts, u, h => by
    rcases List.mem_cons.1 h with h | h
    · rw [h]; exact walk_listing up t
    · exact walkAll_listing up ts u h
theorem walkEmb_listing : ∀ e : Option ANode, Listing (fun p i => ∃ q, p = 0 :: q ∧ ∃ x, e = some x ∧ WalkSpec false x q i) (walkEmb e)
  | none => ⟨.nil, fun p i => by simp [walkEmb]⟩
  | some x => by
    have h := walk_listing false x
    constructor
    · rw [walkEmb, List.pairwise_map]
      exact h.1.imp (fun hb => Or.inr ⟨rfl, hb⟩)
    · intro p i
      simp only [walkEmb, List.mem_map]
      constructor
      · rintro ⟨e, he, h'⟩
        cases h'
        exact ⟨_, rfl, x, rfl, (h.2 _ _).1 he⟩
      · rintro ⟨q, rfl, x', hx, hs⟩
        cases hx
        exact ⟨(q, i), (h.2 _ _).2 hs, rfl⟩
end

/-! ### The calls in a tree -/

/-- The names with the node. -/
def named (i : Inv) : List (String × Inv) := (i.node.attr.names.getD []).map (fun n => (n, i))

/-- The node is an invocation, or embeds nothing. -/
def okEmb (i : Inv) : Bool := i.node.attr.names.isSome || i.node.emb.isNone

mutual
theorem recurse_walk (early : Bool) : ∀ (t : ANode) (up : Bool), recurse early up t =
    if (early || (walk up t).all (fun e => okEmb e.2)) then some ((walk up t).flatMap (fun e => named e.2)) else none
  | .node a ks e, up => by
    rw [recurse, recurseAll_walk early ks (up || a.lhs == parenLhs) 1, recurseEmb_walk early e, walk]
    cases hn : a.names with
    | some ns =>
      have h0 : okEmb ⟨.node a ks e, up || a.lhs == parenLhs⟩ = true := by simp [okEmb, ANode.attr, hn]
      have h1 : named ⟨.node a ks e, up || a.lhs == parenLhs⟩ = ns.map (fun n => (n, ⟨.node a ks e, up || a.lhs == parenLhs⟩)) := by simp [named, ANode.attr, hn]
      simp only [Option.isNone_some, Bool.false_eq_true, if_false, List.nil_append, List.all_cons, h0, Bool.true_and, List.flatMap_cons, h1]
      split <;> rfl
    | none =>
      cases he : early with
      | true => simp [named, ANode.attr, hn, List.flatMap_append]
      | false =>
        cases e with
        | some x => simp [okEmb, ANode.attr, ANode.emb, hn]
        | none =>
          simp only [Bool.false_or, Option.isNone_none, if_true, walkEmb, List.nil_append, List.all_nil, List.all_cons, okEmb, ANode.attr, ANode.emb, hn,
            Option.isSome_none, Bool.true_and]
          split <;> simp [named, ANode.attr, hn]
theorem recurseAll_walk (early : Bool) : ∀ (ts : List ANode) (up : Bool) (k : Nat), recurseAll early up ts =
    if (early || (walkAll up k ts).all (fun e => okEmb e.2)) then some ((walkAll up k ts).flatMap (fun e => named e.2)) else none
  | [], up, k => by simp [recurseAll, walkAll]
  | t :: ts, up, k => by
    rw [recurseAll, recurse_walk early t up, recurseAll_walk early ts up (k + 1), walkAll]
    cases early with
    | true => simp [List.flatMap_append, List.flatMap_map]
    | false =>
      simp only [Bool.false_or, List.all_append, List.all_map, Function.comp_def, List.flatMap_append, List.flatMap_map]
      cases (walk up t).all (fun e => okEmb e.2) <;> cases (walkAll up (k + 1) ts).all (fun e => okEmb e.2) <;> simp
theorem recurseEmb_walk (early : Bool) : ∀ (e : Option ANode), recurseEmb early e =
    if (early || e.isNone) then some ((walkEmb e).flatMap (fun x => named x.2)) else none
  | none => by simp [recurseEmb, walkEmb]
  | some x => by
    rw [recurseEmb]
    cases early with
    | false => simp
    | true =>
      rw [if_pos rfl, recurse_walk true x false]
      simp [walkEmb, List.flatMap_map]
end

end Verif.Deps
