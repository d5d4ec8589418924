import Verif.Deps.PlaceLemmas
/-!
# Lemmas about the places of algorithms, and about sets and sorting
-/
namespace Verif.Deps

/-- The nodes of one tree of a definition. -/
def treeWalk : Option ANode → List (List Nat × Inv)
  | none => []
  | some t => walk false t

/-- The nodes of a header, with the section. -/
def headWalk (h : Head) : List (List Nat × (String × Inv)) :=
  (idx (fun d => idx treeWalk 0 d) 0 h.defs).map (fun e => (e.1, (h.sect, e.2)))

/-- The nodes of an algorithm, with the sections. -/
def algWalk (a : Alg) : List (List Nat × (String × Inv)) := idx headWalk 0 a.heads

/-- The section of the header of a place. -/
def Sect (a : Alg) (p : List Nat) (s : String) : Prop := ∃ n q hd, p = n :: q ∧ a.heads[n]? = some hd ∧ hd.sect = s

theorem listing_map {X Y : Type} {R : List Nat → X → Prop} {es : List (List Nat × X)} (h : Listing R es) (g : X → Y) :
    Listing (fun p y => ∃ x, R p x ∧ y = g x) (es.map (fun e => (e.1, g e.2))) := by
  constructor
  · rw [List.pairwise_map]; exact h.1
  · intro p y
    simp only [List.mem_map, Prod.mk.injEq]
    constructor
    · rintro ⟨e, he, rfl, rfl⟩; exact ⟨e.2, (h.2 _ _).1 he, rfl⟩
    · rintro ⟨x, hx, rfl⟩; exact ⟨(p, x), (h.2 _ _).2 hx, rfl, rfl⟩

theorem algWalk_listing (a : Alg) : Listing (fun p x => InAlg a p x.2 ∧ Sect a p x.1) (algWalk a) := by
  have h1 : ∀ o : Option ANode, Listing (fun p i => ∃ t, o = some t ∧ WalkSpec false t p i) (treeWalk o) := by
    intro o
    cases o with
    | none => exact ⟨.nil, fun p i => by simp [treeWalk]⟩
    | some t => exact listing_congr (walk_listing false t) (fun p i => by simp)
  have h2 := fun (d : List (Option ANode)) => listing_idx d 0 (fun o _ => h1 o)
  have h3 := fun (h : Head) => listing_map (listing_idx h.defs 0 (fun d _ => h2 d)) (fun i : Inv => (h.sect, i))
  refine listing_congr (listing_idx (f := headWalk) a.heads 0 (fun h _ => h3 h)) ?_
  intro p x
  simp only [Nat.add_zero]
  constructor
  · rintro ⟨n, hd, q, hn, rfl, i, ⟨m, df, q2, hm, rfl, k, o, q3, hk, rfl, t, rfl, hw⟩, rfl⟩
    refine ⟨.mk hn hm hk hw.1 (by rw [hw.2]; simp), n, _, hd, rfl, hn, rfl⟩
  · rintro ⟨h, hs⟩
    obtain ⟨s, i⟩ := x
    cases h with
    | @mk n m k p hd df t i hn hm hk ht hp =>
      obtain ⟨n', q', hd', he, hn', rfl⟩ := hs
      cases he
      rw [hn] at hn'; cases hn'
      exact ⟨n, hd, _, hn, rfl, i, ⟨m, df, _, hm, rfl, k, some t, p, hk, rfl, t, rfl, ht, by rw [hp]; simp⟩, rfl⟩

theorem defnCalls_walk (early : Bool) : ∀ (d : List (Option ANode)), defnCalls early d =
    if (early || d.all (fun o => (treeWalk o).all (fun e => okEmb e.2))) then some (d.flatMap (fun o => (treeWalk o).flatMap (fun e => named e.2))) else none
  | [] => by simp [defnCalls]
  | none :: as => by
    rw [defnCalls, defnCalls_walk early as, List.all_cons, List.flatMap_cons]
    have h1 : (treeWalk none).all (fun e => okEmb e.2) = true := rfl
    have h2 : (treeWalk none).flatMap (fun e => named e.2) = [] := rfl
    rw [h1, h2, Bool.true_and, List.nil_append]
  | some t :: as => by
    rw [defnCalls, recurse_walk, defnCalls_walk early as]
    rw [show walk false t = treeWalk (some t) from rfl, List.all_cons, List.flatMap_cons]
    cases early with
    | true => rfl
    | false =>
      cases (treeWalk (some t)).all (fun e => okEmb e.2) with
      | false => rfl
      | true =>
        cases as.all (fun o => (treeWalk o).all (fun e => okEmb e.2)) <;> rfl

/-- What `algCalls` makes of a place. -/
def sectNamed (x : String × Inv) : List (String × String × Inv) := (named x.2).map (fun p => (x.1, p.1, p.2))

theorem algCalls_append (early : Bool) : ∀ (ds es : List (String × List (Option ANode))), algCalls early (ds ++ es) = (do
    let x ← algCalls early ds
    let y ← algCalls early es
    some (x ++ y))
  | [], es => by cases h : algCalls early es <;> simp [algCalls, h]
  | (s, d) :: ds, es => by
    rw [List.cons_append, algCalls, algCalls_append early ds es, algCalls]
    cases defnCalls early d with
    | none => rfl
    | some x =>
      cases algCalls early ds with
      | none => rfl
      | some y => cases algCalls early es <;> simp

theorem algCalls_head (early : Bool) (s : String) : ∀ ds : List (List (Option ANode)), algCalls early (ds.map (fun d => (s, d))) =
    if (early || ds.all (fun d => d.all (fun o => (treeWalk o).all (fun e => okEmb e.2)))) then
      some (ds.flatMap (fun d => d.flatMap (fun o => (treeWalk o).flatMap (fun e => sectNamed (s, e.2))))) else none
  | [] => by simp [algCalls]
  | d :: ds => by
    rw [List.map_cons, algCalls, defnCalls_walk, algCalls_head early s ds]
    have hx : (d.flatMap (fun o => (treeWalk o).flatMap (fun e => named e.2))).map (fun p => (s, p.1, p.2)) =
        d.flatMap (fun o => (treeWalk o).flatMap (fun e => sectNamed (s, e.2))) := by
      simp [List.map_flatMap, sectNamed]
    cases early with
    | true => simp [hx]
    | false =>
      simp only [Bool.false_or, List.all_cons, List.flatMap_cons]
      cases d.all (fun o => (treeWalk o).all (fun e => okEmb e.2))
      · simp
      · cases ds.all (fun d => d.all (fun o => (treeWalk o).all (fun e => okEmb e.2)))
        · simp
        · simp only [if_true, Bool.and_self, Option.bind_eq_bind, Option.bind_some, hx]

theorem headWalk_flatMap {Z : Type} (h : Head) (g : String × Inv → List Z) :
    (headWalk h).flatMap (fun e => g e.2) = h.defs.flatMap (fun d => d.flatMap (fun o => (treeWalk o).flatMap (fun e => g (h.sect, e.2)))) := by
  rw [headWalk, List.flatMap_map]
  simp only
  rw [idx_flatMap (fun d => idx treeWalk 0 d) (fun i => g (h.sect, i))]
  congr 1
  funext d
  exact idx_flatMap treeWalk (fun i => g (h.sect, i)) d 0

theorem headWalk_all (h : Head) (g : Inv → Bool) : (headWalk h).all (fun e => g e.2.2) = h.defs.all (fun d => d.all (fun o => (treeWalk o).all (fun e => g e.2))) := by
  rw [headWalk, List.all_map]
  simp only [Function.comp_def]
  rw [idx_all (fun d => idx treeWalk 0 d) g]
  congr 1
  funext d
  exact idx_all treeWalk g d 0

theorem algCalls_walk (early : Bool) (a : Alg) : algCalls early a.defns =
    if (early || (algWalk a).all (fun e => okEmb e.2.2)) then some ((algWalk a).flatMap (fun e => sectNamed e.2)) else none := by
  rw [algWalk, idx_flatMap headWalk sectNamed, idx_all headWalk (fun x => okEmb x.2), Alg.defns]
  induction a.heads with
  | nil => simp [algCalls]
  | cons h hs ih =>
    rw [List.flatMap_cons, algCalls_append, ih, algCalls_head, List.all_cons, List.flatMap_cons, headWalk_flatMap, headWalk_all]
    cases early with
    | true => simp
    | false =>
      simp only [Bool.false_or]
      cases h.defs.all (fun d => d.all (fun o => (treeWalk o).all (fun e => okEmb e.2)))
      · simp
      · cases hs.all (fun y => (headWalk y).all (fun e => okEmb e.2.2)) <;> simp

/-! ### Sets and sorting -/

theorem mem_add {x y : String} {l : List String} : y ∈ add x l ↔ y ∈ l ∨ y = x := by
  unfold add
  split
  · rename_i h
    exact ⟨Or.inl, fun h' => h'.elim id (fun h'' => h'' ▸ h)⟩
  · simp

theorem nodup_add {x : String} {l : List String} (h : l.Nodup) : (add x l).Nodup := by
  unfold add
  split
  · exact h
  · rename_i hx
    rw [List.nodup_append]
    exact ⟨h, by simp, fun a ha b hb => by simp at hb; subst hb; intro h'; subst h'; exact hx ha⟩

theorem foldl_add (l : List String) : ∀ acc : List String, (∀ x, x ∈ l.foldl (fun acc x => add x acc) acc ↔ x ∈ acc ∨ x ∈ l) ∧
    (acc.Nodup → (l.foldl (fun acc x => add x acc) acc).Nodup) := by
  induction l with
  | nil => intro acc; simp
  | cons y l ih =>
    intro acc
    refine ⟨fun x => ?_, fun h => (ih (add y acc)).2 (nodup_add h)⟩
    rw [List.foldl_cons, (ih (add y acc)).1, mem_add, List.mem_cons, or_assoc]

theorem mem_toSet {x : String} {l : List String} : x ∈ toSet l ↔ x ∈ l := by
  rw [toSet, (foldl_add l []).1]; simp

theorem nodup_toSet (l : List String) : (toSet l).Nodup := (foldl_add l []).2 List.nodup_nil

theorem mem_insertName {n x : String} : ∀ l : List String, x ∈ insertName n l ↔ x = n ∨ x ∈ l
  | [] => by simp [insertName]
  | m :: ms => by
    unfold insertName
    split
    · simp
    · rw [List.mem_cons, mem_insertName ms, List.mem_cons]
      constructor
      · rintro (h | h | h)
        · exact Or.inr (Or.inl h)
        · exact Or.inl h
        · exact Or.inr (Or.inr h)
      · rintro (h | h | h)
        · exact Or.inr (Or.inl h)
        · exact Or.inl h
        · exact Or.inr (Or.inr h)

theorem lt_of_le_ne {a b : String} (h : a ≤ b) (hn : a ≠ b) : a < b := by
  rw [← String.not_le]
  exact fun h' => hn (String.le_antisymm h h')

theorem lt_of_not_le {a b : String} (h : ¬ a ≤ b) : b < a := String.not_le.1 h

theorem sorted_insertName {n : String} : ∀ l : List String, l.Pairwise (· < ·) → n ∉ l → (insertName n l).Pairwise (· < ·)
  | [], _, _ => by simp [insertName]
  | m :: ms, h, hn => by
    unfold insertName
    rw [List.pairwise_cons] at h
    split
    · rename_i hle
      have hlt : n < m := lt_of_le_ne hle (fun h' => hn (by simp [h']))
      rw [List.pairwise_cons, List.pairwise_cons]
      refine ⟨fun x hx => ?_, h.1, h.2⟩
      rcases List.mem_cons.1 hx with rfl | hx
      · exact hlt
      · exact String.lt_trans hlt (h.1 x hx)
    · rename_i hle
      rw [List.pairwise_cons]
      refine ⟨fun x hx => ?_, sorted_insertName ms h.2 (fun h' => hn (by simp [h']))⟩
      rcases (mem_insertName ms).1 hx with rfl | hx
      · exact lt_of_not_le hle
      · exact h.1 x hx

theorem mem_sortNames {x : String} : ∀ l : List String, x ∈ sortNames l ↔ x ∈ l
  | [] => Iff.rfl
  | n :: l => by
    show x ∈ insertName n (sortNames l) ↔ _
    rw [mem_insertName, mem_sortNames l, List.mem_cons]

theorem sorted_sortNames : ∀ l : List String, l.Nodup → (sortNames l).Pairwise (· < ·)
  | [], _ => .nil
  | n :: l, h => by
    rw [List.nodup_cons] at h
    exact sorted_insertName _ (sorted_sortNames l h.2) (fun h' => h.1 ((mem_sortNames l).1 h'))

theorem sortedSet_sortNames {l : List String} (h : l.Nodup) {P : String → Prop} (hp : ∀ x, x ∈ l ↔ P x) : SortedSet (sortNames l) P :=
  ⟨sorted_sortNames l h, fun x => (mem_sortNames l).trans (hp x)⟩

theorem perm_insertAlg (a : Alg) : ∀ l : List Alg, (insertAlg a l).Perm (a :: l)
  | [] => .refl _
  | b :: bs => by
    unfold insertAlg
    split
    · exact .refl _
    · exact ((perm_insertAlg a bs).cons b).trans (.swap a b bs)

theorem perm_sortAlgs : ∀ l : List Alg, (sortAlgs l).Perm l
  | [] => .refl _
  | a :: l => (perm_insertAlg a (sortAlgs l)).trans ((perm_sortAlgs l).cons a)

theorem sorted_insertAlg (a : Alg) : ∀ l : List Alg, l.Pairwise (fun a b => a.name < b.name) → a.name ∉ l.map (·.name) →
    (insertAlg a l).Pairwise (fun a b => a.name < b.name)
  | [], _, _ => by simp [insertAlg]
  | m :: ms, h, hn => by
    unfold insertAlg
    rw [List.pairwise_cons] at h
    split
    · rename_i hle
      have hlt : a.name < m.name := lt_of_le_ne hle (fun h' => hn (by simp [h']))
      rw [List.pairwise_cons, List.pairwise_cons]
      refine ⟨fun x hx => ?_, h.1, h.2⟩
      rcases List.mem_cons.1 hx with rfl | hx
      · exact hlt
      · exact String.lt_trans hlt (h.1 x hx)
    · rename_i hle
      rw [List.pairwise_cons]
      refine ⟨fun x hx => ?_, sorted_insertAlg a ms h.2 (fun h' => hn (by simp only [List.map_cons, List.mem_cons]; exact Or.inr h'))⟩
      rcases List.mem_cons.1 ((perm_insertAlg a ms).mem_iff.1 hx) with rfl | hx
      · exact lt_of_not_le hle
      · exact h.1 x hx

theorem sorted_sortAlgs : ∀ l : List Alg, (l.map (·.name)).Nodup → (sortAlgs l).Pairwise (fun a b => a.name < b.name)
  | [], _ => .nil
  | a :: l, h => by
    rw [List.map_cons, List.nodup_cons] at h
    refine sorted_insertAlg a _ (sorted_sortAlgs l h.2) (fun h' => h.1 ?_)
    exact ((perm_sortAlgs l).map (·.name)).mem_iff.1 h'

theorem mem_sortAlgs {a : Alg} {l : List Alg} : a ∈ sortAlgs l ↔ a ∈ l := (perm_sortAlgs l).mem_iff

theorem sortedSet_unique {l l' : List String} {P : String → Prop} (h : SortedSet l P) (h' : SortedSet l' P) : l = l' := by
  obtain ⟨h1, h2⟩ := h
  obtain ⟨h3, h4⟩ := h'
  have hm : ∀ x, x ∈ l ↔ x ∈ l' := fun x => (h2 x).trans (h4 x).symm
  clear h2 h4
  induction l generalizing l' with
  | nil =>
    cases l' with
    | nil => rfl
    | cons y l' => exact absurd ((hm y).2 (by simp)) (by simp)
  | cons x l ih =>
    cases l' with
    | nil => exact absurd ((hm x).1 (by simp)) (by simp)
    | cons y l' =>
      rw [List.pairwise_cons] at h1 h3
      have hxy : x = y := by
        rcases List.mem_cons.1 ((hm x).1 (by simp)) with h | h
        · exact h
        · rcases List.mem_cons.1 ((hm y).2 (by simp)) with h' | h'
          · exact h'.symm
          · exact absurd (h1.1 y h') (String.lt_asymm (h3.1 x h))
      subst hxy
      congr 1
      refine ih h1.2 h3.2 (fun z => ?_)
      constructor
      · intro hz
        rcases List.mem_cons.1 ((hm z).1 (List.mem_cons_of_mem _ hz)) with h | h
        · subst h; exact absurd (h1.1 z hz) (String.lt_irrefl _)
        · exact h
      · intro hz
        rcases List.mem_cons.1 ((hm z).2 (List.mem_cons_of_mem _ hz)) with h | h
        · subst h; exact absurd (h3.1 z hz) (String.lt_irrefl _)
        · exact h

end Verif.Deps
