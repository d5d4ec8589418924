import Verif.Records.Lemmas
/-! # The tree of schemas -/
namespace Verif.Records
variable {N F : Type} [DecidableEq N] [DecidableEq F] {sup : N → N} {root : N}

omit [DecidableEq F] in
theorem Under.level {st : Schemas N F} (hI : Inv sup root st) {x y : N} (h : Under sup root x y) (hy : y ∈ st.names) :
    x ∈ st.names ∧ st.level x ≤ st.level y ∧ (st.level x = st.level y → x = y) := by
  induction h with
  | refl => exact ⟨hy, Nat.le_refl _, fun _ => rfl⟩
  | step hne _ ih =>
    obtain ⟨h1, h2, h3⟩ := hI.superOf _ hy hne
    obtain ⟨k1, k2, _⟩ := ih h2
    exact ⟨k1, by omega, by omega⟩

omit [DecidableEq F] in
theorem Under.unique {st : Schemas N F} (hI : Inv sup root st) {a b y : N} (h : Under sup root a y) (k : Under sup root b y)
    (hy : y ∈ st.names) (he : st.level a = st.level b) : a = b := by
  induction h with
  | refl => exact ((k.level hI hy).2.2 he.symm).symm
  | @step y hne h ih =>
    obtain ⟨h1, h2, h3⟩ := hI.superOf y hy hne
    cases k with
    | refl => have := (h.level hI h2).2.1; omega
    | step _ k => exact ih k h2

omit [DecidableEq N] in
theorem Under.trans {a b c : N} (h : Under sup root a b) (k : Under sup root b c) : Under sup root a c := by
  induction k with
  | refl => exact h
  | step hne _ ih => exact .step hne ih

omit [DecidableEq F] in
theorem mem_subs {st : Schemas N F} (hI : Inv sup root st) {x y : N} (hx : x ∈ st.names) :
    y ∈ st.subs x ↔ y ∈ st.names ∧ y ≠ root ∧ sup y = x := by
  rw [hI.subsOf x hx, List.mem_filter]
  simp

omit [DecidableEq F] in
/-- Below a schema: the schema itself, or below one of its sub-schemas. -/
theorem under_subs {st : Schemas N F} (hI : Inv sup root st) {x y : N} (h : Under sup root x y) (hy : y ∈ st.names) :
    y = x ∨ ∃ c ∈ st.subs x, Under sup root c y := by
  induction h with
  | refl => exact Or.inl rfl
  | @step y hne h ih =>
    obtain ⟨h1, h2, h3⟩ := hI.superOf y hy hne
    have hx := (h.level hI h2).1
    rcases ih h2 with e | ⟨c, h4, h5⟩
    · exact Or.inr ⟨y, (mem_subs hI hx).mpr ⟨hy, hne, e⟩, .refl⟩
    · exact Or.inr ⟨c, h4, .step hne h5⟩

omit [DecidableEq F] in
theorem sub_level {st : Schemas N F} (hI : Inv sup root st) {x c : N} (hx : x ∈ st.names) (hc : c ∈ st.subs x) :
    c ∈ st.names ∧ st.level c = 1 + st.level x ∧ Under sup root x c := by
  obtain ⟨h1, h2, h3⟩ := (mem_subs hI hx).mp hc
  obtain ⟨_, _, k3⟩ := hI.superOf c h1 h2
  exact ⟨h1, by rw [k3, h3], .step h2 (h3 ▸ .refl)⟩

omit [DecidableEq F] in
theorem preorder_mem {st : Schemas N F} (hI : Inv sup root st) : ∀ (n : Nat) (x : N), x ∈ st.names →
    (∀ y ∈ st.names, st.level y < st.level x + n) → ∀ y, y ∈ preorder st n x ↔ y ∈ st.names ∧ Under sup root x y
  | 0, x, hx, hn, y => by
    have := hn x hx; omega
  | n + 1, x, hx, hn, y => by
    rw [preorder, List.mem_cons, List.mem_flatMap]
    have ih : ∀ c ∈ st.subs x, ∀ y, y ∈ preorder st n c ↔ y ∈ st.names ∧ Under sup root c y := by
      intro c hc
      obtain ⟨h1, h2, _⟩ := sub_level hI hx hc
      exact preorder_mem hI n c h1 (fun y hy => by have := hn y hy; omega)
    constructor
    · rintro (e | ⟨c, hc, hy⟩)
      · exact ⟨e ▸ hx, e ▸ .refl⟩
      · obtain ⟨h1, h2⟩ := (ih c hc y).mp hy
        exact ⟨h1, (sub_level hI hx hc).2.2.trans h2⟩
    · rintro ⟨hy, hu⟩
      rcases under_subs hI hu hy with e | ⟨c, hc, h⟩
      · exact Or.inl e
      · exact Or.inr ⟨c, hc, (ih c hc y).mpr ⟨hy, h⟩⟩

theorem nodup_flatMap {A B : Type} {f : A → List B} : ∀ {l : List A}, l.Nodup → (∀ a ∈ l, (f a).Nodup) →
    (∀ a ∈ l, ∀ b ∈ l, a ≠ b → ∀ x ∈ f a, x ∉ f b) → (l.flatMap f).Nodup
  | [], _, _, _ => List.nodup_nil
  | a :: l, hn, h1, h2 => by
    rw [List.nodup_cons] at hn
    rw [List.flatMap_cons, List.nodup_append]
    refine ⟨h1 a (by simp), nodup_flatMap hn.2 (fun b hb => h1 b (by simp [hb]))
      (fun b hb c hc => h2 b (by simp [hb]) c (by simp [hc])), ?_⟩
    intro x hx y hy e
    subst e
    obtain ⟨b, hb, hxb⟩ := List.mem_flatMap.mp hy
    exact h2 a (by simp) b (by simp [hb]) (fun e => hn.1 (e ▸ hb)) x hx hxb

omit [DecidableEq F] in
theorem subs_nodup {st : Schemas N F} (hI : Inv sup root st) {x : N} (hx : x ∈ st.names) : (st.subs x).Nodup := by
  rw [hI.subsOf x hx]; exact hI.nodup.filter _

omit [DecidableEq F] in
theorem preorder_nodup {st : Schemas N F} (hI : Inv sup root st) : ∀ (n : Nat) (x : N), x ∈ st.names →
    (∀ y ∈ st.names, st.level y < st.level x + n) → (preorder st n x).Nodup
  | 0, x, hx, hn => List.nodup_nil
  | n + 1, x, hx, hn => by
    have hn' : ∀ c ∈ st.subs x, ∀ y ∈ st.names, st.level y < st.level c + n := by
      intro c hc y hy
      have := (sub_level hI hx hc).2.1
      have := hn y hy
      omega
    rw [preorder, List.nodup_cons]
    constructor
    · intro hm
      obtain ⟨c, hc, hy⟩ := List.mem_flatMap.mp hm
      obtain ⟨h1, h2, _⟩ := sub_level hI hx hc
      obtain ⟨k1, k2⟩ := (preorder_mem hI n c h1 (hn' c hc) x).mp hy
      have := (k2.level hI k1).2.1
      omega
    · refine nodup_flatMap (subs_nodup hI hx) (fun c hc => preorder_nodup hI n c (sub_level hI hx hc).1 (hn' c hc)) ?_
      intro a ha b hb hne y hya hyb
      obtain ⟨h1, h2, _⟩ := sub_level hI hx ha
      obtain ⟨k1, k2, _⟩ := sub_level hI hx hb
      obtain ⟨l1, l2⟩ := (preorder_mem hI n a h1 (hn' a ha) y).mp hya
      obtain ⟨_, l3⟩ := (preorder_mem hI n b k1 (hn' b hb) y).mp hyb
      exact hne (l2.unique hI l3 l1 (by omega))

theorem flatMap_split {A B : Type} {f : A → List B} : ∀ {l : List A} {l1 l2 : List B} {y : B}, l.flatMap f = l1 ++ y :: l2 →
    ∃ a c b m1 m2, l = a ++ c :: b ∧ f c = m1 ++ y :: m2 ∧ l1 = a.flatMap f ++ m1
  | [], l1, l2, y, h => by simp at h
  | c :: l, l1, l2, y, h => by
    rw [List.flatMap_cons] at h
    rcases List.append_eq_append_iff.mp h with ⟨m, h1, h2⟩ | ⟨m, h1, h2⟩
    · obtain ⟨a, d, b, m1, m2, e1, e2, e3⟩ := flatMap_split h2
      exact ⟨c :: a, d, b, m1, m2, by rw [e1]; rfl, e2, by rw [h1, e3, List.flatMap_cons, List.append_assoc]⟩
    · cases m with
      | nil =>
        rw [List.nil_append] at h2
        rw [List.append_nil] at h1
        obtain ⟨a, d, b, m1, m2, e1, e2, e3⟩ := flatMap_split (l1 := []) h2.symm
        refine ⟨c :: a, d, b, m1, m2, by rw [e1]; rfl, e2, ?_⟩
        rw [List.flatMap_cons, List.append_assoc, ← e3, h1, List.append_nil]
      | cons z m =>
        injection h2 with h2 h3
        subst h2
        exact ⟨[], c, l, l1, m, rfl, h1, rfl⟩

omit [DecidableEq F] in
theorem preorder_order {st : Schemas N F} (hI : Inv sup root st) : ∀ (n : Nat) (x : N), x ∈ st.names →
    (∀ y ∈ st.names, st.level y < st.level x + n) → ∀ l1 y l2, preorder st n x = l1 ++ y :: l2 → y ≠ x → sup y ∈ l1
  | 0, x, hx, hn, l1, y, l2, h, hne => by
    simp [preorder] at h
  | n + 1, x, hx, hn, l1, y, l2, h, hne => by
    rw [preorder] at h
    cases l1 with
    | nil => injection h with h _; exact absurd h.symm hne
    | cons a l1 =>
      injection h with ha h
      subst ha
      obtain ⟨a, c, b, m1, m2, e1, e2, e3⟩ := flatMap_split h
      have hc : c ∈ st.subs x := by rw [e1]; simp
      obtain ⟨h1, h2, _⟩ := sub_level hI hx hc
      by_cases e : y = c
      · subst e
        rw [((mem_subs hI hx).mp hc).2.2]
        exact List.mem_cons_self ..
      · have := preorder_order hI n c h1 (fun y hy => by have := hn y hy; omega) m1 y m2 e2 e
        rw [e3]
        simp [this]

omit [DecidableEq F] in
theorem depth_spec {st : Schemas N F} (hI : Inv sup root st) : ∀ (n : Nat) (x : N), x ∈ st.names →
    (∀ y ∈ st.names, st.level y < st.level x + n) →
    (∀ y ∈ st.names, Under sup root x y → st.level y < st.level x + depth st n x) ∧
    ∃ y ∈ st.names, Under sup root x y ∧ st.level y + 1 = st.level x + depth st n x
  | 0, x, hx, hn => by
    have := hn x hx; omega
  | n + 1, x, hx, hn => by
    have ih : ∀ c ∈ st.subs x, st.level c = 1 + st.level x ∧
        (∀ y ∈ st.names, Under sup root c y → st.level y < st.level c + depth st n c) ∧
        ∃ y ∈ st.names, Under sup root c y ∧ st.level y + 1 = st.level c + depth st n c := by
      intro c hc
      obtain ⟨h1, h2, _⟩ := sub_level hI hx hc
      exact ⟨h2, depth_spec hI n c h1 (fun y hy => by have := hn y hy; omega)⟩
    have hsub := fun c (hc : c ∈ st.subs x) => (sub_level hI hx hc).2.2
    rw [depth]
    cases hs : st.subs x with
    | nil =>
      dsimp only
      refine ⟨fun y hy hu => ?_, x, hx, .refl, rfl⟩
      rcases under_subs hI hu hy with e | ⟨c, hc, _⟩
      · subst e; omega
      · rw [hs] at hc; cases hc
    | cons c0 cs =>
      dsimp only
      rw [← hs]
      obtain ⟨⟨m0, m1⟩, m2⟩ := foldl_max_spec ((st.subs x).map (depth st n)) 0
      refine ⟨fun y hy hu => ?_, ?_⟩
      · rcases under_subs hI hu hy with e | ⟨c, hc, hu⟩
        · subst e; omega
        · obtain ⟨i1, i2, _⟩ := ih c hc
          have := i2 y hy hu
          have := m1 _ (List.mem_map_of_mem hc)
          omega
      · have hc0 : c0 ∈ st.subs x := by rw [hs]; simp
        have hmem : ((st.subs x).map (depth st n)).foldl max 0 ∈ (st.subs x).map (depth st n) := by
          rcases m2 with e | h
          · have := m1 _ (List.mem_map_of_mem hc0)
            rw [e]
            have h0 : depth st n c0 = 0 := by omega
            rw [← h0]
            exact List.mem_map_of_mem hc0
          · exact h
        obtain ⟨c, hc, e⟩ := List.mem_map.mp hmem
        obtain ⟨i1, _, y, i3, i4, i5⟩ := ih c hc
        exact ⟨y, i3, (hsub c hc).trans i4, by rw [← e]; omega⟩

/-! ## The table -/

theorem setCells_ok (rows : List (RowKey N F)) (cols : List (ColKey N)) :
    ∀ (calls cells : List ((RowKey N F × ColKey N) × Cell N F)), (∀ k ∈ calls, k.1.1 ∈ rows ∧ k.1.2 ∈ cols) →
    ((cells ++ calls).map (·.1)).Nodup → setCells rows cols cells calls = some (cells ++ calls)
  | [], cells, _, _ => by rw [setCells, List.append_nil]
  | ((r, c), v) :: calls, cells, h1, h2 => by
    have hk := h1 ((r, c), v) (by simp)
    have hnew : (r, c) ∉ cells.map (·.1) := by
      rw [List.map_append, List.nodup_append] at h2
      intro hm
      exact h2.2.2 _ hm _ (by simp) rfl
    rw [setCells, setCell, if_pos ⟨hk.1, hk.2, hnew⟩]
    dsimp only
    rw [setCells_ok rows cols calls _ (fun k hk => h1 k (by simp [hk])) (by rw [List.append_assoc]; exact h2)]
    rw [List.append_assoc]; rfl

theorem tableLoop_ok (root : N) (st : Schemas N F) (rows : List (RowKey N F)) (cols : List (ColKey N))
    (calls : N → List ((RowKey N F × ColKey N) × Cell N F)) :
    ∀ (xs : List N) (cells : List ((RowKey N F × ColKey N) × Cell N F)), (∀ x ∈ xs, cellsOf root st x = some (calls x)) →
    (∀ x ∈ xs, ∀ k ∈ calls x, k.1.1 ∈ rows ∧ k.1.2 ∈ cols) → ((cells ++ xs.flatMap calls).map (·.1)).Nodup →
    tableLoop root st rows cols xs cells = some (cells ++ xs.flatMap calls)
  | [], cells, _, _, _ => by rw [tableLoop]; simp
  | x :: xs, cells, h1, h2, h3 => by
    rw [tableLoop, h1 x (by simp)]
    dsimp only
    rw [List.flatMap_cons, ← List.append_assoc] at h3
    have h4 : ((cells ++ calls x).map (·.1)).Nodup := by
      rw [List.map_append] at h3
      exact (List.nodup_append.mp h3).1
    rw [setCells_ok rows cols _ _ (h2 x (by simp)) h4]
    dsimp only
    rw [tableLoop_ok root st rows cols calls xs _ (fun y hy => h1 y (by simp [hy])) (fun y hy => h2 y (by simp [hy])) h3,
      List.flatMap_cons, List.append_assoc]

end Verif.Records
