import Verif.Records.Tree
/-! # C30: Record schemas -/
namespace Verif.Records
variable {N F : Type} [DecidableEq N] [DecidableEq F] {sup : N → N} {root : N}

/-- C30.  A history is carried out to its end exactly if every step is in order: a schema other than the root, a
field or method that nobody on its chain has declared before, a definition that it does not have yet. -/
theorem c30_history {n : Nat} {h : List (Op N F)} (hp : ∀ op ∈ h, ∃ ys, Path sup root op.name ys ∧ ys.length < n) :
    (∃ st, run sup root n (initial root) h = some st) ↔
    ∀ before op behind, h = before ++ op :: behind → Fresh sup root before op := by
  obtain ⟨h1, h2⟩ := run_spec (n := n) h [] (initial root : Schemas N F) after_initial (sup := sup)
  constructor
  · rintro ⟨st, hst⟩
    intro a op b e
    have := (h1 st hst).2 a op b e
    exact this
  · intro hF
    exact h2 (fun a op b e => by rw [List.nil_append]; exact hF a op b e) hp

/-- C30.  The schemas after a history: there is one for each name that was mentioned and for each of its
super-schemas, and none twice; a super-schema is made before its sub-schemas and lists them in the order in which they
are made; the level of a schema is the length of its chain; and the schemas have the fields, methods and definitions of the history,
in order. -/
theorem c30_state {n : Nat} {h : List (Op N F)} {st : Schemas N F} (hr : run sup root n (initial root) h = some st) :
    (∀ x, x ∈ st.names ↔ x = root ∨ ∃ op ∈ h, Above sup root x op.name) ∧
    st.names.Nodup ∧
    (∀ l1 x l2, st.names = l1 ++ x :: l2 → x ≠ root → sup x ∈ l1) ∧
    (∀ x ∈ st.names, st.subs x = st.names.filter (fun y => decide (y ≠ root) && decide (sup y = x))) ∧
    (∀ x ∈ st.names, ∃ ys, Path sup root x ys ∧ ys.length = st.level x) ∧
    (∀ x, st.fields x = fieldsIn h x ∧ st.methods x = methodsIn h x ∧ st.defns x = defnsIn h x) := by
  have hA := ((run_spec (n := n) h [] (initial root : Schemas N F) after_initial (sup := sup)).1 st hr).1
  rw [List.nil_append] at hA
  refine ⟨hA.names, hA.inv.nodup, hA.inv.order, hA.inv.subsOf, fun x hx => ?_,
    fun x => ⟨hA.fields x, hA.methods x, hA.defns x⟩⟩
  obtain ⟨ys, h1, h2, _⟩ := hA.inv.path x hx
  exact ⟨ys, h1, h2⟩

theorem nodup_filterMap_aux {A B : Type} (g : A → Option B) : ∀ (l pre : List A), (pre.filterMap g).Nodup →
    (∀ l1 a l2, l = l1 ++ a :: l2 → ∀ b, g a = some b → b ∉ (pre ++ l1).filterMap g) → ((pre ++ l).filterMap g).Nodup
  | [], pre, h, _ => by rw [List.append_nil]; exact h
  | a :: l, pre, h, hf => by
    have := nodup_filterMap_aux g l (pre ++ [a]) (by
      rw [List.filterMap_append, List.nodup_append]
      cases hg : g a with
      | none => simp [hg, h]
      | some b =>
        have := hf [] a l rfl b hg
        rw [List.append_nil] at this
        simp only [List.filterMap_cons, hg, List.filterMap_nil]
        refine ⟨h, by simp, fun x hx y hy e => ?_⟩
        rw [List.mem_singleton.mp hy] at e
        exact this (e ▸ hx)) (by
      intro l1 c l2 e b hb
      have := hf (a :: l1) c l2 (by rw [e]; rfl) b hb
      rw [List.append_assoc]; exact this)
    rw [List.append_assoc] at this
    exact this

/-- C30.  No schema declares a field or a method twice, or defines a method twice. -/
theorem c30_once {n : Nat} {h : List (Op N F)} {st : Schemas N F} (hr : run sup root n (initial root) h = some st) (x : N) :
    (st.fields x).Nodup ∧ (st.methods x).Nodup ∧ (st.defns x).Nodup := by
  obtain ⟨hA, hF⟩ := (run_spec (n := n) h [] (initial root : Schemas N F) after_initial (sup := sup)).1 st hr
  rw [List.nil_append] at hA
  have habove : x ≠ root → ∀ op ∈ h, op.name = x → Above sup root x x := by
    intro hne op ho e
    obtain ⟨ys, h1, _⟩ := hA.inv.path x (e ▸ hA.named op ho)
    exact ⟨ys, h1, h1.head hne⟩
  refine ⟨?_, ?_, ?_⟩
  · rw [hA.fields]
    refine nodup_filterMap_aux _ h [] List.nodup_nil ?_
    intro l1 a l2 e b hb
    cases a with
    | field y f =>
      dsimp only at hb
      split at hb
      · next e' =>
        injection hb with hb; subst e' hb
        have hf := hF l1 _ l2 e
        intro hm
        exact hf.2 y (habove hf.1 (.field y f) (by rw [e]; simp) rfl) (mem_fieldsIn.mp hm)
      · cases hb
    | touch _ => cases hb
    | method _ _ => cases hb
    | defn _ _ => cases hb
  · rw [hA.methods]
    refine nodup_filterMap_aux _ h [] List.nodup_nil ?_
    intro l1 a l2 e b hb
    cases a with
    | method y f =>
      dsimp only at hb
      split at hb
      · next e' =>
        injection hb with hb; subst e' hb
        have hf := hF l1 _ l2 e
        intro hm
        exact hf.2 y (habove hf.1 (.method y f) (by rw [e]; simp) rfl) (mem_methodsIn.mp hm)
      · cases hb
    | touch _ => cases hb
    | field _ _ => cases hb
    | defn _ _ => cases hb
  · rw [hA.defns]
    refine nodup_filterMap_aux _ h [] List.nodup_nil ?_
    intro l1 a l2 e b hb
    cases a with
    | defn y f =>
      dsimp only at hb
      split at hb
      · next e' =>
        injection hb with hb; subst e' hb
        have hf := hF l1 _ l2 e
        intro hm
        exact hf.2 (mem_defnsIn.mp hm)
      · cases hb
    | touch _ => cases hb
    | field _ _ => cases hb
    | method _ _ => cases hb

/-- C30.  If super-schemas get their fields before their sub-schemas do, no field is declared by two schemas on one
chain. -/
theorem c30_no_field_twice {n : Nat} {h : List (Op N F)} {st : Schemas N F} (hr : run sup root n (initial root) h = some st)
    (ht : TopDown sup root h) {x y : N} (hxy : Above sup root x y) (hne : x ≠ y) {f : F} (hx : f ∈ st.fields x) :
    f ∉ st.fields y := by
  obtain ⟨hA, hF⟩ := (run_spec (n := n) h [] (initial root : Schemas N F) after_initial (sup := sup)).1 st hr
  rw [List.nil_append] at hA
  rw [hA.fields] at hx ⊢
  rw [mem_fieldsIn] at hx ⊢
  intro hy
  obtain ⟨h1, h2, e⟩ := List.append_of_mem hx
  rw [e] at hy
  rcases List.mem_append.mp hy with hy | hy
  · exact ht h1 h2 x f e y f hxy hne hy
  · rcases List.mem_cons.mp hy with hy | hy
    · injection hy with hy _; exact hne hy.symm
    · obtain ⟨a, b, e2⟩ := List.append_of_mem hy
      have := hF (h1 ++ Op.field x f :: a) (.field y f) b (by rw [e, e2]; simp)
      exact this.2 x hxy (by simp)

/-- C30.  Without that proviso a field may be declared twice on one chain: only the super-schemas are looked at.  (1 is
below 2, and 2 is below the root, 0.) -/
theorem c30_late_witness :
    let sup : Nat → Nat := fun x => if x = 1 then 2 else 0
    ∃ st : Schemas Nat Nat, run sup 0 9 (initial 0) [.field 1 7, .field 2 7] = some st ∧
      Above sup 0 2 1 ∧ 7 ∈ st.fields 1 ∧ 7 ∈ st.fields 2 := by
  intro sup
  refine ⟨_, rfl, ⟨[1, 2], .up (by decide) (.up (by decide) .root), by decide⟩, by decide, by decide⟩

/-- C30.  The complaint about a definition is made exactly if nobody on the chain declares the method. -/
theorem c30_complaint {n : Nat} {h : List (Op N F)} {st st' : Schemas N F} (hr : run sup root n (initial root) h = some st)
    {x : N} {f : F} {b : Bool} (hx : x ∈ st.names) (hd : addDefn root st x f = some (b, st')) :
    b = true ↔ ∀ y, Above sup root y x → Op.method y f ∉ h := by
  obtain ⟨hA, _⟩ := (run_spec (n := n) h [] (initial root : Schemas N F) after_initial (sup := sup)).1 st hr
  rw [List.nil_append] at hA
  rcases addDefn_spec hA.inv hx f with ⟨b', h1, h2, _⟩ | ⟨h1, _⟩
  · rw [h1] at hd
    injection hd with hd
    injection hd with hd _
    subst hd
    rw [h2]
    simp only [not_exists, not_and, hA.methods, mem_methodsIn]
  · rw [h1] at hd; cases hd

/-! ## The tree -/

omit [DecidableEq F] in
theorem level_lt {st : Schemas N F} (hI : Inv sup root st) {y : N} (hy : y ∈ st.names) : st.level y < st.names.length := by
  obtain ⟨ys, h1, h2, h3⟩ := hI.path y hy
  have : (root :: ys).Nodup := List.nodup_cons.mpr ⟨fun h => (h1.mem h).1 rfl, h1.nodup⟩
  have := nodup_length_le (b := st.names) this (by
    intro z hz
    rcases List.mem_cons.mp hz with rfl | hz
    · exact hI.rooted
    · exact h3 z hz)
  simp at this
  omega

/-- C30.  The traversal from a schema yields it and all the schemas below it, each once, super-schemas first. -/
theorem c30_traversal {n k : Nat} {h : List (Op N F)} {st : Schemas N F} (hr : run sup root n (initial root) h = some st)
    (hk : st.names.length ≤ k) {x : N} (hx : x ∈ st.names) :
    (∀ y, y ∈ preorder st k x ↔ y ∈ st.names ∧ Under sup root x y) ∧ (preorder st k x).Nodup ∧
    ∀ l1 y l2, preorder st k x = l1 ++ y :: l2 → y ≠ x → sup y ∈ l1 := by
  obtain ⟨hA, _⟩ := (run_spec (n := n) h [] (initial root : Schemas N F) after_initial (sup := sup)).1 st hr
  have hl : ∀ y ∈ st.names, st.level y < st.level x + k := fun y hy => by have := level_lt hA.inv hy; omega
  exact ⟨preorder_mem hA.inv k x hx hl, preorder_nodup hA.inv k x hx hl, preorder_order hA.inv k x hx hl⟩

/-- C30.  The depth below a schema is one more than the greatest difference of levels. -/
theorem c30_depth {n k : Nat} {h : List (Op N F)} {st : Schemas N F} (hr : run sup root n (initial root) h = some st)
    (hk : st.names.length ≤ k) {x : N} (hx : x ∈ st.names) :
    (∀ y ∈ st.names, Under sup root x y → st.level y < st.level x + depth st k x) ∧
    ∃ y ∈ st.names, Under sup root x y ∧ st.level y + 1 = st.level x + depth st k x := by
  obtain ⟨hA, _⟩ := (run_spec (n := n) h [] (initial root : Schemas N F) after_initial (sup := sup)).1 st hr
  exact depth_spec hA.inv k x hx (fun y hy => by have := level_lt hA.inv hy; omega)

omit [DecidableEq F] in
theorem above_under {st : Schemas N F} (hI : Inv sup root st) {top x y : N} (htop : sup top = root)
    (hu : Under sup root top x) (hx : x ∈ st.names) (hy : Above sup root y x) : Under sup root top y := by
  induction hu with
  | refl =>
    obtain ⟨ys, h1, h2⟩ := hy
    cases h1 with
    | root => cases h2
    | @up _ ys hne h1 =>
      rw [htop] at h1
      rcases List.mem_cons.mp h2 with e | h2
      · exact e ▸ .refl
      · cases h1 with
        | root => cases h2
        | up k _ => exact absurd rfl k
  | @step x hne h ih =>
    obtain ⟨ys, h1, h2⟩ := hy
    cases h1 with
    | root => exact absurd rfl hne
    | @up _ ys _ h1 =>
      rcases List.mem_cons.mp h2 with e | h2
      · exact e ▸ .step hne h
      · exact ih (hI.superOf x hx hne).2.1 ⟨ys, h1, h2⟩

/-- C30.  The table of the methods in a hierarchy can always be made: no row or column is missing, no cell is set twice.
It has a heading for each schema in the row of its level, a label for each method, and, in the column of each schema, a
cell for each method declared on its chain, with marks that say if that schema declares and if it defines it; and nothing else. -/
theorem c30_table {n k : Nat} {h : List (Op N F)} {st : Schemas N F} (hr : run sup root n (initial root) h = some st)
    (hk : st.names.length ≤ k) {top : N} (ht : top ∈ st.names) (hne : top ≠ root) (htop : sup top = root) :
    ∃ cells, table root st k top = some cells ∧ (cells.map (·.1)).Nodup ∧ ∀ r c v, ((r, c), v) ∈ cells ↔
      (∃ x ∈ st.names, Under sup root top x ∧ r = .header (st.level x) ∧ c = .schema x ∧ v = .schemaName x) ∨
      (∃ x ∈ st.names, Under sup root top x ∧ ∃ f ∈ methodsIn h x, r = .method x f ∧ c = .methodName ∧ v = .methodName f) ∨
      (∃ x ∈ st.names, Under sup root top x ∧ ∃ y, Above sup root y x ∧ ∃ f ∈ methodsIn h y,
        r = .method y f ∧ c = .schema x ∧ v = .marks (decide (f ∈ methodsIn h x)) (decide (f ∈ defnsIn h x))) := by
  have honce := c30_once hr
  obtain ⟨hA, _⟩ := (run_spec (n := n) h [] (initial root : Schemas N F) after_initial (sup := sup)).1 st hr
  rw [List.nil_append] at hA
  have hI := hA.inv
  have hl : ∀ y ∈ st.names, st.level y < st.level top + k := fun y hy => by have := level_lt hI hy; omega
  have hmem := preorder_mem hI k top ht hl
  have hnd := preorder_nodup hI k top ht hl
  have hdep := (depth_spec hI k top ht hl).1
  have hlev : st.level top = 1 := by
    have := (hI.superOf top ht hne).2.2
    rw [htop, hI.levelRoot] at this
    omega
  -- the chains
  have hxne : ∀ x, Under sup root top x → x ≠ root := by
    intro x hu
    cases hu with
    | refl => exact hne
    | step h _ => exact h
  have hchain : ∀ x ∈ preorder st k top, ∃ ys, Path sup root x ys ∧ selfAndSupers root st st.names.length x = some ys := by
    intro x hx
    obtain ⟨h1, h2⟩ := (hmem x).mp hx
    exact chain_exists hI h1 (hxne x h2)
  let calls : N → List ((RowKey N F × ColKey N) × Cell N F) := fun x => (cellsOf root st x).getD []
  have hcalls : ∀ x ∈ preorder st k top, ∃ ys, Path sup root x ys ∧ cellsOf root st x = some (calls x) ∧
      calls x = ((.header (st.level x), .schema x), .schemaName x) ::
        ((st.methods x).map (fun f => ((.method x f, .methodName), .methodName f)) ++
        ys.flatMap (fun y => (st.methods y).map (fun f =>
          ((.method y f, .schema x), .marks (decide (f ∈ st.methods x)) (decide (f ∈ st.defns x)))))) := by
    intro x hx
    obtain ⟨ys, h1, h2⟩ := hchain x hx
    refine ⟨ys, h1, ?_, ?_⟩
    · simp only [calls, cellsOf, h2]; rfl
    · simp only [calls, cellsOf, h2]; rfl
  have hin : ∀ x ∈ preorder st k top, ∀ r c v, ((r, c), v) ∈ calls x ↔
      (r = .header (st.level x) ∧ c = .schema x ∧ v = .schemaName x) ∨
      (∃ f ∈ methodsIn h x, r = .method x f ∧ c = .methodName ∧ v = .methodName f) ∨
      (∃ y, Above sup root y x ∧ ∃ f ∈ methodsIn h y,
        r = .method y f ∧ c = .schema x ∧ v = .marks (decide (f ∈ methodsIn h x)) (decide (f ∈ defnsIn h x))) := by
    intro x hx r c v
    obtain ⟨ys, h1, _, h3⟩ := hcalls x hx
    rw [h3, List.mem_cons, List.mem_append, List.mem_map, List.mem_flatMap]
    simp only [← hA.methods, ← hA.defns]
    constructor
    · rintro (e | ⟨f, hf, e⟩ | ⟨y, hy, e⟩)
      · injection e with e1 e2; injection e1 with e1 e3; exact Or.inl ⟨e1, e3, e2⟩
      · injection e with e1 e2; injection e1 with e1 e3
        exact Or.inr (Or.inl ⟨f, hf, e1.symm, e3.symm, e2.symm⟩)
      · obtain ⟨f, hf, e⟩ := List.mem_map.mp e
        injection e with e1 e2; injection e1 with e1 e3
        exact Or.inr (Or.inr ⟨y, ⟨ys, h1, hy⟩, f, hf, e1.symm, e3.symm, e2.symm⟩)
    · rintro (⟨rfl, rfl, rfl⟩ | ⟨f, hf, rfl, rfl, rfl⟩ | ⟨y, ⟨zs, k1, k2⟩, f, hf, rfl, rfl, rfl⟩)
      · exact Or.inl rfl
      · exact Or.inr (Or.inl ⟨f, hf, rfl⟩)
      · rw [k1.det h1] at k2
        exact Or.inr (Or.inr ⟨y, k2, List.mem_map_of_mem hf⟩)
  have hrows : ∀ y ∈ preorder st k top, ∀ f ∈ st.methods y,
      RowKey.method y f ∈ rowKeys st (depth st k top) (preorder st k top) := by
    intro y hy f hf
    rw [rowKeys, List.mem_append, List.mem_cons, List.mem_flatMap]
    exact Or.inr (Or.inr ⟨y, hy, by rw [List.mem_append]; exact Or.inl (List.mem_map_of_mem hf)⟩)
  have hcols : ∀ y ∈ preorder st k top, ColKey.schema y ∈ colKeys (preorder st k top) := by
    intro y hy
    rw [colKeys, List.mem_cons]
    exact Or.inr (List.mem_map_of_mem hy)
  have hkeys : ∀ x ∈ preorder st k top, ∀ key ∈ calls x,
      key.1.1 ∈ rowKeys st (depth st k top) (preorder st k top) ∧ key.1.2 ∈ colKeys (preorder st k top) := by
    intro x hx key hkey
    obtain ⟨⟨r, c⟩, v⟩ := key
    obtain ⟨u1, u2⟩ := (hmem x).mp hx
    rcases (hin x hx r c v).mp hkey with ⟨rfl, rfl, rfl⟩ | ⟨f, hf, rfl, rfl, rfl⟩ | ⟨y, hy, f, hf, rfl, rfl, rfl⟩
    · refine ⟨?_, hcols x hx⟩
      rw [rowKeys, List.mem_append]
      refine Or.inl (List.mem_map_of_mem ?_)
      rw [List.mem_range'_1]
      have a := hdep x u1 u2
      have b := (u2.level hI u1).2.1
      omega
    · rw [← hA.methods] at hf
      exact ⟨hrows x hx f hf, by rw [colKeys]; exact List.mem_cons_self ..⟩
    · rw [← hA.methods] at hf
      obtain ⟨ys, p1, _, p3⟩ := hI.path x u1
      obtain ⟨zs, q1, q2⟩ := id hy
      rw [q1.det p1] at q2
      exact ⟨hrows y ((hmem y).mpr ⟨p3 y q2, above_under hI htop u2 u1 hy⟩) f hf, hcols x hx⟩
  have hdup : (((preorder st k top).flatMap calls).map (·.1)).Nodup := by
    rw [List.map_flatMap]
    refine nodup_flatMap hnd (fun x hx => ?_) (fun x hx y hy hxy key h1 h2 => ?_)
    · obtain ⟨ys, p1, _, p3⟩ := hcalls x hx
      rw [p3, List.map_cons, List.map_append, List.nodup_cons, List.nodup_append, List.map_map, List.map_flatMap]
      refine ⟨?_, ?_, ?_, ?_⟩
      · intro hm
        rcases List.mem_append.mp hm with hm | hm
        · obtain ⟨f, _, e⟩ := List.mem_map.mp hm
          injection e with e _; cases e
        · obtain ⟨y, _, hm⟩ := List.mem_flatMap.mp hm
          rw [List.map_map] at hm
          obtain ⟨f, _, e⟩ := List.mem_map.mp hm
          injection e with e _; cases e
      · refine List.pairwise_map.mpr ((honce x).2.1.imp (fun hne e => hne ?_))
        injection e with e _; injection e
      · refine nodup_flatMap p1.nodup (fun y hy => ?_) (fun y hy z hz hyz key h1 h2 => ?_)
        · rw [List.map_map]
          refine List.pairwise_map.mpr ((honce y).2.1.imp (fun hne e => hne ?_))
          injection e with e _; injection e
        · rw [List.map_map] at h1 h2
          obtain ⟨f, _, e1⟩ := List.mem_map.mp h1
          obtain ⟨g, _, e2⟩ := List.mem_map.mp h2
          rw [← e1] at e2
          injection e2 with e2 _; injection e2 with e2 _
          exact hyz e2.symm
      · intro a ha b hb e
        obtain ⟨f, _, e1⟩ := List.mem_map.mp ha
        obtain ⟨y, _, hm⟩ := List.mem_flatMap.mp hb
        rw [List.map_map] at hm
        obtain ⟨g, _, e2⟩ := List.mem_map.mp hm
        rw [← e1, ← e2] at e
        injection e with _ e; cases e
    · obtain ⟨⟨⟨r1, c1⟩, v1⟩, m1, e1⟩ := List.mem_map.mp h1
      obtain ⟨⟨⟨r2, c2⟩, v2⟩, m2, e2⟩ := List.mem_map.mp h2
      rw [← e1] at e2
      injection e2 with er ec
      subst er ec
      rcases (hin x hx r2 c2 v1).mp m1 with ⟨a1, a2, _⟩ | ⟨f, _, a1, a2, _⟩ | ⟨z, _, f, _, a1, a2, _⟩ <;>
      rcases (hin y hy r2 c2 v2).mp m2 with ⟨b1, b2, _⟩ | ⟨g, _, b1, b2, _⟩ | ⟨w, _, g, _, b1, b2, _⟩ <;>
      first
        | (rw [a2] at b2; cases b2; done)
        | (rw [a2] at b2; injection b2 with b2; exact hxy b2)
        | (rw [a1] at b1; injection b1 with b1 _; exact hxy b1)
  refine ⟨(preorder st k top).flatMap calls, ?_, hdup, fun r c v => ?_⟩
  · have := tableLoop_ok root st (rowKeys st (depth st k top) (preorder st k top)) (colKeys (preorder st k top)) calls
      (preorder st k top) [] (fun x hx => (hcalls x hx).choose_spec.2.1) hkeys (by rw [List.nil_append]; exact hdup)
    rw [table, this, List.nil_append]
  · rw [List.mem_flatMap]
    constructor
    · rintro ⟨x, hx, hm⟩
      obtain ⟨u1, u2⟩ := (hmem x).mp hx
      rcases (hin x hx r c v).mp hm with h | h | h
      · exact Or.inl ⟨x, u1, u2, h⟩
      · exact Or.inr (Or.inl ⟨x, u1, u2, h⟩)
      · exact Or.inr (Or.inr ⟨x, u1, u2, h⟩)
    · rintro (⟨x, u1, u2, h⟩ | ⟨x, u1, u2, h⟩ | ⟨x, u1, u2, h⟩)
      · have hx := (hmem x).mpr ⟨u1, u2⟩
        exact ⟨x, hx, (hin x hx r c v).mpr (Or.inl h)⟩
      · have hx := (hmem x).mpr ⟨u1, u2⟩
        exact ⟨x, hx, (hin x hx r c v).mpr (Or.inr (Or.inl h))⟩
      · have hx := (hmem x).mpr ⟨u1, u2⟩
        exact ⟨x, hx, (hin x hx r c v).mpr (Or.inr (Or.inr h))⟩

/-! ## The relation of the program -/

/-- C30.  In the program's own relation every chain ends at the root, after at most three schemas; so the recursion of
`ensure` always ends. -/
theorem c30_program (x : String) : ∃ ys, Path subToSuper rootName x ys ∧ ys.length ≤ 3 := by
  have p1 : ∀ y, y ≠ rootName → subToSuper y = rootName → Path subToSuper rootName y [y] := fun y h e => .up h (e ▸ .root)
  have er : Path subToSuper rootName "Environment Record" ["Environment Record"] := p1 _ (by decide) (by decide)
  have mr : Path subToSuper rootName "Module Record" ["Module Record"] := p1 _ (by decide) (by decide)
  have dr : Path subToSuper rootName "Declarative Environment Record" ["Declarative Environment Record", "Environment Record"] :=
    .up (by decide) (by rw [show subToSuper "Declarative Environment Record" = "Environment Record" by decide]; exact er)
  have cr : Path subToSuper rootName "Cyclic Module Record" ["Cyclic Module Record", "Module Record"] :=
    .up (by decide) (by rw [show subToSuper "Cyclic Module Record" = "Module Record" by decide]; exact mr)
  by_cases hr : x = rootName
  · exact ⟨[], hr ▸ .root, by decide⟩
  · have hs : subToSuper x = "Environment Record" ∨ subToSuper x = "Declarative Environment Record" ∨
        subToSuper x = "Module Record" ∨ subToSuper x = "Cyclic Module Record" ∨ subToSuper x = rootName := by
      unfold subToSuper
      repeat' split
      all_goals simp
    rcases hs with h | h | h | h | h
    · exact ⟨_, .up hr (h ▸ er), by simp⟩
    · exact ⟨_, .up hr (h ▸ dr), by simp⟩
    · exact ⟨_, .up hr (h ▸ mr), by simp⟩
    · exact ⟨_, .up hr (h ▸ cr), by simp⟩
    · exact ⟨[x], .up hr (by rw [h]; exact .root), by simp⟩

/-! ## Cases -/

/-- 1 and 2 are below 3, 3 and 4 are below the root. -/
def exSup (x : Nat) : Nat := if x = 1 then 3 else if x = 2 then 3 else 0

/-- A history. -/
def exHist : List (Op Nat Nat) :=
  [.touch 1, .field 3 30, .field 1 10, .method 3 5, .field 2 10, .defn 1 5, .method 2 6, .touch 4]

example : (run exSup 0 9 (initial 0) exHist).map (fun st => (st.names, st.subs 3, st.level 1, st.fields 2)) =
    some ([0, 3, 1, 2, 4], [1, 2], 2, [10]) := rfl

example : ((run exSup 0 9 (initial 0) exHist).bind (fun st => table 0 st 9 3)) = some
    [((.header 1, .schema 3), .schemaName 3), ((.method 3 5, .methodName), .methodName 5),
     ((.method 3 5, .schema 3), .marks true false), ((.header 2, .schema 1), .schemaName 1),
     ((.method 3 5, .schema 1), .marks false true), ((.header 2, .schema 2), .schemaName 2),
     ((.method 2 6, .methodName), .methodName 6), ((.method 2 6, .schema 2), .marks true false),
     ((.method 3 5, .schema 2), .marks false false)] := rfl

example : run exSup 0 9 (initial 0) (exHist ++ [.field 2 30]) = none := rfl
example : run exSup 0 9 (initial 0) (exHist ++ [.defn 1 5]) = none := rfl

end Verif.Records
