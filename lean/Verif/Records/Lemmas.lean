import Verif.Records.Spec
/-! # Lemmas on schemas -/
namespace Verif.Records
variable {N F : Type} [DecidableEq N] [DecidableEq F] {sup : N → N} {root : N}

@[simp] theorem upd_self {V : Type} (d : N → V) (x : N) (v : V) : upd d x v x = v := if_pos rfl

theorem upd_ne {V : Type} (d : N → V) {x y : N} (v : V) (h : y ≠ x) : upd d x v y = d y := if_neg h

/-! ## Paths -/

omit [DecidableEq N] in
theorem Path.det {x : N} {ys zs : List N} (h : Path sup root x ys) (k : Path sup root x zs) : ys = zs := by
  induction h generalizing zs with
  | root => cases k with
    | root => rfl
    | up hne _ => exact absurd rfl hne
  | up hne _ ih => cases k with
    | root => exact absurd rfl hne
    | up _ k => rw [ih k]

omit [DecidableEq N] in
theorem Path.mem {x y : N} {ys : List N} (h : Path sup root x ys) (hy : y ∈ ys) :
    y ≠ root ∧ ∃ zs, Path sup root y zs ∧ zs.length ≤ ys.length ∧ ∀ z ∈ zs, z ∈ ys := by
  induction h with
  | root => cases hy
  | @up x ys hne hp ih =>
    rcases List.mem_cons.mp hy with rfl | hy
    · exact ⟨hne, _, .up hne hp, Nat.le_refl _, fun _ h => h⟩
    · obtain ⟨h1, zs, h2, h3, h4⟩ := ih hy
      exact ⟨h1, zs, h2, Nat.le_succ_of_le h3, fun z hz => List.mem_cons_of_mem _ (h4 z hz)⟩

omit [DecidableEq N] in
theorem Path.nodup {x : N} {ys : List N} (h : Path sup root x ys) : ys.Nodup := by
  induction h with
  | root => exact List.nodup_nil
  | @up x ys hne hp ih =>
    refine List.nodup_cons.mpr ⟨fun hx => ?_, ih⟩
    obtain ⟨_, zs, h1, h2, _⟩ := hp.mem hx
    have := congrArg List.length ((Path.up hne hp).det h1)
    rw [List.length_cons] at this
    omega

omit [DecidableEq N] in
theorem Path.head {x : N} {ys : List N} (h : Path sup root x ys) (hne : x ≠ root) : x ∈ ys := by
  cases h with
  | root => exact absurd rfl hne
  | up _ _ => exact List.mem_cons_self ..

omit [DecidableEq N] in
theorem Above.ne {x y : N} (h : Above sup root y x) : y ≠ root := by
  obtain ⟨ys, h1, h2⟩ := h; exact (h1.mem h2).1

omit [DecidableEq N] in
theorem Above.trans {x y z : N} (h : Above sup root z y) (k : Above sup root y x) : Above sup root z x := by
  obtain ⟨ys, h1, h2⟩ := h
  obtain ⟨zs, k1, k2⟩ := k
  obtain ⟨_, ws, l1, _, l3⟩ := k1.mem k2
  rw [l1.det h1] at l3
  exact ⟨zs, k1, l3 _ h2⟩

/-! ## The invariant -/

/-- What is true of the schemas at any time. -/
structure Inv (sup : N → N) (root : N) (st : Schemas N F) : Prop where
  rooted : root ∈ st.names
  nodup : st.names.Nodup
  superRoot : st.super root = none
  levelRoot : st.level root = 0
  superOf : ∀ x ∈ st.names, x ≠ root → st.super x = some (sup x) ∧ sup x ∈ st.names ∧ st.level x = 1 + st.level (sup x)
  subsOf : ∀ x ∈ st.names, st.subs x = st.names.filter (fun y => decide (y ≠ root) && decide (sup y = x))
  path : ∀ x ∈ st.names, ∃ ys, Path sup root x ys ∧ ys.length = st.level x ∧ ∀ y ∈ ys, y ∈ st.names
  order : ∀ l1 x l2, st.names = l1 ++ x :: l2 → x ≠ root → sup x ∈ l1
  outside : ∀ x, x ∉ st.names → st.fields x = [] ∧ st.methods x = [] ∧ st.defns x = []

omit [DecidableEq F] in
theorem inv_initial : Inv sup root (initial root : Schemas N F) where
  rooted := by simp [initial]
  nodup := by simp [initial]
  superRoot := rfl
  levelRoot := rfl
  superOf x hx hne := by simp [initial] at hx; exact absurd hx hne
  subsOf x hx := by simp [initial]
  path x hx := by
    simp [initial] at hx; subst hx
    exact ⟨[], .root, rfl, by simp⟩
  order l1 x l2 h hne := by
    simp only [initial] at h
    cases l1 with
    | nil => injection h with h; exact absurd h.symm hne
    | cons a l1 => injection h with _ h; simp at h
  outside x _ := ⟨rfl, rfl, rfl⟩

omit [DecidableEq F] in
theorem create_inv {st : Schemas N F} {x : N} (h : Inv sup root st) (hx : x ∉ st.names) (hs : sup x ∈ st.names) :
    Inv sup root (create sup st x) := by
  have hxr : x ≠ root := fun e => hx (e ▸ h.rooted)
  have hsx : sup x ≠ x := fun e => hx (e ▸ hs)
  have hmem : ∀ y, y ∈ (create sup st x).names ↔ y ∈ st.names ∨ y = x := by simp [create]
  have hold : ∀ y ∈ st.names, y ≠ x := fun y hy e => hx (e ▸ hy)
  refine ⟨(hmem _).mpr (Or.inl h.rooted), ?_, ?_, ?_, ?_, ?_, ?_, ?_, ?_⟩
  · simp only [create]
    rw [List.nodup_append]
    refine ⟨h.nodup, by simp, ?_⟩
    intro a ha b hb; rw [List.mem_singleton.mp hb]; exact hold a ha
  · simp only [create]; rw [upd_ne _ _ hxr.symm]; exact h.superRoot
  · simp only [create]; rw [upd_ne _ _ hxr.symm]; exact h.levelRoot
  · intro y hy hne
    rw [hmem]
    rcases (hmem y).mp hy with hy | rfl
    · obtain ⟨h1, h2, h3⟩ := h.superOf y hy hne
      simp only [create]
      rw [upd_ne _ _ (hold y hy), upd_ne _ _ (hold y hy), upd_ne _ _ (hold _ h2)]
      exact ⟨h1, Or.inl h2, h3⟩
    · simp only [create, upd_self]
      rw [upd_ne _ _ hsx]
      exact ⟨trivial, Or.inl hs, rfl⟩
  · intro y hy
    have hf : (create sup st x).names.filter (fun z => decide (z ≠ root) && decide (sup z = y)) =
        st.names.filter (fun z => decide (z ≠ root) && decide (sup z = y)) ++ if sup x = y then [x] else [] := by
      simp only [create, List.filter_append]
      congr 1
      by_cases e : sup x = y <;> simp [e, hxr]
    rw [hf]
    simp only [create]
    by_cases e : y = sup x
    · subst e
      rw [upd_self, upd_ne _ _ hsx, h.subsOf _ hs]
      simp
    · rw [upd_ne _ _ e, if_neg (fun k => e k.symm), List.append_nil]
      rcases (hmem y).mp hy with hy | rfl
      · rw [upd_ne _ _ (hold y hy), h.subsOf y hy]
      · rw [upd_self]
        symm
        rw [List.filter_eq_nil_iff]
        intro z hz hc
        simp only [Bool.and_eq_true, decide_eq_true_eq] at hc
        exact hx (hc.2 ▸ (h.superOf z hz hc.1).2.1)
  · intro y hy
    rcases (hmem y).mp hy with hy | rfl
    · obtain ⟨ys, h1, h2, h3⟩ := h.path y hy
      refine ⟨ys, h1, ?_, fun z hz => (hmem z).mpr (Or.inl (h3 z hz))⟩
      simp only [create]; rw [upd_ne _ _ (hold y hy)]; exact h2
    · obtain ⟨ys, h1, h2, h3⟩ := h.path _ hs
      refine ⟨y :: ys, .up hxr h1, ?_, ?_⟩
      · simp only [create, upd_self, List.length_cons]; omega
      · intro z hz
        rcases List.mem_cons.mp hz with rfl | hz
        · exact (hmem _).mpr (Or.inr rfl)
        · exact (hmem z).mpr (Or.inl (h3 z hz))
  · intro l1 y l2 he hne
    simp only [create] at he
    rcases List.eq_nil_or_concat l2 with rfl | ⟨m, z, rfl⟩
    · obtain ⟨e1, e2⟩ := List.append_inj' he rfl
      injection e2 with e2
      subst e1 e2
      exact hs
    · rw [List.concat_eq_append, ← List.cons_append, ← List.append_assoc] at he
      obtain ⟨e1, _⟩ := List.append_inj' he rfl
      exact h.order l1 y m e1 hne
  · intro y hy
    have hy' : y ∉ st.names ∧ y ≠ x := ⟨fun k => hy ((hmem y).mpr (Or.inl k)), fun k => hy ((hmem y).mpr (Or.inr k))⟩
    simp only [create]
    rw [upd_ne _ _ hy'.2, upd_ne _ _ hy'.2, upd_ne _ _ hy'.2]
    exact h.outside y hy'.1

/-! ## `ensure` -/

omit [DecidableEq F] in
theorem ensure_mono {st st' : Schemas N F} : ∀ {n : Nat} {x : N}, ensure sup n st x = some st' →
    ∀ {m}, n ≤ m → ensure sup m st x = some st'
  | 0, x, h, m, _ => by cases h
  | n + 1, x, h, m, hm => by
    cases m with
    | zero => omega
    | succ m =>
      rw [ensure] at h ⊢
      split
      · next hx => rw [if_pos hx] at h; exact h
      · next hx =>
        rw [if_neg hx] at h
        cases h1 : ensure sup n st (sup x) with
        | none => rw [h1] at h; cases h
        | some s => rw [h1] at h; rw [ensure_mono h1 (m := m) (by omega)]; exact h

omit [DecidableEq F] in
theorem ensure_new {st : Schemas N F} : ∀ {n : Nat} {x : N} {st' : Schemas N F}, ensure sup n st x = some st' →
    ∀ y ∈ st'.names, y ∉ st.names → ∃ j, j ≤ n ∧ ∃ s, ensure sup j st y = some s
  | 0, x, st', h, y, _, _ => by cases h
  | n + 1, x, st', h, y, hy, hn => by
    have h0 := h
    rw [ensure] at h
    split at h
    · injection h with h; subst h; exact absurd hy hn
    · cases h1 : ensure sup n st (sup x) with
      | none => rw [h1] at h; cases h
      | some s =>
        rw [h1] at h; injection h with h; subst h
        simp only [create, List.mem_append, List.mem_singleton] at hy
        rcases hy with hy | rfl
        · obtain ⟨j, hj, s', hs'⟩ := ensure_new h1 y hy hn
          exact ⟨j, by omega, s', hs'⟩
        · exact ⟨n + 1, Nat.le_refl _, _, h0⟩

omit [DecidableEq F] in
theorem ensure_fresh {st st' : Schemas N F} {n : Nat} {x : N} (h : ensure sup n st (sup x) = some st')
    (hx : x ∉ st.names) : x ∉ st'.names := by
  intro hx'
  have key : ∀ (m j : Nat), j ≤ m → ∀ s, ensure sup j st x ≠ some s := by
    intro m
    induction m with
    | zero =>
      intro j hj s hs
      have : j = 0 := by omega
      subst this; cases hs
    | succ m ih =>
      intro j hj s hs
      cases j with
      | zero => cases hs
      | succ j =>
        rw [ensure, if_neg hx] at hs
        cases h1 : ensure sup j st (sup x) with
        | none => rw [h1] at hs; cases hs
        | some s' =>
          have e : s' = st' := by
            have a := ensure_mono h1 (m := max j n) (by omega)
            have b := ensure_mono h (m := max j n) (by omega)
            rw [a] at b; injection b
          subst e
          obtain ⟨i, hi, s2, hs2⟩ := ensure_new h1 x hx' hx
          exact ih i (by omega) s2 hs2
  obtain ⟨j, _, s, hs⟩ := ensure_new h x hx' hx
  exact key j j (Nat.le_refl _) s hs

/-- What `ensure` leaves as it is. -/
structure Same (st st' : Schemas N F) : Prop where
  fields : ∀ x, st'.fields x = st.fields x
  methods : ∀ x, st'.methods x = st.methods x
  defns : ∀ x, st'.defns x = st.defns x

omit [DecidableEq F] in
theorem ensure_spec {st : Schemas N F} (hI : Inv sup root st) : ∀ {n : Nat} {x : N} {st' : Schemas N F},
    ensure sup n st x = some st' → Inv sup root st' ∧ x ∈ st'.names ∧ Same st st' ∧
      (∀ y ∈ st.names, y ∈ st'.names) ∧ ∀ y ∈ st'.names, y ∈ st.names ∨ Above sup root y x
  | 0, x, st', h => by cases h
  | n + 1, x, st', h => by
    rw [ensure] at h
    split at h
    · next hx =>
      injection h with h; subst h
      exact ⟨hI, hx, ⟨fun _ => rfl, fun _ => rfl, fun _ => rfl⟩, fun _ h => h, fun _ h => Or.inl h⟩
    · next hx =>
      cases h1 : ensure sup n st (sup x) with
      | none => rw [h1] at h; cases h
      | some s =>
        rw [h1] at h; injection h with h; subst h
        obtain ⟨i1, i2, i3, i4, i5⟩ := ensure_spec hI h1
        have hf := ensure_fresh h1 hx
        have hxr : x ≠ root := fun e => hx (e ▸ hI.rooted)
        have hI' := create_inv i1 hf i2
        have hxm : x ∈ (create sup s x).names := by simp [create]
        refine ⟨hI', hxm, ?_, fun y hy => ?_, fun y hy => ?_⟩
        · have ho := i1.outside x hf
          refine ⟨fun y => ?_, fun y => ?_, fun y => ?_⟩
          · by_cases e : y = x
            · subst e; simp only [create, upd_self]; rw [← i3.fields, ho.1]
            · simp only [create]; rw [upd_ne _ _ e]; exact i3.fields y
          · by_cases e : y = x
            · subst e; simp only [create, upd_self]; rw [← i3.methods, ho.2.1]
            · simp only [create]; rw [upd_ne _ _ e]; exact i3.methods y
          · by_cases e : y = x
            · subst e; simp only [create, upd_self]; rw [← i3.defns, ho.2.2]
            · simp only [create]; rw [upd_ne _ _ e]; exact i3.defns y
        · simp only [create, List.mem_append]; exact Or.inl (i4 y hy)
        · simp only [create, List.mem_append, List.mem_singleton] at hy
          obtain ⟨ys, p1, p2, p3⟩ := hI'.path x hxm
          rcases hy with hy | rfl
          · rcases i5 y hy with h | ⟨zs, k1, k2⟩
            · exact Or.inl h
            · exact Or.inr ⟨x :: zs, .up hxr k1, List.mem_cons_of_mem _ k2⟩
          · exact Or.inr ⟨ys, p1, p1.head hxr⟩

omit [DecidableEq F] in
theorem ensure_succeeds {st : Schemas N F} (hr : root ∈ st.names) {x : N} {ys : List N} (h : Path sup root x ys) :
    ∀ n, ys.length < n → ∃ st', ensure sup n st x = some st' := by
  induction h with
  | root =>
    intro n hn
    cases n with
    | zero => omega
    | succ n => exact ⟨st, by rw [ensure, if_pos hr]⟩
  | @up x ys hne hp ih =>
    intro n hn
    cases n with
    | zero => omega
    | succ n =>
      rw [ensure]
      split
      · exact ⟨_, rfl⟩
      · obtain ⟨s, hs⟩ := ih n (by simp at hn; omega)
        rw [hs]; exact ⟨_, rfl⟩

/-! ## Chains -/

omit [DecidableEq F] in
theorem selfAndSupers_path {st : Schemas N F} (hI : Inv sup root st) {x : N} {ys : List N} (h : Path sup root x ys)
    (hx : x ∈ st.names) (hne : x ≠ root) : ∀ n, ys.length ≤ n → selfAndSupers root st n x = some ys := by
  induction h with
  | root => exact absurd rfl hne
  | @up x ys _ hp ih =>
    intro n hn
    cases n with
    | zero => simp at hn
    | succ n =>
      obtain ⟨h1, h2, _⟩ := hI.superOf x hx hne
      rw [selfAndSupers, h1]
      dsimp only
      split
      · next e => rw [e] at hp; cases hp with
        | root => rfl
        | up k _ => exact absurd rfl k
      · next e => rw [ih h2 e n (by simp at hn; omega)]

omit [DecidableEq F] in
theorem selfAndSupers_root {st : Schemas N F} (hI : Inv sup root st) (n : Nat) : selfAndSupers root st n root = none := by
  cases n with
  | zero => rfl
  | succ n => rw [selfAndSupers, hI.superRoot]

omit [DecidableEq F] in
/-- The chain of a schema. -/
theorem chain_exists {st : Schemas N F} (hI : Inv sup root st) {x : N} (hx : x ∈ st.names) (hne : x ≠ root) :
    ∃ ys, Path sup root x ys ∧ selfAndSupers root st st.names.length x = some ys := by
  obtain ⟨ys, h1, _, h3⟩ := hI.path x hx
  exact ⟨ys, h1, selfAndSupers_path hI h1 hx hne _ (nodup_length_le h1.nodup h3)⟩

theorem somebodyDeclares_spec {st : Schemas N F} (hI : Inv sup root st) {x : N} (hx : x ∈ st.names) (decls : N → List F) (f : F) :
    (x = root ∧ somebodyDeclares root st decls x f = none) ∨
    (x ≠ root ∧ ∃ b, somebodyDeclares root st decls x f = some b ∧
      (b = true ↔ ∃ y, Above sup root y x ∧ f ∈ decls y)) := by
  by_cases hne : x = root
  · subst hne
    exact Or.inl ⟨rfl, by rw [somebodyDeclares, selfAndSupers_root hI]⟩
  · obtain ⟨ys, h1, h2⟩ := chain_exists hI hx hne
    refine Or.inr ⟨hne, _, by rw [somebodyDeclares, h2], ?_⟩
    rw [List.any_eq_true]
    constructor
    · rintro ⟨y, h3, h4⟩; exact ⟨y, ⟨ys, h1, h3⟩, of_decide_eq_true h4⟩
    · rintro ⟨y, ⟨zs, h3, h4⟩, h5⟩; rw [h3.det h1] at h4; exact ⟨y, h4, decide_eq_true h5⟩

/-! ## Histories -/

/-- The schemas after a history. -/
structure After (sup : N → N) (root : N) (h : List (Op N F)) (st : Schemas N F) : Prop where
  inv : Inv sup root st
  fields : ∀ x, st.fields x = fieldsIn h x
  methods : ∀ x, st.methods x = methodsIn h x
  defns : ∀ x, st.defns x = defnsIn h x
  names : ∀ x, x ∈ st.names ↔ x = root ∨ ∃ op ∈ h, Above sup root x op.name
  named : ∀ op ∈ h, op.name ∈ st.names

omit [DecidableEq F] in
theorem mem_fieldsIn {h : List (Op N F)} {x : N} {f : F} : f ∈ fieldsIn h x ↔ Op.field x f ∈ h := by
  rw [fieldsIn, List.mem_filterMap]
  constructor
  · rintro ⟨op, h1, h2⟩
    cases op with
    | field y g =>
      dsimp only at h2
      split at h2
      · next e => injection h2 with h2; subst e h2; exact h1
      · cases h2
    | touch _ => cases h2
    | method _ _ => cases h2
    | defn _ _ => cases h2
  · intro h1; exact ⟨_, h1, by simp⟩

omit [DecidableEq F] in
theorem mem_methodsIn {h : List (Op N F)} {x : N} {f : F} : f ∈ methodsIn h x ↔ Op.method x f ∈ h := by
  rw [methodsIn, List.mem_filterMap]
  constructor
  · rintro ⟨op, h1, h2⟩
    cases op with
    | method y g =>
      dsimp only at h2
      split at h2
      · next e => injection h2 with h2; subst e h2; exact h1
      · cases h2
    | touch _ => cases h2
    | field _ _ => cases h2
    | defn _ _ => cases h2
  · intro h1; exact ⟨_, h1, by simp⟩

omit [DecidableEq F] in
theorem mem_defnsIn {h : List (Op N F)} {x : N} {f : F} : f ∈ defnsIn h x ↔ Op.defn x f ∈ h := by
  rw [defnsIn, List.mem_filterMap]
  constructor
  · rintro ⟨op, h1, h2⟩
    cases op with
    | defn y g =>
      dsimp only at h2
      split at h2
      · next e => injection h2 with h2; subst e h2; exact h1
      · cases h2
    | touch _ => cases h2
    | field _ _ => cases h2
    | method _ _ => cases h2
  · intro h1; exact ⟨_, h1, by simp⟩

omit [DecidableEq F] in
theorem after_initial : After sup root ([] : List (Op N F)) (initial root) where
  inv := inv_initial
  fields _ := rfl
  methods _ := rfl
  defns _ := rfl
  names x := by simp [initial]
  named op h := by cases h

theorem addField_spec {st : Schemas N F} (hI : Inv sup root st) {x : N} (hx : x ∈ st.names) (f : F) :
    (addField root st x f = some { st with fields := upd st.fields x (st.fields x ++ [f]) } ∧
      x ≠ root ∧ ∀ y, Above sup root y x → f ∉ st.fields y) ∨
    (addField root st x f = none ∧ (x = root ∨ ∃ y, Above sup root y x ∧ f ∈ st.fields y)) := by
  rw [addField]
  rcases somebodyDeclares_spec hI hx st.fields f with ⟨h1, h2⟩ | ⟨h1, b, h2, h3⟩
  · rw [h2]; exact Or.inr ⟨rfl, Or.inl h1⟩
  · rw [h2]
    cases b with
    | false => exact Or.inl ⟨rfl, h1, fun y hy hf => Bool.noConfusion (h3.mpr ⟨y, hy, hf⟩)⟩
    | true => exact Or.inr ⟨rfl, Or.inr (h3.mp rfl)⟩

theorem addMethod_spec {st : Schemas N F} (hI : Inv sup root st) {x : N} (hx : x ∈ st.names) (f : F) :
    (addMethod root st x f = some { st with methods := upd st.methods x (st.methods x ++ [f]) } ∧
      x ≠ root ∧ ∀ y, Above sup root y x → f ∉ st.methods y) ∨
    (addMethod root st x f = none ∧ (x = root ∨ ∃ y, Above sup root y x ∧ f ∈ st.methods y)) := by
  rw [addMethod]
  rcases somebodyDeclares_spec hI hx st.methods f with ⟨h1, h2⟩ | ⟨h1, b, h2, h3⟩
  · rw [h2]; exact Or.inr ⟨rfl, Or.inl h1⟩
  · rw [h2]
    cases b with
    | false => exact Or.inl ⟨rfl, h1, fun y hy hf => Bool.noConfusion (h3.mpr ⟨y, hy, hf⟩)⟩
    | true => exact Or.inr ⟨rfl, Or.inr (h3.mp rfl)⟩

theorem addDefn_spec {st : Schemas N F} (hI : Inv sup root st) {x : N} (hx : x ∈ st.names) (f : F) :
    (∃ b, addDefn root st x f = some (b, { st with defns := upd st.defns x (st.defns x ++ [f]) }) ∧
      (b = true ↔ ¬ ∃ y, Above sup root y x ∧ f ∈ st.methods y) ∧ x ≠ root ∧ f ∉ st.defns x) ∨
    (addDefn root st x f = none ∧ (x = root ∨ f ∈ st.defns x)) := by
  rw [addDefn]
  rcases somebodyDeclares_spec hI hx st.methods f with ⟨h1, h2⟩ | ⟨h1, b, h2, h3⟩
  · rw [h2]; exact Or.inr ⟨rfl, Or.inl h1⟩
  · rw [h2]
    dsimp only
    by_cases hf : f ∈ st.defns x
    · rw [if_pos hf]; exact Or.inr ⟨rfl, Or.inr hf⟩
    · rw [if_neg hf]; exact Or.inl ⟨_, rfl, by rw [← h3]; cases b <;> simp, h1, hf⟩

omit [DecidableEq F] in
theorem fieldsIn_snoc (h : List (Op N F)) (op : Op N F) (x : N) : fieldsIn (h ++ [op]) x = fieldsIn h x ++ fieldsIn [op] x := by
  rw [fieldsIn, fieldsIn, fieldsIn, List.filterMap_append]

omit [DecidableEq F] in
theorem methodsIn_snoc (h : List (Op N F)) (op : Op N F) (x : N) : methodsIn (h ++ [op]) x = methodsIn h x ++ methodsIn [op] x := by
  rw [methodsIn, methodsIn, methodsIn, List.filterMap_append]

omit [DecidableEq F] in
theorem defnsIn_snoc (h : List (Op N F)) (op : Op N F) (x : N) : defnsIn (h ++ [op]) x = defnsIn h x ++ defnsIn [op] x := by
  rw [defnsIn, defnsIn, defnsIn, List.filterMap_append]

omit [DecidableEq F] in
theorem upd_snoc (d : N → List F) (x y : N) (f : F) : upd d x (d x ++ [f]) y = d y ++ if x = y then [f] else [] := by
  by_cases e : y = x
  · subst e; rw [upd_self, if_pos rfl]
  · rw [upd_ne _ _ e, if_neg (fun k => e k.symm), List.append_nil]

/-- One step. -/
theorem step_spec {h : List (Op N F)} {st : Schemas N F} (hA : After sup root h st) {n : Nat} {op : Op N F} :
    (∀ st', step sup root n st op = some st' → Fresh sup root h op ∧ After sup root (h ++ [op]) st') ∧
    (Fresh sup root h op → (∃ ys, Path sup root op.name ys ∧ ys.length < n) → ∃ st', step sup root n st op = some st') := by
  -- what `ensure` gives
  have hens : ∀ s, ensure sup n st op.name = some s → Inv sup root s ∧ Same st s ∧ op.name ∈ s.names ∧
      (∀ x, x ∈ s.names ↔ x = root ∨ ∃ o ∈ h ++ [op], Above sup root x o.name) ∧ ∀ o ∈ h ++ [op], o.name ∈ s.names := by
    intro s hs
    obtain ⟨i1, i2, i3, i4, i5⟩ := ensure_spec hA.inv hs
    have ho : ∀ o ∈ h ++ [op], o.name ∈ s.names := by
      intro o h1
      rcases List.mem_append.mp h1 with h1 | h1
      · exact i4 _ (hA.named o h1)
      · rw [List.mem_singleton.mp h1]; exact i2
    refine ⟨i1, i3, i2, fun x => ?_, ho⟩
    constructor
    · intro hx
      rcases i5 x hx with hx | hx
      · rcases (hA.names x).mp hx with e | ⟨o, h1, h2⟩
        · exact Or.inl e
        · exact Or.inr ⟨o, by simp [h1], h2⟩
      · exact Or.inr ⟨op, by simp, hx⟩
    · rintro (e | ⟨o, h1, ys, h2, h3⟩)
      · exact e ▸ i1.rooted
      · obtain ⟨zs, k1, _, k3⟩ := i1.path _ (ho o h1)
        rw [h2.det k1] at h3
        exact k3 x h3
  have build : ∀ s s' : Schemas N F, Inv sup root s →
      (∀ x, x ∈ s.names ↔ x = root ∨ ∃ o ∈ h ++ [op], Above sup root x o.name) → (∀ o ∈ h ++ [op], o.name ∈ s.names) →
      s'.names = s.names → s'.super = s.super → s'.level = s.level → s'.subs = s.subs →
      (∀ x, s'.fields x = fieldsIn (h ++ [op]) x) → (∀ x, s'.methods x = methodsIn (h ++ [op]) x) →
      (∀ x, s'.defns x = defnsIn (h ++ [op]) x) → After sup root (h ++ [op]) s' := by
    intro s s' i hn ho e1 e2 e3 e4 h1 h2 h3
    refine ⟨⟨?_, ?_, ?_, ?_, ?_, ?_, ?_, ?_, ?_⟩, h1, h2, h3, ?_, ?_⟩
    · rw [e1]; exact i.rooted
    · rw [e1]; exact i.nodup
    · rw [e2]; exact i.superRoot
    · rw [e3]; exact i.levelRoot
    · rw [e1, e2, e3]; exact i.superOf
    · rw [e1, e4]; exact i.subsOf
    · rw [e1, e3]; exact i.path
    · rw [e1]; exact i.order
    · intro x hx
      rw [e1] at hx
      have hx' : ∀ o ∈ h ++ [op], o.name ≠ x := fun o h1 e => hx (e ▸ ho o h1)
      refine ⟨?_, ?_, ?_⟩
      · rw [h1]; rw [List.eq_nil_iff_forall_not_mem]
        intro f hf; exact hx' _ (mem_fieldsIn.mp hf) rfl
      · rw [h2]; rw [List.eq_nil_iff_forall_not_mem]
        intro f hf; exact hx' _ (mem_methodsIn.mp hf) rfl
      · rw [h3]; rw [List.eq_nil_iff_forall_not_mem]
        intro f hf; exact hx' _ (mem_defnsIn.mp hf) rfl
    · rw [e1]; exact hn
    · rw [e1]; exact ho
  have hfields : ∀ y f, f ∈ st.fields y ↔ Op.field y f ∈ h := fun y f => by rw [hA.fields]; exact mem_fieldsIn
  have hmethods : ∀ y f, f ∈ st.methods y ↔ Op.method y f ∈ h := fun y f => by rw [hA.methods]; exact mem_methodsIn
  have hdefns : ∀ y f, f ∈ st.defns y ↔ Op.defn y f ∈ h := fun y f => by rw [hA.defns]; exact mem_defnsIn
  refine ⟨fun st' hst => ?_, fun hF hP => ?_⟩
  · rw [step] at hst
    cases hs : ensure sup n st op.name with
    | none => rw [hs] at hst; cases hst
    | some s =>
      rw [hs] at hst
      dsimp only at hst
      obtain ⟨i1, i2, i3, i4, i5⟩ := hens s hs
      cases op with
      | touch x =>
        injection hst with hst; subst hst
        refine ⟨trivial, build s s i1 i4 i5 rfl rfl rfl rfl (fun y => ?_) (fun y => ?_) (fun y => ?_)⟩
        · rw [i2.fields, hA.fields, fieldsIn_snoc]; exact (List.append_nil _).symm
        · rw [i2.methods, hA.methods, methodsIn_snoc]; exact (List.append_nil _).symm
        · rw [i2.defns, hA.defns, defnsIn_snoc]; exact (List.append_nil _).symm
      | field x f =>
        rw [applyOp] at hst
        rcases addField_spec i1 i3 f with ⟨h1, h2, h3⟩ | ⟨h1, _⟩
        · rw [Op.name] at h1; rw [h1] at hst; injection hst with hst; subst hst
          refine ⟨⟨h2, fun y hy => ?_⟩, build s _ i1 i4 i5 rfl rfl rfl rfl (fun y => ?_) (fun y => ?_) (fun y => ?_)⟩
          · rw [← hfields, ← i2.fields]; exact h3 y hy
          · dsimp only; rw [upd_snoc, i2.fields, hA.fields, fieldsIn_snoc]
            congr 1
            by_cases e : x = y <;> simp [fieldsIn, e]
          · dsimp only; rw [i2.methods, hA.methods, methodsIn_snoc]; exact (List.append_nil _).symm
          · dsimp only; rw [i2.defns, hA.defns, defnsIn_snoc]; exact (List.append_nil _).symm
        · rw [Op.name] at h1; rw [h1] at hst; cases hst
      | method x f =>
        rw [applyOp] at hst
        rcases addMethod_spec i1 i3 f with ⟨h1, h2, h3⟩ | ⟨h1, _⟩
        · rw [Op.name] at h1; rw [h1] at hst; injection hst with hst; subst hst
          refine ⟨⟨h2, fun y hy => ?_⟩, build s _ i1 i4 i5 rfl rfl rfl rfl (fun y => ?_) (fun y => ?_) (fun y => ?_)⟩
          · rw [← hmethods, ← i2.methods]; exact h3 y hy
          · dsimp only; rw [i2.fields, hA.fields, fieldsIn_snoc]; exact (List.append_nil _).symm
          · dsimp only; rw [upd_snoc, i2.methods, hA.methods, methodsIn_snoc]
            congr 1
            by_cases e : x = y <;> simp [methodsIn, e]
          · dsimp only; rw [i2.defns, hA.defns, defnsIn_snoc]; exact (List.append_nil _).symm
        · rw [Op.name] at h1; rw [h1] at hst; cases hst
      | defn x f =>
        rw [applyOp] at hst
        rcases addDefn_spec i1 i3 f with ⟨b, h1, _, h2, h3⟩ | ⟨h1, _⟩
        · rw [Op.name] at h1; rw [h1] at hst; injection hst with hst; subst hst
          refine ⟨⟨h2, ?_⟩, build s _ i1 i4 i5 rfl rfl rfl rfl (fun y => ?_) (fun y => ?_) (fun y => ?_)⟩
          · rw [← hdefns, ← i2.defns]; exact h3
          · dsimp only; rw [i2.fields, hA.fields, fieldsIn_snoc]; exact (List.append_nil _).symm
          · dsimp only; rw [i2.methods, hA.methods, methodsIn_snoc]; exact (List.append_nil _).symm
          · dsimp only; rw [upd_snoc, i2.defns, hA.defns, defnsIn_snoc]
            congr 1
            by_cases e : x = y <;> simp [defnsIn, e]
        · rw [Op.name] at h1; rw [h1] at hst; cases hst
  · obtain ⟨ys, p1, p2⟩ := hP
    obtain ⟨s, hs⟩ := ensure_succeeds (st := st) hA.inv.rooted p1 n p2
    obtain ⟨i1, i2, i3, i4, i5⟩ := hens s hs
    rw [step, hs]
    dsimp only
    cases op with
    | touch x => exact ⟨s, rfl⟩
    | field x f =>
      rw [applyOp]
      rcases addField_spec i1 i3 f with ⟨h1, _⟩ | ⟨_, h2⟩
      · exact ⟨_, h1⟩
      · rcases h2 with h2 | ⟨y, h2, h3⟩
        · exact absurd h2 hF.1
        · rw [i2.fields, hfields] at h3; exact absurd h3 (hF.2 y h2)
    | method x f =>
      rw [applyOp]
      rcases addMethod_spec i1 i3 f with ⟨h1, _⟩ | ⟨_, h2⟩
      · exact ⟨_, h1⟩
      · rcases h2 with h2 | ⟨y, h2, h3⟩
        · exact absurd h2 hF.1
        · rw [i2.methods, hmethods] at h3; exact absurd h3 (hF.2 y h2)
    | defn x f =>
      rw [applyOp]
      rcases addDefn_spec i1 i3 f with ⟨b, h1, _⟩ | ⟨_, h2⟩
      · rw [Op.name] at h1; rw [h1]; exact ⟨_, rfl⟩
      · rcases h2 with h2 | h2
        · exact absurd h2 hF.1
        · rw [i2.defns, hdefns] at h2; exact absurd h2 hF.2

theorem run_spec {n : Nat} : ∀ (more : List (Op N F)) (h : List (Op N F)) (st : Schemas N F), After sup root h st →
    (∀ st', run sup root n st more = some st' → After sup root (h ++ more) st' ∧
      ∀ m1 op m2, more = m1 ++ op :: m2 → Fresh sup root (h ++ m1) op) ∧
    ((∀ m1 op m2, more = m1 ++ op :: m2 → Fresh sup root (h ++ m1) op) →
      (∀ op ∈ more, ∃ ys, Path sup root op.name ys ∧ ys.length < n) → ∃ st', run sup root n st more = some st')
  | [], h, st, hA => by
    refine ⟨fun st' hst => ?_, fun _ _ => ⟨st, rfl⟩⟩
    injection hst with hst; subst hst
    refine ⟨by rw [List.append_nil]; exact hA, fun m1 op m2 e => ?_⟩
    simp at e
  | op :: more, h, st, hA => by
    obtain ⟨s1, s2⟩ := step_spec hA (n := n) (op := op)
    refine ⟨fun st' hst => ?_, fun hF hP => ?_⟩
    · rw [run] at hst
      cases hs : step sup root n st op with
      | none => rw [hs] at hst; cases hst
      | some s =>
        rw [hs] at hst
        obtain ⟨k1, k2⟩ := s1 s hs
        obtain ⟨r1, r2⟩ := (run_spec more (h ++ [op]) s k2).1 st' hst
        rw [List.append_assoc] at r1
        refine ⟨r1, fun m1 o m2 e => ?_⟩
        cases m1 with
        | nil => injection e with e _; subst e; rw [List.append_nil]; exact k1
        | cons a m1 =>
          injection e with e1 e2; subst e1
          have := r2 m1 o m2 e2
          rw [List.append_assoc] at this
          exact this
    · have hf := hF [] op more rfl
      rw [List.append_nil] at hf
      obtain ⟨s, hs⟩ := s2 hf (hP op (by simp))
      rw [run, hs]
      refine (run_spec more (h ++ [op]) s (s1 s hs).2).2 (fun m1 o m2 e => ?_) (fun o ho => hP o (by simp [ho]))
      have := hF (op :: m1) o m2 (by rw [e]; rfl)
      rw [List.append_assoc]; exact this

end Verif.Records
