import Verif.Sta.Spec
/-! # Lemmas about dicts, environments and headers -/
namespace Verif.Sta
variable {T E : Type}

theorem lookup_cons' (n : Name) (p : Name × T) (d : List (Name × T)) :
    (p :: d).lookup n = if n = p.1 then some p.2 else d.lookup n := by
  obtain ⟨k, v⟩ := p
  rw [List.lookup_cons]
  by_cases h : n = k
  · subst h; simp
  · rw [if_neg h, show (n == k) = false from by simpa using h]

theorem lookup_put (k n : Name) (v : T) (d : List (Name × T)) :
    (put k v d).lookup n = if n = k then some v else d.lookup n := by
  induction d with
  | nil =>
    unfold put
    rw [lookup_cons']
  | cons p d ih =>
    obtain ⟨k', v'⟩ := p
    unfold put
    by_cases h : k' = k
    · subst h
      rw [if_pos rfl, lookup_cons', lookup_cons']
      by_cases h : n = k'
      · subst h; simp
      · simp [h]
    · rw [if_neg h, lookup_cons', lookup_cons', ih]
      by_cases h1 : n = k'
      · subst h1; simp [h]
      · simp [h1]

theorem keys_put (k : Name) (v : T) (d : List (Name × T)) :
    (put k v d).map Prod.fst = if k ∈ d.map Prod.fst then d.map Prod.fst else d.map Prod.fst ++ [k] := by
  induction d with
  | nil => simp [put]
  | cons p d ih =>
    obtain ⟨k', v'⟩ := p
    unfold put
    by_cases h : k' = k
    · subst h; simp
    · rw [if_neg h]
      have h' : ¬ k = k' := fun e => h e.symm
      simp only [List.map_cons, ih, List.mem_cons, h', false_or]
      split <;> simp

theorem keys_put_nodup (k : Name) (v : T) (d : List (Name × T)) (h : (d.map Prod.fst).Nodup) : ((put k v d).map Prod.fst).Nodup := by
  rw [keys_put]
  split
  · exact h
  · rename_i hk
    rw [List.nodup_append]
    refine ⟨h, by simp, ?_⟩
    intro a ha b hb he
    simp at hb
    subst hb; subst he
    exact hk ha

theorem mem_keys_put (k n : Name) (v : T) (d : List (Name × T)) : n ∈ (put k v d).map Prod.fst ↔ n = k ∨ n ∈ d.map Prod.fst := by
  rw [keys_put]
  split
  · rename_i h
    constructor
    · exact fun h => .inr h
    · rintro (rfl | h')
      · exact h
      · exact h'
  · simp [or_comm]

theorem fold_put_lookup (ps : List (Name × T)) : ∀ (d : List (Name × T)) (n : Name), (ps.map Prod.fst).Nodup →
    (ps.foldl (fun d p => put p.1 p.2 d) d).lookup n = (ps.lookup n).or (d.lookup n) := by
  induction ps with
  | nil => intro d n _; simp
  | cons p ps ih =>
    intro d n h
    simp only [List.map_cons, List.nodup_cons] at h
    rw [List.foldl_cons, ih _ _ h.2, lookup_put, lookup_cons']
    by_cases hn : n = p.1
    · subst hn
      have : ps.lookup p.1 = none := by
        rw [List.lookup_eq_none_iff]
        intro q hq
        simp only [bne_iff_ne, ne_eq]
        intro e
        exact h.1 (by rw [e]; exact List.mem_map_of_mem hq)
      simp [this]
    · simp [hn]

theorem fold_put_keys (ps : List (Name × T)) : ∀ (d : List (Name × T)), (d.map Prod.fst).Nodup →
    ((ps.foldl (fun d p => put p.1 p.2 d) d).map Prod.fst).Nodup ∧
    ∀ n, n ∈ (ps.foldl (fun d p => put p.1 p.2 d) d).map Prod.fst ↔ n ∈ ps.map Prod.fst ∨ n ∈ d.map Prod.fst := by
  induction ps with
  | nil => intro d h; simpa using h
  | cons p ps ih =>
    intro d h
    rw [List.foldl_cons]
    obtain ⟨h1, h2⟩ := ih _ (keys_put_nodup p.1 p.2 d h)
    refine ⟨h1, ?_⟩
    intro n
    rw [h2, mem_keys_put, List.map_cons, List.mem_cons]
    constructor
    · rintro (h | h | h)
      · exact .inl (.inr h)
      · exact .inl (.inl h)
      · exact .inr h
    · rintro ((h | h) | h)
      · exact .inr (.inl h)
      · exact .inl h
      · exact .inr (.inr h)

theorem env_keys (h : Head T) : ((env h).map Prod.fst).Nodup ∧
    ∀ n, n ∈ (env h).map Prod.fst ↔ n = retName ∨ n ∈ h.params.map Prod.fst ∨ n ∈ h.forParam.toList.map Prod.fst := by
  have h0 : (h.forParam.toList.map Prod.fst).Nodup := by cases h.forParam <;> simp
  obtain ⟨h1, h2⟩ := fold_put_keys h.params _ h0
  unfold env
  refine ⟨keys_put_nodup _ _ _ h1, ?_⟩
  intro n
  rw [mem_keys_put, h2]

/-- In the initial environment every name has its declared type. -/
theorem env_lookup (h : Head T) (hw : Wf h) (n : Name) (hn : n = retName ∨ n ∈ h.params.map Prod.fst) :
    (env h).lookup n = declared h n := by
  unfold env declared
  rw [lookup_put]
  by_cases hr : n = retName
  · simp [hr]
  · rw [if_neg hr, if_neg hr, fold_put_lookup _ _ _ hw.nodup]
    rcases hn with hn | hn
    · exact absurd hn hr
    · have : (h.params.lookup n).isSome := by
        rw [List.lookup_isSome_iff]
        obtain ⟨p, hp, rfl⟩ := List.mem_map.1 hn
        exact ⟨p, hp, by simp⟩
      obtain ⟨v, hv⟩ := Option.isSome_iff_exists.1 this
      rw [hv]; rfl

theorem mem_insertName (n m : Name) (l : List Name) : m ∈ insertName n l ↔ m = n ∨ m ∈ l := by
  induction l with
  | nil => simp [insertName]
  | cons a l ih =>
    unfold insertName
    split
    · simp
    · rw [List.mem_cons, ih, List.mem_cons]
      constructor
      · rintro (h | h | h)
        · exact .inr (.inl h)
        · exact .inl h
        · exact .inr (.inr h)
      · rintro (h | h | h)
        · exact .inr (.inl h)
        · exact .inl h
        · exact .inr (.inr h)

theorem nodup_insertName (n : Name) (l : List Name) (h : l.Nodup) (hn : n ∉ l) : (insertName n l).Nodup := by
  induction l with
  | nil => simp [insertName]
  | cons a l ih =>
    unfold insertName
    rw [List.nodup_cons] at h
    split
    · exact List.nodup_cons.2 ⟨hn, List.nodup_cons.2 h⟩
    · rw [List.nodup_cons, mem_insertName]
      refine ⟨?_, ih h.2 (fun h' => hn (by simp [h']))⟩
      rintro (rfl | h')
      · exact hn (by simp)
      · exact h.1 h'

theorem sortNames_spec (l : List Name) (h : l.Nodup) : (sortNames l).Nodup ∧ ∀ n, n ∈ sortNames l ↔ n ∈ l := by
  induction l with
  | nil => exact ⟨List.nodup_nil, fun n => Iff.rfl⟩
  | cons a l ih =>
    rw [List.nodup_cons] at h
    obtain ⟨h1, h2⟩ := ih h.2
    refine ⟨nodup_insertName a _ h1 (fun h' => h.1 ((h2 a).1 h')), ?_⟩
    intro n
    show n ∈ insertName a (sortNames l) ↔ _
    rw [mem_insertName, h2, List.mem_cons]

theorem sameDict_lookup [DecidableEq T] (a b : List (Name × T)) (h : sameDict a b = true) (n : Name) : a.lookup n = b.lookup n := by
  unfold sameDict at h
  rw [Bool.and_eq_true, List.all_eq_true, List.all_eq_true] at h
  obtain ⟨h1, h2⟩ := h
  have key : ∀ (x : List (Name × T)) (v : T), x.lookup n = some v → ∃ p ∈ x, p.1 = n ∧ p.2 = v := by
    intro x v hv
    obtain ⟨l1, l2, he, _⟩ := List.lookup_eq_some_iff.1 hv
    exact ⟨(n, v), by rw [he]; simp, rfl, rfl⟩
  cases ha : a.lookup n with
  | some v =>
    obtain ⟨p, hp, rfl, rfl⟩ := key a v ha
    have := h1 p hp
    simp only [beq_iff_eq] at this
    exact this.symm
  | none =>
    cases hb : b.lookup n with
    | none => rfl
    | some v =>
      obtain ⟨p, hp, rfl, rfl⟩ := key b v hb
      have := h2 p hp
      simp only [beq_iff_eq] at this
      rw [ha] at this
      exact this

/-! ## Headers -/

/-- A header after some changes of declared types. -/
structure HeadLe (h h' : Head T) : Prop where
  early : h'.early = h.early
  isBif : h'.isBif = h.isBif
  forParam : h'.forParam = h.forParam
  tbd : h'.tbd = h.tbd
  defns : h'.defns = h.defns
  required : h'.required = h.required
  names : h'.params.map Prod.fst = h.params.map Prod.fst
  stated : ∀ n, n ∉ h.tbd → declared h' n = declared h n

theorem HeadLe.refl (h : Head T) : HeadLe h h := ⟨rfl, rfl, rfl, rfl, rfl, rfl, rfl, fun _ _ => rfl⟩

theorem HeadLe.trans {a b c : Head T} (h : HeadLe a b) (h' : HeadLe b c) : HeadLe a c where
  early := h'.early.trans h.early
  isBif := h'.isBif.trans h.isBif
  forParam := h'.forParam.trans h.forParam
  tbd := h'.tbd.trans h.tbd
  defns := h'.defns.trans h.defns
  required := h'.required.trans h.required
  names := h'.names.trans h.names
  stated := fun n hn => (h'.stated n (by rw [h.tbd]; exact hn)).trans (h.stated n hn)

/-- A header in which only existing names are to be found out. -/
structure Good (h : Head T) : Prop extends Wf h where
  tbdNames : ∀ n ∈ h.tbd, n = retName ∨ n ∈ h.params.map Prod.fst

theorem Good.le {h h' : Head T} (g : Good h) (l : HeadLe h h') : Good h' where
  nodup := by rw [l.names]; exact g.nodup
  noRet := by rw [l.names]; exact g.noRet
  tbdNames := by rw [l.names, l.tbd]; exact g.tbdNames

theorem declared_some (h : Head T) (n : Name) : (∃ t, declared h n = some t) ↔ n = retName ∨ n ∈ h.params.map Prod.fst := by
  unfold declared
  by_cases hr : n = retName
  · simp [hr]
  · rw [if_neg hr]
    simp only [hr, false_or]
    rw [← Option.isSome_iff_exists, List.lookup_isSome_iff]
    simp only [beq_iff_eq, List.mem_map]
    constructor
    · rintro ⟨p, hp, rfl⟩; exact ⟨p, hp, rfl⟩
    · rintro ⟨p, hp, rfl⟩; exact ⟨p, hp, rfl⟩

theorem declared_setType (h : Head T) (pn n : Name) (t : T) :
    declared (setType pn t h) n = if n = pn then some t else declared h n := by
  unfold setType
  by_cases hr : pn = retName
  · rw [if_pos hr]
    unfold declared
    by_cases hn : n = retName
    · simp [hn, hr]
    · simp [hn, hr]
  · rw [if_neg hr]
    unfold declared
    by_cases hn : n = retName
    · have : ¬ n = pn := fun e => hr (by rw [← e]; exact hn)
      rw [if_pos hn, if_pos hn, if_neg this]
    · rw [if_neg hn, if_neg hn, lookup_put]

theorem setType_le (h : Head T) (hg : Good h) (pn : Name) (t : T) (hp : pn ∈ h.tbd) : HeadLe h (setType pn t h) := by
  have hn := hg.tbdNames pn hp
  have hd := fun n => declared_setType h pn n t
  have hnames : (setType pn t h).params.map Prod.fst = h.params.map Prod.fst := by
    unfold setType
    split
    · rfl
    · rename_i hr
      simp only [keys_put]
      rw [if_pos]
      rcases hn with hn | hn
      · exact absurd hn hr
      · exact hn
  refine ⟨?_, ?_, ?_, ?_, ?_, ?_, hnames, ?_⟩
  iterate 6 (unfold setType; split <;> rfl)
  intro n hn'
  rw [hd, if_neg]
  rintro rfl
  exact hn' hp

/-- Two versions of an optional thing, both there or both not. -/
def OptRel {α : Type} (R : α → α → Prop) : Option α → Option α → Prop
  | none, none => True
  | some a, some b => R a b
  | _, _ => False

theorem OptRel.refl {α : Type} {R : α → α → Prop} (hr : ∀ a, R a a) (o : Option α) : OptRel R o o := by
  cases o
  · trivial
  · exact hr _

theorem OptRel.trans {α : Type} {R : α → α → Prop} (ht : ∀ a b c, R a b → R b c → R a c) {o p q : Option α}
    (h : OptRel R o p) (h' : OptRel R p q) : OptRel R o q := by
  cases o <;> cases p <;> cases q <;> simp_all [OptRel]
  exact ht _ _ _ h h'

/-- An operation after some changes of declared types. -/
structure AlgLe (x y : Alg T) : Prop where
  builtIn : y.builtIn = x.builtIn
  heads : ∀ (i : Nat), OptRel HeadLe x.heads[i]? y.heads[i]?

theorem AlgLe.refl (x : Alg T) : AlgLe x x := ⟨rfl, fun _ => OptRel.refl HeadLe.refl _⟩

theorem AlgLe.trans {x y z : Alg T} (h : AlgLe x y) (h' : AlgLe y z) : AlgLe x z :=
  ⟨h'.builtIn.trans h.builtIn, fun i => OptRel.trans (R := HeadLe) (fun _ _ _ => HeadLe.trans) (h.heads i) (h'.heads i)⟩

end Verif.Sta
