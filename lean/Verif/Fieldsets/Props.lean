import Verif.Fieldsets.Spec
/-!
# C99: the fields of record types
-/
namespace Verif.Fieldsets

variable {T V : Type}

theorem lookup_put (k k' : Str) (v : V) (d : List (Str × V)) : (put k v d).lookup k' = if k' = k then some v else d.lookup k' := by
  induction d with
  | nil =>
    rw [put, List.lookup_cons]
    by_cases h : k' = k
    · rw [if_pos h, h]; simp
    · rw [if_neg h, show (k' == k) = false by simpa using h]
  | cons p d ih =>
    obtain ⟨a, b⟩ := p
    rw [put]
    by_cases ha : a = k
    · subst ha
      rw [if_pos rfl, List.lookup_cons, List.lookup_cons]
      by_cases h : k' = a
      · rw [if_pos h, h]; simp
      · rw [if_neg h, show (k' == a) = false by simpa using h]
    · rw [if_neg ha, List.lookup_cons, List.lookup_cons, ih]
      by_cases h : k' = a
      · subst h
        simp [ha]
      · rw [show (k' == a) = false by simpa using h]

theorem keys_put (k : Str) (v : V) (d : List (Str × V)) : (put k v d).map Prod.fst = if k ∈ d.map Prod.fst then d.map Prod.fst else d.map Prod.fst ++ [k] := by
  induction d with
  | nil => rfl
  | cons p d ih =>
    obtain ⟨a, b⟩ := p
    rw [put]
    by_cases ha : a = k
    · subst ha
      rw [if_pos rfl, if_pos (by simp)]
      rfl
    · rw [if_neg ha, List.map_cons, ih, List.map_cons]
      have hk : k ∈ a :: d.map Prod.fst ↔ k ∈ d.map Prod.fst := by
        rw [List.mem_cons]
        exact ⟨fun h => h.resolve_left (fun e => ha e.symm), .inr⟩
      by_cases h : k ∈ d.map Prod.fst
      · rw [if_pos h, if_pos (hk.2 h)]
      · rw [if_neg h, if_neg (fun e => h (hk.1 e))]
        rfl

theorem nodup_put (k : Str) (v : V) (d : List (Str × V)) (h : (d.map Prod.fst).Nodup) : ((put k v d).map Prod.fst).Nodup := by
  rw [keys_put]
  split
  · exact h
  · next hk =>
    rw [List.nodup_append]
    exact ⟨h, by simp, fun a ha b hb e => hk (by rw [← List.mem_singleton.1 hb, ← e]; exact ha)⟩

theorem lookup_decls {f : Str} : ∀ (decls : List (Str × T)) (d : List (Str × T)), (decls.map Prod.fst).Nodup → ∀ t,
    ((decls.foldl (fun d p => put p.1 p.2 d) d).lookup f = some t ↔ (f, t) ∈ decls ∨ (∀ p ∈ decls, p.1 ≠ f) ∧ d.lookup f = some t)
  | [], d, _, t => ⟨fun h => .inr ⟨fun _ h => (nomatch h), h⟩, fun h => h.elim (fun h => (nomatch h)) (·.2)⟩
  | (k, v) :: decls, d, hn, t => by
    rw [List.map_cons, List.nodup_cons] at hn
    rw [List.foldl_cons, lookup_decls decls _ hn.2, lookup_put]
    constructor
    · rintro (h | ⟨h1, h2⟩)
      · exact .inl (.tail _ h)
      · by_cases hk : f = k
        · subst hk
          rw [if_pos rfl] at h2
          rw [← Option.some.inj h2]
          exact .inl (.head _)
        · rw [if_neg hk] at h2
          refine .inr ⟨fun p hp => ?_, h2⟩
          rcases List.mem_cons.1 hp with rfl | hp
          · exact fun e => hk e.symm
          · exact h1 p hp
    · rintro (h | ⟨h1, h2⟩)
      · rcases List.mem_cons.1 h with h | h
        · injection h with h1 h2
          subst h1; subst h2
          exact .inr ⟨fun p hp e => hn.1 (List.mem_map.2 ⟨p, hp, e⟩), by rw [if_pos rfl]⟩
        · exact .inl h
      · exact .inr ⟨fun p hp => h1 p (.tail _ hp), by rw [if_neg (fun e => h1 _ (.head _) e.symm)]; exact h2⟩

theorem lookup_chain {f : Str} : ∀ (chain : List (List (Str × T))) (d : List (Str × T)), (∀ decls ∈ chain, (decls.map Prod.fst).Nodup) → ∀ t,
    ((chain.foldl (fun d decls => decls.foldl (fun d p => put p.1 p.2 d) d) d).lookup f = some t ↔
      Nearest chain f t ∨ (∀ ds ∈ chain, ∀ p ∈ ds, p.1 ≠ f) ∧ d.lookup f = some t)
  | [], d, _, t => by
    refine ⟨fun h => .inr ⟨fun _ h => (nomatch h), h⟩, fun h => h.elim (fun h => ?_) (·.2)⟩
    obtain ⟨a, b, c, h, _⟩ := h
    cases a <;> exact nomatch h
  | decls :: chain, d, hn, t => by
    rw [List.foldl_cons, lookup_chain chain _ (fun ds h => hn ds (.tail _ h)), lookup_decls decls d (hn _ (.head _))]
    constructor
    · rintro (⟨a, b, c, rfl, h1, h2⟩ | ⟨h1, h2 | ⟨h2, h3⟩⟩)
      · exact .inl ⟨decls :: a, b, c, rfl, h1, h2⟩
      · exact .inl ⟨[], decls, chain, rfl, h2, h1⟩
      · refine .inr ⟨fun ds hds => ?_, h3⟩
        rcases List.mem_cons.1 hds with rfl | hds
        · exact h2
        · exact h1 ds hds
    · rintro (⟨a, b, c, h, h1, h2⟩ | ⟨h1, h2⟩)
      · cases a with
        | nil =>
          injection h with h h'
          subst h; subst h'
          exact .inr ⟨h2, .inl h1⟩
        | cons x a =>
          injection h with h h'
          exact .inl ⟨a, b, c, h', h1, h2⟩
      · exact .inr ⟨fun ds hds => h1 ds (.tail _ hds), .inr ⟨h1 _ (.head _), h2⟩⟩

/-- **C99.**  A record type has just the fields that are declared for its schema or for one above it, and each has the type of the declaration that is nearest to the schema. -/
theorem c99_nearest (s : Schema T) (hs : Once s) (field : Str) (t : T) : (fromSpec s).lookup field = some t ↔ Nearest s.chain field t := by
  unfold fromSpec
  rw [lookup_chain s.chain [] hs]
  exact ⟨fun h => h.elim id (fun h => (nomatch h.2)), .inl⟩

theorem fromSpec_nodup (s : Schema T) : ((fromSpec s).map Prod.fst).Nodup := by
  unfold fromSpec
  have h1 : ∀ (decls d : List (Str × T)), (d.map Prod.fst).Nodup → ((decls.foldl (fun d p => put p.1 p.2 d) d).map Prod.fst).Nodup := by
    intro decls
    induction decls with
    | nil => exact fun d h => h
    | cons p decls ih => exact fun d h => ih _ (nodup_put _ _ _ h)
  have h2 : ∀ (chain : List (List (Str × T))) (d : List (Str × T)), (d.map Prod.fst).Nodup →
      ((chain.foldl (fun d decls => decls.foldl (fun d p => put p.1 p.2 d) d) d).map Prod.fst).Nodup := by
    intro chain
    induction chain with
    | nil => exact fun d h => h
    | cons ds chain ih => exact fun d h => ih _ (h1 _ _ h)
  exact h2 _ _ .nil

theorem lookup_none {d : List (Str × V)} {k : Str} : d.lookup k = none ↔ k ∉ d.map Prod.fst := by
  induction d with
  | nil => simp
  | cons p d ih =>
    obtain ⟨a, b⟩ := p
    rw [List.lookup_cons]
    by_cases h : k = a
    · subst h; simp
    · rw [show (k == a) = false by simpa using h]
      simp [h, ih]

theorem fill_eq {ss : List (Schema T)} {table table' : List (Str × List (Str × T))} :
    fill ss table = some table' ↔ (∀ s ∈ ss, s.name ∉ table.map Prod.fst) ∧ (ss.map Schema.name).Nodup ∧ table' = table ++ ss.map (fun s => (s.name, fromSpec s)) := by
  induction ss generalizing table with
  | nil =>
    rw [fill]
    exact ⟨fun h => ⟨fun _ h => (nomatch h), .nil, by rw [← Option.some.inj h]; simp⟩, fun h => by rw [h.2.2]; simp⟩
  | cons s ss ih =>
    rw [fill]
    by_cases h : s.name ∈ table.map Prod.fst
    · rw [if_pos]
      · exact ⟨fun e => (nomatch e), fun e => absurd h (e.1 s (.head _))⟩
      · cases hl : table.lookup s.name with
        | none => exact absurd h (lookup_none.1 hl)
        | some _ => rfl
    · rw [if_neg (by rw [lookup_none.2 h]; exact fun e => (nomatch e)), ih, List.map_cons, List.nodup_cons, List.map_append]
      constructor
      · rintro ⟨h1, h2, h3⟩
        refine ⟨fun x hx => ?_, ⟨fun hm => ?_, h2⟩, by rw [h3]; simp⟩
        · rcases List.mem_cons.1 hx with rfl | hx
          · exact h
          · exact fun hm => h1 x hx (List.mem_append.2 (.inl hm))
        · obtain ⟨x, hx, he⟩ := List.mem_map.1 hm
          exact h1 x hx (List.mem_append.2 (.inr (by rw [he]; exact .head _)))
      · rintro ⟨h1, ⟨h2, h2'⟩, h3⟩
        refine ⟨fun x hx hm => ?_, h2', by rw [h3]; simp⟩
        rcases List.mem_append.1 hm with hm | hm
        · exact h1 x (.tail _ hx) hm
        · exact h2 (List.mem_map.2 ⟨x, hx, List.mem_singleton.1 hm⟩)

/-- **C99.**  The table has an entry for each schema, and no others; there is an exception just if two schemas have the same name. -/
theorem c99_table {ss : List (Schema T)} {table : List (Str × List (Str × T))} :
    fill ss [] = some table ↔ (ss.map Schema.name).Nodup ∧ table = ss.map (fun s => (s.name, fromSpec s)) := by
  rw [fill_eq]
  exact ⟨fun h => ⟨h.2.1, by simpa using h.2.2⟩, fun h => ⟨fun _ _ h => (nomatch h), h.1, by simpa using h.2⟩⟩

/-- **C99.**  A tweak changes the type of just one field of one schema, from the type that is expected; if the field does not have that type, there is an exception. -/
theorem c99_tweak [DecidableEq T] {schema field : Str} {old new : T} {table table' : List (Str × List (Str × T))} (h : tweak schema field old new table = some table') :
    (table.lookup schema).bind (·.lookup field) = some old ∧
    ∀ s f, (table'.lookup s).bind (·.lookup f) = if s = schema ∧ f = field then some new else (table.lookup s).bind (·.lookup f) := by
  unfold tweak at h
  obtain ⟨d, hd, h⟩ := Option.bind_eq_some_iff.1 h
  obtain ⟨t, ht, hz⟩ := Option.bind_eq_some_iff.1 h
  split at hz
  · next ho =>
    subst ho
    have hz := Option.some.inj hz
    subst hz
    refine ⟨by rw [hd]; exact ht, fun s f => ?_⟩
    rw [lookup_put]
    by_cases hs : s = schema
    · subst hs
      rw [if_pos rfl, Option.bind_some, lookup_put, hd, Option.bind_some]
      by_cases hf : f = field
      · rw [if_pos hf, if_pos ⟨rfl, hf⟩]
      · rw [if_neg hf, if_neg (fun e => hf e.2)]
    · rw [if_neg hs, if_neg (fun e => hs e.1)]
  · exact nomatch hz

/-! ## The index -/

theorem leStr_total : ∀ s t : Str, leStr s t = true ∨ leStr t s = true
  | [], _ => .inl (by rw [leStr])
  | _ :: _, [] => .inr (by rw [leStr])
  | a :: s, b :: t => by
    rw [leStr, leStr]
    by_cases h : a.toNat < b.toNat
    · exact .inl (if_pos h)
    · by_cases h' : b.toNat < a.toNat
      · exact .inr (if_pos h')
      · have he : a = b := Char.toNat_inj.1 (by omega)
        subst he
        rw [if_neg h, if_pos rfl, if_neg h, if_pos rfl]
        exact leStr_total s t

theorem leStr_antisymm : ∀ s t : Str, leStr s t = true → leStr t s = true → s = t
  | [], [], _, _ => rfl
  | [], _ :: _, _, h => by rw [leStr] at h; exact nomatch h
  | _ :: _, [], h, _ => by rw [leStr] at h; exact nomatch h
  | a :: s, b :: t, h, h' => by
    rw [leStr] at h h'
    by_cases hab : a.toNat < b.toNat
    · rw [if_neg (by omega), if_neg (by rintro rfl; omega)] at h'
      exact nomatch h'
    · rw [if_neg hab] at h
      split at h
      · next e =>
        subst e
        rw [if_neg hab, if_pos rfl] at h'
        rw [leStr_antisymm s t h h']
      · exact nomatch h

theorem leStr_trans : ∀ s t u : Str, leStr s t = true → leStr t u = true → leStr s u = true
  | [], _, _, _, _ => by rw [leStr]
  | _ :: _, [], _, h, _ => by rw [leStr] at h; exact nomatch h
  | _ :: _, _ :: _, [], _, h => by rw [leStr] at h; exact nomatch h
  | a :: s, b :: t, c :: u, h, h' => by
    rw [leStr] at h h' ⊢
    split at h
    · next h1 =>
      split at h'
      · next h2 => exact if_pos (by omega)
      · split at h'
        · next e => subst e; exact if_pos h1
        · exact nomatch h'
    · split at h
      · next e =>
        subst e
        split at h'
        · next h2 => exact if_pos h2
        · next h2 =>
          rw [if_neg h2]
          split at h'
          · next e => rw [if_pos e]; exact leStr_trans s t u h h'
          · exact nomatch h'
      · exact nomatch h

theorem insertStr_perm (a : Str) (l : List Str) : (insertStr a l).Perm (a :: l) := by
  induction l with
  | nil => exact .refl _
  | cons b l ih =>
    rw [insertStr]
    split
    · exact .refl _
    · exact (ih.cons b).trans (.swap a b l)

theorem sortStrs_perm (l : List Str) : (sortStrs l).Perm l := by
  induction l with
  | nil => exact .nil
  | cons a l ih => exact (insertStr_perm a _).trans (ih.cons a)

theorem insertStr_sorted (a : Str) (l : List Str) (h : l.Pairwise (fun s t => leStr s t = true)) : (insertStr a l).Pairwise (fun s t => leStr s t = true) := by
  induction l with
  | nil => simp [insertStr]
  | cons b l ih =>
    rw [insertStr]
    rw [List.pairwise_cons] at h
    split
    · next hab =>
      refine .cons (fun c hc => ?_) (.cons h.1 h.2)
      rcases List.mem_cons.1 hc with rfl | hc
      · exact hab
      · exact leStr_trans _ _ _ hab (h.1 c hc)
    · next hab =>
      refine .cons (fun c hc => ?_) (ih h.2)
      rcases List.mem_cons.1 ((insertStr_perm a l).mem_iff.1 hc) with rfl | hc
      · exact (leStr_total b c).resolve_right hab
      · exact h.1 c hc

theorem sortStrs_sorted (l : List Str) : (sortStrs l).Pairwise (fun s t => leStr s t = true) := by
  induction l with
  | nil => exact .nil
  | cons a l ih => exact insertStr_sorted a _ ih

theorem sortStrs_iff (l m : List Str) : sortStrs l = sortStrs m ↔ l.Perm m := by
  constructor
  · intro h
    exact (sortStrs_perm l).symm.trans (h ▸ sortStrs_perm m)
  · intro h
    exact ((sortStrs_perm l).trans (h.trans (sortStrs_perm m).symm)).eq_of_pairwise (fun a b _ _ => leStr_antisymm a b) (sortStrs_sorted l) (sortStrs_sorted m)

theorem comma_split : ∀ {a b x y : Str}, ',' ∉ a → ',' ∉ b → a ++ ',' :: x = b ++ ',' :: y → a = b ∧ x = y
  | [], [], _, _, _, _, h => by injection h with _ h; exact ⟨rfl, h⟩
  | [], c :: b, _, _, _, hb, h => by injection h with h _; exact absurd (by rw [h]; exact .head _) hb
  | c :: a, [], _, _, ha, _, h => by injection h with h _; exact absurd (by rw [h]; exact .head _) ha
  | c :: a, d :: b, _, _, ha, hb, h => by
    injection h with h1 h2
    obtain ⟨h3, h4⟩ := comma_split (fun e => ha (.tail _ e)) (fun e => hb (.tail _ e)) h2
    exact ⟨by rw [h1, h3], h4⟩

theorem join_cons (a b : Str) (l : List Str) : joinStrs (a :: b :: l) = a ++ ',' :: ' ' :: joinStrs (b :: l) := by
  rw [joinStrs]
  exact fun e => nomatch e

theorem join_inj : ∀ {l m : List Str}, (∀ a ∈ l, Plain a) → (∀ a ∈ m, Plain a) → joinStrs l = joinStrs m → l = m
  | [], [], _, _, _ => rfl
  | [], [b], _, hm, h => absurd h.symm (hm b (.head _)).1
  | [], b :: b' :: m, _, hm, h => by
    rw [join_cons, joinStrs] at h
    exact absurd h (by simp)
  | [a], [], hl, _, h => absurd h (hl a (.head _)).1
  | a :: a' :: l, [], _, _, h => by
    rw [join_cons, joinStrs] at h
    exact absurd h (by simp)
  | [a], [b], _, _, h => by rw [joinStrs, joinStrs] at h; rw [h]
  | [a], b :: b' :: m, hl, _, h => by
    rw [join_cons, joinStrs] at h
    exact absurd (by rw [h]; simp) (hl a (.head _)).2
  | a :: a' :: l, [b], _, hm, h => by
    rw [join_cons] at h
    exact absurd (by rw [show b = joinStrs [b] from rfl, ← h]; simp) (hm b (.head _)).2
  | a :: a' :: l, b :: b' :: m, hl, hm, h => by
    rw [join_cons, join_cons] at h
    obtain ⟨h1, h2⟩ := comma_split (hl a (.head _)).2 (hm b (.head _)).2 h
    injection h2 with _ h2
    rw [h1, join_inj (fun x hx => hl x (.tail _ hx)) (fun x hx => hm x (.tail _ hx)) h2]

theorem keyOf_iff {l m : List Str} (hl : ∀ a ∈ l, Plain a) (hm : ∀ a ∈ m, Plain a) : keyOf l = keyOf m ↔ l.Perm m := by
  unfold keyOf
  rw [← sortStrs_iff]
  exact ⟨join_inj (fun a ha => hl a ((sortStrs_perm l).mem_iff.1 ha)) (fun a ha => hm a ((sortStrs_perm m).mem_iff.1 ha)), fun h => by rw [h]⟩

theorem index_eq (key : Str) : ∀ (table : List (Str × List (Str × T))) (index : List (Str × List Str)),
    ((table.foldl (fun index p => addTo index (keyOf (p.2.map Prod.fst)) p.1) index).lookup key).getD [] =
      (index.lookup key).getD [] ++ (table.filter (fun p => keyOf (p.2.map Prod.fst) = key)).map Prod.fst
  | [], index => by simp
  | p :: table, index => by
    rw [List.foldl_cons, index_eq key table, addTo, lookup_put, List.filter_cons]
    by_cases h : key = keyOf (p.2.map Prod.fst)
    · rw [if_pos h, ← h, if_pos (by simp), List.map_cons]
      simp
    · rw [if_neg h, if_neg (by simpa using fun e => h e.symm)]

/-- **C99.**  The types that are found for some names of fields are just those whose fields have these names, in the order of the table. -/
theorem c99_find (table : List (Str × List (Str × T))) (names : List Str) (hn : ∀ a ∈ names, Plain a) (ht : ∀ p ∈ table, ∀ f ∈ p.2.map Prod.fst, Plain f) :
    findTypes (indexOf table) names = (table.filter (fun p => (p.2.map Prod.fst).isPerm names)).map Prod.fst := by
  unfold findTypes indexOf
  rw [index_eq]
  show [] ++ _ = _
  rw [List.nil_append]
  congr 1
  refine List.filter_congr fun p hp => ?_
  have := keyOf_iff (ht p hp) hn
  by_cases h : (p.2.map Prod.fst).Perm names
  · rw [decide_eq_true (this.2 h), List.isPerm_iff.2 h]
  · rw [decide_eq_false (fun e => h (this.1 e))]
    exact (Bool.eq_false_iff.2 (fun e => h (List.isPerm_iff.1 e))).symm

/-- **C99.**  No type is found if a name is given twice. -/
theorem c99_twice {ss : List (Schema T)} {table : List (Str × List (Str × T))} (h : fill ss [] = some table) (names : List Str) (hn : ∀ a ∈ names, Plain a)
    (ht : ∀ p ∈ table, ∀ f ∈ p.2.map Prod.fst, Plain f) (hd : ¬ names.Nodup) : findTypes (indexOf table) names = [] := by
  rw [c99_find table names hn ht, List.map_eq_nil_iff, List.filter_eq_nil_iff]
  intro p hp hpm
  obtain ⟨_, rfl⟩ := c99_table.1 h
  obtain ⟨s, _, rfl⟩ := List.mem_map.1 hp
  exact hd ((List.isPerm_iff.1 hpm).nodup_iff.1 (fromSpec_nodup s))

/-! ## Examples -/

/-- Three schemas: the second is below the first and declares one of its fields again; the third has the same fields as the first. -/
def schemas0 : List (Schema Nat) := [
  ⟨"A".toList, [[("[[X]]".toList, 1), ("[[Y]]".toList, 2)]]⟩,
  ⟨"B".toList, [[("[[X]]".toList, 1), ("[[Y]]".toList, 2)], [("[[Z]]".toList, 3), ("[[X]]".toList, 4)]]⟩,
  ⟨"C".toList, [[("[[Y]]".toList, 5), ("[[X]]".toList, 6)]]⟩]

def table0 : List (Str × List (Str × Nat)) := [
  ("A".toList, [("[[X]]".toList, 1), ("[[Y]]".toList, 2)]),
  ("B".toList, [("[[X]]".toList, 4), ("[[Y]]".toList, 2), ("[[Z]]".toList, 3)]),
  ("C".toList, [("[[Y]]".toList, 5), ("[[X]]".toList, 6)])]

example : fill schemas0 [] = some table0 := by decide +kernel
example : fill (schemas0 ++ schemas0) [] = none := by decide +kernel
example : ∀ s ∈ schemas0, Once s := by unfold Once; decide +kernel
example : findTypes (indexOf table0) ["[[Y]]".toList, "[[X]]".toList] = ["A".toList, "C".toList] := by decide +kernel
example : findTypes (indexOf table0) ["[[Z]]".toList, "[[Y]]".toList, "[[X]]".toList] = ["B".toList] := by decide +kernel
example : findTypes (indexOf table0) ["[[X]]".toList, "[[X]]".toList] = [] := by decide +kernel
example : ∀ p ∈ table0, ∀ f ∈ p.2.map Prod.fst, Plain f := by unfold Plain; decide +kernel
example : ((tweak "B".toList "[[Z]]".toList 3 7 table0).bind (·.lookup "B".toList)).bind (·.lookup "[[Z]]".toList) = some 7 := by decide +kernel
example : tweak "B".toList "[[Z]]".toList 2 7 table0 = none := by decide +kernel

end Verif.Fieldsets
