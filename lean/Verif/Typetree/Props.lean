import Verif.Typetree.Spec
/-!
# C104: the tree of types
-/
namespace Verif.Typetree

/-- The level of what is put below a parent. -/
def lev : Option Entry → Nat
  | none => 0
  | some p => p.level + 1

/-- The entry for a name at the end of a path below a parent. -/
def entryAt (parent : Option Entry) (path : List Str) (n : Str) : Entry :=
  ⟨n, match path.getLast? with | some m => some m | none => parent.map Entry.name, lev parent + path.length⟩

theorem tnode_eq (tbl : List Entry) (n : Str) (parent : Option Entry) :
    tnode tbl n parent = if n ∈ tbl.map Entry.name then none else some (⟨n, parent.map Entry.name, lev parent⟩, tbl ++ [⟨n, parent.map Entry.name, lev parent⟩]) := by
  cases parent <;> rfl

theorem entryAt_cons (parent : Option Entry) (m : Str) (path : List Str) (n : Str) :
    entryAt (some ⟨m, parent.map Entry.name, lev parent⟩) path n = entryAt parent (m :: path) n := by
  unfold entryAt
  congr 1
  · cases path with
    | nil => rfl
    | cons a p => rw [List.getLast?_cons_cons]; cases h : (a :: p).getLast? <;> first | rfl | simp at h
  · show lev parent + 1 + path.length = lev parent + (path.length + 1)
    omega

mutual
theorem one_spec (skip : Str → Bool) : ∀ (t : Tree) (parent : Option Entry) (tbl : List Entry), (tbl.map Entry.name).Nodup →
    (∀ tbl', one skip parent tbl t = some tbl' → tbl'.map Entry.name = tbl.map Entry.name ++ occur skip t ∧ (tbl'.map Entry.name).Nodup ∧
      ∀ e, e ∈ tbl' ↔ e ∈ tbl ∨ ∃ path n, At skip [t] path n ∧ e = entryAt parent path n) ∧
    ((tbl.map Entry.name ++ occur skip t).Nodup → (one skip parent tbl t).isSome = true)
  | .node m subs, parent, tbl, hn => by
    rw [one, occur]
    by_cases hs : skip m = true
    · rw [if_pos hs, if_pos hs, List.append_nil]
      refine ⟨fun tbl' h => ?_, fun _ => rfl⟩
      rw [← Option.some.inj h]
      refine ⟨rfl, hn, fun e => ⟨.inl, fun h => h.elim id ?_⟩⟩
      rintro ⟨path, n, ha, _⟩
      cases ha with
      | here hm hk => cases List.mem_singleton.1 hm; rw [hs] at hk; exact nomatch hk
      | down hm hk _ => cases List.mem_singleton.1 hm; rw [hs] at hk; exact nomatch hk
    · have hs' : skip m = false := Bool.eq_false_iff.2 hs
      rw [if_neg hs, if_neg hs, tnode_eq]
      by_cases hm : m ∈ tbl.map Entry.name
      · rw [if_pos hm]
        refine ⟨fun _ h => (nomatch h), fun h => ?_⟩
        exact absurd rfl ((List.nodup_append.1 h).2.2 m hm m (.head _))
      · rw [if_neg hm]
        dsimp only
        have hn' : ((tbl ++ [(⟨m, parent.map Entry.name, lev parent⟩ : Entry)]).map Entry.name).Nodup := by
          rw [List.map_append, List.nodup_append]
          refine ⟨hn, by simp, fun a ha b hb e => hm ?_⟩
          have hb : b = m := List.mem_singleton.1 hb
          rw [← hb, ← e]; exact ha
        obtain ⟨h1, h2⟩ := all_spec skip subs (some ⟨m, parent.map Entry.name, lev parent⟩) _ hn'
        constructor
        · intro tbl' h
          obtain ⟨a1, a2, a3⟩ := h1 tbl' h
          refine ⟨by rw [a1, List.map_append, List.append_assoc]; rfl, a2, fun e => ?_⟩
          rw [a3, List.mem_append, List.mem_singleton, or_assoc]
          apply or_congr_right
          constructor
          · rintro (rfl | ⟨path, n, ha, rfl⟩)
            · exact ⟨[], m, .here (.head _) hs', rfl⟩
            · exact ⟨m :: path, n, .down (.head _) hs' ha, entryAt_cons parent m path n⟩
          · rintro ⟨path, n, ha, rfl⟩
            cases ha with
            | here hm' _ => cases List.mem_singleton.1 hm'; exact .inl rfl
            | down hm' _ ha => cases List.mem_singleton.1 hm'; exact .inr ⟨_, n, ha, (entryAt_cons parent m _ n).symm⟩
        · intro h
          apply h2
          rw [List.map_append, List.append_assoc]
          exact h
theorem all_spec (skip : Str → Bool) : ∀ (ts : List Tree) (parent : Option Entry) (tbl : List Entry), (tbl.map Entry.name).Nodup →
    (∀ tbl', all skip parent tbl ts = some tbl' → tbl'.map Entry.name = tbl.map Entry.name ++ occurs skip ts ∧ (tbl'.map Entry.name).Nodup ∧
      ∀ e, e ∈ tbl' ↔ e ∈ tbl ∨ ∃ path n, At skip ts path n ∧ e = entryAt parent path n) ∧
    ((tbl.map Entry.name ++ occurs skip ts).Nodup → (all skip parent tbl ts).isSome = true)
  | [], parent, tbl, hn => by
    rw [all, occurs, List.append_nil]
    refine ⟨fun tbl' h => ?_, fun _ => rfl⟩
    rw [← Option.some.inj h]
    refine ⟨rfl, hn, fun e => ⟨.inl, fun h => h.elim id ?_⟩⟩
    rintro ⟨path, n, ha, _⟩
    cases ha with
    | here hm _ => exact nomatch hm
    | down hm _ _ => exact nomatch hm
  | t :: ts, parent, tbl, hn => by
    rw [all, occurs]
    obtain ⟨h1, h2⟩ := one_spec skip t parent tbl hn
    cases ho : one skip parent tbl t with
    | none =>
      refine ⟨fun _ h => (nomatch h), fun h => ?_⟩
      rw [← List.append_assoc] at h
      have := h2 (List.nodup_append.1 h).1
      rw [ho] at this
      exact nomatch this
    | some tbl1 =>
      obtain ⟨a1, a2, a3⟩ := h1 tbl1 ho
      obtain ⟨b1, b2⟩ := all_spec skip ts parent tbl1 a2
      dsimp only
      constructor
      · intro tbl' h
        obtain ⟨c1, c2, c3⟩ := b1 tbl' h
        refine ⟨by rw [c1, a1, List.append_assoc], c2, fun e => ?_⟩
        rw [c3, a3, or_assoc]
        apply or_congr_right
        constructor
        · rintro (⟨path, n, ha, rfl⟩ | ⟨path, n, ha, rfl⟩)
          · refine ⟨path, n, ?_, rfl⟩
            cases ha with
            | here hm hk => cases List.mem_singleton.1 hm; exact .here (.head _) hk
            | down hm hk ha => cases List.mem_singleton.1 hm; exact .down (.head _) hk ha
          · refine ⟨path, n, ?_, rfl⟩
            cases ha with
            | here hm hk => exact .here (.tail _ hm) hk
            | down hm hk ha => exact .down (.tail _ hm) hk ha
        · rintro ⟨path, n, ha, rfl⟩
          cases ha with
          | here hm hk =>
            rcases List.mem_cons.1 hm with rfl | hm
            · exact .inl ⟨_, n, .here (.head _) hk, rfl⟩
            · exact .inr ⟨_, n, .here hm hk, rfl⟩
          | down hm hk ha =>
            rcases List.mem_cons.1 hm with rfl | hm
            · exact .inl ⟨_, n, .down (.head _) hk ha, rfl⟩
            · exact .inr ⟨_, n, .down hm hk ha, rfl⟩
      · intro h
        apply b2
        rw [a1, List.append_assoc]
        exact h
end

/-- **C104.**  The tree of the named types: a name has an entry just where it stands in the hierarchy, with the last name of the path to it as its parent and the length of the path as its level; no name has two. -/
theorem c104_named {ts : List Tree} {tbl : List Entry} (h : traverse ts = some tbl) :
    (tbl.map Entry.name).Nodup ∧ ∀ e, e ∈ tbl ↔ ∃ path, At noSkip ts path e.name ∧ e.parent = path.getLast? ∧ e.level = path.length := by
  obtain ⟨_, h2, h3⟩ := (all_spec noSkip ts none [] .nil).1 tbl h
  refine ⟨h2, fun e => (h3 e).trans ?_⟩
  constructor
  · rintro (h | ⟨path, n, ha, rfl⟩)
    · exact nomatch h
    · refine ⟨path, ha, ?_, ?_⟩
      · unfold entryAt; dsimp only; cases path.getLast? <;> rfl
      · show 0 + path.length = _; omega
  · rintro ⟨path, ha, hp, hl⟩
    refine .inr ⟨path, e.name, ha, ?_⟩
    obtain ⟨n, p, l⟩ := e
    dsimp only at hp hl
    subst hp; subst hl
    unfold entryAt
    congr 1
    · cases path.getLast? <;> rfl
    · show _ = 0 + _; omega

/-- **C104.**  The tree of record types: what was in the table stays, and a schema is put in just if neither it nor one above it is that of Completion Records, below its super-schema or, if it has none, below the
type of all records, one level deeper. -/
theorem c104_schemas {tbl tbl' : List Entry} {record : Entry} {root : List Tree} (hn : (tbl.map Entry.name).Nodup) (h : traverseSchemas tbl record root = some tbl') :
    (tbl'.map Entry.name).Nodup ∧ ∀ e, e ∈ tbl' ↔ e ∈ tbl ∨ ∃ path, At skipCompletion root path e.name ∧
      e.parent = some (path.getLast?.getD record.name) ∧ e.level = record.level + 1 + path.length := by
  obtain ⟨_, h2, h3⟩ := (all_spec skipCompletion root (some record) tbl hn).1 tbl' h
  refine ⟨h2, fun e => (h3 e).trans (or_congr_right ?_)⟩
  constructor
  · rintro ⟨path, n, ha, rfl⟩
    refine ⟨path, ha, ?_, rfl⟩
    unfold entryAt; dsimp only; cases path.getLast? <;> rfl
  · rintro ⟨path, ha, hp, hl⟩
    refine ⟨path, e.name, ha, ?_⟩
    obtain ⟨n, p, l⟩ := e
    dsimp only at hp hl
    subst hp; subst hl
    unfold entryAt
    congr 1
    cases path.getLast? <;> rfl

/-- **C104.**  The tree of the named types is built just if no name occurs twice in the hierarchy. -/
theorem c104_built (ts : List Tree) : (traverse ts).isSome = true ↔ (occurs noSkip ts).Nodup := by
  obtain ⟨h1, h2⟩ := all_spec noSkip ts none [] .nil
  refine ⟨fun h => ?_, h2⟩
  obtain ⟨tbl, ht⟩ := Option.isSome_iff_exists.1 h
  obtain ⟨a, b, _⟩ := h1 tbl ht
  rw [a] at b
  exact b

/-- **C104.**  The schemas are put in just if no name occurs twice among those that are not passed over and the types that are there. -/
theorem c104_built_schemas {tbl : List Entry} (hn : (tbl.map Entry.name).Nodup) (record : Entry) (root : List Tree) :
    (traverseSchemas tbl record root).isSome = true ↔ (tbl.map Entry.name ++ occurs skipCompletion root).Nodup := by
  obtain ⟨h1, h2⟩ := all_spec skipCompletion root (some record) tbl hn
  refine ⟨fun h => ?_, h2⟩
  obtain ⟨tbl', ht⟩ := Option.isSome_iff_exists.1 h
  obtain ⟨a, b, _⟩ := h1 tbl' ht
  rw [a] at b
  exact b

/-! ## Examples -/

def types0 : List Tree := [.node "Top".toList [.node "Record".toList [], .node "List".toList []]]
def schemas0 : List Tree := [.node "Completion Record".toList [.node "X".toList []], .node "Module Record".toList [.node "Cyclic".toList []]]

example : traverse types0 = some [⟨"Top".toList, none, 0⟩, ⟨"Record".toList, some "Top".toList, 1⟩, ⟨"List".toList, some "Top".toList, 1⟩] := by
  simp [traverse, types0, all, one, tnode]
example : (traverse types0).bind (fun tbl => traverseSchemas tbl ⟨"Record".toList, some "Top".toList, 1⟩ schemas0) =
    some [⟨"Top".toList, none, 0⟩, ⟨"Record".toList, some "Top".toList, 1⟩, ⟨"List".toList, some "Top".toList, 1⟩,
      ⟨"Module Record".toList, some "Record".toList, 2⟩, ⟨"Cyclic".toList, some "Module Record".toList, 3⟩] := by
  simp [traverse, traverseSchemas, types0, schemas0, all, one, tnode]
example : traverse (types0 ++ [.node "List".toList []]) = none := by
  simp [traverse, types0, all, one, tnode]

end Verif.Typetree
