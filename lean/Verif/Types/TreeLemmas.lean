import Verif.Types.Spec
/-! # Lemmas about the hierarchy -/
namespace Verif.Types

mutual
theorem Tree.ind {P : Tree → Prop} (h : ∀ n cs, (∀ c ∈ cs, P c) → P (.node n cs)) : ∀ t, P t
  | .node n cs => h n cs (Tree.indL h cs)
theorem Tree.indL {P : Tree → Prop} (h : ∀ n cs, (∀ c ∈ cs, P c) → P (.node n cs)) : ∀ cs : List Tree, ∀ c ∈ cs, P c
  | [] => fun c hc => by cases hc
  | t :: ts => fun c hc => by
    rcases List.mem_cons.1 hc with e | hc'
    · rw [e]; exact Tree.ind h t
    · exact Tree.indL h ts c hc'
end

theorem mem_namesL {x : String} : ∀ {cs : List Tree}, x ∈ namesL cs ↔ ∃ c ∈ cs, x ∈ names c := by
  intro cs
  induction cs with
  | nil => simp [namesL]
  | cons t ts ih => simp [namesL, ih]

theorem mem_names {x n : String} {cs : List Tree} : x ∈ names (.node n cs) ↔ x = n ∨ ∃ c ∈ cs, x ∈ names c := by
  rw [names, List.mem_cons, mem_namesL]

theorem name_mem (t : Tree) : t.name ∈ names t := by
  cases t; simp [names, Tree.name]

theorem nodup_child : ∀ {cs : List Tree}, (namesL cs).Nodup → ∀ c ∈ cs, (names c).Nodup := by
  intro cs
  induction cs with
  | nil => intro _ c hc; cases hc
  | cons t ts ih =>
    intro h c hc
    rw [namesL, List.nodup_append] at h
    rcases List.mem_cons.1 hc with rfl | hc
    · exact h.1
    · exact ih h.2.1 c hc

theorem same_child : ∀ {cs : List Tree}, (namesL cs).Nodup → ∀ c ∈ cs, ∀ d ∈ cs, ∀ x, x ∈ names c → x ∈ names d → c = d := by
  intro cs
  induction cs with
  | nil => intro _ c hc; cases hc
  | cons t ts ih =>
    intro h c hc d hd x hxc hxd
    rw [namesL, List.nodup_append] at h
    rcases List.mem_cons.1 hc with rfl | hc'
    · rcases List.mem_cons.1 hd with rfl | hd'
      · rfl
      · exact absurd rfl (h.2.2 x hxc x (mem_namesL.2 ⟨d, hd', hxd⟩))
    · rcases List.mem_cons.1 hd with rfl | hd'
      · exact absurd rfl (h.2.2 x hxd x (mem_namesL.2 ⟨c, hc', hxc⟩))
      · exact ih h.2.1 c hc' d hd' x hxc hxd

theorem Anc.mem_right {t a b} (h : Anc t a b) : b ∈ names t := by
  induction h with
  | here h => exact h
  | deeper hc _ ih => exact mem_names.2 (.inr ⟨_, hc, ih⟩)

theorem Anc.mem_left {t a b} (h : Anc t a b) : a ∈ names t := by
  induction h with
  | here h => exact name_mem _
  | deeper hc _ ih => exact mem_names.2 (.inr ⟨_, hc, ih⟩)

theorem Anc.refl {t : Tree} : ∀ {a}, a ∈ names t → Anc t a a := by
  induction t using Tree.ind with
  | h n cs ih =>
    intro a h
    rcases mem_names.1 h with rfl | ⟨c, hc, hac⟩
    · exact .here (t := .node a cs) h
    · exact .deeper hc (ih c hc hac)

theorem anc_node {n : String} {cs : List Tree} {a b : String} : Anc (.node n cs) a b ↔
    (a = n ∧ b ∈ names (.node n cs)) ∨ ∃ c ∈ cs, Anc c a b := by
  constructor
  · intro h
    cases h with
    | here h => exact .inl ⟨rfl, h⟩
    | deeper hc h => exact .inr ⟨_, hc, h⟩
  · rintro (⟨rfl, h⟩ | ⟨c, hc, h⟩)
    · exact .here (t := .node a cs) h
    · exact .deeper hc h

theorem childOf_node {n : String} {cs : List Tree} {p x : String} : ChildOf (.node n cs) p x ↔
    (p = n ∧ ∃ c ∈ cs, x = c.name) ∨ ∃ c ∈ cs, ChildOf c p x := by
  constructor
  · intro h
    cases h with
    | here h => exact .inl ⟨rfl, _, h, rfl⟩
    | deeper hc h => exact .inr ⟨_, hc, h⟩
  · rintro (⟨rfl, c, hc, rfl⟩ | ⟨c, hc, h⟩)
    · exact .here hc
    · exact .deeper hc h

theorem ChildOf.mem_left {t p c} (h : ChildOf t p c) : p ∈ names t := by
  induction h with
  | here h => exact mem_names.2 (.inl rfl)
  | deeper hc _ ih => exact mem_names.2 (.inr ⟨_, hc, ih⟩)

theorem ChildOf.mem_right {t p c} (h : ChildOf t p c) : c ∈ names t := by
  induction h with
  | here h => exact mem_names.2 (.inr ⟨_, h, name_mem _⟩)
  | deeper hc _ ih => exact mem_names.2 (.inr ⟨_, hc, ih⟩)

theorem nodup_node {n cs} (h : (names (.node n cs)).Nodup) : n ∉ namesL cs ∧ (namesL cs).Nodup := by
  rw [names, List.nodup_cons] at h; exact h

theorem Anc.trans {t : Tree} : ∀ {a b c}, (names t).Nodup → Anc t a b → Anc t b c → Anc t a c := by
  induction t using Tree.ind with
  | h n cs ih =>
    intro a b c hn h1 h2
    have hnd := nodup_node hn
    rcases anc_node.1 h1 with ⟨rfl, g1⟩ | ⟨d, hd, g1⟩
    · exact anc_node.2 (.inl ⟨rfl, h2.mem_right⟩)
    · rcases anc_node.1 h2 with ⟨rfl, g2⟩ | ⟨e, he, g2⟩
      · exact absurd (mem_namesL.2 ⟨d, hd, g1.mem_right⟩) hnd.1
      · have : e = d := same_child hnd.2 e he d hd b g2.mem_left g1.mem_right
        subst this
        exact .deeper hd (ih e hd (nodup_child hnd.2 e hd) g1 g2)

theorem Anc.antisymm {t : Tree} : ∀ {a b}, (names t).Nodup → Anc t a b → Anc t b a → a = b := by
  induction t using Tree.ind with
  | h n cs ih =>
    intro a b hn h1 h2
    have hnd := nodup_node hn
    rcases anc_node.1 h1 with ⟨rfl, g1⟩ | ⟨d, hd, g1⟩
    · rcases anc_node.1 h2 with ⟨rfl, g2⟩ | ⟨e, he, g2⟩
      · rfl
      · exact absurd (mem_namesL.2 ⟨e, he, g2.mem_right⟩) hnd.1
    · rcases anc_node.1 h2 with ⟨rfl, g2⟩ | ⟨e, he, g2⟩
      · exact absurd (mem_namesL.2 ⟨d, hd, g1.mem_right⟩) hnd.1
      · have : e = d := same_child hnd.2 e he d hd b g2.mem_left g1.mem_right
        subst this
        exact ih e hd (nodup_child hnd.2 e hd) g1 g2

/-- Two ancestors of one node are comparable. -/
theorem Anc.linear {t : Tree} : ∀ {a b c}, (names t).Nodup → Anc t a c → Anc t b c → Anc t a b ∨ Anc t b a := by
  induction t using Tree.ind with
  | h n cs ih =>
    intro a b c hn h1 h2
    have hnd := nodup_node hn
    rcases anc_node.1 h1 with ⟨rfl, h1'⟩ | ⟨d, hd, h1'⟩
    · exact .inl (anc_node.2 (.inl ⟨rfl, h2.mem_left⟩))
    · rcases anc_node.1 h2 with ⟨rfl, h2'⟩ | ⟨e, he, h2'⟩
      · exact .inr (anc_node.2 (.inl ⟨rfl, h1.mem_left⟩))
      · have : e = d := same_child hnd.2 e he d hd c h2'.mem_right h1'.mem_right
        subst this
        rcases ih e hd (nodup_child hnd.2 e hd) h1' h2' with h | h
        · exact .inl (.deeper hd h)
        · exact .inr (.deeper hd h)

theorem ChildOf.anc {t : Tree} {p c} (h : ChildOf t p c) : Anc t p c := by
  induction h with
  | @here n cs c h => exact anc_node.2 (.inl ⟨rfl, mem_names.2 (.inr ⟨_, h, name_mem _⟩)⟩)
  | deeper hc _ ih => exact .deeper hc ih

/-! ### Paths -/

mutual
theorem path_isSome : ∀ (t : Tree) (n : String), n ∈ names t → (path? t n).isSome = true
  | .node m cs, n => fun h => by
    rw [path?]
    split
    · rfl
    · rename_i hne
      rcases List.mem_cons.1 h with rfl | h
      · exact absurd rfl hne
      · rw [Option.isSome_map]; exact pathL_isSome cs n h
theorem pathL_isSome : ∀ (cs : List Tree) (n : String), n ∈ namesL cs → (pathL? cs n).isSome = true
  | [], n => fun h => by simp [namesL] at h
  | t :: ts, n => fun h => by
    rw [pathL?]
    split
    · rfl
    · rename_i hne
      rcases List.mem_append.1 h with h | h
      · rw [Option.isSome_iff_exists] at *
        have := path_isSome t n h
        rw [hne] at this
        cases this
      · exact pathL_isSome ts n h
end

theorem pathL_some : ∀ {cs : List Tree} {n p}, pathL? cs n = some p → ∃ c ∈ cs, path? c n = some p := by
  intro cs
  induction cs with
  | nil => intro n p h; simp [pathL?] at h
  | cons t ts ih =>
    intro n p h
    rw [pathL?] at h
    split at h
    · rename_i q hq
      injection h with h; subst h
      exact ⟨t, List.mem_cons_self, hq⟩
    · obtain ⟨c, hc, h⟩ := ih h
      exact ⟨c, List.mem_cons_of_mem _ hc, h⟩

theorem path_mem {t : Tree} : ∀ {n p}, path? t n = some p → n ∈ names t := by
  induction t using Tree.ind with
  | h m cs ih =>
    intro n p h
    rw [path?] at h
    split at h
    · rename_i e; exact mem_names.2 (.inl e.symm)
    · obtain ⟨q, hq, _⟩ := Option.map_eq_some_iff.1 h
      obtain ⟨c, hc, hq⟩ := pathL_some hq
      exact mem_names.2 (.inr ⟨c, hc, ih c hc hq⟩)

theorem pathL_of {cs : List Tree} (hn : (namesL cs).Nodup) {c : Tree} (hc : c ∈ cs) {n p}
    (h : path? c n = some p) : pathL? cs n = some p := by
  obtain ⟨q, hq⟩ := Option.isSome_iff_exists.1 (pathL_isSome cs n (mem_namesL.2 ⟨c, hc, path_mem h⟩))
  obtain ⟨d, hd, hq'⟩ := pathL_some hq
  have : c = d := same_child hn c hc d hd n (path_mem h) (path_mem hq')
  subst this
  rw [hq, ← hq', h]

theorem path_anc {t : Tree} : ∀ {n p}, path? t n = some p → ∀ b ∈ p, Anc t b n := by
  induction t using Tree.ind with
  | h m cs ih =>
    intro n p h b hb
    have hmem := path_mem h
    rw [path?] at h
    split at h
    · rename_i e
      injection h with h; subst h; subst e
      simp at hb; subst hb
      exact Anc.refl hmem
    · obtain ⟨q, hq, rfl⟩ := Option.map_eq_some_iff.1 h
      rcases List.mem_cons.1 hb with rfl | hb
      · exact anc_node.2 (.inl ⟨rfl, hmem⟩)
      · obtain ⟨c, hc, hq⟩ := pathL_some hq
        exact .deeper hc (ih c hc hq b hb)

theorem path_prefix {t : Tree} : ∀ {a b pa}, (names t).Nodup → path? t a = some pa → Anc t b a →
    ∃ q r, path? t b = some (q ++ [b]) ∧ pa = q ++ [b] ++ r ∧ (a ≠ b → r ≠ []) := by
  induction t using Tree.ind with
  | h m cs ih =>
    intro a b pa hn h hanc
    have hnd := nodup_node hn
    rw [path?] at h
    split at h
    · rename_i e
      subst e
      injection h with h; subst h
      rcases anc_node.1 hanc with ⟨rfl, _⟩ | ⟨c, hc, h⟩
      · exact ⟨[], [], by simp [path?], rfl, by simp⟩
      · exact absurd (mem_namesL.2 ⟨c, hc, h.mem_right⟩) hnd.1
    · rename_i hne
      obtain ⟨q, hq, rfl⟩ := Option.map_eq_some_iff.1 h
      rcases anc_node.1 hanc with ⟨rfl, _⟩ | ⟨c, hc, hca⟩
      · refine ⟨[], q, by simp [path?], rfl, ?_⟩
        rintro _ rfl
        obtain ⟨c, hc, hq⟩ := pathL_some hq
        cases c
        rw [path?] at hq
        split at hq
        · cases hq
        · obtain ⟨_, _, h⟩ := Option.map_eq_some_iff.1 hq
          cases h
      · obtain ⟨d, hd, hq'⟩ := pathL_some hq
        have : d = c := same_child hnd.2 d hd c hc a (path_mem hq') hca.mem_right
        subst this
        obtain ⟨q1, r, h1, rfl, h3⟩ := ih d hd (nodup_child hnd.2 d hd) hq' hca
        refine ⟨m :: q1, r, ?_, rfl, h3⟩
        rw [path?, if_neg, pathL_of hnd.2 hd h1]
        · rfl
        · rintro rfl
          exact hnd.1 (mem_namesL.2 ⟨d, hd, hca.mem_left⟩)

theorem hierSub_iff {t : Tree} (hn : (names t).Nodup) {a b} : hierSub t a b = some true ↔ a = b ∨ Anc t b a := by
  unfold hierSub
  split
  · rename_i h; simp [h]
  rename_i hne
  constructor
  · intro h
    split at h
    · rename_i pa pb hpa hpb
      split at h
      · simp at h
      · right
        injection h with h
        rw [beq_iff_eq] at h
        exact path_anc hpa b (List.mem_of_getElem? h)
    · cases h
  · rintro (h | h)
    · exact absurd h hne
    · obtain ⟨pa, hpa⟩ := Option.isSome_iff_exists.1 (path_isSome t a h.mem_right)
      obtain ⟨q, r, h1, rfl, h3⟩ := path_prefix hn hpa h
      rw [hpa, h1]
      simp only
      have := h3 hne
      have hr : 0 < r.length := List.length_pos_iff.2 this
      rw [if_neg (by simp; omega)]
      simp

theorem hierSub_some {t : Tree} {a b} (ha : a ∈ names t) (hb : b ∈ names t) : ∃ r, hierSub t a b = some r := by
  obtain ⟨pa, hpa⟩ := Option.isSome_iff_exists.1 (path_isSome t a ha)
  obtain ⟨pb, hpb⟩ := Option.isSome_iff_exists.1 (path_isSome t b hb)
  unfold hierSub
  rw [hpa, hpb]
  simp only
  split
  · exact ⟨_, rfl⟩
  · split <;> exact ⟨_, rfl⟩

/-! ### Children -/

theorem childrenL_some : ∀ {cs : List Tree} {n p}, childrenL? cs n = some p → ∃ c ∈ cs, children? c n = some p := by
  intro cs
  induction cs with
  | nil => intro n p h; simp [childrenL?] at h
  | cons t ts ih =>
    intro n p h
    rw [childrenL?] at h
    split at h
    · rename_i q hq
      injection h with h; subst h
      exact ⟨t, List.mem_cons_self, hq⟩
    · obtain ⟨c, hc, h⟩ := ih h
      exact ⟨c, List.mem_cons_of_mem _ hc, h⟩

mutual
theorem children_isSome : ∀ (t : Tree) (n : String), n ∈ names t → (children? t n).isSome = true
  | .node m cs, n => fun h => by
    rw [children?]
    split
    · rfl
    · rename_i hne
      rcases List.mem_cons.1 h with rfl | h
      · exact absurd rfl hne
      · exact childrenL_isSome cs n h
theorem childrenL_isSome : ∀ (cs : List Tree) (n : String), n ∈ namesL cs → (childrenL? cs n).isSome = true
  | [], n => fun h => by simp [namesL] at h
  | t :: ts, n => fun h => by
    rw [childrenL?]
    split
    · rfl
    · rename_i hne
      rcases List.mem_append.1 h with h | h
      · have := children_isSome t n h
        rw [hne] at this
        cases this
      · exact childrenL_isSome ts n h
end

theorem children_iff {t : Tree} : ∀ {n cs}, (names t).Nodup → children? t n = some cs → ∀ c, c ∈ cs ↔ ChildOf t n c := by
  induction t using Tree.ind with
  | h m ds ih =>
    intro n cs hn h c
    have hnd := nodup_node hn
    rw [children?] at h
    split at h
    · rename_i e
      subst e
      injection h with h; subst h
      rw [List.mem_map, childOf_node]
      constructor
      · rintro ⟨d, hd, rfl⟩; exact .inl ⟨rfl, d, hd, rfl⟩
      · rintro (⟨_, d, hd, rfl⟩ | ⟨d, hd, h⟩)
        · exact ⟨d, hd, rfl⟩
        · exact absurd (mem_namesL.2 ⟨d, hd, h.mem_left⟩) hnd.1
    · rename_i hne
      obtain ⟨d, hd, h⟩ := childrenL_some h
      rw [ih d hd (nodup_child hnd.2 d hd) h c, childOf_node]
      constructor
      · intro h; exact .inr ⟨d, hd, h⟩
      · rintro (⟨rfl, _⟩ | ⟨e, he, h'⟩)
        · exact absurd rfl hne
        · have hmem : n ∈ names d := by
            clear h'
            revert h
            generalize d = d
            induction d using Tree.ind with
            | h m' es ih' =>
              intro h
              rw [children?] at h
              split at h
              · rename_i e; exact mem_names.2 (.inl e.symm)
              · obtain ⟨f, hf, h⟩ := childrenL_some h
                exact mem_names.2 (.inr ⟨f, hf, ih' f hf h⟩)
          have : e = d := same_child hnd.2 e he d hd n h'.mem_left hmem
          subst this; exact h'

end Verif.Types
