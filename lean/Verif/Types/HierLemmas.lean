import Verif.Types.TransLemmas
/-! # The union of named types is canonical -/
namespace Verif.Types

/-! ### Subtrees -/

section
variable {n : String} {cs : List Tree} {c : Tree}

theorem anc_child (hn : (names (.node n cs)).Nodup) (hc : c ∈ cs) {a l : String} (hl : l ∈ names c) :
    Anc (.node n cs) a l ↔ a = n ∨ Anc c a l := by
  rw [anc_node]
  have hnd := nodup_node hn
  constructor
  · rintro (⟨h, _⟩ | ⟨d, hd, h⟩)
    · exact .inl h
    · have : c = d := same_child hnd.2 c hc d hd l hl h.mem_right
      exact .inr (this ▸ h)
  · rintro (rfl | h)
    · exact .inl ⟨rfl, mem_names.2 (.inr ⟨c, hc, hl⟩)⟩
    · exact .inr ⟨c, hc, h⟩

theorem anc_from_child (hn : (names (.node n cs)).Nodup) (hc : c ∈ cs) {a l : String} (ha : a ∈ names c) :
    Anc (.node n cs) a l ↔ Anc c a l := by
  rw [anc_node]
  have hnd := nodup_node hn
  constructor
  · rintro (⟨rfl, _⟩ | ⟨d, hd, h⟩)
    · exact absurd (mem_namesL.2 ⟨c, hc, ha⟩) hnd.1
    · have : c = d := same_child hnd.2 c hc d hd a ha h.mem_left
      exact (this ▸ h)
  · intro h
    exact .inr ⟨c, hc, h⟩

theorem childOf_child (hn : (names (.node n cs)).Nodup) (hc : c ∈ cs) {p x : String} (hp : p ∈ names c) :
    ChildOf (.node n cs) p x ↔ ChildOf c p x := by
  rw [childOf_node]
  have hnd := nodup_node hn
  constructor
  · rintro (⟨rfl, _⟩ | ⟨d, hd, h⟩)
    · exact absurd (mem_namesL.2 ⟨c, hc, hp⟩) hnd.1
    · have : c = d := same_child hnd.2 c hc d hd p hp h.mem_left
      exact (this ▸ h)
  · intro h
    exact .inr ⟨c, hc, h⟩

theorem isLeaf_child (hn : (names (.node n cs)).Nodup) (hc : c ∈ cs) {l : String} (hl : l ∈ names c) :
    IsLeaf (.node n cs) l ↔ IsLeaf c l := by
  unfold IsLeaf
  constructor <;> intro h x hx
  · exact h x ((childOf_child hn hc hl).2 hx)
  · exact h x ((childOf_child hn hc hl).1 hx)

theorem full_child (hn : (names (.node n cs)).Nodup) (hc : c ∈ cs) {S : List String} (hS : n ∉ S) {m : String}
    (hm : m ∈ names c) : Full (.node n cs) S m ↔ Full c S m := by
  constructor
  · intro h l hl hleaf
    obtain ⟨a, ha, hal⟩ := h l ((anc_from_child hn hc hm).2 hl) ((isLeaf_child hn hc hl.mem_right).2 hleaf)
    rcases (anc_child hn hc hl.mem_right).1 hal with rfl | hal
    · exact absurd ha hS
    · exact ⟨a, ha, hal⟩
  · intro h l hl hleaf
    have hl := (anc_from_child hn hc hm).1 hl
    obtain ⟨a, ha, hal⟩ := h l hl ((isLeaf_child hn hc hl.mem_right).1 hleaf)
    exact ⟨a, ha, .deeper hc hal⟩

end

theorem full_congr {t : Tree} {S S' : List String} (h : ∀ x ∈ names t, x ∈ S ↔ x ∈ S') {m} :
    Full t S m ↔ Full t S' m := by
  constructor
  · intro hf l hl hleaf
    obtain ⟨a, ha, hal⟩ := hf l hl hleaf
    exact ⟨a, (h a hal.mem_left).1 ha, hal⟩
  · intro hf l hl hleaf
    obtain ⟨a, ha, hal⟩ := hf l hl hleaf
    exact ⟨a, (h a hal.mem_left).2 ha, hal⟩

theorem maxFull_congr {t : Tree} {S S' : List String} (h : ∀ x ∈ names t, x ∈ S ↔ x ∈ S') {m} :
    MaxFull t S m ↔ MaxFull t S' m := by
  unfold MaxFull
  rw [full_congr h]
  constructor <;> rintro ⟨h1, h2⟩ <;> refine ⟨h1, fun a ha hf => h2 a ha ?_⟩
  · exact (full_congr h).2 hf
  · exact (full_congr h).1 hf

/-- A full name is below every name only if all of them are full: fullness goes down. -/
theorem Full.down {t : Tree} (hn : (names t).Nodup) {S : List String} {a b} (h : Full t S a) (hab : Anc t a b) : Full t S b :=
  fun l hl hleaf => h l (hab.trans hn hl) hleaf

mutual
theorem mem_rmDesc : ∀ (t : Tree) (s : List String) (x : String), x ∈ rmDesc t s ↔ x ∈ s ∧ x ∉ namesL t.children
  | .node n cs, s, x => by rw [rmDesc, mem_rmDescL cs s x]; rfl
theorem mem_rmDescL : ∀ (cs : List Tree) (s : List String) (x : String), x ∈ rmDescL cs s ↔ x ∈ s ∧ x ∉ namesL cs
  | [], s, x => by simp [rmDescL, namesL]
  | t :: ts, s, x => by
    rw [rmDescL, mem_rmDescL ts _ x, mem_rmDesc t _ x]
    cases t with
    | node n cs => 
      simp only [Tree.name, Tree.children, namesL, names, List.mem_filter, List.mem_append, List.mem_cons, decide_eq_true_eq,
        not_or]
      constructor
      · rintro ⟨⟨⟨h1, h2⟩, h3⟩, h4⟩; exact ⟨h1, ⟨of_decide_eq_true h2, h3⟩, h4⟩
      · rintro ⟨h1, ⟨h2, h3⟩, h4⟩; exact ⟨⟨⟨h1, decide_eq_true h2⟩, h3⟩, h4⟩
end

/-- What `hrec` does. -/
def HrecOk (t : Tree) : Prop := (names t).Nodup → ∀ s, (∀ x, x ∉ names t → (x ∈ hrec t s ↔ x ∈ s)) ∧
    ∀ x ∈ names t, x ∈ hrec t s ↔ MaxFull t s x

theorem hrecL_spec : ∀ {cs : List Tree}, (namesL cs).Nodup → (∀ c ∈ cs, HrecOk c) → ∀ s,
    (∀ x, x ∉ namesL cs → (x ∈ hrecL cs s ↔ x ∈ s)) ∧
    ∀ c ∈ cs, ∀ x ∈ names c, x ∈ hrecL cs s ↔ MaxFull c s x := by
  intro cs
  induction cs with
  | nil => intro _ _ s; exact ⟨fun x _ => by simp [hrecL], fun c hc => by cases hc⟩
  | cons t ts ih =>
    intro hn hok s
    have hn' := hn
    rw [namesL, List.nodup_append] at hn
    obtain ⟨hn1, hn2, hn3⟩ := hn
    obtain ⟨h1, h2⟩ := hok t (by simp) hn1 s
    obtain ⟨h3, h4⟩ := ih hn2 (fun c hc => hok c (by simp [hc])) (hrec t s)
    rw [hrecL]
    constructor
    · intro x hx
      rw [namesL, List.mem_append, not_or] at hx
      rw [h3 x hx.2, h1 x hx.1]
    · intro c hc x hx
      rcases List.mem_cons.1 hc with rfl | hc'
      · rw [h3 x (fun hx' => hn3 x hx x hx' rfl)]
        exact h2 x hx
      · rw [h4 c hc' x hx]
        exact maxFull_congr (fun y hy => h1 y (fun hy' => hn3 y hy' y (mem_namesL.2 ⟨c, hc', hy⟩) rfl))

theorem full_root {n : String} {cs : List Tree} (hn : (names (.node n cs)).Nodup) (hne : cs ≠ []) {S : List String} (hS : n ∉ S) :
    Full (.node n cs) S n ↔ ∀ c ∈ cs, Full c S c.name := by
  constructor
  · intro h c hc
    rw [← full_child hn hc hS (name_mem c)]
    exact h.down hn (anc_node.2 (.inl ⟨rfl, mem_names.2 (.inr ⟨c, hc, name_mem c⟩)⟩))
  · intro h l hl hleaf
    rcases mem_names.1 hl.mem_right with rfl | ⟨c, hc, hlc⟩
    · obtain ⟨c, hc⟩ := List.exists_mem_of_ne_nil _ hne
      exact absurd (childOf_node.2 (.inl ⟨rfl, c, hc, rfl⟩)) (hleaf c.name)
    · obtain ⟨a, ha, hal⟩ := h c hc l (.here hlc) ((isLeaf_child hn hc hlc).1 hleaf)
      exact ⟨a, ha, .deeper hc hal⟩

theorem maxFull_name {t : Tree} (hn : (names t).Nodup) {S : List String} : MaxFull t S t.name ↔ Full t S t.name := by
  constructor
  · exact And.left
  · intro h
    exact ⟨h, fun a ha _ => ha.antisymm hn (.here ha.mem_left)⟩

theorem hrec_ok (t : Tree) : HrecOk t := by
  induction t using Tree.ind with
  | h n cs ih =>
    intro hn s
    have hnd := nodup_node hn
    rw [hrec]
    split
    · rename_i hnil
      rw [List.isEmpty_iff] at hnil
      subst hnil
      refine ⟨fun x _ => Iff.rfl, fun x hx => ?_⟩
      simp only [names, namesL, List.mem_singleton] at hx
      subst hx
      rw [show MaxFull (.node x []) s x ↔ Full (.node x []) s x from maxFull_name (t := .node x []) hn]
      have hmem : ∀ a, Anc (.node x []) a x → a = x := fun a ha => by
        have := ha.mem_left; simpa [names, namesL] using this
      constructor
      · intro hx l hl hleaf
        exact ⟨x, hx, hl⟩
      · intro h
        obtain ⟨a, ha, hal⟩ := h x (.here (by simp [names])) (fun c hc => by
          rcases childOf_node.1 hc with ⟨_, d, hd, _⟩ | ⟨d, hd, _⟩ <;> cases hd)
        rw [← hmem a hal]; exact ha
    rename_i hne
    rw [List.isEmpty_iff] at hne
    split
    · rename_i hns
      refine ⟨fun x hx => ?_, fun x hx => ?_⟩
      · rw [mem_rmDescL]
        rw [names, List.mem_cons, not_or] at hx
        simp [hx.2]
      · rw [mem_rmDescL]
        have hall : ∀ m, Full (.node n cs) s m := fun m l hl _ => ⟨n, hns, .here hl.mem_right⟩
        constructor
        · rintro ⟨h1, h2⟩
          rcases mem_names.1 hx with rfl | hx
          · exact (maxFull_name (t := .node x cs) hn).2 (hall x)
          · exact absurd (mem_namesL.2 hx) h2
        · intro h
          have : n = x := h.2 n (.here hx) (hall n)
          subst this
          exact ⟨hns, hnd.1⟩
    · rename_i hns
      obtain ⟨h1, h2⟩ := hrecL_spec hnd.2 ih s
      have hchild : ∀ c ∈ cs, c.name ∈ hrecL cs s ↔ Full c s c.name := fun c hc => by
        rw [h2 c hc _ (name_mem c), maxFull_name (nodup_child hnd.2 c hc)]
      have hfull : Full (.node n cs) s n ↔ ∀ c ∈ cs, c.name ∈ hrecL cs s := by
        rw [full_root hn hne hns]
        exact ⟨fun h c hc => (hchild c hc).2 (h c hc), fun h c hc => (hchild c hc).1 (h c hc)⟩
      dsimp only
      have hall : cs.all (fun c => decide (c.name ∈ hrecL cs s)) = true ↔ Full (.node n cs) s n := by
        rw [hfull]; simp
      split
      · rename_i ha
        have ha := hall.1 ha
        constructor
        · intro x hx
          have hx' := hx
          rw [names, List.mem_cons, not_or] at hx
          simp only [List.mem_append, List.mem_filter, List.mem_singleton, hx.1, or_false, decide_eq_true_eq]
          rw [h1 x hx.2]
          refine ⟨And.left, fun h => ⟨h, fun hm => ?_⟩⟩
          obtain ⟨c, hc, rfl⟩ := List.mem_map.1 hm
          exact hx.2 (mem_namesL.2 ⟨c, hc, name_mem c⟩)
        · intro x hx
          simp only [List.mem_append, List.mem_filter, List.mem_singleton, decide_eq_true_eq]
          constructor
          · rintro (⟨hx1, hx2⟩ | rfl)
            · exfalso
              rcases mem_names.1 hx with rfl | ⟨c, hc, hxc⟩
              · rw [h1 x hnd.1] at hx1; exact hns hx1
              · rw [h2 c hc x hxc] at hx1
                have hcf := (full_child hn hc hns (name_mem c)).1 (ha.down hn (.here (mem_names.2 (.inr ⟨c, hc, name_mem c⟩))))
                have := hx1.2 _ (.here hxc) hcf
                exact hx2 (List.mem_map.2 ⟨c, hc, this⟩)
            · exact (maxFull_name (t := .node x cs) hn).2 ha
          · intro h
            right
            exact (h.2 n (.here hx) ha).symm
      · rename_i ha
        rw [Bool.not_eq_true, ← Bool.not_eq_true, hall] at ha
        constructor
        · intro x hx
          rw [names, List.mem_cons, not_or] at hx
          exact h1 x hx.2
        · intro x hx
          rcases mem_names.1 hx with rfl | ⟨c, hc, hxc⟩
          · rw [h1 x hnd.1]
            exact ⟨fun h => absurd h hns, fun h => absurd h.1 ha⟩
          · rw [h2 c hc x hxc]
            unfold MaxFull
            rw [full_child hn hc hns hxc]
            constructor <;> rintro ⟨g1, g2⟩ <;> refine ⟨g1, fun a hax hfa => ?_⟩
            · rcases (anc_child hn hc hxc).1 hax with rfl | hax
              · exact absurd hfa ha
              · exact g2 a hax ((full_child hn hc hns hax.mem_left).1 hfa)
            · exact g2 a (.deeper hc hax) ((full_child hn hc hns hax.mem_left).2 hfa)

end Verif.Types
