import Verif.Gram.MoveModel
/-! # C40: rearranging and grouping lines -/
namespace Verif.Gram
variable {L : Type}

/-- `Span hit lines a b`: `a` is the place of the first line that is hit, `b` the place after the last one. -/
structure Span (hit : L → Bool) (lines : List L) (a b : Nat) : Prop where
  first : ∃ x, lines[a]? = some x ∧ hit x = true
  none_before : ∀ (k : Nat) x, k < a → lines[k]? = some x → hit x = false
  last : ∃ x, lines[b - 1]? = some x ∧ hit x = true
  none_after : ∀ (k : Nat) x, b ≤ k → lines[k]? = some x → hit x = false
  order : a < b

theorem spanLoop_spec (hit : L → Bool) : ∀ (xs pre : List L) (start : Option Nat) (stop : Nat),
    (match start with
      | none => ∀ x ∈ pre, hit x = false
      | some s => Span hit pre s stop) →
    (∀ a b, spanLoop hit xs pre.length start stop = some (a, b) → Span hit (pre ++ xs) a b) ∧
    (spanLoop hit xs pre.length start stop = none → ∀ x ∈ pre ++ xs, hit x = false)
  | [], pre, start, stop, hI => by
    rw [List.append_nil]
    cases start with
    | none => exact ⟨fun a b h => (by cases h), fun _ => hI⟩
    | some s =>
      refine ⟨fun a b h => ?_, fun h => (by cases h)⟩
      rw [spanLoop] at h
      injection h with h; injection h with h1 h2; subst h1 h2
      exact hI
  | x :: xs, pre, start, stop, hI => by
    have e : pre ++ x :: xs = (pre ++ [x]) ++ xs := by simp
    have hl : (pre ++ [x]).length = pre.length + 1 := by simp
    have hget : ∀ (k : Nat) y, (pre ++ [x])[k]? = some y → pre[k]? = some y ∨ (k = pre.length ∧ y = x) := by
      intro k y hk
      rw [List.getElem?_append] at hk
      split at hk
      · exact Or.inl hk
      · have : k - pre.length = 0 := by
          cases hz : k - pre.length with
          | zero => rfl
          | succ m => rw [hz] at hk; simp at hk
        rw [this] at hk
        simp at hk
        exact Or.inr ⟨by omega, hk.symm⟩
    have hx : (pre ++ [x])[pre.length]? = some x := by simp
    rw [spanLoop, e, ← hl]
    split
    · next hh =>
      apply spanLoop_spec
      cases start with
      | none =>
        dsimp only [Option.getD_none]
        refine ⟨⟨x, hx, hh⟩, ?_, ⟨x, by rw [hl, Nat.add_sub_cancel]; exact hx, hh⟩, ?_, by omega⟩
        · intro k y hk hy
          rcases hget k y hy with h | ⟨h, _⟩
          · exact hI y (List.mem_of_getElem? h)
          · omega
        · intro k y hk hy
          have := (List.getElem?_eq_some_iff.mp hy).1
          omega
      | some s =>
        dsimp only [Option.getD_some]
        have hs : s < pre.length := by
          obtain ⟨y, hy, _⟩ := hI.first
          exact (List.getElem?_eq_some_iff.mp hy).1
        refine ⟨?_, ?_, ⟨x, by rw [hl, Nat.add_sub_cancel]; exact hx, hh⟩, ?_, by omega⟩
        · obtain ⟨y, hy, hhy⟩ := hI.first
          exact ⟨y, by rw [List.getElem?_append_left hs]; exact hy, hhy⟩
        · intro k y hk hy
          rcases hget k y hy with h | ⟨h, _⟩
          · exact hI.none_before k y hk h
          · omega
        · intro k y hk hy
          have := (List.getElem?_eq_some_iff.mp hy).1
          omega
    · next hh =>
      apply spanLoop_spec
      have hx' : hit x = false := by simpa using hh
      cases start with
      | none =>
        dsimp only
        intro y hy
        rcases List.mem_append.mp hy with h | h
        · exact hI y h
        · rw [List.mem_singleton.mp h]; exact hx'
      | some s =>
        have hlt : ∀ (k : Nat) y, pre[k]? = some y → (pre ++ [x])[k]? = some y := by
          intro k y hk
          rw [List.getElem?_append_left (List.getElem?_eq_some_iff.mp hk).1]; exact hk
        refine ⟨?_, ?_, ?_, ?_, hI.order⟩
        · obtain ⟨y, hy, hhy⟩ := hI.first; exact ⟨y, hlt _ _ hy, hhy⟩
        · intro k y hk hy
          rcases hget k y hy with h | ⟨h, h'⟩
          · exact hI.none_before k y hk h
          · rw [h']; exact hx'
        · obtain ⟨y, hy, hhy⟩ := hI.last; exact ⟨y, hlt _ _ hy, hhy⟩
        · intro k y hk hy
          rcases hget k y hy with h | ⟨h, h'⟩
          · exact hI.none_after k y hk h
          · rw [h']; exact hx'

theorem spanOf_spec (hit : L → Bool) (lines : List L) :
    (∀ a b, spanOf hit lines = some (a, b) → Span hit lines a b) ∧
    (spanOf hit lines = none → ∀ x ∈ lines, hit x = false) := by
  have := spanLoop_spec hit lines [] none 0 (by simp)
  exact this

theorem Span.le {hit : L → Bool} {lines : List L} {a b : Nat} (h : Span hit lines a b) : b ≤ lines.length := by
  obtain ⟨x, hx, _⟩ := h.last
  have := (List.getElem?_eq_some_iff.mp hx).1
  have := h.order
  omega

/-- C40.  A successful move: the lines are a block with something before and something after it; the
block goes from the first to the last line with the mark; the rest, in its order, is cut in two, before the first or
after the last line with the mark of the destination; and the block, in its order, is put there. -/
theorem c40_move {move dest : L → Bool} {w : Where} {lines out : List L} (h : mov move dest w lines = some out) :
    ∃ before block behind left right,
      lines = before ++ block ++ behind ∧ before ++ behind = left ++ right ∧ out = left ++ block ++ right ∧
      Span move lines before.length (before ++ block).length ∧
      ∃ c d, Span dest (before ++ behind) c d ∧ (w = .before → left.length = c) ∧ (w = .after → left.length = d) := by
  rw [mov] at h
  split at h
  · cases h
  · next a b hs =>
    dsimp only at h
    split at h
    · cases h
    · next c d hd =>
      injection h with h
      have s1 := (spanOf_spec move lines).1 a b hs
      have s2 := (spanOf_spec dest _).1 c d hd
      have hb := s1.le
      have ho := s1.order
      have ha : (lines.take a).length = a := by rw [List.length_take]; omega
      have hblock : ((lines.drop a).take (b - a)).length = b - a := by
        rw [List.length_take, List.length_drop]; omega
      have hi : (w.place c d) ≤ (lines.take a ++ lines.drop b).length := by
        have := s2.le; have := s2.order
        cases w <;> dsimp only [Where.place] <;> omega
      refine ⟨lines.take a, (lines.drop a).take (b - a), lines.drop b,
        (lines.take a ++ lines.drop b).take (w.place c d),
        (lines.take a ++ lines.drop b).drop (w.place c d), ?_, ?_, h.symm, ?_, c, d, s2, ?_⟩
      · rw [List.append_assoc]
        have : lines.drop b = (lines.drop a).drop (b - a) := by
          rw [List.drop_drop]; congr 1; omega
        rw [this, List.take_append_drop, List.take_append_drop]
      · rw [List.take_append_drop]
      · rw [List.length_append, ha, hblock]
        have : a + (b - a) = b := by omega
        rw [this]; exact s1
      · have hl : ((lines.take a ++ lines.drop b).take (w.place c d)).length = w.place c d := by
          rw [List.length_take]; omega
        rw [hl]
        exact ⟨fun e => by rw [e]; rfl, fun e => by rw [e]; rfl⟩

/-- C40.  Nothing is lost or repeated. -/
theorem c40_permutation {move dest : L → Bool} {w : Where} {lines out : List L} (h : mov move dest w lines = some out) :
    out.Perm lines := by
  obtain ⟨before, block, behind, left, right, h1, h2, h3, _⟩ := c40_move h
  rw [h1, h3]
  have p1 : (left ++ block ++ right).Perm (block ++ (left ++ right)) := by
    rw [← List.append_assoc]
    exact List.Perm.append_right _ List.perm_append_comm
  have p2 : (before ++ block ++ behind).Perm (block ++ (before ++ behind)) := by
    rw [← List.append_assoc]
    exact List.Perm.append_right _ List.perm_append_comm
  rw [h2] at p2
  exact p1.trans p2.symm

/-- C40.  A move fails only if there is no line with the mark, or if all the lines with the mark of the destination are inside the block. -/
theorem c40_fails {move dest : L → Bool} {w : Where} {lines : List L} (h : mov move dest w lines = none) :
    (∀ x ∈ lines, move x = false) ∨
    ∃ before block behind, lines = before ++ block ++ behind ∧ Span move lines before.length (before ++ block).length ∧
      ∀ x ∈ before ++ behind, dest x = false := by
  rw [mov] at h
  split at h
  · next hs => exact Or.inl ((spanOf_spec move lines).2 hs)
  · next a b hs =>
    dsimp only at h
    split at h
    · next hd =>
      right
      have s1 := (spanOf_spec move lines).1 a b hs
      have hb := s1.le
      have ho := s1.order
      have ha : (lines.take a).length = a := by rw [List.length_take]; omega
      have hblock : ((lines.drop a).take (b - a)).length = b - a := by
        rw [List.length_take, List.length_drop]; omega
      refine ⟨lines.take a, (lines.drop a).take (b - a), lines.drop b, ?_, ?_, (spanOf_spec dest _).2 hd⟩
      · rw [List.append_assoc]
        have : lines.drop b = (lines.drop a).drop (b - a) := by
          rw [List.drop_drop]; congr 1; omega
        rw [this, List.take_append_drop, List.take_append_drop]
      · rw [List.length_append, ha, hblock]
        have : a + (b - a) = b := by omega
        rw [this]; exact s1
    · cases h

/-! ## Groups -/

/-- Neighbours differ. -/
def NeighboursDiffer {K : Type} : List K → Prop
  | [] => True
  | [_] => True
  | a :: b :: ks => a ≠ b ∧ NeighboursDiffer (b :: ks)

theorem groupLoop_spec {K : Type} [DecidableEq K] (key : L → K) : ∀ (xs : List L) (k : K) (ls : List L),
    ls ≠ [] → (∀ x ∈ ls, key x = k) →
    ((groupLoop key xs (some (k, ls))).map (·.2)).flatten = ls ++ xs ∧
    (∀ g ∈ groupLoop key xs (some (k, ls)), g.2 ≠ [] ∧ ∀ x ∈ g.2, key x = g.1) ∧
    NeighboursDiffer ((groupLoop key xs (some (k, ls))).map (·.1)) ∧
    ∃ g gs, groupLoop key xs (some (k, ls)) = g :: gs ∧ g.1 = k
  | [], k, ls, hne, hk => by
    rw [groupLoop]
    refine ⟨by simp, ?_, trivial, (k, ls), [], rfl, rfl⟩
    intro g hg
    rw [List.mem_singleton.mp hg]
    exact ⟨hne, hk⟩
  | x :: xs, k, ls, hne, hk => by
    rw [groupLoop]
    split
    · next hx =>
      obtain ⟨h1, h2, h3, g, gs, h4, h5⟩ := groupLoop_spec key xs (key x) [x] (by simp) (by simp)
      refine ⟨?_, ?_, ?_, (k, ls), _, rfl, rfl⟩
      · rw [List.map_cons, List.flatten_cons, h1]; simp
      · intro g' hg'
        rcases List.mem_cons.mp hg' with e | hg'
        · rw [e]; exact ⟨hne, hk⟩
        · exact h2 g' hg'
      · rw [h4] at h3 ⊢
        refine ⟨?_, h3⟩
        dsimp only
        rw [h5]
        exact fun h => hx h.symm
    · next hx =>
      have hx' : key x = k := Classical.byContradiction hx
      obtain ⟨h1, h2, h3, h4⟩ := groupLoop_spec key xs k (ls ++ [x]) (by simp) (by
        intro y hy
        rcases List.mem_append.mp hy with h | h
        · exact hk y h
        · rw [List.mem_singleton.mp h]; exact hx')
      refine ⟨?_, h2, h3, h4⟩
      rw [h1]; simp

/-- C40.  The groups are the lines cut into pieces, in order; the lines of a piece have the same heading, and
neighbouring pieces have different headings. -/
theorem c40_groups {K : Type} [DecidableEq K] (key : L → K) (lines : List L) :
    ((grouped key lines).map (·.2)).flatten = lines ∧
    (∀ g ∈ grouped key lines, g.2 ≠ [] ∧ ∀ x ∈ g.2, key x = g.1) ∧
    NeighboursDiffer ((grouped key lines).map (·.1)) := by
  cases lines with
  | nil => exact ⟨rfl, fun g hg => (by cases hg), trivial⟩
  | cons x xs =>
    obtain ⟨h1, h2, h3, _⟩ := groupLoop_spec key xs (key x) [x] (by simp) (by simp)
    exact ⟨h1, h2, h3⟩

/-! ## Cases -/

example : mov (· == 2) (· == 4) .after [1, 2, 3, 2, 4, 5, 4, 6] = some [1, 4, 5, 4, 2, 3, 2, 6] := rfl
example : mov (· == 4) (· == 1) .before [3, 1, 2, 4, 5] = some [3, 4, 1, 2, 5] := rfl
/-- The destination is inside the block that is moved. -/
example : mov (· == 2) (· == 3) .after [1, 2, 3, 2] = none := rfl
example : grouped (· / 10) [11, 12, 25, 13] = [(1, [11, 12]), (2, [25]), (1, [13])] := rfl

end Verif.Gram
