import Verif.Uses.Spec
/-!
# Reduced right-hand sides
-/
namespace Verif.Uses
open Verif.Uses.Spec
open Verif.Defs (Str)
open Verif.Gram (Item)

/-- A text and its `?`. -/
def render (w : Str × Bool) : Str := if w.2 then w.1 ++ ['?'] else w.1

theorem pieces_core : ∀ is : List Item, is.filterMap piece = (core is).map render
  | [] => rfl
  | .plain (.gnt n p) :: is => by
    simp [piece, core, List.filterMap_cons, pieces_core is, render]
  | .plain (.other k t) :: is => by
    have ih := pieces_core is
    cases k <;> simp [piece, core, List.filterMap_cons, ih, render]
  | .qm (.gnt n p) :: is => by
    simp [piece, core, List.filterMap_cons, pieces_core is, render]
  | .qm (.other k t) :: is => by
    simp [piece, core, List.filterMap_cons, pieces_core is, render]

/-- A word, and what follows it, can be told apart. -/
theorem word_unique : ∀ (w v a b : Str), ' ' ∉ w → ' ' ∉ v → (a = [] ∨ ∃ r, a = ' ' :: r) → (b = [] ∨ ∃ r, b = ' ' :: r) →
    w ++ a = v ++ b → w = v ∧ a = b
  | [], [], a, b, _, _, _, _, h => ⟨rfl, h⟩
  | [], c :: v, a, b, _, hv, ha, _, h => by
    rcases ha with rfl | ⟨r, rfl⟩
    · simp at h
    · simp only [List.nil_append, List.cons_append, List.cons.injEq] at h
      exact absurd (by rw [h.1]; exact List.mem_cons_self ..) hv
  | c :: w, [], a, b, hw, _, _, hb, h => by
    rcases hb with rfl | ⟨r, rfl⟩
    · simp at h
    · simp only [List.nil_append, List.cons_append, List.cons.injEq] at h
      exact absurd (by rw [h.1]; exact List.mem_cons_self ..) hw
  | c :: w, d :: v, a, b, hw, hv, ha, hb, h => by
    simp only [List.cons_append, List.cons.injEq] at h
    obtain ⟨h1, h2⟩ := word_unique w v a b (fun k => hw (List.mem_cons_of_mem _ k)) (fun k => hv (List.mem_cons_of_mem _ k)) ha hb h.2
    exact ⟨by rw [h.1, h1], h2⟩

/-- What is written after the first word. -/
def tail' (ws : List Str) : Str := if ws = [] then [] else ' ' :: " ".toList.intercalate ws

theorem join_cons (w : Str) (ws : List Str) : " ".toList.intercalate (w :: ws) = w ++ tail' ws := by
  cases ws with
  | nil => simp [tail', List.intercalate]
  | cons v vs => simp [tail', List.intercalate, List.intersperse]

theorem tail_shape (ws : List Str) : tail' ws = [] ∨ ∃ r, tail' ws = ' ' :: r := by
  unfold tail'
  split
  · exact Or.inl rfl
  · exact Or.inr ⟨_, rfl⟩

theorem join_inj : ∀ (ws vs : List Str), (∀ w ∈ ws, w ≠ [] ∧ ' ' ∉ w) → (∀ w ∈ vs, w ≠ [] ∧ ' ' ∉ w) →
    " ".toList.intercalate ws = " ".toList.intercalate vs → ws = vs
  | [], [], _, _, _ => rfl
  | [], v :: vs, _, hv, h => by
    rw [join_cons] at h
    have := (hv v (List.mem_cons_self ..)).1
    simp [List.intercalate] at h
    exact absurd h.1 this
  | w :: ws, [], hw, _, h => by
    rw [join_cons] at h
    have := (hw w (List.mem_cons_self ..)).1
    simp [List.intercalate] at h
    exact absurd h.1 this
  | w :: ws, v :: vs, hw, hv, h => by
    rw [join_cons, join_cons] at h
    obtain ⟨h1, h2⟩ := word_unique w v _ _ (hw w (List.mem_cons_self ..)).2 (hv v (List.mem_cons_self ..)).2 (tail_shape ws) (tail_shape vs) h
    have hws := fun x hx => hw x (List.mem_cons_of_mem _ hx)
    have hvs := fun x hx => hv x (List.mem_cons_of_mem _ hx)
    have h3 : ws = vs := by
      cases ws with
      | nil =>
        cases vs with
        | nil => rfl
        | cons y ys => simp [tail'] at h2
      | cons x xs =>
        cases vs with
        | nil => simp [tail'] at h2
        | cons y ys =>
          simp only [tail', reduceCtorEq, if_false, List.cons.injEq, true_and] at h2
          exact join_inj (x :: xs) (y :: ys) hws hvs h2
    rw [h1, h3]
termination_by ws vs => ws.length + vs.length
decreasing_by
  all_goals simp_all <;> omega

theorem render_inj {w v : Str × Bool} (hw : w.1.getLast? ≠ some '?') (hv : v.1.getLast? ≠ some '?') (h : render w = render v) : w = v := by
  obtain ⟨w, p⟩ := w
  obtain ⟨v, q⟩ := v
  simp only at hw hv
  cases p <;> cases q <;> simp only [render, if_true, if_false, Bool.false_eq_true] at h
  · rw [h]
  · rw [h] at hw; simp at hw
  · rw [← h] at hv; simp at hv
  · have := List.append_cancel_right h
    rw [this]

theorem render_word {w : Str × Bool} (h1 : w.1 ≠ []) (h2 : ' ' ∉ w.1) : render w ≠ [] ∧ ' ' ∉ render w := by
  unfold render
  split
  · simp [h2]
  · exact ⟨h1, h2⟩

theorem map_render_inj : ∀ (ws vs : List (Str × Bool)), Words ws → Words vs → ws.map render = vs.map render → ws = vs
  | [], [], _, _, _ => rfl
  | [], _ :: _, _, _, h => by simp at h
  | _ :: _, [], _, _, h => by simp at h
  | w :: ws, v :: vs, hw, hv, h => by
    simp only [List.map_cons, List.cons.injEq] at h
    rw [render_inj (hw w (List.mem_cons_self ..)).2.2 (hv v (List.mem_cons_self ..)).2.2 h.1,
      map_render_inj ws vs (fun x hx => hw x (List.mem_cons_of_mem _ hx)) (fun x hx => hv x (List.mem_cons_of_mem _ hx)) h.2]

theorem reduce_core (a b : List Item) (ha : Words (core a)) (hb : Words (core b)) : reduce a = reduce b ↔ core a = core b := by
  unfold reduce
  rw [pieces_core, pieces_core]
  constructor
  · intro h
    refine map_render_inj _ _ ha hb (join_inj _ _ ?_ ?_ h)
    · intro w hw
      obtain ⟨x, hx, rfl⟩ := List.mem_map.1 hw
      exact render_word (ha x hx).1 (ha x hx).2.1
    · intro w hw
      obtain ⟨x, hx, rfl⟩ := List.mem_map.1 hw
      exact render_word (hb x hx).1 (hb x hx).2.1
  · intro h; rw [h]

end Verif.Uses
