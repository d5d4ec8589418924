/-! # Small notions shared by the specifications -/
namespace Verif

/-- Reflexive-transitive closure. -/
inductive Star {α : Type _} (R : α → α → Prop) : α → α → Prop
  | refl (a) : Star R a a
  | tail {a b c} : Star R a b → R b c → Star R a c

namespace Star
variable {α : Type _} {R : α → α → Prop}

theorem single {a b} (h : R a b) : Star R a b := .tail (.refl a) h

theorem trans {a b c} (h1 : Star R a b) (h2 : Star R b c) : Star R a c := by
  induction h2 with
  | refl => exact h1
  | tail _ h ih => exact .tail ih h

theorem head {a b c} (h : R a b) (h2 : Star R b c) : Star R a c := (single h).trans h2

theorem mono {S : α → α → Prop} (hRS : ∀ a b, R a b → S a b) {a b} (h : Star R a b) : Star S a b := by
  induction h with
  | refl => exact .refl _
  | tail _ h ih => exact .tail ih (hRS _ _ h)

theorem closed {P : α → Prop} (hP : ∀ a b, P a → R a b → P b) {a b} (h : Star R a b) (ha : P a) : P b := by
  induction h with
  | refl => exact ha
  | tail _ h ih => exact hP _ _ ih h

theorem cases_head {a b} (h : Star R a b) : a = b ∨ ∃ c, R a c ∧ Star R c b := by
  induction h with
  | refl => exact .inl rfl
  | tail h1 h2 ih =>
    rcases ih with rfl | ⟨c, hc, hcb⟩
    · exact .inr ⟨_, h2, .refl _⟩
    · exact .inr ⟨c, hc, hcb.tail h2⟩
end Star
end Verif

namespace Verif

/-- Counting strictly fewer elements. -/
theorem countP_lt {α} {p q : α → Bool} {l : List α} (h : ∀ x ∈ l, p x = true → q x = true) {v : α}
    (hv : v ∈ l) (hp : p v = false) (hq : q v = true) : l.countP p < l.countP q := by
  induction l with
  | nil => cases hv
  | cons a l ih =>
    have hm : l.countP p ≤ l.countP q := List.countP_mono_left (fun x hx => h x (by simp [hx]))
    rcases List.mem_cons.1 hv with rfl | hv
    · rw [List.countP_cons_of_neg (by simp [hp]), List.countP_cons_of_pos hq]; omega
    · have := ih (fun x hx => h x (by simp [hx])) hv
      by_cases ha : p a = true
      · rw [List.countP_cons_of_pos ha, List.countP_cons_of_pos (h a (by simp) ha)]; omega
      · rw [List.countP_cons_of_neg ha, List.countP_cons]; omega

end Verif

namespace Verif

/-- `mapM` in `Option` succeeds when every element does, elementwise. -/
theorem mapM_some {α β} {f : α → Option β} : ∀ {l : List α}, (∀ a ∈ l, ∃ b, f a = some b) →
    ∃ bs, l.mapM f = some bs ∧ bs.length = l.length ∧
      ∀ (i : Nat) a, l[i]? = some a → ∃ b, bs[i]? = some b ∧ f a = some b := by
  intro l
  induction l with
  | nil => intro _; exact ⟨[], by simp, rfl, by simp⟩
  | cons a l ih =>
    intro h
    obtain ⟨b, hb⟩ := h a (by simp)
    obtain ⟨bs, h1, h2, h3⟩ := ih (fun x hx => h x (by simp [hx]))
    refine ⟨b :: bs, by simp [hb, h1], by simp [h2], ?_⟩
    intro i x hx
    cases i with
    | zero => simp at hx; subst hx; exact ⟨b, by simp, hb⟩
    | succ i => simp at hx; simpa using h3 i x hx

/-- If `mapM` in `Option` succeeds then every element did. -/
theorem mapM_some_iff {α β} {f : α → Option β} : ∀ {l : List α} {bs : List β},
    l.mapM f = some bs ↔ l.map f = bs.map some := by
  intro l
  induction l with
  | nil => intro bs; cases bs <;> simp
  | cons a l ih =>
    intro bs
    rw [List.mapM_cons]
    cases hfa : f a with
    | none => cases bs <;> simp [hfa]
    | some b =>
      cases hm : l.mapM f with
      | none =>
        constructor
        · intro h; simp at h
        · intro h
          cases bs with
          | nil => simp at h
          | cons c cs =>
            simp only [List.map_cons, List.cons.injEq] at h
            rw [ih.2 h.2] at hm; cases hm
      | some cs =>
        cases bs with
        | nil => simp
        | cons d ds =>
          have := @ih ds
          rw [hm] at this
          simp only [List.map_cons, List.cons.injEq, hfa, Option.some.injEq]
          simp only [Option.some.injEq] at this
          rw [← this]
          simp

/-- The maximum of a list of naturals, as a left fold. -/
theorem foldl_max_spec : ∀ (l : List Nat) (a : Nat),
    (a ≤ l.foldl max a ∧ ∀ x ∈ l, x ≤ l.foldl max a) ∧ (l.foldl max a = a ∨ l.foldl max a ∈ l) := by
  intro l
  induction l with
  | nil => intro a; simp
  | cons b l ih =>
    intro a
    obtain ⟨⟨h1, h2⟩, h3⟩ := ih (max a b)
    refine ⟨⟨by simp only [List.foldl_cons]; omega, ?_⟩, ?_⟩
    · intro x hx
      simp only [List.foldl_cons]
      rcases List.mem_cons.1 hx with rfl | hx
      · omega
      · exact h2 x hx
    · simp only [List.foldl_cons, List.mem_cons]
      rcases h3 with h3 | h3
      · rw [h3]
        rcases Nat.le_total a b with h | h
        · right; left; omega
        · left; omega
      · right; right; exact h3

/-- A list without repetitions inside another is not longer. -/
theorem nodup_length_le {α : Type _} [DecidableEq α] : ∀ {a b : List α}, a.Nodup → (∀ x ∈ a, x ∈ b) →
    a.length ≤ b.length := by
  intro a
  induction a with
  | nil => intro b _ _; simp
  | cons x a ih =>
    intro b hn hs
    rw [List.nodup_cons] at hn
    have hx := hs x List.mem_cons_self
    have := ih (b := b.erase x) hn.2 (by
      intro y hy
      have hne : y ≠ x := by rintro rfl; exact hn.1 hy
      exact (List.mem_erase_of_ne hne).2 (hs y (List.mem_cons_of_mem _ hy)))
    rw [List.length_erase_of_mem hx] at this
    have hp := List.length_pos_of_mem hx
    simp only [List.length_cons]; omega

/-- With distinct keys, a key determines the value. -/
theorem keys_inj {α β : Type _} : ∀ {l : List (α × β)}, (l.map (·.1)).Nodup → ∀ {k v v'}, (k, v) ∈ l →
    (k, v') ∈ l → v = v' := by
  intro l
  induction l with
  | nil => intro _ _ _ _ h; cases h
  | cons p l ih =>
    intro hn k v v' h h'
    simp only [List.map_cons, List.nodup_cons] at hn
    rcases List.mem_cons.1 h with g | g <;> rcases List.mem_cons.1 h' with g' | g'
    · rw [← g] at g'; injection g' with _ g'; exact g'.symm
    · rw [← g] at hn; exact absurd (List.mem_map.2 ⟨_, g', rfl⟩) hn.1
    · rw [← g'] at hn; exact absurd (List.mem_map.2 ⟨_, g, rfl⟩) hn.1
    · exact ih hn.2 g g'

/-- A list with different elements at different places has no repetitions. -/
theorem nodup_of_getElem? {α : Type _} {l : List α}
    (h : ∀ (i j : Nat) (x : α), l[i]? = some x → l[j]? = some x → i = j) : l.Nodup := by
  rw [List.Nodup, List.pairwise_iff_getElem]
  intro i j hi hj hij he
  have := h i j l[i] (List.getElem?_eq_getElem hi) (by rw [he]; exact List.getElem?_eq_getElem hj)
  omega

end Verif
