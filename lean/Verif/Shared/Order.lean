import Verif.Shared.Spec
/-! # The orders used by Python's `sort` on the tuples of `shared.py` -/
namespace Verif.Shared

theorem charsLe_refl : ∀ a, charsLe a a = true
  | [] => rfl
  | a :: as => by simp [charsLe, charsLe_refl as]

theorem charsLe_total : ∀ a b, charsLe a b = true ∨ charsLe b a = true
  | [], _ => by simp [charsLe]
  | _ :: _, [] => by simp [charsLe]
  | a :: as, b :: bs => by
    simp only [charsLe, Bool.or_eq_true, decide_eq_true_eq, Bool.and_eq_true]
    rcases charsLe_total as bs with h | h
    · by_cases h1 : a.val < b.val
      · simp [h1]
      · by_cases h2 : b.val < a.val
        · simp [h2]
        · have : a = b := Char.ext (UInt32.le_antisymm (UInt32.not_lt.1 h2) (UInt32.not_lt.1 h1))
          simp [this, h]
    · by_cases h1 : a.val < b.val
      · simp [h1]
      · by_cases h2 : b.val < a.val
        · simp [h2]
        · have : a = b := Char.ext (UInt32.le_antisymm (UInt32.not_lt.1 h2) (UInt32.not_lt.1 h1))
          simp [this, h]

theorem charsLe_trans : ∀ a b c, charsLe a b = true → charsLe b c = true → charsLe a c = true
  | [], _, _ => by simp [charsLe]
  | _ :: _, [], _ => by simp [charsLe]
  | _ :: _, _ :: _, [] => by simp [charsLe]
  | a :: as, b :: bs, c :: cs => by
    simp only [charsLe, Bool.or_eq_true, decide_eq_true_eq, Bool.and_eq_true]
    rintro (h1 | ⟨rfl, h1⟩) (h2 | ⟨rfl, h2⟩)
    · exact Or.inl (UInt32.lt_trans h1 h2)
    · exact Or.inl h1
    · exact Or.inl h2
    · exact Or.inr ⟨rfl, charsLe_trans _ _ _ h1 h2⟩

theorem charsLe_antisymm : ∀ a b, charsLe a b = true → charsLe b a = true → a = b
  | [], [] => by simp
  | [], _ :: _ => by simp [charsLe]
  | _ :: _, [] => by simp [charsLe]
  | a :: as, b :: bs => by
    simp only [charsLe, Bool.or_eq_true, decide_eq_true_eq, Bool.and_eq_true]
    rintro (h1 | ⟨rfl, h1⟩) (h2 | ⟨_, h2⟩)
    · exact absurd (UInt32.lt_trans h1 h2) (UInt32.lt_irrefl _)
    · subst_vars; exact absurd h1 (UInt32.lt_irrefl _)
    · exact absurd h2 (UInt32.lt_irrefl _)
    · rw [charsLe_antisymm _ _ h1 h2]

/-- `charsLe` is the lexicographic order on character lists. -/
theorem charsLe_iff : ∀ a b, charsLe a b = true ↔ a ≤ b
  | [], b => by simp [charsLe]
  | _ :: _, [] => by simp [charsLe]
  | a :: as, b :: bs => by
    simp only [charsLe, Bool.or_eq_true, decide_eq_true_eq, Bool.and_eq_true, List.cons_le_cons_iff,
      charsLe_iff as bs]
    rfl

theorem msgLe_iff (a b : Msg) : msgLe a b = true ↔ a.1 < b.1 ∨ a.1 = b.1 ∧ charsLe a.2 b.2 = true := by
  simp [msgLe]

theorem msgLe_total (a b : Msg) : (msgLe a b || msgLe b a) = true := by
  rw [Bool.or_eq_true, msgLe_iff, msgLe_iff]
  rcases charsLe_total a.2 b.2 with h | h <;> simp [h] <;> omega

theorem msgLe_trans (a b c : Msg) (h1 : msgLe a b = true) (h2 : msgLe b c = true) :
    msgLe a c = true := by
  rw [msgLe_iff] at *
  rcases h1 with h1 | ⟨e1, h1⟩ <;> rcases h2 with h2 | ⟨e2, h2⟩
  · left; omega
  · left; omega
  · left; omega
  · right; exact ⟨by omega, charsLe_trans _ _ _ h1 h2⟩

theorem msgLe_antisymm (a b : Msg) (h1 : msgLe a b = true) (h2 : msgLe b a = true) : a = b := by
  rw [msgLe_iff] at *
  rcases h1 with h1 | ⟨e1, h1⟩ <;> rcases h2 with h2 | ⟨e2, h2⟩
  · omega
  · omega
  · omega
  · exact Prod.ext e1 (charsLe_antisymm _ _ h1 h2)

theorem replLe_iff (a b : Repl) : replLe a b = true ↔
    a.start < b.start ∨ a.start = b.start ∧ (a.stop < b.stop ∨ a.stop = b.stop ∧ charsLe a.str b.str = true) := by
  simp [replLe]

theorem replLe_total (a b : Repl) : (replLe a b || replLe b a) = true := by
  rw [Bool.or_eq_true, replLe_iff, replLe_iff]
  rcases charsLe_total a.str b.str with h | h <;> simp [h] <;> omega

theorem replLe_trans (a b c : Repl) (h1 : replLe a b = true) (h2 : replLe b c = true) :
    replLe a c = true := by
  rw [replLe_iff] at *
  rcases h1 with h1 | ⟨e1, h1 | ⟨f1, h1⟩⟩ <;> rcases h2 with h2 | ⟨e2, h2 | ⟨f2, h2⟩⟩
  all_goals first
    | (left; omega)
    | (right; refine ⟨by omega, ?_⟩
       first
        | (left; omega)
        | (right; exact ⟨by omega, charsLe_trans _ _ _ h1 h2⟩))

theorem replLe_antisymm (a b : Repl) (h1 : replLe a b = true) (h2 : replLe b a = true) : a = b := by
  rw [replLe_iff] at *
  obtain ⟨as, ae, astr⟩ := a
  obtain ⟨bs, be, bstr⟩ := b
  dsimp only at *
  rcases h1 with h1 | ⟨e1, h1 | ⟨f1, h1⟩⟩ <;> rcases h2 with h2 | ⟨e2, h2 | ⟨f2, h2⟩⟩
  all_goals first
    | omega
    | (subst e1; subst f1; rw [charsLe_antisymm _ _ h1 h2])

/-- Sorting with an antisymmetric total order forgets the input order. -/
theorem mergeSort_congr {α} (le : α → α → Bool)
    (total : ∀ a b, (le a b || le b a) = true) (trans : ∀ a b c, le a b = true → le b c = true → le a c = true)
    (anti : ∀ a b, le a b = true → le b a = true → a = b) {l l' : List α} (h : l.Perm l') :
    l.mergeSort le = l'.mergeSort le := by
  refine List.Perm.eq_of_pairwise (le := fun a b => le a b = true) ?_ (List.pairwise_mergeSort trans total l)
    (List.pairwise_mergeSort trans total l') ?_
  · intro a b _ _ h1 h2; exact anti a b h1 h2
  · exact ((List.mergeSort_perm l le).trans h).trans (List.mergeSort_perm l' le).symm

end Verif.Shared
