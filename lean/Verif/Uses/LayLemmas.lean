import Verif.Uses.Spec
/-!
# The items of right-hand sides
-/
namespace Verif.Uses
open Verif.Uses.Spec
open Verif.Defs (Str Rhs)

theorem each_map {α β : Type} {r : α → β → Prop} {f : α → β} (h : ∀ a b, r a b ↔ b = f a) : ∀ as bs, Each r as bs ↔ bs = as.map f
  | [], bs => by
    constructor
    · intro h; cases h; rfl
    · rintro rfl; exact .nil
  | a :: as, bs => by
    constructor
    · intro hc
      cases hc with
      | cons h1 h2 => rw [(h _ _).1 h1, (each_map h _ _).1 h2]; rfl
    · rintro rfl; exact .cons ((h _ _).2 rfl) ((each_map h _ _).2 rfl)

theorem written_iff (a : Defs.Param) (s : Str) : Written a s ↔ s = paramText a := by
  obtain ⟨i, g, n⟩ := a
  constructor
  · intro h; cases h <;> rfl
  · rintro rfl
    cases g
    · exact .bare
    · exact .plus
    · exact .tilde
    · exact .query

theorem intercalate_cons {α : Type} (sep x y : List α) (ys : List (List α)) : sep.intercalate (x :: y :: ys) = x ++ (sep ++ sep.intercalate (y :: ys)) := by
  simp [List.intercalate, List.intersperse, List.flatten_cons]

theorem commas_iff : ∀ (ss : List Str) (t : Str), Commas ss t ↔ ss ≠ [] ∧ t = ", ".toList.intercalate ss
  | [], t => ⟨fun h => (by cases h), fun h => absurd rfl h.1⟩
  | [s], t => by
    have e : ", ".toList.intercalate [s] = s := by simp [List.intercalate, List.intersperse]
    rw [e]
    constructor
    · intro h
      cases h with
      | one => exact ⟨by simp, rfl⟩
      | more h => cases h
    · rintro ⟨_, rfl⟩; exact .one
  | s :: s' :: ss, t => by
    rw [intercalate_cons]
    have e : ", ".toList = [',', ' '] := by decide
    constructor
    · intro h
      cases h with
      | more h => rw [((commas_iff _ _).1 h).2, e]; exact ⟨by simp, by simp⟩
    · rintro ⟨_, rfl⟩
      have := Commas.more (s := s) ((commas_iff (s' :: ss) _).2 ⟨by simp, rfl⟩)
      rw [e] at this ⊢
      simpa using this

theorem kind_iff (k : Defs.Kind) (k' : Gram.IKind) : IsKind k k' ↔ k' = kindOf k := by
  constructor
  · intro h; cases h <;> rfl
  · rintro rfl
    cases k
    all_goals constructor

theorem sym_iff (s : Defs.Sym) (s' : Gram.Sym) : IsSym s s' ↔ s' = symOf s := by
  constructor
  · intro h
    cases h with
    | nonterminal h => rw [(each_map written_iff _ _).1 h]; rfl
    | other h => rw [(kind_iff _ _).1 h]; rfl
  · rintro rfl
    cases s with
    | gnt g => exact .nonterminal ((each_map written_iff _ _).2 rfl)
    | other k text nts => exact .other ((kind_iff _ _).2 rfl)

theorem item_iff (s : Defs.Item) (s' : Gram.Item) : IsItem s s' ↔ s' = itemOf s := by
  constructor
  · intro h
    cases h with
    | plain h => rw [(sym_iff _ _).1 h]; rfl
    | optional h => rw [(sym_iff _ _).1 h]; rfl
  · rintro rfl
    cases s with
    | plain s => exact .plain ((sym_iff _ _).2 rfl)
    | qm s => exact .optional ((sym_iff _ _).2 rfl)

theorem body_iff (b : Defs.Body) (is : List Gram.Item) : IsBody b is ↔ is = bodyItems b := by
  constructor
  · intro h
    cases h with
    | empty => rfl
    | characters => rfl
    | items h => rw [(each_map item_iff _ _).1 h]; rfl
  · rintro rfl
    cases b with
    | empty => exact .empty
    | unicode text => exact .characters
    | items is => exact .items ((each_map item_iff _ _).2 rfl)

theorem guard_iff (g : List Defs.Param) (is : List Gram.Item) :
    IsGuard g is ↔ is = if g ≠ [] then [.plain (.other .PARAMS (paramsText g))] else [] := by
  constructor
  · intro h
    cases h with
    | none => rfl
    | @some ps ss text h1 h2 =>
      rw [each_map written_iff] at h1
      subst h1
      obtain ⟨h3, rfl⟩ := (commas_iff _ _).1 h2
      rw [if_pos (fun h => h3 (by rw [h]; rfl))]
      rfl
  · rintro rfl
    by_cases hg : g = []
    · subst hg; exact .none
    · rw [if_pos hg]
      exact .some ((each_map written_iff _ _).2 rfl) ((commas_iff _ _).2 ⟨by simpa using hg, rfl⟩)

theorem label_iff (l : Str) (is : List Gram.Item) : IsLabel l is ↔ is = if l ≠ [] then [.plain (.other .LABEL l)] else [] := by
  constructor
  · intro h
    cases h with
    | none => rfl
    | some h => rw [if_pos h]
  · rintro rfl
    by_cases hl : l = []
    · subst hl; exact .none
    · rw [if_pos hl]; exact .some hl

theorem rhs_iff (r : Rhs) (is : List Gram.Item) : IsRhs r is ↔ is = itemsOf r := by
  constructor
  · intro h
    cases h with
    | line h1 h2 h3 => rw [(guard_iff _ _).1 h1, (body_iff _ _).1 h2, (label_iff _ _).1 h3]; rfl
    | thing => rfl
    | bare h => rw [(each_map item_iff _ _).1 h]; rfl
  · rintro rfl
    cases r with
    | line g b l => exact .line ((guard_iff _ _).2 rfl) ((body_iff _ _).2 rfl) ((label_iff _ _).2 rfl)
    | thing text => exact .thing
    | bare is => exact .bare ((each_map item_iff _ _).2 rfl)

end Verif.Uses
