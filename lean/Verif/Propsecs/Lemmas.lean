import Verif.Objs.HeadLemmas
import Verif.Paths.Props
import Verif.Propsecs.Spec
/-!
# Lemmas for sections about properties
-/
namespace Verif.Propsecs
open Verif.Kinds (Rx full lit plus cat any w dot Matches full_iff m_cat m_cat_nil m_lit m_word m_any m_empty m_between m_before m_plus_chars m_line)
open Verif.Preambles (after after_iff)
open Verif.Wki (before before_iff)
open Verif.Titles (hasSub hasSub_iff takeWhile_all)
open Verif.Paths (splitPath stringLiteral confirms c75_split c75_confirm c75_confirm_none)
open Verif.Paths.Spec (Word Names)
open Verif.Kinds.Spec (Line Some')
open Verif.Objs (Fact)
open Spec

theorem starts_iff {t : String} {s : Str} : t.toList.isPrefixOf s = true ↔ Starts t s := by
  rw [List.isPrefixOf_iff_prefix]
  exact ⟨fun ⟨r, e⟩ => ⟨r, e.symm⟩, fun ⟨r, e⟩ => ⟨r, e.symm⟩⟩

theorem ends_iff {t : String} {s : Str} : t.toList.isSuffixOf s = true ↔ Ends t s := by
  rw [List.isSuffixOf_iff_suffix]
  exact ⟨fun ⟨r, e⟩ => ⟨r, e.symm⟩, fun ⟨r, e⟩ => ⟨r, e.symm⟩⟩

theorem has_iff {t : String} {s : Str} : hasSub t.toList s = true ↔ Has t s := hasSub_iff _ _

theorem after_none {t : String} {s : Str} : after t s = none ↔ ¬ Starts t s := by
  constructor
  · rintro h ⟨r, e⟩; rw [after_iff.2 e] at h; cases h
  · intro h
    cases ha : after t s with
    | none => rfl
    | some r => exact absurd ⟨r, after_iff.1 ha⟩ h

theorem before_none {t : String} {s : Str} : before t s = none ↔ ¬ Ends t s := by
  constructor
  · rintro h ⟨r, e⟩; rw [before_iff.2 e] at h; cases h
  · intro h
    cases ha : before t s with
    | none => rfl
    | some r => exact absurd ⟨r, before_iff.1 ha⟩ h

/-! ## Which sections -/

theorem not_both {k : Str} (h1 : Starts "instances:" k) (h2 : Starts "intrinsic:" k) : False := by
  obtain ⟨a, rfl⟩ := h1
  obtain ⟨b, e⟩ := h2
  simp at e

theorem instances_iff (ks : List Str) (b : Bool) : instances ks = some b ↔ First (if b then "instances:" else "intrinsic:") ks := by
  induction ks with
  | nil =>
    rw [instances]
    constructor
    · intro h; cases h
    · rintro ⟨a, k, c, e, _⟩
      cases a <;> cases e
  | cons k ks ih =>
    rw [instances]
    have hcons : (¬ Starts "instances:" k ∧ ¬ Starts "intrinsic:" k) → ∀ t, (First t (k :: ks) ↔ First t ks ∨ Starts t k) := by
      intro hk t
      constructor
      · rintro ⟨a, j, c, e, h1, h2⟩
        cases a with
        | nil => cases e; exact .inr h1
        | cons a0 a => cases e; exact .inl ⟨a, j, c, rfl, h1, fun x hx => h2 x (List.mem_cons_of_mem _ hx)⟩
      · rintro (⟨a, j, c, e, h1, h2⟩ | h)
        · refine ⟨k :: a, j, c, by rw [e]; rfl, h1, fun x hx => ?_⟩
          rcases List.mem_cons.1 hx with rfl | hx
          · exact hk
          · exact h2 x hx
        · exact ⟨[], k, ks, rfl, h, by simp⟩
    have hhead : ∀ t, (t = "instances:" ∨ t = "intrinsic:") → (Starts "instances:" k ∨ Starts "intrinsic:" k) → (First t (k :: ks) ↔ Starts t k) := by
      intro t _ hk
      constructor
      · rintro ⟨a, j, c, e, h1, h2⟩
        cases a with
        | nil => cases e; exact h1
        | cons a0 a =>
          cases e
          have := h2 k (by simp)
          rcases hk with hk | hk
          · exact absurd hk this.1
          · exact absurd hk this.2
      · intro h; exact ⟨[], k, ks, rfl, h, by simp⟩
    by_cases h1 : Starts "instances:" k
    · rw [if_pos (starts_iff.2 h1)]
      cases b with
      | true => simp only [if_true]; rw [hhead _ (.inl rfl) (.inl h1)]; simp [h1]
      | false =>
        simp only [Bool.false_eq_true, if_false]
        rw [hhead _ (.inr rfl) (.inl h1)]
        constructor
        · intro h; cases h
        · intro h; exact absurd h (fun h => not_both h1 h)
    · rw [if_neg (fun h => h1 (starts_iff.1 h))]
      by_cases h2 : Starts "intrinsic:" k
      · rw [if_pos (starts_iff.2 h2)]
        cases b with
        | true => simp only [if_true]; rw [hhead _ (.inl rfl) (.inr h2)]; simp [h1]
        | false => simp only [Bool.false_eq_true, if_false]; rw [hhead _ (.inr rfl) (.inr h2)]; simp [h2]
      · rw [if_neg (fun h => h2 (starts_iff.1 h)), ih, hcons ⟨h1, h2⟩]
        cases b <;> simp [h1, h2]

/-! ## Titles -/

theorem bare_true {s : Str} (h : '\n' ∉ s) : bare true s = [] := by
  induction s with
  | nil => rfl
  | cons c s ih =>
    rw [bare, if_neg (fun e => h (by rw [e]; simp))]
    exact ih (fun hm => h (List.mem_cons_of_mem _ hm))

theorem bare_step (c : Char) (s : Str) (h : ¬ ∃ r, c :: s = ' ' :: '(' :: r) : bare false (c :: s) = c :: bare false s := by
  conv => lhs; unfold bare
  split
  · rename_i e; cases e
  · rename_i e1 e2; cases e1
  · rename_i r e1 e2; exact absurd ⟨_, e2⟩ h
  · rename_i _ e; obtain ⟨rfl, rfl⟩ := List.cons.inj e; rfl

theorem bare_spec : ∀ {t : Str}, '\n' ∉ t → Bare t (bare false t)
  | [], _ => .inl ⟨rfl, fun ⟨a, b, e⟩ => by cases a <;> simp at e⟩
  | c :: s, h => by
    by_cases hp : ∃ r, c :: s = ' ' :: '(' :: r
    · obtain ⟨r, e⟩ := hp
      rw [e] at h ⊢
      have : bare false (' ' :: '(' :: r) = [] := by
        unfold bare
        exact bare_true (fun hm => h (by simp [hm]))
      rw [this]
      exact .inr ⟨⟨r, rfl⟩, fun _ _ _ => Nat.zero_le _⟩
    · rw [bare_step c s hp]
      rcases bare_spec (t := s) (fun hm => h (List.mem_cons_of_mem _ hm)) with ⟨e, hn⟩ | ⟨⟨r, e⟩, hm⟩
      · refine .inl ⟨by rw [e], ?_⟩
        rintro ⟨a, b, e'⟩
        cases a with
        | nil => exact hp ⟨b, e'⟩
        | cons a0 a => exact hn ⟨a, b, by simpa using (List.cons.inj e').2⟩
      · refine .inr ⟨⟨r, by rw [List.cons_append, List.cons_append, ← e]⟩, ?_⟩
        intro a b e'
        cases a with
        | nil => exact absurd ⟨b, e'⟩ hp
        | cons a0 a =>
          have := hm a b (by simpa using (List.cons.inj e').2)
          simp; exact this

theorem bare_unique {t i j : Str} (h1 : Bare t i) (h2 : Bare t j) : i = j := by
  rcases h1 with ⟨rfl, hn⟩ | ⟨⟨r, e⟩, hm⟩ <;> rcases h2 with ⟨rfl, hn'⟩ | ⟨⟨r', e'⟩, hm'⟩
  · rfl
  · exact absurd ⟨_, _, e'⟩ hn
  · exact absurd ⟨_, _, e⟩ hn'
  · have l1 := hm _ _ e'
    have l2 := hm' _ _ e
    have := e.symm.trans e'
    rw [List.append_assoc, List.append_assoc] at this
    exact (List.append_inj this (by omega)).1

theorem bare_iff {t i : Str} (h : '\n' ∉ t) : Bare t i ↔ i = bare false t :=
  ⟨fun hb => bare_unique hb (bare_spec h), fun e => e ▸ bare_spec h⟩

theorem bare_line {t : Str} (h : '\n' ∉ t) : '\n' ∉ bare false t := by
  rcases bare_spec h with ⟨e, _⟩ | ⟨⟨r, e⟩, _⟩
  · rw [e]; exact h
  · intro hm; apply h; rw [e]; simp [hm]

theorem path_iff {i p : Str} (hi : '\n' ∉ i) : PathIn i p ↔ p = pathOf i := by
  unfold pathOf
  constructor
  · intro h
    cases h with
    | get hp =>
      rw [after_iff.2 rfl]
      dsimp only
      rw [if_pos ⟨hp, fun hm => hi (by simp [hm])⟩]
    | set hp =>
      have : after "get " ("set ".toList ++ p) = none := after_none.2 (fun ⟨r, e⟩ => by simp at e)
      rw [this, after_iff.2 rfl]
      dsimp only
      rw [if_pos ⟨hp, fun hm => hi (by simp [hm])⟩]
    | plain hn =>
      cases hg : after "get " i with
      | some q =>
        dsimp only
        rw [if_neg (fun h => hn ⟨q, h.1, .inl (after_iff.1 hg)⟩)]
      | none =>
        cases hs : after "set " i with
        | some q =>
          dsimp only
          rw [if_neg (fun h => hn ⟨q, h.1, .inr (after_iff.1 hs)⟩)]
        | none => rfl
  · rintro rfl
    cases hg : after "get " i with
    | some q =>
      dsimp only
      have e := after_iff.1 hg
      by_cases hq : q ≠ [] ∧ '\n' ∉ q
      · rw [if_pos hq]
        rw [e]; exact .get hq.1
      · rw [if_neg hq]
        refine .plain ?_
        rintro ⟨q', h1, e' | e'⟩
        · rw [e] at e'
          have := List.append_cancel_left e'
          exact hq ⟨this ▸ h1, fun hm => hi (by rw [e]; simp [hm])⟩
        · rw [e] at e'; simp at e'
    | none =>
      have hg' := after_none.1 hg
      cases hs : after "set " i with
      | some q =>
        dsimp only
        have e := after_iff.1 hs
        by_cases hq : q ≠ [] ∧ '\n' ∉ q
        · rw [if_pos hq]
          rw [e]; exact .set hq.1
        · rw [if_neg hq]
          refine .plain ?_
          rintro ⟨q', h1, e' | e'⟩
          · exact hg' ⟨_, e'⟩
          · rw [e] at e'
            have := List.append_cancel_left e'
            exact hq ⟨this ▸ h1, fun hm => hi (by rw [e]; simp [hm])⟩
      | none =>
        have hs' := after_none.1 hs
        dsimp only
        refine .plain ?_
        rintro ⟨q', h1, e' | e'⟩
        · exact hg' ⟨_, e'⟩
        · exact hs' ⟨_, e'⟩

theorem property_iff {s : Sec} (h : '\n' ∉ s.title) {i c k : Str} (hi : Bare s.title i) : propertyOf s = some (c, k) ↔ About s i c k := by
  obtain rfl := (bare_iff h).1 hi
  have hl := bare_line h
  unfold propertyOf globalTitle
  constructor
  · intro hp
    cases hs : splitPath (pathOf (bare false s.title)) with
    | none => rw [hs] at hp; cases hp
    | some q =>
      obtain ⟨c', k'⟩ := q
      have hn := (c75_split _ _ _).1 hs
      have hpath := (path_iff hl).2 rfl
      rw [hs] at hp
      cases c' with
      | some c' =>
        obtain ⟨rfl, rfl⟩ := Prod.mk.inj (Option.some.inj hp)
        exact .named hpath hn
      | none =>
        dsimp only at hp
        by_cases h1 : " Properties of the Global Object".toList.isSuffixOf s.parent = true
        · rw [if_pos h1] at hp
          obtain ⟨rfl, rfl⟩ := Prod.mk.inj (Option.some.inj hp)
          exact .global hpath hn (.inl (ends_iff.1 h1))
        · rw [if_neg h1] at hp
          cases hg : s.grand with
          | none => rw [hg] at hp; cases hp
          | some g =>
            rw [hg] at hp
            dsimp only at hp
            by_cases h2 : " Properties of the Global Object".toList.isSuffixOf g = true
            · rw [if_pos h2] at hp
              obtain ⟨rfl, rfl⟩ := Prod.mk.inj (Option.some.inj hp)
              exact .global hpath hn (.inr ⟨g, hg, ends_iff.1 h2⟩)
            · rw [if_neg h2] at hp; cases hp
  · intro ha
    cases ha with
    | named hp hn =>
      rw [← (path_iff hl).1 hp, (c75_split _ _ _).2 hn]
    | global hp hn hg =>
      rw [← (path_iff hl).1 hp, (c75_split _ _ _).2 hn]
      dsimp only
      by_cases h1 : " Properties of the Global Object".toList.isSuffixOf s.parent = true
      · rw [if_pos h1]
      · rw [if_neg h1]
        rcases hg with hg | ⟨g, e, hg⟩
        · exact absurd (ends_iff.2 hg) h1
        · rw [e]
          dsimp only
          rw [if_pos (ends_iff.2 hg)]

theorem refers_iff (key : Str) (bs : List (String × Str)) : refers key bs = true ↔ Refers key bs := by
  unfold Refers
  match bs with
  | [] => simp [refers]
  | _ :: _ :: _ => simp [refers]
  | [(n, t)] =>
    rw [refers]
    simp only [Bool.and_eq_true, beq_iff_eq]
    constructor
    · rintro ⟨rfl, h⟩
      cases ha : after "See <emu-xref href=\"#" t with
      | none => rw [ha] at h; cases h
      | some r =>
        rw [ha] at h
        dsimp only at h
        cases hb : before "\"></emu-xref>." r with
        | none => rw [hb] at h; cases h
        | some i =>
          rw [hb] at h
          simp only [Bool.and_eq_true, Bool.or_eq_true, Bool.not_eq_true', List.isEmpty_eq_false_iff, bne_iff_ne, ne_eq, beq_iff_eq, List.contains_eq_mem, decide_eq_false_iff_not] at h
          obtain ⟨⟨h1, h2⟩, h3⟩ := h
          refine ⟨i, h1, h2, ?_, ?_⟩
          · rw [after_iff.1 ha, before_iff.1 hb, List.append_assoc]
          · intro e; exact h3.resolve_left (fun hn => hn e)
    · rintro ⟨i, h1, h2, e, h3⟩
      simp only [List.cons.injEq, Prod.mk.injEq, and_true] at e
      obtain ⟨rfl, rfl⟩ := e
      refine ⟨rfl, ?_⟩
      rw [List.append_assoc, after_iff.2 rfl]
      dsimp only
      rw [before_iff.2 rfl]
      simp only [Bool.and_eq_true, Bool.or_eq_true, Bool.not_eq_true', List.isEmpty_eq_false_iff, bne_iff_ne, ne_eq, beq_iff_eq, List.contains_eq_mem, decide_eq_false_iff_not]
      refine ⟨⟨h1, h2⟩, ?_⟩
      by_cases e : key = "*\"WeakSet\"*".toList
      · exact .inr (h3 e)
      · exact .inl e

end Verif.Propsecs
