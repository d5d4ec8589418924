import Verif.Refs.ScanLemmas
import Verif.Defs.TableLemmas
/-!
# The references in annex A
-/
namespace Verif.Refs
open Verif.Refs.Spec
open Verif.Defs (Str Table Block Inv)
open Verif.Defs.Spec (Defines Defined Counts Before prodns)

variable {doc : List Block} {k : Nat} {t : Table}

theorem main_iff (hi : Inv (prodns doc) k t) (n : Str) :
    (∃ info d, t.lookup n = some info ∧ info.occs.lookup .A = some d) ↔ ∃ i p, Defines doc i .A n p := by
  constructor
  · rintro ⟨info, d, h1, h2⟩
    obtain ⟨s, q, rs, _, _, _, h⟩ := Defs.occ_some hi h1 h2
    exact ⟨_, _, h⟩
  · rintro ⟨i, p, h⟩
    obtain ⟨info, h1⟩ := (Defs.defined_iff hi n).2 ⟨i, .A, p, h⟩
    cases h2 : info.occs.lookup .A with
    | none => exact absurd ⟨i, p, h⟩ ((Defs.occ_none hi h1).1 h2)
    | some d => exact ⟨info, d, h1, h2⟩

theorem get_mid {α : Type} (pre : List α) (r : α) (rs : List α) : (pre ++ r :: rs)[pre.length]? = some r := by simp

/-- The loop over the references, when those of `pre` have been handled. -/
theorem refLoop_spec (hi : Inv (prodns doc) k t) (rs : List ProdRef) : ∀ (pre : List ProdRef) (names : List Str),
    (∀ n, n ∈ names ↔ ∃ j : Nat, j < pre.length ∧ Whole (pre ++ rs) j n) →
    (refLoop t rs names = none ↔ ∃ j : Nat, pre.length ≤ j ∧ StopsAt doc (pre ++ rs) j) ∧
    ∀ second names', refLoop t rs names = some (second, names') →
      (∀ n, n ∈ names' ↔ ∃ j : Nat, Whole (pre ++ rs) j n) ∧
      ∃ ks : List Nat, ks.Pairwise (· < ·) ∧ (∀ j, j ∈ ks ↔ pre.length ≤ j ∧ Second (pre ++ rs) j) ∧
        second.map some = ks.map (fun j => ((pre ++ rs)[j]?).map (·.pos)) := by
  induction rs with
  | nil =>
    intro pre names hn
    have out : ∀ (j : Nat) r, pre.length ≤ j → ¬(pre ++ [])[j]? = some r := by
      intro j r hj h
      rw [List.getElem?_eq_none (by simpa using hj)] at h
      cases h
    refine ⟨?_, ?_⟩
    · simp only [refLoop, reduceCtorEq, false_iff]
      rintro ⟨j, hj, h⟩
      cases h with
      | noName r h _ => exact out j r hj h
      | undefinedNt r n h _ _ => exact out j r hj h
      | alone r n h _ _ _ => exact out j r hj h
    · intro second names' h
      simp only [refLoop, Option.some.injEq, Prod.mk.injEq] at h
      obtain ⟨rfl, rfl⟩ := h
      refine ⟨?_, [], by simp, ?_, by simp⟩
      · intro n
        rw [hn]
        constructor
        · rintro ⟨j, _, h⟩; exact ⟨j, h⟩
        · rintro ⟨j, r, h1, h2⟩
          refine ⟨j, ?_, r, h1, h2⟩
          rcases Nat.lt_or_ge j pre.length with h | h
          · exact h
          · exact absurd h1 (out j r h)
      · intro j
        simp only [List.not_mem_nil, false_iff, not_and]
        rintro hj ⟨n, ⟨r, h, _⟩, _⟩
        exact out j r hj h
  | cons r rs ih =>
    intro pre names hn
    have e : pre ++ r :: rs = (pre ++ [r]) ++ rs := by simp
    have el : (pre ++ [r]).length = pre.length + 1 := by simp
    have hr := get_mid pre r rs
    -- whether this reference stops the check
    have stop_iff : ∀ P : Prop, (StopsAt doc (pre ++ r :: rs) pre.length ↔ P) → ∀ Q : Prop,
        (Q ↔ ∃ j : Nat, pre.length + 1 ≤ j ∧ StopsAt doc (pre ++ r :: rs) j) →
        (P ∨ Q ↔ ∃ j : Nat, pre.length ≤ j ∧ StopsAt doc (pre ++ r :: rs) j) := by
      intro P hP Q hQ
      rw [← hP, hQ]
      constructor
      · rintro (h | ⟨j, hj, h⟩)
        · exact ⟨_, Nat.le_refl _, h⟩
        · exact ⟨j, by omega, h⟩
      · rintro ⟨j, hj, h⟩
        by_cases hjj : j = pre.length
        · subst hjj; exact Or.inl h
        · exact Or.inr ⟨j, by omega, h⟩
    have here_none (h : StopsAt doc (pre ++ r :: rs) pre.length) (hl : refLoop t (r :: rs) names = none) :
        (refLoop t (r :: rs) names = none ↔ ∃ j : Nat, pre.length ≤ j ∧ StopsAt doc (pre ++ r :: rs) j) ∧
        ∀ second names', refLoop t (r :: rs) names = some (second, names') →
          (∀ n, n ∈ names' ↔ ∃ j : Nat, Whole (pre ++ r :: rs) j n) ∧
          ∃ ks : List Nat, ks.Pairwise (· < ·) ∧ (∀ j, j ∈ ks ↔ pre.length ≤ j ∧ Second (pre ++ r :: rs) j) ∧
            second.map some = ks.map (fun j => ((pre ++ r :: rs)[j]?).map (·.pos)) := by
      refine ⟨⟨fun _ => ⟨_, Nat.le_refl _, h⟩, fun _ => hl⟩, ?_⟩
      intro second names' h2
      rw [hl] at h2
      cases h2
    cases hname : r.name with
    | none => exact here_none (.noName r hr hname) (by simp only [refLoop, hname])
    | some n =>
      cases hlook : t.lookup n with
      | none =>
        refine here_none (.undefinedNt r n hr hname ?_) (by simp only [refLoop, hname, hlook])
        rw [← main_iff hi]
        rintro ⟨info, d, h, _⟩
        rw [hlook] at h
        cases h
      | some info =>
        cases hocc : info.occs.lookup .A with
        | none =>
          refine here_none (.undefinedNt r n hr hname ?_) (by simp only [refLoop, hname, hlook, hocc])
          rw [← main_iff hi]
          rintro ⟨info', d, h, h2⟩
          rw [hlook] at h
          cases h
          rw [hocc] at h2
          cases h2
        | some d =>
          have hdef : ∃ i p, Defines doc i .A n p := (main_iff hi n).1 ⟨info, d, hlook, hocc⟩
          have whole_here : ∀ m, Whole (pre ++ r :: rs) pre.length m ↔ m = n ∧ r.alt = false := by
            intro m
            constructor
            · rintro ⟨r', h1, h2, h3⟩
              rw [hr] at h1
              cases h1
              rw [hname] at h2
              cases h2
              exact ⟨rfl, h3⟩
            · rintro ⟨rfl, h⟩
              exact ⟨r, hr, hname, h⟩
          have lt_succ : ∀ (m : Str), (∃ j : Nat, j < pre.length + 1 ∧ Whole (pre ++ r :: rs) j m) ↔ m ∈ names ∨ (m = n ∧ r.alt = false) := by
            intro m
            rw [hn, ← whole_here]
            constructor
            · rintro ⟨j, hj, h⟩
              by_cases hjj : j = pre.length
              · subst hjj; exact Or.inr h
              · exact Or.inl ⟨j, by omega, h⟩
            · rintro (⟨j, hj, h⟩ | h)
              · exact ⟨j, by omega, h⟩
              · exact ⟨_, Nat.lt_succ_self _, h⟩
          cases halt : r.alt with
          | true =>
            by_cases hmem : n ∈ names
            · -- a reference to a part, after one to the whole
              have hl : refLoop t (r :: rs) names = refLoop t rs names := by
                simp only [refLoop, hname, hlook, hocc, halt, if_true, if_pos hmem]
              have hnot : StopsAt doc (pre ++ r :: rs) pre.length ↔ False := by
                simp only [iff_false]
                intro h
                cases h with
                | noName r' h1 h2 => rw [hr] at h1; cases h1; rw [hname] at h2; cases h2
                | undefinedNt r' n' h1 h2 h3 =>
                  rw [hr] at h1; cases h1; rw [hname] at h2; cases h2; exact h3 hdef
                | alone r' n' h1 h2 h3 h4 =>
                  rw [hr] at h1; cases h1; rw [hname] at h2; cases h2; exact h4 ((hn n).1 hmem)
              obtain ⟨i1, i2⟩ := ih (pre ++ [r]) names (by
                intro m
                rw [el, ← e, lt_succ, halt]
                simp)
              rw [← e, el] at i1
              rw [hl]
              refine ⟨?_, ?_⟩
              · rw [← stop_iff _ hnot _ i1]
                simp
              · intro second names' h
                obtain ⟨j1, ks, j2, j3, j4⟩ := i2 second names' h
                rw [← e] at j1 j3 j4
                refine ⟨j1, ks, j2, ?_, j4⟩
                intro j
                rw [j3, el]
                constructor
                · rintro ⟨h1, h2⟩; exact ⟨by omega, h2⟩
                · rintro ⟨h1, h2⟩
                  refine ⟨?_, h2⟩
                  rcases Nat.lt_or_ge pre.length j with h3 | h3
                  · omega
                  · have : j = pre.length := by omega
                    subst this
                    obtain ⟨m, hm, _⟩ := h2
                    rw [whole_here, halt] at hm
                    cases hm.2
            · refine here_none (.alone r n hr hname halt ?_) (by simp only [refLoop, hname, hlook, hocc, halt, if_true, if_neg hmem])
              rw [← hn]
              exact hmem
          | false =>
            have hl : refLoop t (r :: rs) names =
                (refLoop t rs (names ++ [n])).map (fun x => ((if n ∈ names then [r.pos] else []) ++ x.1, x.2)) := by
              simp only [refLoop, hname, hlook, hocc, halt, Bool.false_eq_true, if_false]
            have hnot : StopsAt doc (pre ++ r :: rs) pre.length ↔ False := by
              simp only [iff_false]
              intro h
              cases h with
              | noName r' h1 h2 => rw [hr] at h1; cases h1; rw [hname] at h2; cases h2
              | undefinedNt r' n' h1 h2 h3 =>
                rw [hr] at h1; cases h1; rw [hname] at h2; cases h2; exact h3 hdef
              | alone r' n' h1 h2 h3 h4 =>
                rw [hr] at h1; cases h1; rw [halt] at h3; cases h3
            obtain ⟨i1, i2⟩ := ih (pre ++ [r]) (names ++ [n]) (by
              intro m
              rw [el, ← e, lt_succ, halt]
              simp)
            rw [← e, el] at i1
            rw [hl]
            refine ⟨?_, ?_⟩
            · rw [Option.map_eq_none_iff, ← stop_iff _ hnot _ i1]
              simp
            · intro second names' h
              rw [Option.map_eq_some_iff] at h
              obtain ⟨⟨sec2, nam2⟩, h1, h2⟩ := h
              simp only [Prod.mk.injEq] at h2
              obtain ⟨rfl, rfl⟩ := h2
              obtain ⟨j1, ks, j2, j3, j4⟩ := i2 sec2 nam2 h1
              rw [← e] at j1 j3 j4
              rw [el] at j3
              have here_second : Second (pre ++ r :: rs) pre.length ↔ n ∈ names := by
                rw [hn]
                constructor
                · rintro ⟨m, hm, h⟩
                  rw [whole_here] at hm
                  rw [← hm.1]
                  exact h
                · intro h
                  exact ⟨n, (whole_here n).2 ⟨rfl, halt⟩, h⟩
              by_cases hmem : n ∈ names
              · refine ⟨j1, pre.length :: ks, List.pairwise_cons.2 ⟨?_, j2⟩, ?_, ?_⟩
                · intro j hj
                  have := ((j3 j).1 hj).1
                  omega
                · intro j
                  rw [List.mem_cons, j3]
                  constructor
                  · rintro (rfl | ⟨h1, h2⟩)
                    · exact ⟨Nat.le_refl _, here_second.2 hmem⟩
                    · exact ⟨by omega, h2⟩
                  · rintro ⟨h1, h2⟩
                    by_cases hjj : j = pre.length
                    · exact Or.inl hjj
                    · exact Or.inr ⟨by omega, h2⟩
                · rw [if_pos hmem, List.map_append, j4, List.map_cons (l := ks), hr]
                  rfl
              · refine ⟨j1, ks, j2, ?_, ?_⟩
                · intro j
                  rw [j3]
                  constructor
                  · rintro ⟨h1, h2⟩; exact ⟨by omega, h2⟩
                  · rintro ⟨h1, h2⟩
                    refine ⟨?_, h2⟩
                    by_cases hjj : j = pre.length
                    · subst hjj; exact absurd (here_second.1 h2) hmem
                    · omega
                · rw [if_neg hmem]
                  exact j4

/-! ## The productions without a reference -/

theorem mem_insertPair (x y : Nat × Str) (l : List (Nat × Str)) : y ∈ insertPair x l ↔ y = x ∨ y ∈ l := by
  induction l with
  | nil => simp [insertPair]
  | cons z l ih =>
    simp only [insertPair]
    split
    · simp
    · simp only [List.mem_cons, ih]
      constructor
      · rintro (h | h | h)
        · exact Or.inr (Or.inl h)
        · exact Or.inl h
        · exact Or.inr (Or.inr h)
      · rintro (h | h | h)
        · exact Or.inr (Or.inl h)
        · exact Or.inl h
        · exact Or.inr (Or.inr h)

theorem mem_sortPairs (y : Nat × Str) (l : List (Nat × Str)) : y ∈ sortPairs l ↔ y ∈ l := by
  induction l with
  | nil => simp [sortPairs]
  | cons x l ih => simp [sortPairs, mem_insertPair, ih]

theorem pairLt_iff (a b : Nat × Str) : pairLt a b = true ↔ a.1 < b.1 ∨ (a.1 = b.1 ∧ Defs.strLt a.2 b.2 = true) := by
  simp [pairLt]

theorem pairLt_trans {a b c : Nat × Str} (h1 : pairLt a b = true) (h2 : pairLt b c = true) : pairLt a c = true := by
  rw [pairLt_iff] at *
  rcases h1 with h1 | ⟨h1, h1'⟩
  · rcases h2 with h2 | ⟨h2, _⟩
    · exact Or.inl (by omega)
    · exact Or.inl (by omega)
  · rcases h2 with h2 | ⟨h2, h2'⟩
    · exact Or.inl (by omega)
    · exact Or.inr ⟨by omega, Defs.strLt_trans _ _ _ h1' h2'⟩

theorem pairLt_total {a b : Nat × Str} (h : a ≠ b) (h1 : pairLt a b = false) : pairLt b a = true := by
  have h1' : ¬(pairLt a b = true) := by rw [h1]; simp
  rw [pairLt_iff] at h1' ⊢
  by_cases e : a.1 = b.1
  · have hne : a.2 ≠ b.2 := fun e2 => h (Prod.ext e e2)
    refine Or.inr ⟨e.symm, Defs.strLt_total _ _ hne ?_⟩
    cases hs : Defs.strLt a.2 b.2 with
    | false => rfl
    | true => exact absurd (Or.inr ⟨e, hs⟩) h1'
  · exact Or.inl (by omega)

theorem sorted_insertPair (x : Nat × Str) (l : List (Nat × Str)) (h : l.Pairwise (fun a b => pairLt a b = true)) (hx : x ∉ l) :
    (insertPair x l).Pairwise (fun a b => pairLt a b = true) := by
  induction l with
  | nil => simp [insertPair]
  | cons y l ih =>
    rw [List.pairwise_cons] at h
    simp only [List.mem_cons, not_or] at hx
    simp only [insertPair]
    split
    · rename_i hxy
      refine List.pairwise_cons.2 ⟨?_, List.pairwise_cons.2 h⟩
      intro z hz
      rcases List.mem_cons.1 hz with rfl | hz
      · exact hxy
      · exact pairLt_trans hxy (h.1 z hz)
    · rename_i hxy
      refine List.pairwise_cons.2 ⟨?_, ih h.2 hx.2⟩
      intro z hz
      rw [mem_insertPair] at hz
      rcases hz with rfl | hz
      · exact pairLt_total hx.1 (by simpa using hxy)
      · exact h.1 z hz

theorem sorted_sortPairs (l : List (Nat × Str)) (h : l.Nodup) : (sortPairs l).Pairwise (fun a b => pairLt a b = true) := by
  induction l with
  | nil => simp [sortPairs]
  | cons x l ih =>
    rw [List.nodup_cons] at h
    exact sorted_insertPair x _ (ih h.2) (by rw [mem_sortPairs]; exact h.1)

theorem nodup_mainNames (t : Table) (h : (t.map (·.1)).Nodup) : (mainNames t).Nodup := by
  have : (mainNames t).map (·.2) |>.Sublist (t.map (·.1)) := by
    unfold mainNames
    clear h
    induction t with
    | nil => simp
    | cons x t ih =>
      rw [List.filterMap_cons]
      cases h : x.2.occs.lookup .A with
      | none =>
        simp only [Option.map_none, List.map_cons]
        exact ih.cons _
      | some d =>
        simp only [Option.map_some, List.map_cons]
        exact ih.cons_cons _
  have := this.nodup h
  unfold List.Nodup at this ⊢
  rw [List.pairwise_map] at this
  refine this.imp ?_
  intro a b h e
  exact h (by rw [e])

theorem mem_mainNames (hi : Inv (prodns doc) k t) (p : Nat) (n : Str) :
    (p, n) ∈ mainNames t ↔ ∃ i q, Defines doc i .A n q ∧ q.lhs.pos = p := by
  simp only [mainNames, List.mem_filterMap, Option.map_eq_some_iff, Prod.mk.injEq]
  constructor
  · rintro ⟨⟨n', info⟩, hm, d, hd, h1, h2⟩
    simp only at h2 hd
    subst h2
    rw [Defs.mem_iff_lookup t hi.nodup] at hm
    obtain ⟨s, q, rs, _, _, h3, h4⟩ := Defs.occ_some hi hm hd
    refine ⟨_, q, h4, ?_⟩
    rw [← h1, h3]
    rfl
  · rintro ⟨i, q, hd, rfl⟩
    obtain ⟨info, d, h1, h2⟩ := (main_iff hi n).2 ⟨i, q, hd⟩
    refine ⟨(n, info), (Defs.mem_iff_lookup t hi.nodup n info).2 h1, d, h2, ?_, rfl⟩
    obtain ⟨s, q', rs, _, _, h3, h4⟩ := Defs.occ_some hi h1 h2
    obtain ⟨_, rfl⟩ := Defs.once_of_inv hi hd h4
    rw [h3]
    rfl

end Verif.Refs
