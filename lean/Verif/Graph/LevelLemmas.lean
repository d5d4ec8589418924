import Verif.Graph.SccLemmas
/-! # Dependency levels -/
set_option linter.unusedSectionVars false
namespace Verif.Graph
variable {V : Type} [DecidableEq V]

theorem scanDeps_ok (cl : V → Option Nat) (succ : V → List V) (i : Nat) (members : List V)
    (h : ∀ x ∈ members, ∀ w ∈ succ x, cl w ≠ none) :
    ∃ cyc pre, scanDeps cl succ i members = some (cyc, pre) ∧ pre.Nodup ∧
      (cyc = true ↔ ∃ x ∈ members, ∃ w ∈ succ x, cl w = some i) ∧
      (∀ j, j ∈ pre ↔ j ≠ i ∧ ∃ x ∈ members, ∃ w ∈ succ x, cl w = some j) := by
  have key : ∀ (ps : List V) (c0 : Bool) (p0 : List Nat), (∀ w ∈ ps, cl w ≠ none) → p0.Nodup →
      ∃ cyc pre, ps.foldlM (fun (s : Bool × List Nat) p =>
        match cl p with
        | none => none
        | some j => if j = i then some (true, s.2) else some (s.1, if j ∈ s.2 then s.2 else s.2 ++ [j]))
        (c0, p0) = some (cyc, pre) ∧ pre.Nodup ∧
        (cyc = true ↔ c0 = true ∨ ∃ w ∈ ps, cl w = some i) ∧
        (∀ j, j ∈ pre ↔ j ∈ p0 ∨ (j ≠ i ∧ ∃ w ∈ ps, cl w = some j)) := by
    intro ps
    induction ps with
    | nil => intro c0 p0 _ hn; exact ⟨c0, p0, rfl, hn, by simp, by simp⟩
    | cons p ps ih =>
      intro c0 p0 h hn
      cases hp : cl p with
      | none => exact absurd hp (h p (by simp))
      | some k =>
        by_cases hk : k = i
        · obtain ⟨cyc, pre, h1, h2, h3, h4⟩ := ih true p0 (fun w hw => h w (by simp [hw])) hn
          refine ⟨cyc, pre, ?_, h2, ?_, ?_⟩
          · rw [List.foldlM_cons]; simp only [hp, hk, if_true]; exact h1
          · rw [h3]; simp [hp, hk]
          · intro j; rw [h4 j]
            simp only [List.mem_cons, exists_eq_or_imp, hp, Option.some.injEq]
            constructor
            · rintro (h | ⟨h, h'⟩)
              · exact .inl h
              · exact .inr ⟨h, .inr h'⟩
            · rintro (h | ⟨h, rfl | h'⟩)
              · exact .inl h
              · exact absurd hk h
              · exact .inr ⟨h, h'⟩
        · obtain ⟨cyc, pre, h1, h2, h3, h4⟩ := ih c0 (if k ∈ p0 then p0 else p0 ++ [k])
            (fun w hw => h w (by simp [hw])) (by
              split
              · exact hn
              · rename_i hk'
                rw [List.nodup_append]
                refine ⟨hn, by simp, ?_⟩
                rintro a ha b hb rfl
                rw [List.mem_singleton] at hb
                subst hb; exact hk' ha)
          have hmem : ∀ j, j ∈ (if k ∈ p0 then p0 else p0 ++ [k]) ↔ j ∈ p0 ∨ j = k := by
            intro j
            split
            · constructor
              · exact .inl
              · rintro (h | rfl) <;> assumption
            · simp
          refine ⟨cyc, pre, ?_, h2, ?_, ?_⟩
          · rw [List.foldlM_cons]; simp only [hp, hk, if_false]; exact h1
          · rw [h3]; simp [hp, hk]
          · intro j; rw [h4 j, hmem j]
            simp only [List.mem_cons, exists_eq_or_imp, hp, Option.some.injEq]
            constructor
            · rintro ((h | rfl) | ⟨h, h'⟩)
              · exact .inl h
              · exact .inr ⟨hk, .inl rfl⟩
              · exact .inr ⟨h, .inr h'⟩
            · rintro (h | ⟨h, rfl | h'⟩)
              · exact .inl (.inl h)
              · exact .inl (.inr rfl)
              · exact .inr ⟨h, h'⟩
  obtain ⟨cyc, pre, h1, h2, h3, h4⟩ := key (members.flatMap succ) false [] (by
    intro w hw
    obtain ⟨x, hx, hw⟩ := List.mem_flatMap.1 hw
    exact h x hx w hw) List.nodup_nil
  refine ⟨cyc, pre, h1, h2, ?_, ?_⟩
  · rw [h3]
    simp only [List.mem_flatMap, Bool.false_eq_true, false_or]
    constructor
    · rintro ⟨w, ⟨x, hx, hw⟩, e⟩; exact ⟨x, hx, w, hw, e⟩
    · rintro ⟨x, hx, w, hw, e⟩; exact ⟨w, ⟨x, hx, hw⟩, e⟩
  · intro j; rw [h4 j]
    simp only [List.mem_flatMap, List.not_mem_nil, false_or]
    constructor
    · rintro ⟨hj, w, ⟨x, hx, hw⟩, e⟩; exact ⟨hj, x, hx, w, hw, e⟩
    · rintro ⟨hj, x, hx, w, hw, e⟩; exact ⟨hj, w, ⟨x, hx, hw⟩, e⟩

/-- Invariant of `establish_dependency_levels`. -/
structure LInv (pre : List (List Nat)) (st : LevelSt) : Prop where
  len : st.levelOf.length = pre.length
  nonempty : ∀ l ∈ st.levels, l ≠ []
  mem : ∀ (i L : Nat), (∃ l, st.levels[L]? = some l ∧ i ∈ l) ↔ st.levelOf[i]? = some L
  nodup : ∀ l ∈ st.levels, l.Nodup
  lev : ∀ (i : Nat) ps L, pre[i]? = some ps → st.levelOf[i]? = some L →
    (∀ j ∈ ps, ∃ L', st.levelOf[j]? = some L' ∧ L' < L) ∧
    (L ≠ 0 → ∃ j ∈ ps, st.levelOf[j]? = some (L - 1))

theorem levelStep_ok {pre st} (h : LInv pre st) (ps : List Nat) (hps : ∀ j ∈ ps, j < pre.length) :
    ∃ st', levelStep st ps = some st' ∧ LInv (pre ++ [ps]) st' := by
  -- the level
  have hlev : ∃ L, levelFor st.levelOf ps = some L ∧ (∀ j ∈ ps, ∃ L', st.levelOf[j]? = some L' ∧ L' < L) ∧
      (L ≠ 0 → ∃ j ∈ ps, st.levelOf[j]? = some (L - 1)) ∧ L ≤ st.levels.length := by
    cases ps with
    | nil => exact ⟨0, rfl, by simp, by simp, Nat.zero_le _⟩
    | cons p ps =>
      obtain ⟨bs, h1, h2, h3⟩ := mapM_some (f := fun j => st.levelOf[j]?) (l := p :: ps) (by
        intro j hj
        have := hps j hj
        rw [← h.len] at this
        exact ⟨_, List.getElem?_eq_getElem this⟩)
      obtain ⟨⟨_, hmax⟩, hin⟩ := foldl_max_spec bs 0
      have hin' : bs.foldl max 0 ∈ bs := by
        rcases hin with hin | hin
        · cases bs with
          | nil => simp at h2
          | cons b bs' =>
            have := hmax b (by simp)
            rw [hin] at this ⊢
            have : b = 0 := by omega
            subst this; simp
        · exact hin
      obtain ⟨k, hk, hk2⟩ := List.mem_iff_getElem.1 hin'
      have hk' : k < (p :: ps).length := by omega
      have hkey : st.levelOf[(p :: ps)[k]]? = some (bs.foldl max 0) := by
        obtain ⟨b, hb1, hb2⟩ := h3 k _ (List.getElem?_eq_getElem hk')
        rw [List.getElem?_eq_getElem hk, hk2] at hb1
        injection hb1 with hb1
        rw [hb2, hb1]
      refine ⟨1 + bs.foldl max 0, by simp only [levelFor, h1], ?_, ?_, ?_⟩
      · intro j hj
        obtain ⟨k', hk1, hk2⟩ := List.mem_iff_getElem.1 hj
        obtain ⟨b, hb1, hb2⟩ := h3 k' j (by rw [List.getElem?_eq_getElem hk1, hk2])
        have := hmax b (List.mem_of_getElem? hb1)
        exact ⟨b, hb2, by omega⟩
      · intro _
        exact ⟨_, List.getElem_mem hk', by rw [hkey]; congr 1; omega⟩
      · obtain ⟨l, hl, _⟩ := (h.mem _ _).2 hkey
        have := (List.getElem?_eq_some_iff.1 hl).1
        omega
  obtain ⟨L, hL, hlt, hex, hle⟩ := hlev
  have hold : ∀ j, j < pre.length → (st.levelOf ++ [L])[j]? = st.levelOf[j]? := by
    intro j hj; rw [List.getElem?_append_left]; rw [h.len]; exact hj
  have holdsome : ∀ j L', st.levelOf[j]? = some L' → j < pre.length := by
    intro j L' hj; rw [← h.len]; exact (List.getElem?_eq_some_iff.1 hj).1
  have hlev' : ∀ (i : Nat) qs L', (pre ++ [ps])[i]? = some qs → (st.levelOf ++ [L])[i]? = some L' →
      (∀ j ∈ qs, ∃ L'', (st.levelOf ++ [L])[j]? = some L'' ∧ L'' < L') ∧
      (L' ≠ 0 → ∃ j ∈ qs, (st.levelOf ++ [L])[j]? = some (L' - 1)) := by
    intro i qs L' h1 h2
    have lift : ∀ (j : Nat) L'', st.levelOf[j]? = some L'' → (st.levelOf ++ [L])[j]? = some L'' := by
      intro j L'' hj; rw [hold j (holdsome j L'' hj), hj]
    rcases Nat.lt_or_ge i pre.length with hi | hi
    · rw [List.getElem?_append_left hi] at h1
      rw [hold i hi] at h2
      obtain ⟨h3, h4⟩ := h.lev i qs L' h1 h2
      refine ⟨fun j hj => ?_, fun hn => ?_⟩
      · obtain ⟨L'', h5, h6⟩ := h3 j hj; exact ⟨L'', lift j L'' h5, h6⟩
      · obtain ⟨j, h5, h6⟩ := h4 hn; exact ⟨j, h5, lift j _ h6⟩
    · have hi' : i = pre.length := by
        have := (List.getElem?_eq_some_iff.1 h1).1; simp at this; omega
      subst hi'
      rw [List.getElem?_append_right (Nat.le_refl _)] at h1
      rw [List.getElem?_append_right (by rw [h.len]; exact Nat.le_refl _)] at h2
      rw [h.len] at h2
      simp at h1 h2
      subst h1; subst h2
      refine ⟨fun j hj => ?_, fun hn => ?_⟩
      · obtain ⟨L'', h5, h6⟩ := hlt j hj; exact ⟨L'', lift j L'' h5, h6⟩
      · obtain ⟨j, h5, h6⟩ := hex hn; exact ⟨j, h5, lift j _ h6⟩
  have hnotin : ∀ l ∈ st.levels, pre.length ∉ l := by
    intro l hl hm
    obtain ⟨k, hk1, hk2⟩ := List.mem_iff_getElem.1 hl
    have := (h.mem pre.length k).1 ⟨l, by rw [List.getElem?_eq_getElem hk1, hk2], hm⟩
    have := holdsome _ _ this
    omega
  have hlevel : ∀ i L', (st.levelOf ++ [L])[i]? = some L' ↔
      st.levelOf[i]? = some L' ∨ (i = pre.length ∧ L' = L) := by
    intro i L'
    rw [List.getElem?_append, h.len]
    split
    · constructor
      · exact .inl
      · rintro (h | ⟨h, _⟩)
        · exact h
        · omega
    · rw [List.getElem?_singleton]
      constructor
      · intro hh
        split at hh
        · injection hh with hh; right; exact ⟨by omega, hh.symm⟩
        · cases hh
      · rintro (hh | ⟨rfl, rfl⟩)
        · have := holdsome _ _ hh; omega
        · simp
  unfold levelStep
  dsimp only
  rw [hL]
  dsimp only
  by_cases hcase : L < st.levels.length
  · rw [if_pos hcase]
    refine ⟨_, rfl, by simp [h.len], ?_, ?_, ?_, hlev'⟩
    · intro l hl
      dsimp only at hl
      rw [List.mem_iff_getElem?] at hl
      obtain ⟨k, hk⟩ := hl
      rw [List.getElem?_modify] at hk
      cases hx : st.levels[k]? with
      | none => rw [hx] at hk; simp at hk
      | some l0 =>
        rw [hx] at hk
        simp only [Option.map_eq_map, Option.map_some, Option.some.injEq] at hk
        have := h.nonempty l0 (List.mem_of_getElem? hx)
        split at hk <;> · subst hk; simp [this]
    · intro i L'
      dsimp only
      rw [hlevel i L', ← h.mem i L', List.getElem?_modify]
      cases hx : st.levels[L']? with
      | none =>
        have : L' ≠ L := by
          rintro rfl; rw [List.getElem?_eq_getElem hcase] at hx; cases hx
        simp [this]
      | some l0 =>
        simp only [Option.map_eq_map, Option.map_some, Option.some.injEq, exists_eq_left']
        split
        · rename_i heq
          subst heq
          simp [h.len]
        · rename_i hne
          constructor
          · exact .inl
          · rintro (hh | ⟨_, rfl⟩)
            · exact hh
            · exact absurd rfl hne
    · intro l hl
      dsimp only at hl
      rw [List.mem_iff_getElem?] at hl
      obtain ⟨k, hk⟩ := hl
      rw [List.getElem?_modify] at hk
      cases hx : st.levels[k]? with
      | none => rw [hx] at hk; simp at hk
      | some l0 =>
        rw [hx] at hk
        simp only [Option.map_eq_map, Option.map_some, Option.some.injEq] at hk
        have hm := List.mem_of_getElem? hx
        split at hk
        · subst hk
          rw [List.nodup_append]
          refine ⟨h.nodup l0 hm, by simp, ?_⟩
          rintro a ha b hb rfl
          rw [List.mem_singleton, h.len] at hb
          subst hb; exact hnotin l0 hm ha
        · subst hk; exact h.nodup _ hm
  · have hLeq : L = st.levels.length := by omega
    rw [if_neg hcase, if_pos hLeq]
    refine ⟨_, rfl, by simp [h.len], ?_, ?_, ?_, hlev'⟩
    · intro l hl
      rcases List.mem_append.1 hl with hl | hl
      · exact h.nonempty l hl
      · rw [List.mem_singleton.1 hl]; simp
    · intro i L'
      dsimp only
      rw [hlevel i L', ← h.mem i L', List.getElem?_append]
      split
      · constructor
        · exact .inl
        · rintro (hh | ⟨_, rfl⟩)
          · exact hh
          · omega
      · rw [List.getElem?_singleton]
        have hnone : st.levels[L']? = none := List.getElem?_eq_none (by omega)
        rw [hnone]
        split
        · simp [h.len]; intro _; omega
        · simp; intro _; omega
    · intro l hl
      rcases List.mem_append.1 hl with hl | hl
      · exact h.nodup l hl
      · rw [List.mem_singleton.1 hl]; simp

theorem levels_ok : ∀ (rest pre : List (List Nat)) (st : LevelSt), LInv pre st →
    (∀ (i : Nat) ps, (pre ++ rest)[i]? = some ps → ∀ j ∈ ps, j < i) →
    ∃ st', rest.foldlM levelStep st = some st' ∧ LInv (pre ++ rest) st' := by
  intro rest
  induction rest with
  | nil => intro pre st h _; exact ⟨st, rfl, by simpa using h⟩
  | cons ps rest ih =>
    intro pre st h hp
    obtain ⟨st1, h1, h2⟩ := levelStep_ok h ps (by
      intro j hj
      exact hp pre.length ps (by simp) j hj)
    obtain ⟨st2, h3, h4⟩ := ih (pre ++ [ps]) st1 h2 (by simpa using hp)
    exact ⟨st2, by rw [List.foldlM_cons, h1]; exact h3, by simpa using h4⟩

end Verif.Graph
