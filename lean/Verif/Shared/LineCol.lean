import Verif.Shared.Spec
/-! # Lemmas for positions -/
namespace Verif.Shared

theorem nlPosns_get (text : List Char) : ∀ (k i : Nat) (p : Int),
    (nlPosns text k)[i]? = some p →
    ∃ q : Nat, p = ((k + q : Nat) : Int) ∧ text[q]? = some '\n' ∧ (text.take q).count '\n' = i := by
  induction text with
  | nil => intro k i p h; simp [nlPosns] at h
  | cons c cs ih =>
    intro k i p h
    simp only [nlPosns] at h
    split at h
    · rename_i hc
      cases i with
      | zero =>
        simp at h
        exact ⟨0, by simp [h], by simp [hc], by simp⟩
      | succ i =>
        simp at h
        obtain ⟨q, h1, h2, h3⟩ := ih _ _ _ h
        refine ⟨q + 1, ?_, by simpa using h2, ?_⟩
        · rw [h1]; omega
        · simp [hc, h3]
    · rename_i hc
      obtain ⟨q, h1, h2, h3⟩ := ih _ _ _ h
      refine ⟨q + 1, ?_, by simpa using h2, ?_⟩
      · rw [h1]; omega
      · simp [List.count_cons, hc, h3]

theorem nlPosns_of_nl (text : List Char) : ∀ (k j : Nat),
    text[j]? = some '\n' →
    (nlPosns text k)[(text.take j).count '\n']? = some ((k + j : Nat) : Int) := by
  induction text with
  | nil => intro k j h; simp at h
  | cons c cs ih =>
    intro k j h
    simp only [nlPosns]
    cases j with
    | zero =>
      simp at h; subst h; simp
    | succ j =>
      simp at h
      have := ih (k + 1) j h
      by_cases hc : c = '\n'
      · simp [hc, this]; omega
      · simp [hc, List.count_cons, this]; omega

theorem nlPosns_length (text : List Char) (k : Nat) :
    (nlPosns text k).length = text.count '\n' := by
  induction text generalizing k with
  | nil => simp [nlPosns]
  | cons c cs ih =>
    simp only [nlPosns, List.count_cons]
    split <;> rename_i hc <;> simp [ih, hc]

theorem count_take_mono (text : List Char) (a b : Nat) (h : a ≤ b) :
    (text.take a).count '\n' ≤ (text.take b).count '\n' := by
  have : text.take a = (text.take b).take a := by
    rw [List.take_take, Nat.min_eq_left h]
  rw [this]
  exact (List.take_sublist a _).count_le _

theorem count_take_succ (text : List Char) (q : Nat) (h : text[q]? = some '\n') :
    (text.take (q + 1)).count '\n' = (text.take q).count '\n' + 1 := by
  rw [List.take_add_one, h]; simp

/-- Entries of `newlinePosns` are strictly increasing. -/
theorem np_lt (text : List Char) (i j : Nat) (p q : Int) (hij : i < j)
    (hi : (newlinePosns text)[i]? = some p) (hj : (newlinePosns text)[j]? = some q) : p < q := by
  simp only [newlinePosns] at hi hj
  obtain ⟨j, rfl⟩ : ∃ j', j = j' + 1 := ⟨j - 1, by omega⟩
  simp at hj
  obtain ⟨b, hb1, hb2, hb3⟩ := nlPosns_get _ _ _ _ hj
  cases i with
  | zero => simp at hi; omega
  | succ i =>
    simp at hi
    obtain ⟨a, ha1, ha2, ha3⟩ := nlPosns_get _ _ _ _ hi
    have : a < b := by
      by_cases h : a < b
      · exact h
      · have := count_take_mono text b a (by omega); omega
    omega

theorem takeWhile_reverse_append {l r : List Char} (h : r.count '\n' = 0) :
    ((l ++ r).reverse.takeWhile (· ≠ '\n')).length
      = r.length + (l.reverse.takeWhile (· ≠ '\n')).length := by
  rw [List.reverse_append]
  have : ∀ c ∈ r.reverse, (fun c => decide (c ≠ '\n')) c = true := by
    intro c hc
    simp at hc ⊢
    intro e; subst e
    exact (List.count_eq_zero.1 h) hc
  rw [List.takeWhile_append_of_pos this]
  simp

/-- A bracket of adjacent newline positions pins down the line and the column. -/
theorem bracket_spec (text : List Char) (lo : Nat) (plo phi : Int) (p : Int)
    (h1 : (newlinePosns text)[lo]? = some plo) (h2 : (newlinePosns text)[lo + 1]? = some phi)
    (h3 : plo < p) (h4 : p ≤ phi) :
    0 ≤ p ∧ OnTerminatedLine text p.toNat ∧ lo + 1 = specLine text p.toNat ∧
      p - plo = (specCol text p.toNat : Int) := by
  simp only [newlinePosns] at h1 h2
  simp at h2
  obtain ⟨b, hb1, hb2, hb3⟩ := nlPosns_get _ _ _ _ h2
  have hblen : b < text.length := by
    rcases List.getElem?_eq_some_iff.1 hb2 with ⟨h, _⟩; exact h
  have hp0 : 0 ≤ p := by
    cases lo with
    | zero => simp at h1; omega
    | succ i =>
      simp at h1
      obtain ⟨a, ha1, _, _⟩ := nlPosns_get _ _ _ _ h1
      omega
  obtain ⟨n, rfl⟩ := Int.eq_ofNat_of_zero_le hp0
  refine ⟨hp0, ⟨b, by simp at *; omega, hb2⟩, ?_⟩
  simp only [Int.toNat_natCast, specLine, specCol]
  have hnb : n ≤ b := by omega
  have hle := count_take_mono text n b hnb
  cases lo with
  | zero =>
    simp at h1
    have hc : (text.take n).count '\n' = 0 := by omega
    refine ⟨by omega, ?_⟩
    have := takeWhile_reverse_append (l := []) hc
    simp only [List.nil_append] at this
    rw [this]; simp; omega
  | succ i =>
    simp at h1
    obtain ⟨a, ha1, ha2, ha3⟩ := nlPosns_get _ _ _ _ h1
    have hs := count_take_succ text a ha2
    have han : a + 1 ≤ n := by omega
    have hge := count_take_mono text (a + 1) n han
    refine ⟨by omega, ?_⟩
    have hsplit : text.take n = text.take (a + 1) ++ (text.drop (a + 1)).take (n - (a + 1)) := by
      rw [← List.take_add]; congr 1; omega
    have hc0 : ((text.drop (a + 1)).take (n - (a + 1))).count '\n' = 0 := by
      have := congrArg (List.count '\n') hsplit
      rw [List.count_append] at this; omega
    rw [hsplit, takeWhile_reverse_append hc0, List.take_add_one, ha2]
    simp
    omega

theorem bisect_spec (text : List Char) (p : Int) : ∀ (n lo hi : Nat), hi - lo = n →
    lo < hi →
    (∃ plo phi, (newlinePosns text)[lo]? = some plo ∧ (newlinePosns text)[hi]? = some phi ∧
      plo < p ∧ p ≤ phi) →
    bisect text (newlinePosns text) p lo hi
      = some (specLine text p.toNat, (specCol text p.toNat : Int)) := by
  intro n
  induction n using Nat.strongRecOn with
  | ind n ih =>
    intro lo hi hn hlt ⟨plo, phi, h1, h2, h3, h4⟩
    rw [bisect]
    simp only [hlt, dite_true, h1, h2, h3, h4, and_self, ite_true]
    split
    · rename_i heq
      subst heq
      have := bracket_spec text lo plo phi p h1 h2 h3 h4
      simp [this]
    · rename_i hne
      have hm1 : lo < (lo + hi) / 2 := by omega
      have hm2 : (lo + hi) / 2 < hi := by omega
      generalize hmid : (lo + hi) / 2 = mid at *
      have hlen : hi < (newlinePosns text).length := (List.getElem?_eq_some_iff.1 h2).1
      obtain ⟨pm, hpm⟩ : ∃ pm, (newlinePosns text)[mid]? = some pm :=
        ⟨_, List.getElem?_eq_getElem (by omega)⟩
      simp only [hpm]
      split
      · exact ih (hi - mid) (by omega) mid hi rfl (by omega) ⟨pm, phi, hpm, h2, by assumption, h4⟩
      · split
        · exact ih (mid - lo) (by omega) lo mid rfl (by omega) ⟨plo, pm, h1, hpm, h3, by omega⟩
        · have hpe : p = pm := by omega
          obtain ⟨m, rfl⟩ : ∃ m, mid = m + 1 := ⟨mid - 1, by omega⟩
          have hnl : text[p.toNat]? = some '\n' := by
            have hpm' := hpm
            simp [newlinePosns] at hpm'
            obtain ⟨b, hb1, hb2, _⟩ := nlPosns_get _ _ _ _ hpm'
            rw [hpe, hb1]; simpa using hb2
          rw [if_pos hnl]
          obtain ⟨pq, hpq⟩ : ∃ pq, (newlinePosns text)[m]? = some pq :=
            ⟨_, List.getElem?_eq_getElem (by omega)⟩
          refine ih 1 (by omega) (m + 1 - 1) (m + 1) (by omega) (by omega) ⟨pq, pm, by simpa using hpq, hpm, ?_, by omega⟩
          rw [hpe]; exact np_lt text m (m + 1) _ _ (by omega) hpq hpm

theorem convert_ok (text : List Char) (n : Nat) (h : OnTerminatedLine text n) :
    convertPosnToLinecol text n = some (specLine text n, (specCol text n : Int)) := by
  obtain ⟨j, hj1, hj2⟩ := h
  unfold convertPosnToLinecol
  have hcnt := nlPosns_of_nl text 0 j hj2
  have hlt : (text.take j).count '\n' < (nlPosns text 0).length :=
    (List.getElem?_eq_some_iff.1 hcnt).1
  have hlen : (newlinePosns text).length = (nlPosns text 0).length + 1 := by simp [newlinePosns]
  have := bisect_spec text n _ 0 ((newlinePosns text).length - 1) rfl (by omega)
  simp only [Int.toNat_natCast] at this
  apply this
  refine ⟨-1, (newlinePosns text)[(newlinePosns text).length - 1]'(by omega), by simp [newlinePosns],
    List.getElem?_eq_getElem (by omega), by omega, ?_⟩
  have hj' : (newlinePosns text)[(text.take j).count '\n' + 1]? = some (j : Int) := by
    simp [newlinePosns, hcnt]
  by_cases hc : (text.take j).count '\n' + 1 = (newlinePosns text).length - 1
  · have h5 : (newlinePosns text)[(newlinePosns text).length - 1]? = some (j : Int) := hc ▸ hj'
    rw [List.getElem?_eq_getElem (by omega)] at h5
    injection h5 with h5
    omega
  · have := np_lt text _ ((newlinePosns text).length - 1) _ _ (by omega) hj'
      (List.getElem?_eq_getElem (by omega))
    omega

/-- Whatever the bisection returns comes from a genuine bracket. -/
theorem bisect_sound (text : List Char) (p : Int) (r : Nat × Int) : ∀ (n lo hi : Nat), hi - lo = n →
    bisect text (newlinePosns text) p lo hi = some r →
    ∃ (k : Nat) (plo phi : Int), (newlinePosns text)[k]? = some plo ∧ (newlinePosns text)[k+1]? = some phi ∧
      plo < p ∧ p ≤ phi := by
  intro n
  induction n using Nat.strongRecOn with
  | ind n ih =>
    intro lo hi hn h
    rw [bisect] at h
    split at h
    · rename_i hlt
      split at h
      · rename_i plo phi h1 h2
        split at h
        · rename_i h34
          split at h
          · rename_i heq; subst heq
            exact ⟨lo, plo, phi, h1, h2, h34.1, h34.2⟩
          · rename_i hne
            dsimp only at h
            split at h
            · split at h
              · exact ih (hi - (lo + hi) / 2) (by omega) _ _ rfl h
              · split at h
                · exact ih ((lo + hi) / 2 - lo) (by omega) _ _ rfl h
                · split at h
                  · exact ih ((lo + hi) / 2 - ((lo + hi) / 2 - 1)) (by omega) _ _ rfl h
                  · cases h
            · cases h
        · cases h
      · cases h
    · cases h

theorem convert_some (text : List Char) (p : Int) (r : Nat × Int)
    (h : convertPosnToLinecol text p = some r) :
    0 ≤ p ∧ OnTerminatedLine text p.toNat := by
  obtain ⟨k, plo, phi, h1, h2, h3, h4⟩ := bisect_sound text p r _ _ _ rfl h
  have := bracket_spec text k plo phi p h1 h2 h3 h4
  exact ⟨this.1, this.2.1⟩

/-- Line number `L` of a terminated line brackets the offset. -/
theorem bracket_of_terminated (text : List Char) (n : Nat) (h : OnTerminatedLine text n) :
    ∃ (k : Nat) (plo phi : Int), (newlinePosns text)[k]? = some plo ∧ (newlinePosns text)[k+1]? = some phi ∧
      plo < n ∧ (n : Int) ≤ phi ∧ specLine text n = k + 1 := by
  have h0 := convert_ok text n h
  obtain ⟨k, plo, phi, h1, h2, h3, h4⟩ := bisect_sound text n _ _ _ _ rfl h0
  have := bracket_spec text k plo phi n h1 h2 h3 h4
  exact ⟨k, plo, phi, h1, h2, h3, h4, by simpa using this.2.2.1.symm⟩

end Verif.Shared
