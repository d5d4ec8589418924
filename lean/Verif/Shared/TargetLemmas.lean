import Verif.Shared.MsgLemmas
import Verif.Shared.Splice
/-! # Lemmas for targeted messages -/
namespace Verif.Shared

theorem slice_shift {α} (pre rest : List α) (a b : Nat) :
    slice (pre ++ rest) (pre.length + a) (pre.length + b) = slice rest a b := by
  unfold slice
  rw [List.take_length_add_append, List.drop_append]
  simp

theorem lineInfos_slices : ∀ (ls : List (List Char)) (pre : List Char), ls ≠ [] →
    (lineInfosFrom ls pre.length).map (fun i => slice (pre ++ ['\n'].intercalate ls) i.start i.stop)
      = (if ls.getLast? = some [] then ls.dropLast else ls) := by
  intro ls
  induction ls with
  | nil => intro pre h; exact absurd rfl h
  | cons l ls ih =>
    intro pre _
    cases ls with
    | nil =>
      simp only [lineInfosFrom]
      by_cases hl : l = []
      · simp [hl]
      · simp only [hl, if_false, List.map_cons, List.map_nil, List.getLast?_singleton]
        have := slice_shift pre l 0 l.length
        simp only [Nat.add_zero] at this
        rw [List.intercalate_singleton, this]
        simp [slice, hl]
    | cons l' ls' =>
      simp only [lineInfosFrom, List.map_cons]
      have h1 : slice (pre ++ ['\n'].intercalate (l :: l' :: ls')) pre.length (pre.length + l.length) = l := by
        have := slice_shift pre (['\n'].intercalate (l :: l' :: ls')) 0 l.length
        simp only [Nat.add_zero] at this
        rw [this, List.intercalate_cons_cons]
        simp [slice]
      have h2 := ih (pre ++ l ++ ['\n']) (by simp)
      have hlen : (pre ++ l ++ ['\n']).length = pre.length + l.length + 1 := by simp; omega
      rw [hlen] at h2
      have h3 : pre ++ l ++ ['\n'] ++ ['\n'].intercalate (l' :: ls')
          = pre ++ ['\n'].intercalate (l :: l' :: ls') := by
        rw [List.intercalate_cons_cons]; simp
      rw [h3] at h2
      rw [h1, h2]
      simp only [List.getLast?_cons_cons, List.dropLast_cons₂]
      split <;> simp

theorem prep_slices (text : List Char) :
    (prepForLineInfo text).map (fun i => slice text i.start i.stop) = (if (splitLines text).getLast? = some [] then (splitLines text).dropLast else splitLines text) := by
  have := lineInfos_slices (splitLines text) [] (splitLines_ne text)
  simp only [List.nil_append, List.length_nil] at this
  rw [(splitLines_spec text).2.1] at this
  exact this

theorem lineInfosFrom_targeted (ls : List (List Char)) (k : Nat) :
    ∀ i ∈ lineInfosFrom ls k, i.targeted = [] := by
  induction ls generalizing k with
  | nil => simp [lineInfosFrom]
  | cons l ls ih =>
    cases ls with
    | nil =>
      simp only [lineInfosFrom]
      split <;> simp
    | cons l' ls' =>
      intro i hi
      simp only [lineInfosFrom] at hi
      rcases List.mem_cons.1 hi with rfl | hi
      · rfl
      · exact ih _ i hi

/-- A line that is terminated by a newline has an entry. -/
theorem terminated_line_lt (text : List Char) (n : Nat) (h : OnTerminatedLine text n) :
    specLine text n - 1 < (prepForLineInfo text).length := by
  obtain ⟨j, hj1, hj2⟩ := h
  have h1 := lineInfosFrom_length (splitLines text) 0
  rw [splitLines_length] at h1
  have h2 := count_take_mono text n j hj1
  have h3 := count_take_succ text j hj2
  have h4 := (List.take_sublist (j + 1) text).count_le '\n'
  unfold specLine prepForLineInfo
  omega

theorem putTargeted_ok (text : List Char) (infos : List LineInfo) (s e : Int) (m : List Char)
    (hs : 0 ≤ s ∧ OnTerminatedLine text s.toNat) (he : 0 ≤ e ∧ OnTerminatedLine text e.toNat)
    (hlen : infos.length = (prepForLineInfo text).length) :
    ∃ infos', putTargetedMsg text infos s e m = some infos' ∧
      infos'.length = infos.length ∧
      ∀ k, (infos'[k]?).map (fun i => (i.start, i.stop)) = (infos[k]?).map (fun i => (i.start, i.stop)) ∧
        (infos'[k]?).map LineInfo.targeted = (infos[k]?).map (fun i => i.targeted ++
          targetedAt text [(s, e, m)] (k + 1)) := by
  obtain ⟨hs0, hs⟩ := hs
  obtain ⟨he0, he⟩ := he
  obtain ⟨a, rfl⟩ := Int.eq_ofNat_of_zero_le hs0
  obtain ⟨b, rfl⟩ := Int.eq_ofNat_of_zero_le he0
  simp only [Int.toNat_natCast] at hs he
  have hlt := terminated_line_lt text b he
  have hb := (specLine_bounds text b).1
  rw [← hlen] at hlt
  unfold putTargetedMsg
  rw [convert_ok text a hs, convert_ok text b he]
  simp only [List.getElem?_eq_getElem hlt]
  refine ⟨_, rfl, by simp, ?_⟩
  intro k
  by_cases hk : specLine text b - 1 = k
  · subst hk
    simp only [List.getElem?_set_self hlt, List.getElem?_eq_getElem hlt, Option.map_some, true_and]
    have : specLine text b - 1 + 1 = specLine text b := by omega
    rw [this]
    simp only [targetedAt, Int.toNat_natCast, List.filter_cons, decide_true, if_true, List.filter_nil,
      List.map_cons, List.map_nil]
    split <;> simp
  · rw [List.getElem?_set_ne hk]
    have hk' : ¬ specLine text b = k + 1 := by omega
    simp [targetedAt, hk']

theorem targeted_from (text : List Char) (calls : List (Int × Int × List Char)) :
    ∀ (infos : List LineInfo), infos.length = (prepForLineInfo text).length →
    (∀ c ∈ calls, (0 ≤ c.1 ∧ OnTerminatedLine text c.1.toNat) ∧
      (0 ≤ c.2.1 ∧ OnTerminatedLine text c.2.1.toNat)) →
    ∃ infos', calls.foldlM (fun infos c => putTargetedMsg text infos c.1 c.2.1 c.2.2) infos = some infos' ∧
      infos'.length = infos.length ∧
      ∀ k, (infos'[k]?).map (fun i => (i.start, i.stop)) = (infos[k]?).map (fun i => (i.start, i.stop)) ∧
        (infos'[k]?).map LineInfo.targeted = (infos[k]?).map (fun i => i.targeted ++
          targetedAt text calls (k + 1)) := by
  induction calls with
  | nil =>
    intro infos _ _
    exact ⟨infos, by simp, rfl, by intro k; simp [targetedAt]⟩
  | cons c cs ih =>
    intro infos hlen h
    have hc := h c (by simp)
    obtain ⟨i1, h1, h2, h3⟩ := putTargeted_ok text infos c.1 c.2.1 c.2.2 hc.1 hc.2 hlen
    obtain ⟨i2, h4, h5, h6⟩ := ih i1 (by omega) (fun x hx => h x (by simp [hx]))
    refine ⟨i2, ?_, by omega, ?_⟩
    · rw [List.foldlM_cons, h1]; exact h4
    · intro k
      refine ⟨(h6 k).1.trans (h3 k).1, ?_⟩
      rw [(h6 k).2]
      have h7 := (h3 k).2
      have : targetedAt text (c :: cs) (k + 1) = targetedAt text [c] (k + 1) ++ targetedAt text cs (k + 1) := by
        simp only [targetedAt, List.filter_cons, List.filter_nil]
        split <;> simp
      rw [this]
      cases hx : i1[k]? with
      | none =>
        rw [hx] at h7
        cases hy : infos[k]? with
        | none => rfl
        | some y => rw [hy] at h7; simp at h7
      | some x =>
        rw [hx] at h7
        cases hy : infos[k]? with
        | none => rw [hy] at h7; simp at h7
        | some y =>
          rw [hy] at h7
          simp only [Option.map_some, Option.some.injEq] at h7 ⊢
          rw [h7]; simp

end Verif.Shared
