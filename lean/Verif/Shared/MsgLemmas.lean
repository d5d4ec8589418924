import Verif.Shared.LineCol
import Verif.Shared.Order
/-! # Lemmas for the message listing -/
namespace Verif.Shared

theorem splitLines_ne (text : List Char) : splitLines text ≠ [] := by
  cases text with
  | nil => simp [splitLines]
  | cons c cs =>
    simp only [splitLines]
    split
    · simp
    · split <;> simp

theorem splitLines_spec (text : List Char) : LinesOf text (splitLines text) := by
  refine ⟨?_, ?_, splitLines_ne text⟩
  · induction text with
    | nil => simp [splitLines]
    | cons c cs ih =>
      intro l hl
      simp only [splitLines] at hl
      split at hl
      · rcases List.mem_cons.1 hl with rfl | hl
        · simp
        · exact ih l hl
      · rename_i hc
        split at hl
        · simp at hl; subst hl; simpa using Ne.symm hc
        · rename_i l0 ls h0
          rcases List.mem_cons.1 hl with rfl | hl
          · have := ih l0 (by rw [h0]; simp)
            simp [this]; exact Ne.symm hc
          · exact ih l (by rw [h0]; simp [hl])
  · induction text with
    | nil => simp [splitLines]
    | cons c cs ih =>
      simp only [splitLines]
      have hne := splitLines_ne cs
      split
      · rename_i hc
        subst hc
        cases h : splitLines cs with
        | nil => exact absurd h hne
        | cons a as =>
          rw [h] at ih
          rw [List.intercalate_cons_cons, ih]; simp
      · split
        · rename_i h; exact absurd h hne
        · rename_i a as h
          rw [h] at ih
          cases as with
          | nil => simp at ih ⊢; exact ih
          | cons b bs =>
            rw [List.intercalate_cons_cons] at ih ⊢
            simp only [List.cons_append, ih]

theorem splitLines_length (text : List Char) : (splitLines text).length = text.count '\n' + 1 := by
  induction text with
  | nil => simp [splitLines]
  | cons c cs ih =>
    simp only [splitLines]
    split
    · rename_i hc; simp [ih, hc]
    · rename_i hc
      have : (List.count '\n' (c :: cs)) = List.count '\n' cs := by simp [hc]
      rw [this]
      split
      · rename_i h; exact absurd h (splitLines_ne cs)
      · rename_i a as h
        rw [h] at ih; simpa using ih

theorem specLine_bounds (text : List Char) (n : Nat) :
    1 ≤ specLine text n ∧ specLine text n ≤ (splitLines text).length := by
  rw [splitLines_length]
  unfold specLine
  have := (List.take_sublist n text).count_le '\n'
  omega

/-- The step of the message history. -/
theorem msgAtPosn_ok (text : List Char) (tbl : MsgTable) (p : Int) (m : List Char)
    (h0 : 0 ≤ p) (h : OnTerminatedLine text p.toNat) :
    msgAtPosn text tbl p m = some (fun l => if l = specLine text p.toNat
      then tbl l ++ [((specCol text p.toNat : Int), m)] else tbl l) := by
  obtain ⟨n, rfl⟩ := Int.eq_ofNat_of_zero_le h0
  simp only [Int.toNat_natCast] at *
  unfold msgAtPosn
  rw [convert_ok text n h]

theorem history_from (text : List Char) (calls : List (Int × List Char)) : ∀ (tbl : MsgTable),
    (∀ c ∈ calls, 0 ≤ c.1 ∧ OnTerminatedLine text c.1.toNat) →
    calls.foldlM (fun tbl c => msgAtPosn text tbl c.1 c.2) tbl
      = some (fun l => tbl l ++ messagesAt text calls l) := by
  induction calls with
  | nil => intro tbl _; simp [messagesAt]
  | cons c cs ih =>
    intro tbl h
    have hc := h c (by simp)
    rw [List.foldlM_cons, msgAtPosn_ok text tbl c.1 c.2 hc.1 hc.2]
    simp only [Option.bind_eq_bind, Option.bind_some]
    rw [ih _ (fun x hx => h x (by simp [hx]))]
    congr 1
    funext l
    by_cases hl : l = specLine text c.1.toNat
    · simp [hl, messagesAt]
    · simp [hl, messagesAt, Ne.symm hl]

theorem history_ok (text : List Char) (calls : List (Int × List Char))
    (h : ∀ c ∈ calls, 0 ≤ c.1 ∧ OnTerminatedLine text c.1.toNat) :
    msgHistory text calls = some (messagesAt text calls) := by
  unfold msgHistory
  rw [history_from text calls _ h]; simp

theorem history_fail (text : List Char) (calls : List (Int × List Char)) (tbl : MsgTable)
    (r : MsgTable)
    (h : calls.foldlM (fun tbl c => msgAtPosn text tbl c.1 c.2) tbl = some r) :
    ∀ c ∈ calls, 0 ≤ c.1 ∧ OnTerminatedLine text c.1.toNat := by
  induction calls generalizing tbl with
  | nil => simp
  | cons c cs ih =>
    rw [List.foldlM_cons] at h
    cases h1 : msgAtPosn text tbl c.1 c.2 with
    | none => rw [h1] at h; simp at h
    | some t1 =>
      rw [h1] at h
      intro x hx
      rcases List.mem_cons.1 hx with rfl | hx
      · unfold msgAtPosn at h1
        split at h1
        · rename_i hcv; exact convert_some _ _ _ hcv
        · cases h1
      · exact ih t1 h x hx

/-- The groups shown by `msg_at_posn_finish`. -/
def groupsFrom (tbl : MsgTable) : List (List Char) → Nat → List (List Char × List Msg)
  | [], _ => []
  | line :: rest, i => (line, (tbl (i + 1)).mergeSort msgLe) :: groupsFrom tbl rest (i + 1)

theorem finishFrom_eq (tbl : MsgTable) (lines : List (List Char)) : ∀ i,
    finishFrom tbl lines i = listing (groupsFrom tbl lines i) := by
  induction lines with
  | nil => intro i; simp [finishFrom, groupsFrom, listing]
  | cons l ls ih =>
    intro i
    simp only [finishFrom, groupsFrom, ih]
    simp [listing]

theorem groupsFrom_fst (tbl : MsgTable) (lines : List (List Char)) : ∀ i,
    (groupsFrom tbl lines i).map Prod.fst = lines := by
  induction lines with
  | nil => intro i; simp [groupsFrom]
  | cons l ls ih => intro i; simp [groupsFrom, ih]

theorem groupsFrom_get (tbl : MsgTable) (lines : List (List Char)) : ∀ i k g,
    (groupsFrom tbl lines i)[k]? = some g → g.2 = (tbl (i + k + 1)).mergeSort msgLe := by
  induction lines with
  | nil => intro i k g h; simp [groupsFrom] at h
  | cons l ls ih =>
    intro i k g h
    cases k with
    | zero => simp [groupsFrom] at h; subst h; rfl
    | succ k =>
      simp [groupsFrom] at h
      have := ih _ _ _ h
      rw [this]; congr 2; omega

theorem groupsFrom_snd (tbl : MsgTable) (lines : List (List Char)) : ∀ i,
    (groupsFrom tbl lines i).flatMap Prod.snd
      = (List.range lines.length).flatMap (fun k => (tbl (i + k + 1)).mergeSort msgLe) := by
  induction lines with
  | nil => intro i; simp [groupsFrom]
  | cons l ls ih =>
    intro i
    simp only [groupsFrom, List.flatMap_cons, ih, List.length_cons, List.range_succ_eq_map, List.flatMap_map]
    congr 1
    congr 1
    funext k
    have : i + 1 + k + 1 = i + (k + 1) + 1 := by omega
    rw [this]

theorem filter_split_perm {α} (p q : α → Bool) (l : List α) (h : ∀ a, p a = true → q a = true → False) :
    (l.filter p ++ l.filter q).Perm (l.filter (fun a => p a || q a)) := by
  induction l with
  | nil => simp
  | cons a as ih =>
    have := h a
    by_cases hp : p a = true
    · have hq : q a = false := by cases hh : q a <;> simp_all
      simp only [List.filter_cons, hp, hq, if_true, Bool.true_or]
      simpa using ih
    · by_cases hq : q a = true
      · simp only [List.filter_cons, hp, hq, if_true, Bool.or_true]
        simp only [Bool.false_eq_true, if_false]
        exact List.perm_middle.trans (List.Perm.cons a ih)
      · simp only [List.filter_cons, hp, hq, Bool.or_false]
        simpa using ih

theorem bucket_perm {α} (key : α → Nat) (l : List α) : ∀ n,
    ((List.range n).flatMap (fun i => l.filter (fun a => decide (key a = i + 1)))).Perm
      (l.filter (fun a => decide (1 ≤ key a) && decide (key a ≤ n))) := by
  intro n
  induction n with
  | zero =>
    simp only [List.range_zero, List.flatMap_nil]
    rw [List.filter_eq_nil_iff.2]
    intro a _; simp; omega
  | succ n ih =>
    rw [List.range_succ, List.flatMap_append]
    simp only [List.flatMap_cons, List.flatMap_nil, List.append_nil]
    refine (List.Perm.append_right _ ih).trans ?_
    refine (filter_split_perm _ _ l ?_).trans ?_
    · intro a h1 h2; simp at h1 h2; omega
    · rw [List.filter_congr]
      intro a _
      rw [Bool.eq_iff_iff]
      simp only [Bool.or_eq_true, Bool.and_eq_true, decide_eq_true_eq]
      omega

theorem flatMap_perm_of_forall {α β} (l : List α) (f g : α → List β) (h : ∀ a ∈ l, (f a).Perm (g a)) :
    (l.flatMap f).Perm (l.flatMap g) := by
  induction l with
  | nil => simp
  | cons a as ih =>
    simp only [List.flatMap_cons]
    exact (h a (by simp)).append (ih (fun x hx => h x (by simp [hx])))

theorem all_messages_perm (text : List Char) (calls : List (Int × List Char)) :
    ((groupsFrom (messagesAt text calls) (splitLines text) 0).flatMap Prod.snd).Perm
      (calls.map (fun c => ((specCol text c.1.toNat : Int), c.2))) := by
  rw [groupsFrom_snd]
  refine (flatMap_perm_of_forall _ _
    (fun k => (calls.filter (fun c => decide (specLine text c.1.toNat = k + 1))).map
      (fun c => ((specCol text c.1.toNat : Int), c.2))) ?_).trans ?_
  · intro k _
    have : 0 + k + 1 = k + 1 := by omega
    rw [this]
    exact List.mergeSort_perm _ _
  · rw [← List.map_flatMap]
    refine List.Perm.map _ ((bucket_perm (fun c : Int × List Char => specLine text c.1.toNat) calls _).trans ?_)
    rw [List.filter_eq_self.2]
    intro c _
    have := specLine_bounds text c.1.toNat
    simp [this.1, this.2]

theorem messagesAt_perm (text : List Char) {calls calls' : List (Int × List Char)}
    (h : calls.Perm calls') (l : Nat) : (messagesAt text calls l).Perm (messagesAt text calls' l) :=
  (h.filter _).map _

theorem finish_congr (t1 t2 : MsgTable) (h : ∀ l, (t1 l).Perm (t2 l)) (lines : List (List Char)) : ∀ i,
    finishFrom t1 lines i = finishFrom t2 lines i := by
  induction lines with
  | nil => intro i; rfl
  | cons l ls ih =>
    intro i
    simp only [finishFrom, ih]
    rw [mergeSort_congr msgLe msgLe_total msgLe_trans msgLe_antisymm (h (i + 1))]

/-! ## Targeted messages -/

theorem lineInfosFrom_length (ls : List (List Char)) (k : Nat) :
    ls.length ≤ (lineInfosFrom ls k).length + 1 := by
  induction ls generalizing k with
  | nil => simp
  | cons l ls ih =>
    cases ls with
    | nil => simp
    | cons l' ls' =>
      simp only [lineInfosFrom, List.length_cons] at ih ⊢
      have := ih (k + l.length + 1)
      omega

end Verif.Shared
