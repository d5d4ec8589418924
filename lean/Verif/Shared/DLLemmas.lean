import Verif.Shared.Spec
/-! # Lemmas for the DL builder -/
namespace Verif.Shared

/-- Number of `<li>` entries so far is positive. -/
def LiItem.isLi : LiItem → Bool
  | .li _ _ => true
  | .comment _ => false

def DLItem.hasLi : DLItem → Bool
  | .simple _ _ => false
  | .bulleted _ _ lis => lis.any LiItem.isLi

/-- Every comment comes after some `<li>`, given whether there has been one already. -/
def lisOk : Bool → List LiItem → Prop
  | _, [] => True
  | _, .li _ _ :: rest => lisOk true rest
  | seen, .comment _ :: rest => seen = true ∧ lisOk seen rest

def itemsOk : Bool → List DLItem → Prop
  | _, [] => True
  | seen, .simple _ _ :: rest => itemsOk seen rest
  | seen, .bulleted t lefts lis :: rest =>
      lefts ≠ [] ∧ lisOk seen lis ∧ itemsOk (seen || (DLItem.bulleted t lefts lis).hasLi) rest

theorem lisOk_append (lis : List LiItem) (seen : Bool) (x : LiItem) :
    lisOk seen (lis ++ [x]) ↔ lisOk seen lis ∧ lisOk (seen || lis.any LiItem.isLi) [x] := by
  induction lis generalizing seen with
  | nil => simp [lisOk]
  | cons y ys ih =>
    cases y with
    | li l r => simp [lisOk, ih, LiItem.isLi]
    | comment s => simp [lisOk, ih, LiItem.isLi, and_assoc]

theorem itemsOk_append (items : List DLItem) (seen : Bool) (x : DLItem) :
    itemsOk seen (items ++ [x]) ↔
      itemsOk seen items ∧ itemsOk (seen || items.any DLItem.hasLi) [x] := by
  induction items generalizing seen with
  | nil => simp [itemsOk]
  | cons y ys ih =>
    cases y with
    | simple t d => simp [itemsOk, ih, DLItem.hasLi]
    | bulleted t lefts lis => simp [itemsOk, ih, and_assoc, Bool.or_assoc]

/-- What the builder's state says about the calls made so far. -/
def DLInv (calls : List DLCall) (s : DLState) : Prop :=
  match s.expecting with
  | .dl => calls = [] ∧ s.lines = [] ∧ s.hasRight = false
  | .dt => ∃ items, itemsOk false items ∧ s.hasRight = items.any DLItem.hasLi ∧
      calls = [.start] ++ items.flatMap DLItem.calls ∧
      s.lines = [.dlOpen] ++ items.flatMap DLItem.lines
  | .dd => ∃ items t, itemsOk false items ∧ s.hasRight = items.any DLItem.hasLi ∧
      calls = [.start] ++ items.flatMap DLItem.calls ++ [.dt t] ∧
      s.lines = [.dlOpen] ++ items.flatMap DLItem.lines ++ [.blank, .dt t]
  | .li => ∃ items t lefts lis, itemsOk false items ∧ lefts ≠ [] ∧
      lisOk (items.any DLItem.hasLi) lis ∧
      s.hasRight = (items.any DLItem.hasLi || lis.any LiItem.isLi) ∧
      calls = [.start] ++ items.flatMap DLItem.calls ++ [.dt t, .ddUlStart lefts] ++ lis.map LiItem.call ∧
      s.lines = [.dlOpen] ++ items.flatMap DLItem.lines ++ [.blank, .dt t, .ddOpen, .ulOpen]
        ++ lis.flatMap LiItem.lines
  | .nothing => ∃ items, itemsOk false items ∧ calls = docCalls items ∧ s.lines = docLines items

theorem dlStep_inv (calls : List DLCall) (s s' : DLState) (c : DLCall)
    (hi : DLInv calls s) (h : dlStep s c = some s') : DLInv (calls ++ [c]) s' := by
  obtain ⟨lines, ex, hr⟩ := s
  cases ex with
  | dl =>
    cases c <;> simp [dlStep] at h
    subst h
    simp [DLInv] at hi ⊢
    exact ⟨[], by simp [itemsOk, hi]⟩
  | dt =>
    cases c <;> simp [dlStep] at h
    · rename_i t
      subst h
      simp [DLInv] at hi ⊢
      obtain ⟨items, h0, h1, h2, h3⟩ := hi
      exact ⟨items, h0, h1, t, by simp [h2], by simp [h3]⟩
    · subst h
      simp [DLInv] at hi ⊢
      obtain ⟨items, h0, h1, h2, h3⟩ := hi
      exact ⟨items, h0, by simp [h2, docCalls], by simp [h3, docLines]⟩
  | dd =>
    cases c <;> simp [dlStep] at h
    · rename_i d
      subst h
      simp [DLInv] at hi ⊢
      obtain ⟨items, h0, h1, t, h2, h3⟩ := hi
      refine ⟨items ++ [.simple t d], ?_, ?_, ?_, ?_⟩
      · rw [itemsOk_append]; simp [h0, itemsOk]
      · simp [h1, DLItem.hasLi]
      · simp [h2, DLItem.calls]
      · simp [h3, DLItem.lines]
    · rename_i lefts
      obtain ⟨hl, h⟩ := h
      subst h
      simp [DLInv] at hi ⊢
      obtain ⟨items, h0, h1, t, h2, h3⟩ := hi
      refine ⟨items, h0, t, lefts, hl, [], by simp [lisOk], by simp [h1], by simp [h2], by simp [h3]⟩
  | li =>
    cases c <;> simp [dlStep] at h
    · rename_i l r
      subst h
      simp [DLInv] at hi ⊢
      obtain ⟨items, h0, t, lefts, hl, lis, h1, h2, h3, h4⟩ := hi
      refine ⟨items, h0, t, lefts, hl, lis ++ [.li l r], ?_, ?_, ?_, ?_⟩
      · rw [lisOk_append]; exact ⟨h1, by simp [lisOk]⟩
      · simp [LiItem.isLi]
      · simp [h3, LiItem.call]
      · simp [h4, LiItem.lines]
    · rename_i m
      obtain ⟨hr', h⟩ := h
      subst h
      simp [DLInv] at hi ⊢
      obtain ⟨items, h0, t, lefts, hl, lis, h1, h2, h3, h4⟩ := hi
      refine ⟨items, h0, t, lefts, hl, lis ++ [.comment m], ?_, ?_, ?_, ?_⟩
      · rw [lisOk_append]
        refine ⟨h1, ?_⟩
        simp only [lisOk, and_true]
        rw [← h2]; exact hr'
      · simp [h2, LiItem.isLi]
      · simp [h3, LiItem.call]
      · simp [h4, LiItem.lines]
    · subst h
      simp [DLInv] at hi ⊢
      obtain ⟨items, h0, t, lefts, hl, lis, h1, h2, h3, h4⟩ := hi
      refine ⟨items ++ [.bulleted t lefts lis], ?_, ?_, ?_, ?_⟩
      · rw [itemsOk_append]; simp only [itemsOk, Bool.false_or, and_true]; exact ⟨h0, hl, h1⟩
      · simp [h2, DLItem.hasLi]
      · simp [h3, DLItem.calls]
      · simp [h4, DLItem.lines]
  | nothing =>
    cases c <;> simp [dlStep] at h

theorem dlRun_inv (calls : List DLCall) : ∀ s, dlRun calls = some s → DLInv calls s := by
  suffices ∀ (cs done : List DLCall) (s0 s : DLState), DLInv done s0 →
      cs.foldlM dlStep s0 = some s → DLInv (done ++ cs) s by
    intro s h
    have := this calls [] DLState.init s (by simp [DLInv, DLState.init]) h
    simpa using this
  intro cs
  induction cs with
  | nil => intro done s0 s hi h; simp at h; subst h; simpa using hi
  | cons c cs ih =>
    intro done s0 s hi h
    rw [List.foldlM_cons] at h
    cases h1 : dlStep s0 c with
    | none => rw [h1] at h; simp at h
    | some s1 =>
      rw [h1] at h
      have := ih (done ++ [c]) s1 s (dlStep_inv done s0 s1 c hi h1) h
      simpa using this

/-! Running the calls of a document. -/

theorem run_lis (lis : List LiItem) : ∀ (lines : List DLLine) (hr : Bool), lisOk hr lis →
    (lis.map LiItem.call).foldlM dlStep ⟨lines, .li, hr⟩
      = some ⟨lines ++ lis.flatMap LiItem.lines, .li, hr || lis.any LiItem.isLi⟩ := by
  induction lis with
  | nil => intro lines hr _; simp
  | cons x xs ih =>
    intro lines hr h
    cases x with
    | li l r =>
      simp only [lisOk] at h
      have := ih (lines ++ [.li l r]) true h
      simp only [List.map_cons, List.foldlM_cons, LiItem.call, dlStep, ite_true, Option.bind_eq_bind, Option.bind_some]
      rw [this]
      simp [LiItem.lines, LiItem.isLi]
    | comment s =>
      simp only [lisOk] at h
      obtain ⟨rfl, h⟩ := h
      have := ih (lines ++ [.carets, .note s, .blank]) true h
      simp only [List.map_cons, List.foldlM_cons, LiItem.call, dlStep, ite_true, Option.bind_eq_bind, Option.bind_some]
      rw [this]
      simp [LiItem.lines]

theorem run_items (items : List DLItem) : ∀ (lines : List DLLine) (hr : Bool), itemsOk hr items →
    (items.flatMap DLItem.calls).foldlM dlStep ⟨lines, .dt, hr⟩
      = some ⟨lines ++ items.flatMap DLItem.lines, .dt, hr || items.any DLItem.hasLi⟩ := by
  induction items with
  | nil => intro lines hr _; simp
  | cons x xs ih =>
    intro lines hr h
    cases x with
    | simple t d =>
      simp only [itemsOk] at h
      have := ih (lines ++ [.blank, .dt t, .dd d]) hr h
      simp only [List.flatMap_cons, List.foldlM_append, DLItem.calls, List.foldlM_cons, dlStep, ite_true,
        Option.bind_eq_bind, Option.bind_some, List.foldlM_nil]
      simp only [Option.pure_def, Option.bind_some, List.append_assoc, List.cons_append, List.nil_append]
      rw [this]
      simp [DLItem.lines, DLItem.hasLi]
    | bulleted t lefts lis =>
      simp only [itemsOk] at h
      obtain ⟨hl, h1, h2⟩ := h
      have hl' := run_lis lis (lines ++ [.blank, .dt t] ++ [.ddOpen, .ulOpen]) hr h1
      have := ih (lines ++ (DLItem.bulleted t lefts lis).lines) _ h2
      simp only [List.flatMap_cons, List.foldlM_append, DLItem.calls, List.foldlM_cons, dlStep, ite_true,
        Option.bind_eq_bind, Option.bind_some, List.foldlM_nil, hl, ite_false, Option.pure_def]
      rw [hl']
      simp only [Option.bind_some, ite_true]
      simp only [DLItem.hasLi, DLItem.lines, List.append_assoc, List.cons_append, List.nil_append] at this ⊢
      rw [this]
      simp [DLItem.hasLi, DLItem.lines, Bool.or_assoc]

theorem run_doc (items : List DLItem) (h : itemsOk false items) :
    dlRun (docCalls items) = some ⟨docLines items, .nothing, items.any DLItem.hasLi⟩ := by
  unfold dlRun docCalls
  rw [List.append_assoc, List.foldlM_append]
  simp only [List.foldlM_cons, List.foldlM_nil, dlStep, DLState.init, ite_true, Option.bind_eq_bind,
    Option.bind_some, Option.pure_def, List.foldlM_append, List.nil_append]
  rw [run_items items [.dlOpen] false h]
  simp [docLines]

end Verif.Shared
