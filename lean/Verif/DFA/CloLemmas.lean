import Verif.DFA.Spec
import Verif.Common
/-! # The closure of a kernel -/
set_option linter.unusedSectionVars false
namespace Verif.DFA

variable {I S : Type} [DecidableEq I] [DecidableEq S]

theorem mem_insertSorted {α} (le : α → α → Bool) (x y : α) (l : List α) :
    y ∈ insertSorted le x l ↔ y = x ∨ y ∈ l := by
  induction l with
  | nil => simp [insertSorted]
  | cons z l ih =>
    rw [insertSorted]
    split
    · simp
    · simp only [List.mem_cons, ih]
      constructor
      · rintro (h | h | h) <;> simp [h]
      · rintro (h | h | h) <;> simp [h]

theorem perm_insertSorted {α} (le : α → α → Bool) (x : α) (l : List α) :
    (insertSorted le x l).Perm (x :: l) := by
  induction l with
  | nil => exact .refl _
  | cons z l ih =>
    rw [insertSorted]
    split
    · exact .refl _
    · exact ((List.Perm.cons z ih)).trans (List.Perm.swap x z l)

theorem perm_sorted {α} (le : α → α → Bool) (l : List α) : (sorted le l).Perm l := by
  induction l with
  | nil => exact .refl _
  | cons x l ih => exact (perm_insertSorted le x _).trans (List.Perm.cons x ih)

theorem mem_sorted {α} (le : α → α → Bool) (l : List α) (y : α) : y ∈ sorted le l ↔ y ∈ l :=
  (perm_sorted le l).mem_iff

/-- The items that `l` leads to over `s`. -/
def nexts (s : S) (l : List (Option S × I)) : List I :=
  l.filterMap (fun p => if p.1 = some s then some p.2 else none)

theorem mem_nexts (s : S) (l : List (Option S × I)) (j : I) : j ∈ nexts s l ↔ (some s, j) ∈ l := by
  unfold nexts
  simp only [List.mem_filterMap]
  constructor
  · rintro ⟨⟨a, b⟩, h1, h2⟩
    dsimp only at h2
    split at h2
    · rename_i h; injection h2 with h2; subst h2; rw [← h]; exact h1
    · cases h2
  · intro h; exact ⟨_, h, by simp⟩

theorem length_nexts (s : S) (l : List (Option S × I)) : (nexts s l).length ≤ l.length :=
  List.length_filterMap_le _ _

def tget (t : List (S × List I)) (s : S) : List I := (t.lookup s).getD []

theorem tget_addT (t : List (S × List I)) (s s' : S) (i : I) :
    tget (addT t s i) s' = tget t s' ++ (if s' = s then [i] else []) := by
  induction t with
  | nil =>
    by_cases h : s' = s
    · simp [addT, tget, List.lookup, h]
    · simp [addT, tget, List.lookup, show (s' == s) = false by simp [h], h]
  | cons p t ih =>
    obtain ⟨a, b⟩ := p
    simp only [addT]
    split
    · rename_i h
      subst h
      by_cases h : s' = a
      · simp [tget, List.lookup, h]
      · simp [tget, List.lookup, show (s' == a) = false by simp [h], h]
    · rename_i hne
      unfold tget at *
      simp only [List.lookup]
      by_cases h : s' = a
      · subst h; simp [hne]
      · simp only [show (s' == a) = false by simp [h]]; exact ih

theorem mem_addT_keys (t : List (S × List I)) (s s' : S) (i : I) :
    s' ∈ (addT t s i).map (·.1) ↔ s' = s ∨ s' ∈ t.map (·.1) := by
  induction t with
  | nil => simp [addT]
  | cons p t ih =>
    obtain ⟨a, b⟩ := p
    simp only [addT]
    split
    · rename_i h; subst h; simp
    · simp only [List.map_cons, List.mem_cons, ih]
      constructor
      · rintro (h | h | h) <;> simp [h]
      · rintro (h | h | h) <;> simp [h]

/-- Keys are distinct and lists are non-empty. -/
def GoodT (t : List (S × List I)) : Prop := (t.map (·.1)).Nodup ∧ ∀ p ∈ t, p.2 ≠ []

theorem goodT_addT {t : List (S × List I)} (h : GoodT t) (s : S) (i : I) : GoodT (addT t s i) := by
  induction t with
  | nil => exact ⟨by simp [addT], by simp [addT]⟩
  | cons p t ih =>
    obtain ⟨a, b⟩ := p
    obtain ⟨h1, h2⟩ := h
    simp only [List.map_cons, List.nodup_cons] at h1
    simp only [addT]
    split
    · refine ⟨by simp only [List.map_cons, List.nodup_cons]; exact h1, ?_⟩
      intro p hp
      rcases List.mem_cons.1 hp with rfl | hp
      · simp
      · exact h2 p (List.mem_cons_of_mem _ hp)
    · rename_i hne
      obtain ⟨h3, h4⟩ := ih ⟨h1.2, fun p hp => h2 p (List.mem_cons_of_mem _ hp)⟩
      refine ⟨?_, ?_⟩
      · simp only [List.map_cons, List.nodup_cons]
        refine ⟨?_, h3⟩
        rw [mem_addT_keys]
        rintro (h | h)
        · exact hne h
        · exact h1.1 h
      · intro p hp
        rcases List.mem_cons.1 hp with rfl | hp
        · exact h2 _ List.mem_cons_self
        · exact h4 p hp

theorem tget_mem {t : List (S × List I)} (h : GoodT t) {s is} (hm : (s, is) ∈ t) : tget t s = is := by
  induction t with
  | nil => cases hm
  | cons p t ih =>
    obtain ⟨a, b⟩ := p
    obtain ⟨h1, h2⟩ := h
    simp only [List.map_cons, List.nodup_cons] at h1
    unfold tget at *
    simp only [List.lookup]
    rcases List.mem_cons.1 hm with he | hm'
    · injection he with e1 e2; subst e1; subst e2; simp
    · have hne : s ≠ a := by
        rintro rfl
        exact h1.1 (List.mem_map.2 ⟨_, hm', rfl⟩)
      simp only [show (s == a) = false by simp [hne]]
      exact ih ⟨h1.2, fun p hp => h2 p (List.mem_cons_of_mem _ hp)⟩ hm'

theorem mem_of_tget {t : List (S × List I)} {s : S} (h : tget t s ≠ []) : (s, tget t s) ∈ t := by
  induction t with
  | nil => simp [tget] at h
  | cons p t ih =>
    obtain ⟨a, b⟩ := p
    unfold tget at *
    simp only [List.lookup] at h ⊢
    by_cases hs : s = a
    · subst hs; simp
    · simp only [show (s == a) = false by simp [hs]] at h ⊢
      exact List.mem_cons_of_mem _ (ih h)

theorem procTrans_fold (l : List (Option S × I)) : ∀ (c : Clo I S), c.items.Nodup → GoodT c.titems →
    (∀ x ∈ c.unproc, x ∈ c.items) →
    let c' := l.foldl procTrans c
    (∃ add, c'.items = c.items ++ add ∧ c'.unproc = c.unproc ++ add ∧ ∀ x ∈ add, (none, x) ∈ l) ∧
    c'.items.Nodup ∧ GoodT c'.titems ∧ c'.finals = c.finals ∧
    (∀ j, (none, j) ∈ l → j ∈ c'.items) ∧
    (∀ s, tget c'.titems s = tget c.titems s ++ nexts s l) := by
  induction l with
  | nil => intro c h1 h2 _; exact ⟨⟨[], by simp, by simp, by simp⟩, h1, h2, rfl, by simp, by simp [nexts]⟩
  | cons p l ih =>
    intro c h1 h2 h3
    obtain ⟨o, j⟩ := p
    simp only [List.foldl_cons]
    cases o with
    | none =>
      simp only [procTrans, includeItem]
      split
      · rename_i hin
        obtain ⟨⟨add, a1, a2, a3⟩, b, c1, d, e, f⟩ := ih c h1 h2 h3
        refine ⟨⟨add, a1, a2, fun x hx => List.mem_cons_of_mem _ (a3 x hx)⟩, b, c1, d, ?_, ?_⟩
        · intro k hk
          rcases List.mem_cons.1 hk with hk | hk
          · injection hk with _ hk; subst hk
            rw [a1]; exact List.mem_append_left _ hin
          · exact e k hk
        · intro s; rw [f s]; simp [nexts]
      · rename_i hin
        obtain ⟨⟨add, a1, a2, a3⟩, b, c1, d, e, f⟩ :=
          ih { c with items := c.items ++ [j], unproc := c.unproc ++ [j] }
            (by
              rw [List.nodup_append]
              refine ⟨h1, by simp, ?_⟩
              intro a ha b hb
              simp at hb; subst hb
              rintro rfl; exact hin ha) h2
            (by
              intro x hx
              rcases List.mem_append.1 hx with hx | hx
              · exact List.mem_append_left _ (h3 x hx)
              · exact List.mem_append_right _ hx)
        refine ⟨⟨j :: add, by rw [a1]; simp, by rw [a2]; simp, ?_⟩, b, c1, d, ?_, ?_⟩
        · intro x hx
          rcases List.mem_cons.1 hx with rfl | hx
          · exact List.mem_cons_self
          · exact List.mem_cons_of_mem _ (a3 x hx)
        · intro k hk
          rcases List.mem_cons.1 hk with hk | hk
          · injection hk with _ hk; subst hk
            rw [a1]; simp
          · exact e k hk
        · intro s; rw [f s]; simp [nexts]
    | some s0 =>
      simp only [procTrans]
      obtain ⟨⟨add, a1, a2, a3⟩, b, c1, d, e, f⟩ :=
        ih { c with titems := addT c.titems s0 j } h1 (goodT_addT h2 s0 j) h3
      refine ⟨⟨add, a1, a2, fun x hx => List.mem_cons_of_mem _ (a3 x hx)⟩, b, c1, d, ?_, ?_⟩
      · intro k hk
        rcases List.mem_cons.1 hk with hk | hk
        · injection hk with hk; cases hk
        · exact e k hk
      · intro s
        rw [f s, tget_addT]
        by_cases hs : s = s0
        · subst hs; simp [nexts]
        · have : s0 ≠ s := Ne.symm hs
          simp [nexts, hs, this]

/-- Epsilon closure of a set of items. -/
inductive Eps (trans : I → List (Option S × I)) (K : List I) : I → Prop
  | base {i} : i ∈ K → Eps trans K i
  | step {i j} : Eps trans K i → (none, j) ∈ trans i → Eps trans K j

structure CloInv (trans : I → List (Option S × I)) (K : List I) (c : Clo I S) (proc : List I) : Prop where
  items_eq : c.items = proc ++ c.unproc
  nodup : c.items.Nodup
  base : ∀ i ∈ K, i ∈ c.items
  sound : ∀ i ∈ c.items, Eps trans K i
  step : ∀ i ∈ proc, ∀ j, (none, j) ∈ trans i → j ∈ c.items
  good : GoodT c.titems
  tget : ∀ s, tget c.titems s = proc.flatMap (fun i => nexts s (trans i))
  finals : c.finals = proc.filter (fun i => (trans i).isEmpty)

theorem procItem_inv {trans : I → List (Option S × I)} {K : List I} {c : Clo I S} {proc : List I} {i rest}
    (h : CloInv trans K c proc) (hu : c.unproc = i :: rest) :
    CloInv trans K (procItem trans { c with unproc := rest } i) (proc ++ [i]) := by
  have hitems := h.items_eq
  rw [hu] at hitems
  obtain ⟨⟨add, a1, a2, a3⟩, b, c1, d, e, f⟩ := procTrans_fold (trans i) { c with unproc := rest } h.nodup h.good
    (by intro x hx; show x ∈ c.items; rw [hitems]; simp; exact .inr (.inr hx))
  have hi : i ∈ c.items := by rw [hitems]; simp
  have key : CloInv trans K (let c1 := (trans i).foldl procTrans { c with unproc := rest };
      { c1 with finals := c1.finals ++ [i].filter (fun i => (trans i).isEmpty) }) (proc ++ [i]) := by
    refine ⟨?_, b, ?_, ?_, ?_, c1, ?_, ?_⟩
    · show _ = proc ++ [i] ++ _
      dsimp only
      rw [a1, a2]; show c.items ++ add = _; rw [hitems]; simp
    · intro k hk; dsimp only; rw [a1]; exact List.mem_append_left _ (h.base k hk)
    · intro k hk
      dsimp only at hk
      rw [a1] at hk
      rcases List.mem_append.1 hk with hk | hk
      · exact h.sound k hk
      · exact .step (h.sound i hi) (a3 k hk)
    · intro k hk j hj
      rcases List.mem_append.1 hk with hk | hk
      · dsimp only; rw [a1]; exact List.mem_append_left _ (h.step k hk j hj)
      · simp at hk; subst hk; exact e j hj
    · intro s
      dsimp only
      rw [f s]
      simp only [List.flatMap_append, h.tget s, List.flatMap_cons, List.flatMap_nil, List.append_nil]
    · dsimp only
      rw [d, List.filter_append, h.finals]
  unfold procItem
  dsimp only
  split
  · rename_i he; simpa [he] using key
  · rename_i he; simpa [he] using key

theorem cloLoop_inv {trans : I → List (Option S × I)} {K : List I} : ∀ n {c c' : Clo I S} {proc : List I},
    CloInv trans K c proc → cloLoop trans n c = some c' →
    ∃ proc', CloInv trans K c' proc' ∧ c'.unproc = [] := by
  intro n
  induction n with
  | zero =>
    intro c c' proc h hc
    rw [cloLoop.eq_def] at hc
    dsimp only at hc
    split at hc
    · rename_i hu; injection hc with hc; subst hc; exact ⟨proc, h, hu⟩
    · cases hc
  | succ n ih =>
    intro c c' proc h hc
    rw [cloLoop.eq_def] at hc
    dsimp only at hc
    split at hc
    · rename_i hu; injection hc with hc; subst hc; exact ⟨proc, h, hu⟩
    · rename_i i rest hu
      exact ih (procItem_inv h hu) hc

theorem includeFold (K : List I) : ∀ (c : Clo I S), c.items = c.unproc → c.items.Nodup →
    let c' := K.foldl includeItem c
    c'.items = c'.unproc ∧ c'.items.Nodup ∧ (∀ x, x ∈ c'.items ↔ x ∈ c.items ∨ x ∈ K) ∧
    c'.titems = c.titems ∧ c'.finals = c.finals := by
  induction K with
  | nil => intro c h1 h2; exact ⟨h1, h2, by simp, rfl, rfl⟩
  | cons k K ih =>
    intro c h1 h2
    simp only [List.foldl_cons, includeItem]
    split
    · rename_i hin
      obtain ⟨a, b, d, e, f⟩ := ih c h1 h2
      refine ⟨a, b, ?_, e, f⟩
      intro x; rw [d x]
      simp only [List.mem_cons]
      constructor
      · rintro (h | h) <;> simp [h]
      · rintro (h | h | h)
        · exact .inl h
        · subst h; exact .inl hin
        · exact .inr h
    · rename_i hin
      obtain ⟨a, b, d, e, f⟩ := ih { c with items := c.items ++ [k], unproc := c.unproc ++ [k] } (by simp [h1])
        (by
          rw [List.nodup_append]
          refine ⟨h2, by simp, ?_⟩
          intro a ha b hb
          simp at hb; subst hb
          rintro rfl; exact hin ha)
      refine ⟨a, b, ?_, e, f⟩
      intro x; rw [d x]
      simp only [List.mem_cons, List.mem_append, List.not_mem_nil, or_false]
      constructor
      · rintro ((h | h) | h) <;> simp [h]
      · rintro (h | h | h) <;> simp [h]

theorem clo_init (trans : I → List (Option S × I)) (K : List I) :
    CloInv trans K (K.foldl includeItem ⟨[], [], [], []⟩) [] := by
  obtain ⟨a, b, d, e, f⟩ := includeFold (S := S) K ⟨[], [], [], []⟩ rfl (by simp)
  refine ⟨by simpa using a, b, ?_, ?_, by simp, ?_, ?_, ?_⟩
  · intro i hi; exact (d i).2 (.inr hi)
  · intro i hi
    rcases (d i).1 hi with h | h
    · cases h
    · exact .base h
  · rw [e]; exact ⟨by simp, by simp⟩
  · intro s; rw [e]; simp [tget]
  · rw [f]; simp

/-- What the closure loop computes. -/
theorem clo_spec {trans : I → List (Option S × I)} {K : List I} {n} {c : Clo I S}
    (h : cloLoop trans n (K.foldl includeItem ⟨[], [], [], []⟩) = some c) :
    (∀ i, i ∈ c.items ↔ Eps trans K i) ∧ c.items.Nodup ∧ GoodT c.titems ∧
    (∀ s, tget c.titems s = c.items.flatMap (fun i => nexts s (trans i))) ∧
    c.finals = c.items.filter (fun i => (trans i).isEmpty) := by
  obtain ⟨proc, hi, hu⟩ := cloLoop_inv n (clo_init trans K) h
  have he : c.items = proc := by rw [hi.items_eq, hu]; simp
  refine ⟨fun i => ⟨hi.sound i, fun h => ?_⟩, hi.nodup, hi.good, by rw [he]; exact hi.tget, by rw [he]; exact hi.finals⟩
  induction h with
  | base h => exact hi.base _ h
  | step _ hj ih => exact hi.step _ (he ▸ ih) _ hj

/-- The loop ends if the items stay within a finite set. -/
theorem cloLoop_terminates {trans : I → List (Option S × I)} {univ K : List I}
    (hcl : ∀ i ∈ univ, ∀ s j, (s, j) ∈ trans i → j ∈ univ) (hK : ∀ i ∈ K, i ∈ univ) :
    ∀ n {c : Clo I S} {proc : List I}, CloInv trans K c proc → univ.length ≤ n + proc.length →
      ∃ c', cloLoop trans n c = some c' := by
  have hsub : ∀ i, Eps trans K i → i ∈ univ := by
    intro i h
    induction h with
    | base h => exact hK _ h
    | step _ hj ih => exact hcl _ ih _ _ hj
  have hlen : ∀ {c : Clo I S} {proc : List I}, CloInv trans K c proc → c.items.length ≤ univ.length := by
    intro c proc h
    exact nodup_length_le h.nodup (fun i hi => hsub i (h.sound i hi))
  intro n
  induction n with
  | zero =>
    intro c proc h hn
    have h1 := hlen h
    have h2 := congrArg List.length h.items_eq
    rw [List.length_append] at h2
    have : c.unproc = [] := List.eq_nil_of_length_eq_zero (by omega)
    rw [cloLoop.eq_def]
    simp [this]
  | succ n ih =>
    intro c proc h hn
    rw [cloLoop.eq_def]
    dsimp only
    split
    · exact ⟨_, rfl⟩
    · rename_i i rest hu
      exact ih (procItem_inv h hu) (by rw [List.length_append]; simp; omega)

end Verif.DFA
