import Verif.Bodies.SdoLemmas
/-! # The scan of early errors, and lists of items -/
namespace Verif.Bodies
open Verif.Util

/-- If a list comes next, then what is before is not a grammar. -/
def NoCarryE (pre nodes : List HNode) : Prop :=
  ∀ a, nodes.head? = some a → a.elementName = "ul" → ∀ q, pre.getLast? = some q → q.elementName ≠ "emu-grammar"

/-- A list right at the start of the blocks has nothing before it; otherwise it has what is last. -/
theorem earlyLists_skip (q : Option HNode) (x : HNode) (rest : List HNode) (h : x.elementName ≠ "ul") :
    earlyLists q (x :: rest) = earlyLists (some x) rest := by
  cases q <;> simp [earlyLists, h]

theorem early_front {pre m rest : List HNode} (i : Nat) (u : NUnit (HNode × HNode)) (hm : FirstMatch earlyUnits (m ++ rest) i u m rest) :
    m ≠ [] ∧ (∀ p c q, m = p ++ c :: q → EarlyPlace (pre ++ p) c (q ++ rest)) ∧ NoCarryE (pre ++ m) rest ∧
    earlyLists pre.getLast? (m ++ rest) = u.processor m ++ earlyLists (pre ++ m).getLast? rest := by
  obtain ⟨h1, -, h3, -⟩ := hm
  have one : ∀ (P : List HNode → HNode → List HNode → Prop) x, P [] x [] → ∀ p c q, [x] = p ++ c :: q → P p c q := by
    intro P x h p c q e
    cases p with
    | nil => simp at e; obtain ⟨rfl, rfl⟩ := e; exact h
    | cons y p => simp at e
  rcases i with _ | _ | _ | _ | n
  · cases h1
    obtain ⟨g, _, rfl, n1, h3⟩ := pm_name h3
    obtain ⟨a, _, rfl, n2, h3⟩ := pm_name h3
    obtain rfl := pm_nil h3
    refine ⟨by simp, ?_, ?_, ?_⟩
    · intro p c q e
      cases p with
      | nil => simp at e; obtain ⟨rfl, rfl⟩ := e; exact .inr (.inr (.inl ⟨n1, a, rfl, n2⟩))
      | cons z p =>
        simp at e
        obtain ⟨rfl, e⟩ := e
        exact one (fun p c q => EarlyPlace (pre ++ g :: p) c (q ++ rest)) a (.inr (.inr (.inr ⟨n2, g, by simp, n1⟩))) p c q e
    · intro b _ _ q hq
      simp at hq; subst hq
      rw [n2]; decide
    · show earlyLists _ (g :: a :: rest) = _
      rw [earlyLists_skip _ _ _ (by rw [n1]; decide)]
      simp [earlyLists, n2]
  · cases h1
    obtain ⟨x, _, rfl, n1, d, h3⟩ := pm_content h3
    obtain rfl := pm_nil h3
    refine ⟨by simp, one (fun p c q => EarlyPlace (pre ++ p) c (q ++ rest)) x (.inr (.inl ⟨n1, (early_iff _).1 (.inl d)⟩)), ?_, ?_⟩
    · intro b _ _ q hq
      simp at hq; subst hq
      rw [n1]; decide
    · show earlyLists _ (x :: rest) = _
      rw [earlyLists_skip _ _ _ (by rw [n1]; decide)]
      simp
  · cases h1
    obtain ⟨x, _, rfl, n1, d, h3⟩ := pm_content h3
    obtain rfl := pm_nil h3
    refine ⟨by simp, one (fun p c q => EarlyPlace (pre ++ p) c (q ++ rest)) x (.inr (.inl ⟨n1, (early_iff _).1 (.inr d)⟩)), ?_, ?_⟩
    · intro b _ _ q hq
      simp at hq; subst hq
      rw [n1]; decide
    · show earlyLists _ (x :: rest) = _
      rw [earlyLists_skip _ _ _ (by rw [n1]; decide)]
      simp
  · cases h1
    obtain ⟨x, _, rfl, n1, h3⟩ := pm_name h3
    obtain rfl := pm_nil h3
    refine ⟨by simp, one (fun p c q => EarlyPlace (pre ++ p) c (q ++ rest)) x (.inl n1), ?_, ?_⟩
    · intro b _ _ q hq
      simp at hq; subst hq
      rw [n1]; decide
    · show earlyLists _ (x :: rest) = _
      rw [earlyLists_skip _ _ _ (by rw [n1]; decide)]
      simp
  · simp [earlyUnits] at h1

theorem early_chopped {nodes used rs rest} (h : Chopped earlyUnits nodes used rs rest) : ∀ pre, NoCarryE pre nodes →
    ∃ front, nodes = front ++ rest ∧ (∀ p c q, front = p ++ c :: q → EarlyPlace (pre ++ p) c (q ++ rest)) ∧ NoCarryE (pre ++ front) rest ∧
      earlyLists pre.getLast? nodes = rs ++ earlyLists (pre ++ front).getLast? rest := by
  induction h with
  | nil nodes =>
    intro pre hc
    exact ⟨[], rfl, fun p c q e => by simp at e, by simpa using hc, by simp⟩
  | cons hne hm _ ih =>
    rename_i nodes i u m rest used rs last _
    intro pre hc
    have e0 := hm.2.1
    subst e0
    obtain ⟨-, h2, h3, h4⟩ := early_front (pre := pre) i u hm
    obtain ⟨f, e, i2, i3, i4⟩ := ih (pre ++ m) h3
    refine ⟨m ++ f, by rw [e]; simp, ?_, by simpa using i3, ?_⟩
    · intro p c q e2
      rcases List.append_eq_append_iff.1 e2 with ⟨a, rfl, e3⟩ | ⟨a, rfl, e3⟩
      · have := i2 a c q e3
        simpa using this
      · cases a with
        | nil =>
          have := i2 [] c q (by simpa using e3.symm)
          simpa using this
        | cons y a =>
          simp at e3
          obtain ⟨rfl, rfl⟩ := e3
          have := h2 p c a rfl
          rw [e] at this
          simpa using this
    · rw [h4, i4]
      simp

theorem early_stuck {pre : List HNode} {x : HNode} {xs : List HNode} (hc : NoCarryE pre (x :: xs))
    (h : ∀ u ∈ earlyUnits, ∀ m rest, x :: xs = m ++ rest → ¬ PatternMatches u.pattern m) : ¬ EarlyPlace pre x xs := by
  have g : ∀ (j : Nat) u, earlyUnits[j]? = some u → ∀ m rest, x :: xs = m ++ rest → ¬ PatternMatches u.pattern m :=
    fun j u e => h u (List.mem_of_getElem? e)
  rintro (n | ⟨n, t⟩ | ⟨n, a, ha, n2⟩ | ⟨n, q, hq, n2⟩)
  · exact g 3 _ rfl [x] xs rfl (.name n .nil)
  · rcases (early_iff _).2 t with t | t
    · exact g 1 _ rfl [x] xs rfl (.content n t .nil)
    · exact g 2 _ rfl [x] xs rfl (.content n t .nil)
  · cases xs with
    | nil => cases ha
    | cons y ys =>
      cases ha
      exact g 0 _ rfl [x, a] ys rfl (.name n (.name n2 .nil))
  · exact hc x rfl n q hq n2

/-- What the scan gives. -/
theorem early_scan (bs : List HNode) : ∃ r, scanSection earlyUnits bs bs.length = some r ∧
    ((r.msg = none ∧ AllPlaced EarlyPlace bs ∧ r.results = earlyLists none bs) ∨
     (∃ b, r.msg = some b.startPosn ∧ FirstMisplaced EarlyPlace bs b ∧ r.results = [])) := by
  obtain ⟨r, hr⟩ := c11_scan_terminates earlyUnits (by simp [earlyUnits]) bs bs.length (Nat.le_refl _)
  refine ⟨r, hr, ?_⟩
  have nc : NoCarryE [] bs := fun a _ _ q hq => by cases hq
  cases hm : r.msg with
  | none =>
    obtain ⟨hch, -⟩ := c11_scan_complete earlyUnits bs _ r hr hm
    obtain ⟨f, e, h2, -, h4⟩ := early_chopped hch [] nc
    refine .inl ⟨rfl, ?_, by simpa [earlyLists] using h4.symm⟩
    intro p c q e2
    have := h2 p c q (by rw [← e2, e]; simp)
    simpa using this
  | some pos =>
    obtain ⟨h0, rs, x, xs, hch, rfl, -, hno⟩ := c11_scan_reports earlyUnits bs _ r pos hr hm
    obtain ⟨f, e, h2, h3, -⟩ := early_chopped hch [] nc
    refine .inr ⟨x, rfl, ⟨f, xs, e, ?_, ?_⟩, h0⟩
    · have := early_stuck h3 hno
      simpa using this
    · intro p c q e2
      have := h2 p c q e2
      simpa using this

/-! ## Items -/

theorem items_ok (ks : List HNode) (h : JustItems ks) : items ks = some (lis ks) := by
  induction ks with
  | nil => rfl
  | cons k ks ih =>
    have ih := ih (fun x hx => h x (by simp [hx]))
    rcases h k (by simp) with n | ⟨n, h1, h2⟩
    · rw [Named] at n
      simp [items, el, n, ih, lis]
    · rw [Named] at n
      have h2' : k.innerText.all Char.isWhitespace = true := by simpa using h2
      simp [items, el, n, ih, lis, h1, h2']

theorem items_some (ks xs : List HNode) (h : items ks = some xs) : JustItems ks := by
  induction ks generalizing xs with
  | nil => intro k hk; cases hk
  | cons k ks ih =>
    rw [items] at h
    by_cases h1 : el k = "#LITERAL"
    · rw [if_pos h1] at h
      by_cases h2 : (!k.innerText.isEmpty && k.innerText.all Char.isWhitespace) = true
      · rw [if_pos h2] at h
        intro x hx
        rcases List.mem_cons.1 hx with rfl | hx
        · simp only [Bool.and_eq_true, Bool.not_eq_true', List.isEmpty_eq_false_iff, List.all_eq_true] at h2
          exact .inr ⟨h1, h2.1, h2.2⟩
        · exact ih _ h x hx
      · rw [if_neg h2] at h; cases h
    · rw [if_neg h1] at h
      by_cases h2 : el k = "li"
      · rw [if_pos h2] at h
        obtain ⟨ys, hy, -⟩ := Option.map_eq_some_iff.1 h
        intro x hx
        rcases List.mem_cons.1 hx with rfl | hx
        · exact .inl h2
        · exact ih _ hy x hx
      · rw [if_neg h2] at h; cases h

theorem mapM_some_iff {α β} (f : α → Option β) (xs : List α) : (∃ ys, xs.mapM f = some ys) ↔ ∀ x ∈ xs, ∃ y, f x = some y := by
  induction xs with
  | nil => simp
  | cons x xs ih =>
    simp only [List.mapM_cons, List.forall_mem_cons, ← ih]
    cases f x with
    | none => simp
    | some y => cases xs.mapM f <;> simp

theorem mapM_map {α β} (f : α → Option β) (g : α → β) (xs : List α) (h : ∀ x ∈ xs, f x = some (g x)) : xs.mapM f = some (xs.map g) := by
  induction xs with
  | nil => rfl
  | cons x xs ih =>
    rw [List.mapM_cons, h x (by simp), ih (fun y hy => h y (by simp [hy]))]
    rfl

end Verif.Bodies
