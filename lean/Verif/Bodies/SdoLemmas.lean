import Verif.Bodies.TextLemmas
import Verif.Util.Props
/-! # The scan of a syntax-directed operation -/
namespace Verif.Bodies
open Verif.Util

/-- If an algorithm comes next, then what is before does not go with it. -/
def NoCarry (pre nodes : List HNode) : Prop :=
  ∀ a, nodes.head? = some a → a.elementName = "emu-alg" → ∀ q, pre.getLast? = some q → q.elementName ≠ "emu-grammar" ∧ ¬ (q.elementName = "p" ∧ default q.innerText = true)

theorem pm_nil {m} (h : PatternMatches [] m) : m = [] := by cases h; rfl

theorem pm_name {s as m} (h : PatternMatches (.name s :: as) m) : ∃ n ns, m = n :: ns ∧ n.elementName = s ∧ PatternMatches as ns := by
  cases h with
  | name a b => exact ⟨_, _, rfl, a, b⟩

theorem pm_content {s re as m} (h : PatternMatches (.content s re :: as) m) : ∃ n ns, m = n :: ns ∧ n.elementName = s ∧ re n.innerText = true ∧ PatternMatches as ns := by
  cases h with
  | content a b c => exact ⟨_, _, rfl, a, b, c⟩

theorem sdo_front {pre m rest : List HNode} (i : Nat) (u : NUnit (Option HNode × HNode)) (hm : FirstMatch sdoUnits (m ++ rest) i u m rest) :
    m ≠ [] ∧ (∀ p c q, m = p ++ c :: q → SdoPlace (pre ++ p) c (q ++ rest)) ∧ NoCarry (pre ++ m) rest ∧
    sdoDefns pre.getLast? (m ++ rest) = (u.processor m).map (fun b => .usual b.1 b.2) ++ sdoDefns (pre ++ m).getLast? rest := by
  obtain ⟨h1, -, h3, h4⟩ := hm
  have one : ∀ (P : List HNode → HNode → List HNode → Prop) x, P [] x [] → ∀ p c q, [x] = p ++ c :: q → P p c q := by
    intro P x h p c q e
    cases p with
    | nil => simp at e; obtain ⟨rfl, rfl⟩ := e; exact h
    | cons y p => simp at e
  have two : ∀ (P : List HNode → HNode → List HNode → Prop) x y, P [] x [y] → P [x] y [] → ∀ p c q, [x, y] = p ++ c :: q → P p c q := by
    intro P x y h1 h2 p c q e
    cases p with
    | nil => simp at e; obtain ⟨rfl, rfl⟩ := e; exact h1
    | cons z p =>
      simp at e
      obtain ⟨rfl, e⟩ := e
      exact one (fun p c q => P (x :: p) c q) y h2 p c q e
  rcases i with _ | _ | _ | _ | _ | _ | n
  · cases h1
    obtain ⟨g, _, rfl, n1, h3⟩ := pm_name h3
    obtain ⟨a, _, rfl, n2, h3⟩ := pm_name h3
    obtain rfl := pm_nil h3
    refine ⟨by simp, two (fun p c q => SdoPlace (pre ++ p) c (q ++ rest)) g a ?_ ?_, ?_, ?_⟩
    · exact .inr (.inr (.inr (.inl ⟨n1, a, rfl, n2⟩)))
    · exact .inr (.inr (.inr (.inr ⟨n2, g, by simp, .inl n1⟩)))
    · intro b _ _ q hq
      simp at hq; subst hq
      exact ⟨by rw [n2]; decide, by rw [n2]; simp⟩
    · simp [sdoDefns, n1, n2, asGrammar]
  · cases h1
    obtain ⟨g, _, rfl, n1, d1, h3⟩ := pm_content h3
    obtain ⟨a, _, rfl, n2, h3⟩ := pm_name h3
    obtain rfl := pm_nil h3
    refine ⟨by simp, two (fun p c q => SdoPlace (pre ++ p) c (q ++ rest)) g a ?_ ?_, ?_, ?_⟩
    · exact .inr (.inr (.inl n1))
    · exact .inr (.inr (.inr (.inr ⟨n2, g, by simp, .inr ⟨n1, (default_iff _).1 d1⟩⟩)))
    · intro b _ _ q hq
      simp at hq; subst hq
      exact ⟨by rw [n2]; decide, by rw [n2]; simp⟩
    · simp [sdoDefns, n1, n2, asGrammar]
  · cases h1
    obtain ⟨x, _, rfl, n0, d1, h3⟩ := pm_content h3
    obtain ⟨g, _, rfl, n1, h3⟩ := pm_name h3
    obtain ⟨a, _, rfl, n2, h3⟩ := pm_name h3
    obtain rfl := pm_nil h3
    refine ⟨by simp, ?_, ?_, ?_⟩
    · intro p c q e
      cases p with
      | nil => simp at e; obtain ⟨rfl, rfl⟩ := e; exact .inr (.inr (.inl n0))
      | cons z p =>
        simp at e
        obtain ⟨rfl, e⟩ := e
        refine two (fun p c q => SdoPlace (pre ++ x :: p) c (q ++ rest)) g a ?_ ?_ p c q e
        · exact .inr (.inr (.inr (.inl ⟨n1, a, rfl, n2⟩)))
        · exact .inr (.inr (.inr (.inr ⟨n2, g, by simp, .inl n1⟩)))
    · intro b _ _ q hq
      simp at hq; subst hq
      exact ⟨by rw [n2]; decide, by rw [n2]; simp⟩
    · simp [sdoDefns, n0, n1, n2, asGrammar]
  · cases h1
    obtain ⟨x, _, rfl, n1, h3⟩ := pm_name h3
    obtain rfl := pm_nil h3
    refine ⟨by simp, one (fun p c q => SdoPlace (pre ++ p) c (q ++ rest)) x (.inl n1), ?_, ?_⟩
    · intro b _ _ q hq
      simp at hq; subst hq
      exact ⟨by rw [n1]; decide, by rw [n1]; simp⟩
    · simp [sdoDefns, n1]
  · cases h1
    obtain ⟨x, _, rfl, n1, h3⟩ := pm_name h3
    obtain rfl := pm_nil h3
    refine ⟨by simp, one (fun p c q => SdoPlace (pre ++ p) c (q ++ rest)) x (.inr (.inl n1)), ?_, ?_⟩
    · intro b _ _ q hq
      simp at hq; subst hq
      exact ⟨by rw [n1]; decide, by rw [n1]; simp⟩
    · simp [sdoDefns, n1]
  · cases h1
    obtain ⟨x, _, rfl, n1, h3⟩ := pm_name h3
    obtain rfl := pm_nil h3
    refine ⟨by simp, one (fun p c q => SdoPlace (pre ++ p) c (q ++ rest)) x (.inr (.inr (.inl n1))), ?_, ?_⟩
    · intro b hb ha q hq
      simp at hq; subst hq
      refine ⟨by rw [n1]; decide, fun ⟨_, hd⟩ => ?_⟩
      cases rest with
      | nil => cases hb
      | cons b' rest' =>
        cases hb
        exact h4 1 _ (by omega) rfl [x, b] rest' rfl (.content n1 hd (.name ha .nil))
    · simp [sdoDefns, n1]
  · simp [sdoUnits] at h1

theorem sdo_chopped {nodes used rs rest} (h : Chopped sdoUnits nodes used rs rest) : ∀ pre, NoCarry pre nodes →
    ∃ front, nodes = front ++ rest ∧ (∀ p c q, front = p ++ c :: q → SdoPlace (pre ++ p) c (q ++ rest)) ∧ NoCarry (pre ++ front) rest ∧
      sdoDefns pre.getLast? nodes = rs.map (fun b => .usual b.1 b.2) ++ sdoDefns (pre ++ front).getLast? rest := by
  induction h with
  | nil nodes =>
    intro pre hc
    exact ⟨[], rfl, fun p c q e => by simp at e, by simpa using hc, by simp⟩
  | cons hne hm _ ih =>
    rename_i nodes i u m rest used rs last _
    intro pre hc
    have e0 := hm.2.1
    subst e0
    obtain ⟨-, h2, h3, h4⟩ := sdo_front (pre := pre) i u hm
    obtain ⟨f, e, i2, i3, i4⟩ := ih (pre ++ m) h3
    refine ⟨m ++ f, by rw [e]; simp, ?_, by simpa using i3, ?_⟩
    · intro p c q e2
      rcases List.append_eq_append_iff.1 e2 with ⟨a, rfl, e3⟩ | ⟨a, rfl, e3⟩
      · have := i2 a c q e3
        simpa using this
      · cases a with
        | nil =>
          have := i2 [] c q (by simpa using e3.symm)
          simpa using this
        | cons y a =>
          simp at e3
          obtain ⟨rfl, rfl⟩ := e3
          have := h2 p c a rfl
          rw [e] at this
          simpa using this
    · rw [h4, i4]
      simp

/-- A block at which no unit matches is not in its place. -/
theorem sdo_stuck {pre : List HNode} {x : HNode} {xs : List HNode} (hc : NoCarry pre (x :: xs))
    (h : ∀ u ∈ sdoUnits, ∀ m rest, x :: xs = m ++ rest → ¬ PatternMatches u.pattern m) : ¬ SdoPlace pre x xs := by
  have g : ∀ (j : Nat) u, sdoUnits[j]? = some u → ∀ m rest, x :: xs = m ++ rest → ¬ PatternMatches u.pattern m :=
    fun j u e => h u (List.mem_of_getElem? e)
  rintro (n | n | n | ⟨n, a, ha, n2⟩ | ⟨n, q, hq, n2⟩)
  · exact g 3 _ rfl [x] xs rfl (.name n .nil)
  · exact g 4 _ rfl [x] xs rfl (.name n .nil)
  · exact g 5 _ rfl [x] xs rfl (.name n .nil)
  · cases xs with
    | nil => cases ha
    | cons y ys =>
      cases ha
      exact g 0 _ rfl [x, a] ys rfl (.name n (.name n2 .nil))
  · obtain ⟨h1, h2⟩ := hc x rfl n q hq
    rcases n2 with n2 | ⟨n2, d⟩
    · exact h1 n2
    · exact h2 ⟨n2, (default_iff _).2 d⟩

theorem sdoUnits_ne : ∀ u ∈ sdoUnits, u.pattern ≠ [] := by
  simp [sdoUnits]

/-- What the scan gives. -/
theorem sdo_scan (bs : List HNode) : ∃ r, scanSection sdoUnits bs bs.length = some r ∧
    ((r.msg = none ∧ AllPlaced SdoPlace bs ∧ r.results.map (fun b => Defn.usual b.1 b.2) = sdoDefns none bs) ∨
     (∃ b, r.msg = some b.startPosn ∧ FirstMisplaced SdoPlace bs b ∧ r.results = [])) := by
  obtain ⟨r, hr⟩ := c11_scan_terminates sdoUnits sdoUnits_ne bs bs.length (Nat.le_refl _)
  refine ⟨r, hr, ?_⟩
  have nc : NoCarry [] bs := fun a _ _ q hq => by cases hq
  cases hm : r.msg with
  | none =>
    obtain ⟨hch, -⟩ := c11_scan_complete sdoUnits bs _ r hr hm
    obtain ⟨f, e, h2, -, h4⟩ := sdo_chopped hch [] nc
    refine .inl ⟨rfl, ?_, by simpa [sdoDefns] using h4.symm⟩
    intro p c q e2
    have := h2 p c q (by rw [← e2, e]; simp)
    simpa using this
  | some pos =>
    obtain ⟨h0, rs, x, xs, hch, rfl, -, hno⟩ := c11_scan_reports sdoUnits bs _ r pos hr hm
    obtain ⟨f, e, h2, h3, -⟩ := sdo_chopped hch [] nc
    refine .inr ⟨x, rfl, ⟨f, xs, e, ?_, ?_⟩, h0⟩
    · have := sdo_stuck h3 hno
      simpa using this
    · intro p c q e2
      have := h2 p c q e2
      simpa using this

end Verif.Bodies
