import Verif.StepRefs.Spec
import Verif.HTML.Props
/-! Lemmas on the tree: which node an offset is in. -/
namespace Verif.StepRefs
open Verif.HTML
open Verif.Validate (nStart nStop nName nKids)

theorem start_eq (n : Node) : n.start = nStart n := by cases n; rfl
theorem stop_eq (n : Node) : n.stop = nStop n := by cases n; rfl

mutual
theorem nested_le : ∀ {n : Node}, Nested n → n.start ≤ n.stop
  | _, .leaf h => h
  | _, .elem h1 h2 h3 => by
    have := seq_le h3
    simp only [Node.start, Node.stop]
    omega
theorem seq_le : ∀ {l : List Node} {a b : Nat}, NestedSeq a l b → a ≤ b
  | _, _, _, .nil h => h
  | _, _, _, .cons h1 h2 h3 => by
    have := seq_le h3
    have := nested_le h2
    omega
end

theorem seq_bounds {b : Nat} : ∀ (l : List Node) (a : Nat), NestedSeq a l b → ∀ n ∈ l, a ≤ nStart n ∧ nStop n ≤ b ∧ Nested n
  | [], _, _, n, hn => absurd hn (by simp)
  | c :: cs, a, h, n, hn => by
    cases h with
    | cons h1 h2 h3 =>
      have hc := nested_le h2
      have hs := seq_le h3
      rw [start_eq] at h1 hc
      rw [stop_eq] at h3 hc hs
      rcases List.mem_cons.1 hn with rfl | hn
      · exact ⟨h1, hs, h2⟩
      · obtain ⟨g1, g2, g3⟩ := seq_bounds cs _ h3 n hn
        exact ⟨by omega, g2, g3⟩

theorem seq_order {b : Nat} (c : Node) (post : List Node) : ∀ (pre : List Node) (a : Nat), NestedSeq a (pre ++ c :: post) b →
    ∀ q ∈ pre, nStop q ≤ nStart c
  | [], _, _, q, hq => absurd hq (by simp)
  | d :: pre, a, h, q, hq => by
    cases h with
    | cons h1 h2 h3 =>
      rcases List.mem_cons.1 hq with rfl | hq
      · rw [stop_eq] at h3
        exact (seq_bounds _ _ h3 c (by simp)).1
      · exact seq_order c post pre _ h3 q hq

/-- The children lie in order inside the node, but perhaps up to its ends (as those of the document). -/
def Weak (x : Node) : Prop := ∃ i j, nStart x ≤ i ∧ j ≤ nStop x ∧ NestedSeq i (nKids x) j

theorem nested_strict {x : Node} (h : Nested x) (hk : nKids x ≠ []) : ∃ i j, nStart x < i ∧ j < nStop x ∧ NestedSeq i (nKids x) j := by
  cases h with
  | leaf _ => exact absurd rfl hk
  | elem h1 h2 h3 => exact ⟨_, _, h1, h2, h3⟩

theorem nested_weak {x : Node} (h : Nested x) : Weak x := by
  cases h with
  | leaf h => exact ⟨_, _, Nat.le_refl _, Nat.le_refl _, .nil h⟩
  | elem h1 h2 h3 => exact ⟨_, _, Nat.le_of_lt h1, Nat.le_of_lt h2, h3⟩

/-- As `In`, from the top. -/
inductive Sub : Node → Node → Prop
  | here {x} : Sub x x
  | step {x c m} : c ∈ nKids x → Sub c m → Sub x m

theorem sub_snoc {x n c : Node} (h : Sub x n) (hc : c ∈ nKids n) : Sub x c := by
  induction h with
  | here => exact .step hc .here
  | step h1 _ ih => exact .step h1 (ih hc)

theorem in_sub {doc m : Node} (h : In doc m) : Sub doc m := by
  induction h with
  | root => exact .here
  | kid _ hc ih => exact sub_snoc ih hc

theorem sub_in {doc x m : Node} (hx : In doc x) (h : Sub x m) : In doc m := by
  induction h with
  | here => exact hx
  | step h1 _ ih => exact ih (.kid hx h1)

theorem weak_kid {x c : Node} (h : Weak x) (hc : c ∈ nKids x) : nStart x ≤ nStart c ∧ nStop c ≤ nStop x ∧ Nested c := by
  obtain ⟨i, j, h1, h2, h3⟩ := h
  obtain ⟨g1, g2, g3⟩ := seq_bounds _ _ h3 c hc
  exact ⟨by omega, by omega, g3⟩

theorem weak_sub {x m : Node} (h : Weak x) (hs : Sub x m) :
    nStart x ≤ nStart m ∧ nStop m ≤ nStop x ∧ (m = x ∨ Nested m) := by
  induction hs with
  | here => exact ⟨Nat.le_refl _, Nat.le_refl _, Or.inl rfl⟩
  | step hc _ ih =>
    obtain ⟨g1, g2, g3⟩ := weak_kid h hc
    obtain ⟨i1, i2, i3⟩ := ih (nested_weak g3)
    refine ⟨by omega, by omega, Or.inr ?_⟩
    rcases i3 with rfl | h
    · exact g3
    · exact h

/-- As `Chain`, from the top. -/
inductive Down : Node → List Node → List Node → Prop
  | here {x anc} : Down x anc (x :: anc)
  | step {x anc c path} : c ∈ nKids x → Down c (x :: anc) path → Down x anc path

theorem down_snoc {x anc n rest c} (h : Down x anc (n :: rest)) (hc : c ∈ nKids n) : Down x anc (c :: n :: rest) := by
  generalize hp : n :: rest = path at h
  induction h with
  | here =>
    injection hp with h1 h2
    subst h1; subst h2
    exact .step hc .here
  | step h1 _ ih => exact .step h1 (ih hp)

theorem chain_down {doc path} (h : Chain doc path) : Down doc [] path := by
  induction h with
  | root => exact .here
  | kid _ hc ih => exact down_snoc ih hc

theorem down_chain {doc x anc path} (h : Down x anc path) (hx : Chain doc (x :: anc)) : Chain doc path := by
  induction h with
  | here => exact hx
  | step h1 _ ih => exact ih (.kid hx h1)

theorem down_sub {x anc path} (h : Down x anc path) : ∃ n rest, path = n :: rest ∧ Sub x n := by
  induction h with
  | here => exact ⟨_, _, rfl, .here⟩
  | step h1 _ ih =>
    obtain ⟨n, rest, h2, h3⟩ := ih
    exact ⟨n, rest, h2, .step h1 h3⟩

theorem down_mem {x anc path} (h : Down x anc path) : x ∈ path := by
  have : ∀ {x anc path}, Down x anc path → ∀ y ∈ x :: anc, y ∈ path := by
    intro x anc path h
    induction h with
    | here => exact fun y hy => hy
    | step _ _ ih => exact fun y hy => ih y (List.mem_cons_of_mem _ hy)
  exact this h x List.mem_cons_self

theorem in_chain {doc m} (h : In doc m) : ∃ anc, Chain doc (m :: anc) := by
  induction h with
  | root => exact ⟨_, .root⟩
  | kid _ hc ih =>
    obtain ⟨anc, h⟩ := ih
    exact ⟨_, .kid h hc⟩

theorem chain_in {doc path} (h : Chain doc path) : ∀ m ∈ path, In doc m := by
  induction h with
  | root => intro m hm; rw [List.mem_singleton.1 hm]; exact .root
  | kid _ hc ih =>
    intro m hm
    rcases List.mem_cons.1 hm with rfl | hm
    · exact .kid (ih _ List.mem_cons_self) hc
    · exact ih m hm

/-! ### The search -/

theorem deepest_eq (p : Nat) (anc : List Node) (x : Node) : deepest p anc x =
    if nStart x ≤ p ∧ p ≤ nStop x then (if nKids x = [] then some (x :: anc) else deepestL p (x :: anc) (nKids x)) else none := by
  obtain ⟨s, e, n, a, i, kids⟩ := x
  rw [deepest.eq_def]
  cases kids with
  | nil => simp [nStart, nStop, nKids]
  | cons c cs => simp [nStart, nStop, nKids]

theorem deepestL_at {p : Nat} {anc : List Node} {a b : Nat} {c : Node} (l : List Node) (h : NestedSeq a l b) (hc : c ∈ l)
    (h1 : nStart c ≤ p) (h2 : p ≤ nStop c) (he : nStart c = p → ∀ q ∈ l, nStop q ≠ p) : deepestL p anc l = deepest p anc c := by
  obtain ⟨pre, post, rfl⟩ := List.append_of_mem hc
  have ho := seq_order c post pre a h
  have : ∀ (pre' : List Node), (∀ q ∈ pre', ¬ (nStart q ≤ p ∧ p ≤ nStop q)) → deepestL p anc (pre' ++ c :: post) = deepest p anc c := by
    intro pre'
    induction pre' with
    | nil => intro _; simp only [List.nil_append, deepestL]; rw [if_pos ⟨h1, h2⟩]
    | cons q qs ih =>
      intro hq
      simp only [List.cons_append, deepestL]
      rw [if_neg (hq q List.mem_cons_self)]
      exact ih (fun r hr => hq r (List.mem_cons_of_mem _ hr))
  refine this pre ?_
  rintro q hq ⟨g1, g2⟩
  have := ho q hq
  exact he (by omega) q (List.mem_append_left _ hq) (by omega)

mutual
theorem deepest_down : ∀ (x : Node) (p : Nat) (anc path : List Node), deepest p anc x = some path →
    Down x anc path ∧ ∃ n rest, path = n :: rest ∧ nKids n = [] ∧ nStart n ≤ p ∧ p ≤ nStop n
  | .mk s e n a i kids, p, anc, path, h => by
    rw [deepest.eq_def] at h
    simp only at h
    by_cases hc : s ≤ p ∧ p ≤ e
    · rw [if_pos hc] at h
      match kids, h with
      | [], h =>
        injection h with h
        subst h
        exact ⟨.here, _, _, rfl, rfl, hc.1, hc.2⟩
      | c :: cs, h =>
        obtain ⟨d, hd, h1, h2⟩ := deepestL_down (c :: cs) p _ path h
        exact ⟨.step hd h1, h2⟩
    · rw [if_neg hc] at h; exact absurd h (by simp)
theorem deepestL_down : ∀ (l : List Node) (p : Nat) (anc path : List Node), deepestL p anc l = some path →
    ∃ c ∈ l, Down c anc path ∧ ∃ n rest, path = n :: rest ∧ nKids n = [] ∧ nStart n ≤ p ∧ p ≤ nStop n
  | [], p, anc, path, h => by simp [deepestL] at h
  | c :: cs, p, anc, path, h => by
    rw [deepestL] at h
    by_cases hc : nStart c ≤ p ∧ p ≤ nStop c
    · rw [if_pos hc] at h
      exact ⟨c, List.mem_cons_self, deepest_down c p anc path h⟩
    · rw [if_neg hc] at h
      obtain ⟨d, hd, h1⟩ := deepestL_down cs p anc path h
      exact ⟨d, List.mem_cons_of_mem _ hd, h1⟩
end

theorem deepest_of_down {p : Nat} {x : Node} {anc path : List Node} (h : Down x anc path) : ∀ {n rest}, path = n :: rest → nKids n = [] →
    nStart n ≤ p → p ≤ nStop n → (nStart n = p → ∀ m, Sub x m → nStop m ≠ p) → Weak x → deepest p anc x = some path := by
  induction h with
  | here =>
    intro n rest hp hk h1 h2 _ _
    injection hp with e1 e2
    subst e1
    rw [deepest_eq, if_pos ⟨h1, h2⟩, if_pos hk]
  | @step x anc c path hc hd ih =>
    intro n rest hp hk h1 h2 he hw
    obtain ⟨n', rest', hp', hs⟩ := down_sub hd
    rw [hp] at hp'
    injection hp' with e1 e2
    subst e1
    obtain ⟨g1, g2, g3⟩ := weak_kid hw hc
    obtain ⟨i1, i2, _⟩ := weak_sub (nested_weak g3) hs
    obtain ⟨i, j, w1, w2, w3⟩ := hw
    rw [deepest_eq, if_pos ⟨by omega, by omega⟩, if_neg (List.ne_nil_of_mem hc),
      deepestL_at _ w3 hc (by omega) (by omega) (fun e q hq => he (by omega) q (.step hq .here))]
    exact ih hp hk h1 h2 (fun e m hm => he e m (.step hc hm)) (nested_weak g3)

/-- Just after an element with content, the search fails. -/
theorem deepest_none {p : Nat} {x m : Node} (h : Sub x m) (hk : nKids m ≠ []) (hp : nStop m = p) :
    ∀ (anc : List Node), Nested x → deepest p anc x = none := by
  induction h with
  | here =>
    intro anc hn
    obtain ⟨i, j, w1, w2, w3⟩ := nested_strict hn hk
    rw [deepest_eq]
    split
    · have hb := seq_bounds _ _ w3
      have : ∀ (l : List Node) anc, (∀ q ∈ l, nStop q ≤ j) → deepestL p anc l = none := by
        intro l anc
        induction l with
        | nil => intro _; rfl
        | cons c cs ih =>
          intro hl
          rw [deepestL, if_neg (by have := hl c List.mem_cons_self; omega)]
          exact ih (fun q hq => hl q (List.mem_cons_of_mem _ hq))
      exact this _ _ (fun q hq => (hb q hq).2.1)
    · rfl
  | @step x c m hc hs ih =>
    intro anc hn
    obtain ⟨i, j, w1, w2, w3⟩ := nested_strict hn (List.ne_nil_of_mem hc)
    obtain ⟨b1, b2, b3⟩ := seq_bounds _ _ w3 c hc
    obtain ⟨g1, g2, g3⟩ := weak_sub (nested_weak b3) hs
    have hm : nStart m < nStop m := by
      have hn' : Nested m := by
        rcases g3 with rfl | h
        · exact b3
        · exact h
      obtain ⟨i', j', q1, q2, q3⟩ := nested_strict hn' hk
      have := seq_le q3
      omega
    rw [deepest_eq]
    split
    · rw [if_neg (List.ne_nil_of_mem hc), deepestL_at _ w3 hc (by omega) (by omega) (fun e => absurd e (by omega))]
      exact ih hk hp _ b3
    · rfl

theorem deepest_mem {p : Nat} {x m : Node} (h : Sub x m) (h1 : nStart m < p) (h2 : p < nStop m) :
    ∀ (anc path : List Node), Weak x → deepest p anc x = some path → m ∈ path := by
  induction h with
  | here => intro anc path _ hd; exact down_mem (deepest_down _ _ _ _ hd).1
  | @step x c m hc hs ih =>
    intro anc path hw hd
    obtain ⟨g1, g2, g3⟩ := weak_kid hw hc
    obtain ⟨b1, b2, _⟩ := weak_sub (nested_weak g3) hs
    obtain ⟨i, j, w1, w2, w3⟩ := hw
    rw [deepest_eq, if_pos ⟨by omega, by omega⟩, if_neg (List.ne_nil_of_mem hc),
      deepestL_at _ w3 hc (by omega) (by omega) (fun e => absurd e (by omega))] at hd
    exact ih h1 h2 _ _ (nested_weak g3) hd

/-! ### In a document -/

variable {doc : Node} {p : Nat}

/-- The document is a weakly nested node, beginning at 0, and `p` is before its end. -/
structure DocOk (doc : Node) (p : Nat) : Prop where
  weak : Weak doc
  lt : p < nStop doc
  /-- No node is empty at `p`. -/
  wide : ∀ m, In doc m → nStop m = p → nStart m < p
  /-- No section starts at `p`. -/
  sec : ∀ m, In doc m → Section m → nStart m ≠ p
  doc : ¬ Section doc

theorem doc_none (hd : DocOk doc p) {m : Node} (hm : In doc m) (hk : nKids m ≠ []) (hp : nStop m = p) : deepest p [] doc = none := by
  have hs := in_sub hm
  cases hs with
  | here => have := hd.lt; omega
  | @step _ c _ hc hs =>
    obtain ⟨g1, g2, g3⟩ := weak_kid hd.weak hc
    obtain ⟨b1, b2, _⟩ := weak_sub (nested_weak g3) hs
    have := hd.wide m hm hp
    obtain ⟨i, j, w1, w2, w3⟩ := hd.weak
    rw [deepest_eq]
    split
    · rw [if_neg (List.ne_nil_of_mem hc), deepestL_at _ w3 hc (by omega) (by omega) (fun e => absurd e (by omega))]
      exact deepest_none hs hk hp _ g3
    · rfl

theorem locate_iff (hd : DocOk doc p) (path : List Node) :
    deepest p [] doc = some path ↔ ∃ n rest, path = n :: rest ∧ Chain doc path ∧ Holds doc p n := by
  constructor
  · intro h
    obtain ⟨h1, n, rest, rfl, h3, h4, h5⟩ := deepest_down _ _ _ _ h
    refine ⟨n, rest, rfl, down_chain h1 .root, h3, h4, h5, ?_⟩
    intro he m hm hp
    by_cases hk : nKids m = []
    · have hlt := hd.wide m hm hp
      obtain ⟨anc, ha⟩ := in_chain hm
      have := deepest_of_down (p := p) (chain_down ha) rfl hk (by omega) (by omega) (fun e => absurd e (by omega)) hd.weak
      rw [h] at this
      injection this with this
      injection this with this
      rw [← this] at hlt
      omega
    · rw [doc_none hd hm hk hp] at h; exact absurd h (by simp)
  · rintro ⟨n, rest, rfl, hc, hh⟩
    exact deepest_of_down (chain_down hc) rfl hh.leaf hh.lo hh.hi (fun e m hm => hh.edge e m (sub_in .root hm)) hd.weak

theorem chain_starts (hw : Weak doc) : ∀ {path}, Chain doc path → ∀ n rest, path = n :: rest →
    (n = doc ∨ Nested n) ∧ Weak n ∧ nStart doc ≤ nStart n ∧ ∀ m ∈ rest, nStop n ≤ nStop m ∧ nStart m ≤ nStart n ∧ (m = doc ∨ nStart m < nStart n) := by
  intro path h
  induction h with
  | root =>
    intro n rest e
    injection e with e1 e2
    subst e1; subst e2
    exact ⟨Or.inl rfl, hw, Nat.le_refl _, fun m hm => absurd hm (by simp)⟩
  | @kid n anc c _ hc ih =>
    intro n' rest e
    injection e with e1 e2
    subst e1; subst e2
    obtain ⟨g0, g1, g2, g3⟩ := ih n anc rfl
    obtain ⟨k1, k2, k3⟩ := weak_kid g1 hc
    refine ⟨Or.inr k3, nested_weak k3, by omega, ?_⟩
    intro m hm
    rcases List.mem_cons.1 hm with rfl | hm
    · refine ⟨k2, k1, ?_⟩
      rcases g0 with h | h
      · exact Or.inl h
      · obtain ⟨i, j, w1, w2, w3⟩ := nested_strict h (List.ne_nil_of_mem hc)
        have := (seq_bounds _ _ w3 c hc).1
        exact Or.inr (by omega)
    · obtain ⟨q1, q2, q3⟩ := g3 m hm
      exact ⟨by omega, by omega, q3.imp id (fun h => by omega)⟩

theorem section_iff (n : Node) : isSection n = true ↔ Section n := by
  unfold isSection Section
  simp only [List.mem_cons, List.not_mem_nil, or_false, decide_eq_true_eq]

theorem closest_iff (path : List Node) (sec : Option Node) : closest path = sec ↔ FirstSection path sec := by
  unfold closest
  cases sec with
  | none =>
    simp only [FirstSection, List.find?_eq_none, section_iff]
  | some s =>
    simp only [FirstSection]
    rw [List.find?_eq_some_iff_append]
    constructor
    · rintro ⟨h1, a, b, h2, h3⟩
      refine ⟨a, b, h2, (section_iff s).1 h1, fun t ht hs => ?_⟩
      have := h3 t ht
      rw [(section_iff t).2 hs] at this
      exact absurd this (by decide)
    · rintro ⟨a, b, h2, h1, h3⟩
      refine ⟨(section_iff s).2 h1, a, b, h2, fun t ht => ?_⟩
      have := h3 t ht
      rw [← section_iff] at this
      simpa using this

theorem sections_in_path (hd : DocOk doc p) {path : List Node} (h : deepest p [] doc = some path) (t : Node) (hs : Section t) :
    t ∈ path ↔ In doc t ∧ nStart t < p ∧ p ≤ nStop t := by
  obtain ⟨n, rest, rfl, hc, hh⟩ := (locate_iff hd path).1 h
  constructor
  · intro ht
    have hin := chain_in hc t ht
    have hne := hd.sec t hin hs
    have h1 := hh.lo
    have h2 := hh.hi
    rcases List.mem_cons.1 ht with rfl | ht
    · exact ⟨hin, by omega, by omega⟩
    · obtain ⟨g1, g2, _⟩ := (chain_starts hd.weak hc n rest rfl).2.2.2 t ht
      exact ⟨hin, by omega, by omega⟩
  · rintro ⟨hin, h1, h2⟩
    by_cases hk : nKids t = []
    · obtain ⟨anc, ha⟩ := in_chain hin
      have := deepest_of_down (p := p) (chain_down ha) rfl hk (by omega) (by omega) (fun e => absurd e (by omega)) hd.weak
      rw [h] at this
      injection this with this
      rw [this]
      exact List.mem_cons_self
    · by_cases he : nStop t = p
      · rw [doc_none hd hin hk he] at h; exact absurd h (by simp)
      · exact deepest_mem (in_sub hin) h1 (by omega) _ _ hd.weak h

theorem closest_at (hd : DocOk doc p) {path : List Node} (h : deepest p [] doc = some path) (sec : Option Node) :
    closest path = sec ↔ SectionAt doc p sec := by
  have hc : Chain doc path := by
    obtain ⟨_, _, _, hc, _⟩ := (locate_iff hd path).1 h
    exact hc
  have hsuf : ∀ (a : List Node) s b, path = a ++ s :: b → Chain doc (s :: b) := by
    intro a
    induction a generalizing path with
    | nil => intro s b e; rw [e] at hc; exact hc
    | cons x a ih =>
      intro s b e
      rw [e] at hc
      cases hc' : a ++ s :: b with
      | nil => simp at hc'
      | cons y l =>
        rw [List.cons_append, hc'] at hc
        cases hc with
        | kid h1 h2 =>
          have hgen : ∀ (a : List Node) l0, Chain doc l0 → l0 = a ++ s :: b → Chain doc (s :: b) := by
            intro a
            induction a with
            | nil => intro l0 h0 e0; rw [e0] at h0; exact h0
            | cons x a ih =>
              intro l0 h0 e0
              rw [e0] at h0
              cases hh : a ++ s :: b with
              | nil => simp at hh
              | cons z l1 =>
                rw [List.cons_append, hh] at h0
                cases h0 with
                | kid g1 _ => exact ih _ g1 hh.symm
          exact hgen a _ h1 hc'.symm
  have hmain : SectionAt doc p (closest path) := by
    have hf := (closest_iff path (closest path)).1 rfl
    cases hcl : closest path with
    | none =>
      rw [hcl] at hf
      intro t hin hs hlt
      exact hf t ((sections_in_path hd h t hs).2 ⟨hin, hlt⟩) hs
    | some s =>
      rw [hcl] at hf
      obtain ⟨a, b, e, hs, ha⟩ := hf
      obtain ⟨h1, h2, h3⟩ := (sections_in_path hd h s hs).1 (by rw [e]; simp)
      refine ⟨h1, hs, h2, h3, ?_⟩
      intro t ht hst g1 g2
      have hm := (sections_in_path hd h t hst).2 ⟨ht, g1, g2⟩
      rw [e] at hm
      rcases List.mem_append.1 hm with hm | hm
      · exact absurd hst (ha t hm)
      · rcases List.mem_cons.1 hm with rfl | hm
        · exact Nat.le_refl _
        · exact ((chain_starts hd.weak (hsuf a s b e) s b rfl).2.2.2 t hm).2.1
  constructor
  · intro he; rw [← he]; exact hmain
  · intro hsa
    cases hcl : closest path with
    | none =>
      rw [hcl] at hmain
      cases sec with
      | none => rfl
      | some s => exact absurd ⟨hsa.2.2.1, hsa.2.2.2.1⟩ (hmain s hsa.1 hsa.2.1)
    | some s =>
      have hf := (closest_iff path (some s)).1 hcl
      rw [hcl] at hmain
      cases sec with
      | none => exact absurd ⟨hmain.2.2.1, hmain.2.2.2.1⟩ (hsa s hmain.1 hmain.2.1)
      | some s' =>
        obtain ⟨a, b, e, hs, ha⟩ := hf
        have hm := (sections_in_path hd h s' hsa.2.1).2 ⟨hsa.1, hsa.2.2.1, hsa.2.2.2.1⟩
        rw [e] at hm
        rcases List.mem_append.1 hm with hm | hm
        · exact absurd hsa.2.1 (ha s' hm)
        · rcases List.mem_cons.1 hm with rfl | hm
          · rfl
          · have hlt := ((chain_starts hd.weak (hsuf a s b e) s b rfl).2.2.2 s' hm).2.2
            have hle := hsa.2.2.2.2 s hmain.1 hmain.2.1 hmain.2.2.1 hmain.2.2.2.1
            rcases hlt with rfl | hlt
            · exact absurd hsa.2.1 hd.doc
            · omega

end Verif.StepRefs
