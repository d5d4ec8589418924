import Verif.Trees.Spec
/-!
# C95: A printed tree shows the tree
-/
namespace Verif.Trees

/-- The first line, if there is one, does not begin with `q`. -/
def Stop (q : Str) (ls : List Str) : Prop := ∀ l ls', ls = l :: ls' → ¬ q <+: l

theorem stop_nil (q : Str) : Stop q [] := fun _ _ h => nomatch h

theorem stop_cons {q l : Str} {ls : List Str} (h : ¬ q <+: l) : Stop q (l :: ls) := by
  intro l' ls' e
  obtain ⟨rfl, rfl⟩ := List.cons.inj e
  exact h

theorem stop_longer {q r : Str} {ls : List Str} (h : Stop q ls) : Stop (q ++ r) ls :=
  fun l ls' e hp => h l ls' e ((List.prefix_append q r).trans hp)

/-- The first line of a tree. -/
theorem render_head (t : Tree) (p : Str) (last : Bool) : ∃ s ls, render t p last = (p ++ (first last ++ ' ' :: s)) :: ls := by
  cases t with
  | nothing => exact ⟨_, [], by rw [render]⟩
  | node s cs cov => exact ⟨s, _, by rw [render]⟩

theorem renderAll_head (c : Tree) (cs : List Tree) (p : Str) : ∃ s ls, renderAll (c :: cs) p = (p ++ (first cs.isEmpty ++ ' ' :: s)) :: ls := by
  obtain ⟨s, ls, h⟩ := render_head c p cs.isEmpty
  exact ⟨s, ls ++ renderAll cs p, by rw [renderAll, h, List.cons_append]⟩

/-- A first line is not a later line. -/
theorem first_later (p s : Str) (a b : Bool) : ¬ (p ++ later a) <+: (p ++ (first b ++ ' ' :: s)) := by
  rw [List.prefix_append_right_inj]
  cases a <;> cases b <;> (intro h; obtain ⟨r, h⟩ := h; simp [later, first] at h)

theorem first_inj {p s s' : Str} {a b : Bool} (h : p ++ (first a ++ ' ' :: s) = p ++ (first b ++ ' ' :: s')) : a = b ∧ s = s' := by
  have h := List.append_cancel_left h
  cases a <;> cases b <;> simp [first] at h <;> exact ⟨rfl, h⟩

theorem covers_child (q : Str) : ¬ (q ++ [' ']) <+: (q ++ "COVERS".toList) := by
  rw [List.prefix_append_right_inj]
  intro h; obtain ⟨r, h⟩ := h; simp at h

/-- What follows the children does not look like one. -/
theorem cov_stop (cov : Option Tree) {q : Str} {rest : List Str} (h : Stop q rest) : Stop (q ++ [' ']) (renderCov cov q ++ rest) := by
  cases cov with
  | none => rw [renderCov]; exact stop_longer h
  | some c => rw [renderCov]; exact stop_cons (covers_child q)

mutual
theorem tree_inj : ∀ (t t' : Tree), Plain t → Plain t' → ∀ (p : Str) (last : Bool) (rest rest' : List Str), Stop (p ++ later last) rest → Stop (p ++ later last) rest' →
    render t p last ++ rest = render t' p last ++ rest' → t = t' ∧ rest = rest'
  | .nothing, .nothing, _, _, p, last, rest, rest', _, _, h => by
    rw [render] at h
    exact ⟨rfl, (List.cons.inj h).2⟩
  | .nothing, .node s cs cov, _, h2, p, last, rest, rest', _, _, h => by
    rw [render, render] at h
    have := (first_inj (List.cons.inj h).1).2
    rw [Plain] at h2
    exact absurd this.symm h2.2.1
  | .node s cs cov, .nothing, h1, _, p, last, rest, rest', _, _, h => by
    rw [render, render] at h
    have := (first_inj (List.cons.inj h).1).2
    rw [Plain] at h1
    exact absurd this h1.2.1
  | .node s cs cov, .node s' cs' cov', h1, h2, p, last, rest, rest', hr, hr', h => by
    rw [render, render, List.cons_append, List.cons_append] at h
    rw [Plain] at h1 h2
    obtain ⟨e1, e2⟩ := List.cons.inj h
    obtain rfl := (first_inj e1).2
    rw [List.append_assoc (renderAll _ _), List.append_assoc (renderAll _ _)] at e2
    obtain ⟨e3, e4⟩ := trees_inj cs cs' h1.2.2.1 h2.2.2.1 _ _ _ (cov_stop cov hr) (cov_stop cov' hr') e2
    obtain ⟨e5, e6⟩ := cov_inj cov cov' h1.2.2.2 h2.2.2.2 _ _ _ hr hr' e4
    exact ⟨by rw [e3, e5], e6⟩
theorem trees_inj : ∀ (cs cs' : List Tree), PlainAll cs → PlainAll cs' → ∀ (p : Str) (rest rest' : List Str), Stop p rest → Stop p rest' →
    renderAll cs p ++ rest = renderAll cs' p ++ rest' → cs = cs' ∧ rest = rest'
  | [], [], _, _, _, _, _, _, _, h => by rw [renderAll] at h; exact ⟨rfl, h⟩
  | [], c :: cs, _, _, p, rest, rest', hr, _, h => by
    obtain ⟨s, ls, e⟩ := renderAll_head c cs p
    rw [renderAll, List.nil_append, e, List.cons_append] at h
    exact absurd (List.prefix_append p _) (hr _ _ h)
  | c :: cs, [], _, _, p, rest, rest', _, hr, h => by
    obtain ⟨s, ls, e⟩ := renderAll_head c cs p
    rw [e, List.cons_append] at h
    conv at h => rhs; rw [renderAll, List.nil_append]
    exact absurd (List.prefix_append p _) (hr _ _ h.symm)
  | c :: cs, c' :: cs', h1, h2, p, rest, rest', hr, hr', h => by
    rw [PlainAll] at h1 h2
    have hl : cs.isEmpty = cs'.isEmpty := by
      obtain ⟨s, ls, e⟩ := renderAll_head c cs p
      obtain ⟨s', ls', e'⟩ := renderAll_head c' cs' p
      rw [e, e', List.cons_append, List.cons_append] at h
      exact (first_inj (List.cons.inj h).1).1
    have hs : ∀ (ds : List Tree) (rs : List Str), Stop p rs → Stop (p ++ later ds.isEmpty) (renderAll ds p ++ rs) := by
      intro ds rs hrs
      cases ds with
      | nil => rw [renderAll]; exact stop_longer hrs
      | cons d ds =>
        obtain ⟨s, ls, e⟩ := renderAll_head d ds p
        rw [e, List.cons_append]
        exact stop_cons (first_later _ _ _ _)
    rw [renderAll, renderAll, List.append_assoc, List.append_assoc, ← hl] at h
    obtain ⟨e1, e2⟩ := tree_inj c c' h1.1 h2.1 p cs.isEmpty _ _ (hs cs rest hr) (hl ▸ hs cs' rest' hr') h
    obtain ⟨e3, e4⟩ := trees_inj cs cs' h1.2 h2.2 p _ _ hr hr' e2
    exact ⟨by rw [e1, e3], e4⟩
theorem cov_inj : ∀ (c c' : Option Tree), PlainCov c → PlainCov c' → ∀ (q : Str) (rest rest' : List Str), Stop q rest → Stop q rest' →
    renderCov c q ++ rest = renderCov c' q ++ rest' → c = c' ∧ rest = rest'
  | none, none, _, _, _, _, _, _, _, h => by rw [renderCov] at h; exact ⟨rfl, h⟩
  | none, some c, _, _, q, rest, rest', hr, _, h => by
    rw [renderCov, renderCov, List.nil_append, List.cons_append] at h
    exact absurd (List.prefix_append q _) (hr _ _ h)
  | some c, none, _, _, q, rest, rest', _, hr, h => by
    rw [renderCov, renderCov, List.nil_append, List.cons_append] at h
    exact absurd (List.prefix_append q _) (hr _ _ h.symm)
  | some c, some c', h1, h2, q, rest, rest', hr, hr', h => by
    rw [PlainCov] at h1 h2
    rw [renderCov, renderCov, List.cons_append, List.cons_append] at h
    obtain ⟨e1, e2⟩ := tree_inj c c' h1 h2 (q ++ [' ']) true rest rest' (stop_longer (stop_longer hr)) (stop_longer (stop_longer hr')) (List.cons.inj h).2
    exact ⟨by rw [e1], e2⟩
end

theorem no_break_first {last : Bool} {c : Char} (h : c ∈ first last) : c ≠ '\n' := by
  cases last <;> (rintro rfl; revert h; decide)

theorem no_break_later {last : Bool} : '\n' ∉ later last := by cases last <;> decide

mutual
theorem tree_lines : ∀ (t : Tree), Plain t → ∀ (p : Str) (last : Bool), '\n' ∉ p → ∀ l ∈ render t p last, '\n' ∉ l
  | .nothing, _, p, last, hp, l, hl => by
    rw [render] at hl
    rw [List.mem_singleton.1 hl]
    intro h
    rcases List.mem_append.1 h with h | h
    · exact hp h
    rcases List.mem_append.1 h with h | h
    · exact no_break_first h rfl
    · revert h; decide
  | .node s cs cov, h1, p, last, hp, l, hl => by
    rw [render] at hl
    rw [Plain] at h1
    have hq : '\n' ∉ p ++ later last := fun h => (List.mem_append.1 h).elim hp no_break_later
    rcases List.mem_cons.1 hl with rfl | hl
    · intro h
      rcases List.mem_append.1 h with h | h
      · exact hp h
      rcases List.mem_append.1 h with h | h
      · exact no_break_first h rfl
      rcases List.mem_cons.1 h with h | h
      · revert h; decide
      · exact h1.1 h
    · rcases List.mem_append.1 hl with hl | hl
      · exact trees_lines cs h1.2.2.1 _ (fun h => (List.mem_append.1 h).elim hq (by decide)) l hl
      · exact cov_lines cov h1.2.2.2 _ hq l hl
theorem trees_lines : ∀ (cs : List Tree), PlainAll cs → ∀ (p : Str), '\n' ∉ p → ∀ l ∈ renderAll cs p, '\n' ∉ l
  | [], _, _, _, l, hl => by rw [renderAll] at hl; exact nomatch hl
  | c :: cs, h1, p, hp, l, hl => by
    rw [renderAll] at hl
    rw [PlainAll] at h1
    rcases List.mem_append.1 hl with hl | hl
    · exact tree_lines c h1.1 p _ hp l hl
    · exact trees_lines cs h1.2 p hp l hl
theorem cov_lines : ∀ (c : Option Tree), PlainCov c → ∀ (q : Str), '\n' ∉ q → ∀ l ∈ renderCov c q, '\n' ∉ l
  | none, _, _, _, l, hl => by rw [renderCov] at hl; exact nomatch hl
  | some c, h1, q, hq, l, hl => by
    rw [renderCov] at hl
    rw [PlainCov] at h1
    rcases List.mem_cons.1 hl with rfl | hl
    · exact fun h => (List.mem_append.1 h).elim hq (by decide)
    · exact tree_lines c h1 _ _ (fun h => (List.mem_append.1 h).elim hq (by decide)) l hl
end

theorem line_inj {l l' r r' : Str} (hl : '\n' ∉ l) (hl' : '\n' ∉ l') (h : l ++ '\n' :: r = l' ++ '\n' :: r') : l = l' ∧ r = r' := by
  induction l generalizing l' with
  | nil =>
    cases l' with
    | nil => exact ⟨rfl, (List.cons.inj h).2⟩
    | cons c l' => exact absurd (show '\n' ∈ c :: l' by rw [← (List.cons.inj h).1]; exact .head _) hl'
  | cons c l ih =>
    cases l' with
    | nil => exact absurd (show '\n' ∈ c :: l by rw [(List.cons.inj h).1]; exact .head _) hl
    | cons c' l' =>
      obtain ⟨rfl, h1⟩ := List.cons.inj h
      obtain ⟨rfl, h2⟩ := ih (fun h => hl (.tail _ h)) (fun h => hl' (.tail _ h)) h1
      exact ⟨rfl, h2⟩

theorem lines_inj {ls ls' : List Str} (hl : ∀ l ∈ ls, '\n' ∉ l) (hl' : ∀ l ∈ ls', '\n' ∉ l)
    (h : ls.flatMap (· ++ ['\n']) = ls'.flatMap (· ++ ['\n'])) : ls = ls' := by
  induction ls generalizing ls' with
  | nil =>
    cases ls' with
    | nil => rfl
    | cons l ls => rw [List.flatMap_nil, List.flatMap_cons] at h; simp at h
  | cons l ls ih =>
    cases ls' with
    | nil => rw [List.flatMap_nil, List.flatMap_cons] at h; simp at h
    | cons l' ls' =>
      rw [List.flatMap_cons, List.flatMap_cons, List.append_assoc, List.append_assoc] at h
      obtain ⟨rfl, h1⟩ := line_inj (hl _ (.head _)) (hl' _ (.head _)) h
      rw [ih (fun x hx => hl x (.tail _ hx)) (fun x hx => hl' x (.tail _ hx)) h1]

/-- C95: two trees that are printed the same (with the same prefix) are the same: which node is whose child, the order, and what is covered can be read from what is printed. -/
theorem c95_faithful {t t' : Tree} {p : Str} (hp : '\n' ∉ p) (ht : Plain t) (ht' : Plain t') (h : printTree t p = printTree t' p) : t = t' := by
  have h := lines_inj (tree_lines t ht p true hp) (tree_lines t' ht' p true hp) h
  exact (tree_inj t t' ht ht' p true [] [] (stop_nil _) (stop_nil _) (by rw [List.append_nil, List.append_nil]; exact h)).1

mutual
theorem tree_size : ∀ (t : Tree) (p : Str) (last : Bool), (render t p last).length = size t
  | .nothing, p, last => by rw [render, size]; rfl
  | .node s cs cov, p, last => by
    rw [render, size, List.length_cons, List.length_append, trees_size cs, cov_size cov]; omega
theorem trees_size : ∀ (cs : List Tree) (p : Str), (renderAll cs p).length = sizeAll cs
  | [], _ => by rw [renderAll, sizeAll]; rfl
  | c :: cs, p => by rw [renderAll, sizeAll, List.length_append, tree_size c, trees_size cs]
theorem cov_size : ∀ (c : Option Tree) (q : Str), (renderCov c q).length = sizeCov c
  | none, _ => by rw [renderCov, sizeCov]; rfl
  | some c, q => by rw [renderCov, sizeCov, List.length_cons, tree_size c]; omega
end

theorem count_lines {ls : List Str} (h : ∀ l ∈ ls, '\n' ∉ l) : (ls.flatMap (· ++ ['\n'])).count '\n' = ls.length := by
  induction ls with
  | nil => rfl
  | cons l ls ih =>
    rw [List.flatMap_cons, List.count_append, List.count_append, ih (fun x hx => h x (.tail _ hx)), List.count_eq_zero.2 (h l (.head _)), List.length_cons]
    simp; omega

/-- C95: there is one line for each node, and one more for each covered thing. -/
theorem c95_lines {t : Tree} {p : Str} (hp : '\n' ∉ p) (ht : Plain t) : (printTree t p).count '\n' = size t := by
  unfold printTree
  rw [count_lines (tree_lines t ht p true hp), tree_size]

mutual
theorem tree_prefix : ∀ (t : Tree) (p : Str) (last : Bool), ∀ l ∈ render t p last, p <+: l
  | .nothing, p, last, l, hl => by
    rw [render] at hl
    rw [List.mem_singleton.1 hl]
    exact List.prefix_append _ _
  | .node s cs cov, p, last, l, hl => by
    rw [render] at hl
    have hq : p <+: p ++ later last := List.prefix_append _ _
    rcases List.mem_cons.1 hl with rfl | hl
    · exact List.prefix_append _ _
    · rcases List.mem_append.1 hl with hl | hl
      · exact (hq.trans (List.prefix_append _ _)).trans (trees_prefix cs _ l hl)
      · exact hq.trans (cov_prefix cov _ l hl)
theorem trees_prefix : ∀ (cs : List Tree) (p : Str), ∀ l ∈ renderAll cs p, p <+: l
  | [], _, l, hl => by rw [renderAll] at hl; exact nomatch hl
  | c :: cs, p, l, hl => by
    rw [renderAll] at hl
    rcases List.mem_append.1 hl with hl | hl
    · exact tree_prefix c p _ l hl
    · exact trees_prefix cs p l hl
theorem cov_prefix : ∀ (c : Option Tree) (q : Str), ∀ l ∈ renderCov c q, q <+: l
  | none, _, l, hl => by rw [renderCov] at hl; exact nomatch hl
  | some c, q, l, hl => by
    rw [renderCov] at hl
    rcases List.mem_cons.1 hl with rfl | hl
    · exact List.prefix_append _ _
    · exact (List.prefix_append _ _).trans (tree_prefix c _ _ l hl)
end

/-- C95: each line that is written begins with the prefix, and nothing is written but such lines. -/
theorem c95_prefix (t : Tree) (p : Str) : ∃ ls : List Str, printTree t p = ls.flatMap (· ++ ['\n']) ∧ ls.length = size t ∧ ∀ l ∈ ls, p <+: l :=
  ⟨_, rfl, tree_size t p true, tree_prefix t p true⟩

/-! ## A case -/

/-- `a` with the children `b` (which covers `d` with a child `e`) and nothing, and `c`. -/
def sample : Tree := .node "a".toList [.node "b".toList [.nothing] (some (.node "d".toList [.node "e".toList [] none] none)), .node "c".toList [] none] none

example : printTree sample "> ".toList = ("> '- a\n" ++ ">    |- b\n" ++ ">    |  '- (nothing)\n" ++ ">    | COVERS\n" ++ ">    |  '- d\n" ++ ">    |     '- e\n" ++ ">    '- c\n").toList := by
  decide +kernel

example : Plain sample := by
  simp [sample, Plain, PlainAll, PlainCov]

example : size sample = 7 := by decide +kernel

/-- The hypothesis is needed: a leaf with that text is printed as `None` is. -/
theorem c95_nothing : printTree .nothing [] = printTree (.node "(nothing)".toList [] none) [] := by decide +kernel

end Verif.Trees
