import Verif.Early.Completes
/-!
# C37: the traversal for early errors
-/
namespace Verif.Early

section
variable {P E : Type} {L : Lang P E}

/-- A call from outside returns the errors of the tree, as specified relative to what has been found to be covered by the end, provided no node has been found to cover something after
its own rules were applied.  Afterwards there is no list of errors. -/
theorem c37_errors (n : Nat) (t : Tree P) (s s' : St P E) (es : List E) (h0 : s.errs = none) (h1 : s.saved = none) (h : getErrors (traverse L n) t s = some (es, s')) :
    s'.errs = none ∧ s'.saved = none ∧ (∀ i a, lookup s.covered i = some a → lookup s'.covered i = some a) ∧
    ∃ vs, s'.visited = s.visited ++ vs ∧ ((∀ i ∈ vs, lookup s'.covered i = none) → Whole L (lookup s'.covered) t es vs) := by
  simp only [getErrors, h0] at h
  cases hr : traverse L n t { s with errs := some [] } with
  | none => simp [hr] at h
  | some s2 =>
    simp only [hr] at h
    obtain ⟨es2, vs, d⟩ := traverse_ok n t _ s2 rfl hr
    have e1 : s2.errs = some es2 := by rw [d.errs]; simp
    have e2 : s2.saved = none := d.saved.trans h1
    simp only [e1, e2, Option.some.injEq, Prod.mk.injEq] at h
    obtain ⟨h2, h3⟩ := h
    subst h2 h3
    refine ⟨rfl, rfl, d.mono, vs, d.visited, fun hv => ?_⟩
    obtain ⟨ns, n1, n2⟩ := d.spec (lookup s2.covered) (fun _ _ h => h) hv
    exact .mk n1 n2

/-- A call from inside a rule does the same, and leaves the list of the outer call as it was.  It is only made for a Pattern, and not from inside such a call. -/
theorem c37_nested (n : Nat) (t : Tree P) (s s' : St P E) (es l : List E) (h0 : s.errs = some l) (h : getErrors (traverse L n) t s = some (es, s')) :
    s'.errs = some l ∧ s.saved = none ∧ s'.saved = none ∧ t.sym? = some "Pattern" ∧ (∀ i a, lookup s.covered i = some a → lookup s'.covered i = some a) ∧
    ∃ vs, s'.visited = s.visited ++ vs ∧ ((∀ i ∈ vs, lookup s'.covered i = none) → Whole L (lookup s'.covered) t es vs) := by
  obtain ⟨vs, c1, c2, c3, c4, c5⟩ := getErrors_ok (traverse_ok n) t s s' es (by rw [h0]; rfl) h
  have hp : t.sym? = some "Pattern" ∧ s.saved.isNone = true := by
    simp only [getErrors, h0] at h
    by_cases hp : t.sym? = some "Pattern" ∧ s.saved.isNone = true
    · exact hp
    · rw [if_neg hp] at h; cases h
  have hn : s.saved = none := by simpa using hp.2
  exact ⟨c1.trans h0, hn, c3.trans hn, hp.1, c4, vs, c2, fun hv => c5 _ (fun _ _ h => h) hv⟩

/-- What the specification says is unique. -/
theorem c37_determined {K : Covering P} {t es vs es' vs'} (h : Whole L K t es vs) (h' : Whole L K t es' vs') : es = es' ∧ vs = vs' := whole_det h h'

/-- If all nodes are different objects, then the rules for a node are applied only once. -/
theorem c37_once {t : Tree P} {c : List (Nat × Option (Tree P))} (hd : Distinct t c) {ns} (h : Nodes (lookup c) t ns) : (ns.flatMap Tree.id?).Nodup := by
  obtain ⟨ms, a, b⟩ := met_of_nodes h
  exact b.nodup (met_once hd a)

mutual
/-- All nodes, in preorder. -/
def preorder : Tree P → List (Tree P)
  | .leaf => []
  | .node i s p ts => .node i s p ts :: preorderAll ts
def preorderAll : List (Tree P) → List (Tree P)
  | [] => []
  | t :: ts => preorder t ++ preorderAll ts
end

mutual
/-- Where no node covers anything, rules apply to all nodes. -/
theorem c37_plain {K : Covering P} : ∀ t : Tree P, (∀ i ∈ ids t, K i = none) → Nodes K t (preorder t)
  | .leaf, _ => .leaf
  | .node i s p ts, h => by
    rw [preorder]
    exact .plain (h i (by simp [ids])) (plainAll ts (fun j hj => h j (by simp [ids, hj])))
theorem plainAll {K : Covering P} : ∀ ts : List (Tree P), (∀ i ∈ idsAll ts, K i = none) → NodesAll K ts (preorderAll ts)
  | [], _ => .nil
  | t :: ts, h => by
    rw [preorderAll]
    exact .cons (c37_plain t (fun j hj => h j (by simp [idsAll, hj]))) (plainAll ts (fun j hj => h j (by simp [idsAll, hj])))
end

/-- Once it has been asked what a node covers, the answer stays, whatever nonterminal is asked for. -/
theorem c37_cover (i : Nat) (nt : String) (s s' : St P E) (a : Option (Tree P)) (h : coverOf L i nt s = some (a, s')) :
    (∀ nt', coverOf L i nt' s' = some (a, s')) ∧ (lookup s.covered i = none → ∀ t, a = some t → t.sym? = some nt ∧ L.parse i nt = some t) := by
  obtain ⟨_, _, _, _, c5⟩ := coverOf_ok h
  refine ⟨fun nt' => by simp [coverOf, c5], fun hl t ha => ?_⟩
  subst ha
  simp only [coverOf, hl] at h
  cases hp : L.parse i nt with
  | none => simp [hp] at h
  | some u =>
    simp only [hp] at h
    by_cases hu : u.sym? = some nt
    · simp [hu] at h
      obtain ⟨h1, _⟩ := h
      subst h1
      exact ⟨hu, rfl⟩
    · simp [hu] at h

/-- A call from outside completes, for a tree whose rules look for the errors of Patterns only, where the rules for the nodes of a Pattern do not look for those of another.
With enough fuel the result does not depend on it. -/
theorem c37_completes (t : Tree P) (s : St P E) (h0 : s.errs = none) (h1 : s.saved = none) (hc : Parsed L s.covered)
    (ht : Finite L (Finite L fun _ => False) t) : ∃ n es s', ∀ m, n ≤ m → getErrors (traverse L m) t s = some (es, s') := by
  obtain ⟨n, s1, a0, a1, a2, a3⟩ := traverse_conv getConv_flat ht { s with errs := some [] } rfl h1 hc
  obtain ⟨es, he⟩ := Option.isSome_iff_exists.1 a1
  refine ⟨n, es, { s1 with errs := none }, fun m hm => ?_⟩
  have h := a0 m hm
  simp only at h
  simp [getErrors, h0, h, he, a2]

/-- A call from inside a rule is refused for anything but a Pattern, and from inside such a call. -/
theorem c37_stops (trav : Tree P → St P E → Option (St P E)) (t : Tree P) (s : St P E) (h : s.errs.isSome = true)
    (hb : t.sym? ≠ some "Pattern" ∨ s.saved.isSome = true) : getErrors trav t s = none := by
  obtain ⟨l, hl⟩ := Option.isSome_iff_exists.1 h
  have : ¬ (t.sym? = some "Pattern" ∧ s.saved.isNone = true) := by
    rintro ⟨a, b⟩
    rcases hb with hb | hb
    · exact hb a
    · rw [Option.isNone_iff_eq_none] at b; rw [b] at hb; cases hb
  simp only [getErrors, hl, if_neg this]

end

/-! ### An example -/

/-- Node 1 has the children 2, with a child 3, and 4.  Node 2 covers node 10, which has a child 11. -/
def exTree : Tree Nat := .node 1 "Script" 0 [.node 2 "CoverThing" 1 [.node 3 "Inner" 2 [.leaf]], .node 4 "Literal" 3 []]

def exPattern : Tree Nat := .node 20 "Pattern" 4 []

/-- The rule for 1 says that 2 must cover an Arrow. Those for the nodes 2 and 3 are not applied.  The one for 4 looks for errors in a Pattern. -/
def exLang : Lang Nat String where
  parse i nt := if i = 2 ∧ nt = "Arrow" then some (.node 10 "Arrow" 5 [.node 11 "Param" 6 []]) else none
  rules
    | 0 => some [fun _ => .cover 2 "Arrow" (fun a => if a.isNone then .report "not an Arrow" .done else .done)]
    | 1 => some [fun _ => .report "2" .done]
    | 2 => some [fun _ => .report "3" .done]
    | 3 => some [fun _ => .nested exPattern (fun es => if es.isEmpty then .done else .report "bad pattern" .done), fun _ => .report "4" .done]
    | 4 => some [fun _ => .report "pattern" .done]
    | 6 => some [fun _ => .report "11" .done]
    | _ => none

def exSt {P E : Type} : St P E := { covered := [], errs := none, saved := none, visited := [] }

example : (getErrors (traverse exLang 5) exTree exSt).map (fun p => (p.1, p.2.visited, p.2.covered.map (fun q => (q.1, idsOf q.2)))) =
    some (["11", "bad pattern", "4"], [1, 10, 11, 4, 20], [(2, [10, 11])]) := by decide +kernel

example : Distinct exTree [(2, some (.node 10 "Arrow" 5 [.node 11 "Param" 6 []]))] :=
  ⟨by simp [exTree, ids, idsAll, idsOf], by simp, by simp [idsOf, ids, idsAll]⟩

example : Finite exLang (Finite exLang fun _ => False) exTree := by
  have ok : ∀ i, i ≠ 2 → ∀ nt u, exLang.parse i nt = some u → False := fun i hi nt u h => by simp [exLang, hi] at h
  refine .node ?_ (fun nt u h => (ok 1 (by decide) nt u h).elim) ?_
  · intro t ht
    simp only [List.mem_cons, List.not_mem_nil, or_false] at ht
    rcases ht with rfl | rfl
    · refine .node ?_ ?_ ?_
      · intro t ht
        simp only [List.mem_cons, List.not_mem_nil, or_false] at ht
        subst ht
        refine .node (fun t ht => ?_) (fun nt u h => (ok 3 (by decide) nt u h).elim) ?_
        · simp only [List.mem_cons, List.not_mem_nil, or_false] at ht
          subst ht; exact .leaf
        · intro q hq
          simp only [progs, exLang, List.map, List.mem_cons, List.not_mem_nil, or_false] at hq
          subst hq; trivial
      · intro nt u h
        simp only [exLang] at h
        split at h
        · simp only [Option.some.injEq] at h
          subst h
          refine .node (fun t ht => ?_) (fun nt u h => (ok 10 (by decide) nt u h).elim) (fun q hq => by simp [progs, exLang] at hq)
          simp only [List.mem_cons, List.not_mem_nil, or_false] at ht
          subst ht
          refine .node (by simp) (fun nt u h => (ok 11 (by decide) nt u h).elim) ?_
          intro q hq
          simp only [progs, exLang, List.map, List.mem_cons, List.not_mem_nil, or_false] at hq
          subst hq; trivial
        · cases h
      · intro q hq
        simp only [progs, exLang, List.map, List.mem_cons, List.not_mem_nil, or_false] at hq
        subst hq; trivial
    · refine .node (by simp) (fun nt u h => (ok 4 (by decide) nt u h).elim) ?_
      intro q hq
      simp only [progs, exLang, List.map, List.mem_cons, List.not_mem_nil, or_false] at hq
      rcases hq with rfl | rfl
      · refine ⟨rfl, .node (by simp) (fun nt u h => (ok 20 (by decide) nt u h).elim) ?_, fun es => ?_⟩
        · intro q hq
          simp only [progs, exLang, List.map, List.mem_cons, List.not_mem_nil, or_false] at hq
          subst hq; trivial
        · dsimp only; split <;> trivial
      · trivial
  · intro q hq
    simp only [progs, exLang, List.map, List.mem_cons, List.not_mem_nil, or_false] at hq
    subst hq
    refine ⟨fun u h => ?_, fun a => ?_⟩
    · simp [exLang] at h
      subst h; rfl
    · dsimp only; split <;> trivial

/-- A rule that asks what its own node covers. -/
def selfLang : Lang Nat String where
  parse _ _ := none
  rules
    | 0 => some [fun _ => .cover 1 "Arrow" (fun _ => .done)]
    | 1 => some [fun _ => .report "2" .done]
    | _ => none

/-- Without the proviso the claim is false: the rules of the node's children are applied, although "no early error rules are applied to it or any of its descendants". -/
theorem c37_self_witness :
    (getErrors (traverse selfLang 5) exTree exSt).map (fun p => (p.1, (lookup p.2.covered 1).map idsOf)) = some (["2"], some []) ∧
    ∀ K : Covering Nat, K 1 = some none → Whole selfLang K exTree [] [] :=
  ⟨by decide +kernel, fun _ h => .mk (.shouldCover h) .nil⟩

/-- The answer is remembered without the nonterminal: asked for a Thing after a failed search for an Arrow, the program finds none although there is one. -/
theorem c37_cache_witness :
    ∃ L : Lang Nat String, (L.parse 2 "Thing").isSome = true ∧ (L.parse 2 "Arrow").isNone = true ∧
      ((coverOf L 2 "Thing" exSt).bind (fun p => p.1)).isSome = true ∧
      ((coverOf L 2 "Arrow" exSt).bind (fun p => (coverOf L 2 "Thing" p.2).bind (fun q => q.1))).isNone = true :=
  ⟨{ parse := fun _ nt => if nt = "Thing" then some (.node 10 "Thing" 0 []) else none, rules := fun _ => none }, by decide +kernel⟩

end Verif.Early
