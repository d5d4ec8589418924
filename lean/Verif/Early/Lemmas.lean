import Verif.Early.Spec
/-!
# The traversal does what the specification says
-/
namespace Verif.Early

section
variable {P E : Type} {L : Lang P E}

/-- `K` has what is known so far. -/
def Ext (c : List (Nat × Option (Tree P))) (K : Covering P) : Prop := ∀ i a, lookup c i = some a → K i = some a

/-- What a part of the traversal does: it adds the errors `es` and the visited nodes `vs`, which are as `D` says. -/
structure Does (s s' : St P E) (D : Covering P → List E → List Nat → Prop) (es : List E) (vs : List Nat) : Prop where
  errs : s'.errs = s.errs.map (· ++ es)
  visited : s'.visited = s.visited ++ vs
  saved : s'.saved = s.saved
  mono : ∀ i a, lookup s.covered i = some a → lookup s'.covered i = some a
  spec : ∀ K, Ext s'.covered K → (∀ i ∈ vs, K i = none) → D K es vs

theorem lookup_append (c d : List (Nat × Option (Tree P))) (i : Nat) : lookup (c ++ d) i = match lookup c i with
    | some a => some a
    | none => lookup d i := by
  induction c with
  | nil => rfl
  | cons p c ih =>
    obtain ⟨j, a⟩ := p
    simp only [List.cons_append, lookup]
    by_cases h : j = i <;> simp [h, ih]

theorem Ext.mono {c d : List (Nat × Option (Tree P))} {K : Covering P} (h : Ext d K) (hm : ∀ i a, lookup c i = some a → lookup d i = some a) : Ext c K :=
  fun i a hi => h i a (hm i a hi)

theorem coverOf_ok {i nt s a s'} (h : coverOf L i nt s = some (a, s')) :
    s'.errs = s.errs ∧ s'.visited = s.visited ∧ s'.saved = s.saved ∧ (∀ j b, lookup s.covered j = some b → lookup s'.covered j = some b) ∧ lookup s'.covered i = some a := by
  unfold coverOf at h
  cases hl : lookup s.covered i with
  | some b =>
    simp [hl] at h
    obtain ⟨h1, h2⟩ := h
    subst h1 h2
    exact ⟨rfl, rfl, rfl, fun _ _ h => h, hl⟩
  | none =>
    simp only [hl] at h
    have key : ∀ b, (∀ j c, lookup s.covered j = some c → lookup (s.covered ++ [(i, b)]) j = some c) ∧ lookup (s.covered ++ [(i, b)]) i = some b := by
      intro b
      refine ⟨fun j c hj => by rw [lookup_append, hj], ?_⟩
      rw [lookup_append, hl]
      simp [lookup]
    cases hp : L.parse i nt with
    | none =>
      simp [hp] at h
      obtain ⟨h1, h2⟩ := h
      subst h1 h2
      exact ⟨rfl, rfl, rfl, key none⟩
    | some t =>
      simp only [hp] at h
      by_cases ht : t.sym? = some nt
      · simp [ht] at h
        obtain ⟨h1, h2⟩ := h
        subst h1 h2
        exact ⟨rfl, rfl, rfl, key (some t)⟩
      · simp [ht] at h

/-- What a nested call should do. -/
def GetOk (L : Lang P E) (get : Tree P → St P E → Option (List E × St P E)) : Prop :=
  ∀ t s s' es, s.errs.isSome = true → get t s = some (es, s') →
    ∃ vs, s'.errs = s.errs ∧ s'.visited = s.visited ++ vs ∧ s'.saved = s.saved ∧ (∀ i a, lookup s.covered i = some a → lookup s'.covered i = some a) ∧
      ∀ K, Ext s'.covered K → (∀ i ∈ vs, K i = none) → Whole L K t es vs

theorem runProg_ok {get} (hg : GetOk L get) : ∀ (p : Prog P E) (s s' : St P E), s.errs.isSome = true → runProg L get p s = some s' →
    ∃ es vs, Does s s' (fun K es vs => Says L K p es vs) es vs
  | .done, s, s', hs, h => by
    simp only [runProg, Option.some.injEq] at h
    subst h
    exact ⟨[], [], by cases s.errs <;> simp, by simp, rfl, fun _ _ h => h, fun _ _ _ => .done⟩
  | .report e k, s, s', hs, h => by
    simp only [runProg, report] at h
    cases he : s.errs with
    | none => rw [he] at hs; cases hs
    | some l =>
      simp only [he] at h
      obtain ⟨es, vs, d⟩ := runProg_ok hg k _ s' (by rfl) h
      refine ⟨e :: es, vs, ?_, d.visited, d.saved, d.mono, fun K h1 h2 => .report (d.spec K h1 h2)⟩
      rw [d.errs, he]
      simp
  | .cover i nt k, s, s', hs, h => by
    simp only [runProg] at h
    cases hc : coverOf L i nt s with
    | none => simp [hc] at h
    | some p =>
      obtain ⟨a, s1⟩ := p
      simp only [hc] at h
      obtain ⟨c1, c2, c3, c4, c5⟩ := coverOf_ok hc
      obtain ⟨es, vs, d⟩ := runProg_ok hg (k a) s1 s' (by rw [c1]; exact hs) h
      exact ⟨es, vs, by rw [d.errs, c1], by rw [d.visited, c2], by rw [d.saved, c3], fun j b hj => d.mono j b (c4 j b hj),
        fun K h1 h2 => .cover (h1 i a (d.mono i a c5)) (d.spec K h1 h2)⟩
  | .nested t k, s, s', hs, h => by
    simp only [runProg] at h
    cases hc : get t s with
    | none => simp [hc] at h
    | some p =>
      obtain ⟨es1, s1⟩ := p
      simp only [hc] at h
      obtain ⟨vs1, c1, c2, c3, c4, c5⟩ := hg t s s1 es1 hs hc
      obtain ⟨es, vs, d⟩ := runProg_ok hg (k es1) s1 s' (by rw [c1]; exact hs) h
      exact ⟨es, vs1 ++ vs, by rw [d.errs, c1], by rw [d.visited, c2, List.append_assoc], by rw [d.saved, c3], fun j b hj => d.mono j b (c4 j b hj),
        fun K h1 h2 => .nested (c5 K (h1.mono d.mono) (fun i hi => h2 i (List.mem_append_left _ hi))) (d.spec K h1 (fun i hi => h2 i (List.mem_append_right _ hi)))⟩

theorem Does.trans {s s1 s' : St P E} {D D' D'' : Covering P → List E → List Nat → Prop} {es vs es' vs'} (a : Does s s1 D es vs) (b : Does s1 s' D' es' vs')
    (h : ∀ K, D K es vs → D' K es' vs' → D'' K (es ++ es') (vs ++ vs')) : Does s s' D'' (es ++ es') (vs ++ vs') := by
  refine ⟨?_, by rw [b.visited, a.visited, List.append_assoc], by rw [b.saved, a.saved], fun i x hx => b.mono i x (a.mono i x hx), fun K h1 h2 => ?_⟩
  · rw [b.errs, a.errs]
    cases s.errs <;> simp
  · exact h K (a.spec K (h1.mono b.mono) (fun i hi => h2 i (List.mem_append_left _ hi))) (b.spec K h1 (fun i hi => h2 i (List.mem_append_right _ hi)))

theorem Does.some {s s' : St P E} {D es vs} (a : Does s s' D es vs) (h : s.errs.isSome = true) : s'.errs.isSome = true := by
  rw [a.errs]
  cases he : s.errs with
  | none => rw [he] at h; cases h
  | some l => rfl

theorem applyAll_ok {get} (hg : GetOk L get) (t : Tree P) : ∀ (rs : List (Tree P → Prog P E)) (s s' : St P E), s.errs.isSome = true → applyAll L get t rs s = some s' →
    ∃ es vs, Does s s' (fun K es vs => SaysAll L K (rs.map (fun r => r t)) es vs) es vs
  | [], s, s', hs, h => by
    simp only [applyAll, Option.some.injEq] at h
    subst h
    exact ⟨[], [], by cases s.errs <;> simp, by simp, rfl, fun _ _ h => h, fun _ _ _ => .nil⟩
  | r :: rs, s, s', hs, h => by
    simp only [applyAll] at h
    cases hr : runProg L get (r t) s with
    | none => simp [hr] at h
    | some s1 =>
      simp only [hr] at h
      obtain ⟨es, vs, d⟩ := runProg_ok hg (r t) s s1 hs hr
      obtain ⟨es', vs', d'⟩ := applyAll_ok hg t rs s1 s' (d.some hs) h
      exact ⟨_, _, d.trans d' (fun K => .cons)⟩

/-- What the traversal of a tree should do. -/
def TravOk (L : Lang P E) (trav : Tree P → St P E → Option (St P E)) : Prop :=
  ∀ t s s', s.errs.isSome = true → trav t s = some s' → ∃ es vs, Does s s' (fun K es vs => ∃ ns, Nodes K t ns ∧ AtNodes L K ns es vs) es vs

theorem atNodes_append {K : Covering P} : ∀ {ms ns : List (Tree P)} {es vs es' vs'}, AtNodes L K ms es vs → AtNodes L K ns es' vs' →
    AtNodes L K (ms ++ ns) (es ++ es') (vs ++ vs')
  | [], _, _, _, _, _, .nil, h => h
  | t :: ms, ns, _, _, es', vs', .cons (es := e1) (vs := v1) (es' := e2) (vs' := v2) h1 h2, h => by
    have := AtNodes.cons h1 (atNodes_append h2 h)
    simpa [List.append_assoc] using this

theorem travAll_ok {trav} (ht : TravOk L trav) : ∀ (ts : List (Tree P)) (s s' : St P E), s.errs.isSome = true → travAll trav ts s = some s' →
    ∃ es vs, Does s s' (fun K es vs => ∃ ns, NodesAll K ts ns ∧ AtNodes L K ns es vs) es vs
  | [], s, s', hs, h => by
    simp only [travAll, Option.some.injEq] at h
    subst h
    exact ⟨[], [], by cases s.errs <;> simp, by simp, rfl, fun _ _ h => h, fun _ _ _ => ⟨[], .nil, .nil⟩⟩
  | t :: ts, s, s', hs, h => by
    simp only [travAll] at h
    cases hr : trav t s with
    | none => simp [hr] at h
    | some s1 =>
      simp only [hr] at h
      obtain ⟨es, vs, d⟩ := ht t s s1 hs hr
      obtain ⟨es', vs', d'⟩ := travAll_ok ht ts s1 s' (d.some hs) h
      refine ⟨_, _, d.trans d' (fun K => ?_)⟩
      rintro ⟨ms, h1, h2⟩ ⟨ns, h3, h4⟩
      exact ⟨ms ++ ns, .cons h1 h3, atNodes_append h2 h4⟩

theorem getErrors_ok {trav} (ht : TravOk L trav) : GetOk L (getErrors trav) := by
  intro t s s' es hs h
  simp only [getErrors] at h
  cases he : s.errs with
  | none => rw [he] at hs; cases hs
  | some l =>
    simp only [he] at h
    by_cases hp : t.sym? = some "Pattern" ∧ s.saved.isNone = true
    · rw [if_pos hp] at h
      simp only [] at h
      cases hr : trav t { s with errs := some [], saved := some l } with
      | none => simp [hr] at h
      | some s2 =>
        simp only [hr] at h
        obtain ⟨es2, vs, d⟩ := ht t _ s2 rfl hr
        have e1 : s2.errs = some es2 := by rw [d.errs]; simp
        have e2 : s2.saved = some l := d.saved
        simp only [e1, e2, Option.some.injEq, Prod.mk.injEq] at h
        obtain ⟨h1, h2⟩ := h
        subst h1 h2
        have hn : s.saved = none := by simpa using hp.2
        refine ⟨vs, rfl, d.visited, hn.symm, d.mono, fun K k1 k2 => ?_⟩
        obtain ⟨ns, n1, n2⟩ := d.spec K k1 k2
        exact .mk n1 n2
    · rw [if_neg hp] at h
      cases h

theorem traverse_ok : ∀ n, TravOk L (traverse L n)
  | 0 => by
    intro t s s' hs h
    cases h
  | n + 1 => by
    intro t s s' hs h
    cases t with
    | leaf =>
      simp only [traverse, Option.some.injEq] at h
      subst h
      exact ⟨[], [], by cases s.errs <;> simp, by simp, rfl, fun _ _ h => h, fun _ _ _ => ⟨[], .leaf, .nil⟩⟩
    | node i sym puk kids =>
      simp only [traverse] at h
      cases hl : lookup s.covered i with
      | some a =>
        cases a with
        | some u =>
          simp only [hl] at h
          obtain ⟨es, vs, d⟩ := traverse_ok n u s s' hs h
          refine ⟨es, vs, d.errs, d.visited, d.saved, d.mono, fun K h1 h2 => ?_⟩
          obtain ⟨ns, n1, n2⟩ := d.spec K h1 h2
          exact ⟨ns, .covers (h1 i _ (d.mono i _ hl)) n1, n2⟩
        | none =>
          simp only [hl, Option.some.injEq] at h
          subst h
          exact ⟨[], [], by cases s.errs <;> simp, by simp, rfl, fun _ _ h => h, fun K h1 _ => ⟨[], .shouldCover (h1 i _ hl), .nil⟩⟩
      | none =>
        simp only [hl] at h
        cases ha : applyAll L (getErrors (traverse L n)) (.node i sym puk kids) ((L.rules puk).getD []) { s with visited := s.visited ++ [i] } with
        | none => simp [ha] at h
        | some s1 =>
          simp only [ha] at h
          obtain ⟨es, vs, d⟩ := applyAll_ok (getErrors_ok (traverse_ok n)) _ _ { s with visited := s.visited ++ [i] } s1 hs ha
          obtain ⟨es', vs', d'⟩ := travAll_ok (traverse_ok n) kids s1 s' (d.some hs) h
          refine ⟨es ++ es', [i] ++ vs ++ vs', ?_, ?_, by rw [d'.saved, d.saved], fun j b hj => d'.mono j b (d.mono j b hj), fun K h1 h2 => ?_⟩
          · rw [d'.errs, d.errs]
            cases s.errs <;> simp
          · rw [d'.visited, d.visited]
            simp
          · have k1 := d.spec K (h1.mono d'.mono) (fun j hj => h2 j (by simp [hj]))
            obtain ⟨ns, n1, n2⟩ := d'.spec K h1 (fun j hj => h2 j (by simp [hj]))
            refine ⟨_, .plain (h2 i (by simp)) n1, ?_⟩
            have hp : progs L (.node i sym puk kids) = ((L.rules puk).getD []).map (fun r => r (.node i sym puk kids)) := by
              simp only [progs]
              cases L.rules puk <;> rfl
            refine AtNodes.cons (t := .node i sym puk kids) ?_ n2
            rw [hp]
            exact k1

/-! ### The specification determines everything -/

mutual
theorem nodes_det {K : Covering P} : ∀ {t ms ns}, Nodes K t ms → Nodes K t ns → ms = ns
  | _, _, _, .leaf, .leaf => rfl
  | _, _, _, .covers h1 h2, .covers h3 h4 => by
    rw [h1] at h3
    injection h3 with h3
    injection h3 with h3
    subst h3
    exact nodes_det h2 h4
  | _, _, _, .covers h1 _, .shouldCover h3 => by rw [h1] at h3; cases h3
  | _, _, _, .covers h1 _, .plain h3 _ => by rw [h1] at h3; cases h3
  | _, _, _, .shouldCover h1, .covers h3 _ => by rw [h1] at h3; cases h3
  | _, _, _, .shouldCover _, .shouldCover _ => rfl
  | _, _, _, .shouldCover h1, .plain h3 _ => by rw [h1] at h3; cases h3
  | _, _, _, .plain h1 _, .covers h3 _ => by rw [h1] at h3; cases h3
  | _, _, _, .plain h1 _, .shouldCover h3 => by rw [h1] at h3; cases h3
  | _, _, _, .plain _ h2, .plain _ h4 => by rw [nodesAll_det h2 h4]
theorem nodesAll_det {K : Covering P} : ∀ {ts ms ns}, NodesAll K ts ms → NodesAll K ts ns → ms = ns
  | _, _, _, .nil, .nil => rfl
  | _, _, _, .cons h1 h2, .cons h3 h4 => by rw [nodes_det h1 h3, nodesAll_det h2 h4]
end

mutual
theorem says_det {K : Covering P} : ∀ {p es vs es' vs'}, Says L K p es vs → Says L K p es' vs' → es = es' ∧ vs = vs'
  | _, _, _, _, _, .done, .done => ⟨rfl, rfl⟩
  | _, _, _, _, _, .report h1, .report h2 => by
    obtain ⟨a, b⟩ := says_det h1 h2
    exact ⟨by rw [a], b⟩
  | _, _, _, _, _, .cover h1 h2, .cover h3 h4 => by
    rw [h1] at h3
    injection h3 with h3
    subst h3
    exact says_det h2 h4
  | _, _, _, _, _, .nested h1 h2, .nested h3 h4 => by
    obtain ⟨a, b⟩ := whole_det h1 h3
    subst a b
    obtain ⟨a, b⟩ := says_det h2 h4
    exact ⟨a, by rw [b]⟩
termination_by structural p es vs es' vs' h => h
theorem saysAll_det {K : Covering P} : ∀ {ps es vs es' vs'}, SaysAll L K ps es vs → SaysAll L K ps es' vs' → es = es' ∧ vs = vs'
  | _, _, _, _, _, .nil, .nil => ⟨rfl, rfl⟩
  | _, _, _, _, _, .cons h1 h2, .cons h3 h4 => by
    obtain ⟨a, b⟩ := says_det h1 h3
    obtain ⟨c, d⟩ := saysAll_det h2 h4
    exact ⟨by rw [a, c], by rw [b, d]⟩
termination_by structural p es vs es' vs' h => h
theorem atNodes_det {K : Covering P} : ∀ {ts es vs es' vs'}, AtNodes L K ts es vs → AtNodes L K ts es' vs' → es = es' ∧ vs = vs'
  | _, _, _, _, _, .nil, .nil => ⟨rfl, rfl⟩
  | _, _, _, _, _, .cons h1 h2, .cons h3 h4 => by
    obtain ⟨a, b⟩ := saysAll_det h1 h3
    obtain ⟨c, d⟩ := atNodes_det h2 h4
    exact ⟨by rw [a, c], by rw [b, d]⟩
termination_by structural p es vs es' vs' h => h
theorem whole_det {K : Covering P} : ∀ {t es vs es' vs'}, Whole L K t es vs → Whole L K t es' vs' → es = es' ∧ vs = vs'
  | _, _, _, _, _, .mk h1 h2, .mk h3 h4 => by
    have := nodes_det h1 h3
    subst this
    exact atNodes_det h2 h4
termination_by structural p es vs es' vs' h => h
end

end
end Verif.Early
