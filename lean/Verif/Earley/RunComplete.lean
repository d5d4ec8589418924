import Verif.Earley.ChartLemmas
/-! # A run does not miss a derivation -/
namespace Verif.Earley
variable {σ L : Type}

/-- Every nonterminal that a well-shaped item mentions is defined. -/
theorem defined_of_shape {c : Cfg σ L} {W : World L} (hcl : Closed c.G) (hgoal : (c.G c.goal).isSome = true)
    {x : Item L} {k n} (hx : ItemOk c.G c.startProd W x k) (ha : x.after = some (.nt n)) :
    (c.G n).isSome = true := by
  obtain ⟨pre, post, _, h2⟩ := hx
  have hm : Rthing.nt n ∈ x.prod.rhs := List.mem_of_getElem? ha
  rcases h2 with ⟨_, h3, _⟩ | ⟨o, n', ps, _, h4, h5, _⟩
  · rw [h3] at hm; simp [Cfg.startProd] at hm; rw [hm]; exact hgoal
  · exact hcl n' ps h4 _ h5 n hm

/-- What a provider that never itself reports a syntax error from `check_constraint` looks like. -/
def CheckQuiet (tip : Tip σ L) : Prop := ∀ st prev pos k, tip.check st prev pos k ≠ .error .parse

variable [DecidableEq L]

theorem step_noparse {c : Cfg σ L} {st pos done} (hq : CheckQuiet c.tip) (hcl : Closed c.G)
    (hgoal : (c.G c.goal).isSome = true) {W : World L} {t rest s}
    (h : Inv c.startProd ⟨c.G, c.tip, st, done, pos⟩ W (t :: rest) s) :
    step ⟨c.G, c.tip, st, done, pos⟩ t rest s ≠ .error .parse := by
  intro hs
  have ht := h.tasks t List.mem_cons_self
  cases t with
  | add x => simp [step] at hs
  | nulls x i => simp [step] at hs
  | predict ps => simp [step] at hs
  | complete b n node i => simp [step] at hs
  | derive x =>
    simp only [step, stepDerive] at hs
    split at hs
    · unfold stepReduce at hs
      split at hs
      · cases hs
      · dsimp only at hs; split at hs <;> cases hs
    · rename_i n ha
      have := defined_of_shape hcl hgoal (h.items x ht) ha
      split at hs
      · rename_i hn; rw [hn] at this; cases this
      · cases hs
    · cases hs
    · split at hs
      · rename_i e he
        injection hs with hs; subst hs
        exact hq _ _ _ _ he
      · cases hs
      · cases hs

theorem closeLoop_noparse {c : Cfg σ L} {st pos done} (hq : CheckQuiet c.tip) (hcl : Closed c.G)
    (hgoal : (c.G c.goal).isSome = true) {W : World L}
    (hc : CtxOk c.startProd ⟨c.G, c.tip, st, done, pos⟩ W) : ∀ f ts s,
    Inv c.startProd ⟨c.G, c.tip, st, done, pos⟩ W ts s →
    closeLoop ⟨c.G, c.tip, st, done, pos⟩ f ts s ≠ .error .parse := by
  intro f
  induction f with
  | zero => intro ts s h; cases ts <;> simp [closeLoop]
  | succ f ih =>
    intro ts s h
    cases ts with
    | nil => simp [closeLoop]
    | cons t rest =>
      simp only [closeLoop]
      split
      · rename_i e he
        intro hh; injection hh with hh; subst hh
        exact step_noparse hq hcl hgoal h he
      · rename_i ts' s' hst
        exact ih _ _ (step_inv hc h hst)

theorem close_noparse {c : Cfg σ L} {W : World L} {st pos done kernel f} (hq : CheckQuiet c.tip)
    (hf : Filed c.G) (hcl : Closed c.G) (hgoal : (c.G c.goal).isSome = true)
    (h : ChartInv c W done kernel) : close ⟨c.G, c.tip, st, done, pos⟩ f kernel ≠ .error .parse := by
  have hc : CtxOk c.startProd ⟨c.G, c.tip, st, done, pos⟩ (topWorld c.tip) :=
    ⟨hf, h.shape, trivial, fun _ _ _ => trivial, rfl, rfl⟩
  refine closeLoop_noparse hq hcl hgoal hc f _ _ ⟨by simp, by simp, ?_⟩
  intro t ht
  obtain ⟨x, hx, rfl⟩ := List.mem_map.1 ht
  exact h.kshape x hx

omit [DecidableEq L] in
theorem chartInv_init {c : Cfg σ L} {W : World L} :
    ChartInv c W [] [(⟨none, c.startProd, []⟩ : Item L)] where
  shape := by simp
  kshape := by
    intro x hx
    rw [List.mem_singleton.1 hx]
    exact ⟨[], _, rfl, .inl ⟨rfl, rfl, .nil⟩⟩
  chart := by intro J hJ; simp at hJ
  scan := by intro J hJ; simp at hJ
  start := by simp

/-! ## Consuming everything -/

/-- The end of the input, at place `n`, is presented as such. -/
def EndsAt (c : Cfg σ L) (S : Nat → σ × Nat) (n : Nat) (l : L) : Prop :=
  c.tip.isEoi l = true ∧ ∀ expected kludge, Usable c expected kludge → endOfInput ∈ expected →
    c.tip.next (S n).1 (S n).2 expected kludge = .error .crash ∨ ∃ p' st',
    c.tip.next (S n).1 (S n).2 expected kludge = .ok (some ([(endOfInput, l)], p'), st')

theorem loop_complete_all {c : Cfg σ L} {W : World L} {S : Nat → σ × Nat} (hall : c.all = true)
    (hP : Presents c W S) (hq : CheckQuiet c.tip)
    (hf : Filed c.G) (hcl : Closed c.G) (hgoal : (c.G c.goal).isSome = true)
    {n node l} (ht : Tree c.G W c.goal 0 n node) (hend : EndsAt c S n l) :
    ∀ f done kernel latest, ChartInv c W done kernel → done.length ≤ n →
      loop c f done (S done.length).1 (S done.length).2 kernel latest ≠ .error .parse := by
  intro f
  induction f with
  | zero => intro done kernel latest _ _; simp [loop]
  | succ f ih =>
    intro done kernel latest h hn
    simp only [loop]
    split
    · rename_i e he
      intro hh; injection hh with hh; subst hh
      exact close_noparse hq hf hcl hgoal h he
    rename_i s hcl'
    obtain ⟨hch, hst⟩ := chart_close hP h hf hcl'
    have hsh := shape_close h hf hcl'
    -- the terminal at this place is expected
    have hexp : (done.length < n → ∃ t l', W.scan done.length t l' ∧ t ∈ expectedTerminals s.items) ∧
        (done.length = n → endOfInput ∈ expectedTerminals s.items) := by
      constructor
      · intro hlt
        obtain ⟨ps, p, ds, pos, h1, h2, h3, h4, h5⟩ := ht
        obtain ⟨ps', hps', hpr⟩ := hch.pred 0 (Nat.zero_le _) _ hst c.goal rfl
        rw [h1] at hps'; injection hps' with hps'; subst hps'
        obtain ⟨t, l', hs, y, hy, hya⟩ := hch.viable hf h3 (Nat.zero_le _) hlt _ (hpr p h2) rfl rfl
        rw [itemsAt_last] at hy
        exact ⟨t, l', hs, mem_expectedTerminals.2 ⟨y, hy, hya⟩⟩
      · intro he
        subst he
        have := hch.over_tree hf ht (Nat.le_refl _) hst rfl
        rw [itemsAt_last] at this
        refine mem_expectedTerminals.2 ⟨_, this, ?_⟩
        simp [Item.after, Item.advance, Cfg.startProd, Cfg.final, hall]
    have hne : (expectedTerminals s.items).isEmpty = false := by
      rcases Nat.lt_or_ge done.length n with hlt | hge
      · obtain ⟨t, _, _, ht⟩ := hexp.1 hlt
        cases hh : expectedTerminals s.items with
        | nil => rw [hh] at ht; cases ht
        | cons => rfl
      · have ht := hexp.2 (by omega)
        cases hh : expectedTerminals s.items with
        | nil => rw [hh] at ht; cases ht
        | cons => rfl
    unfold afterClose
    rw [hne]
    simp only [Bool.false_eq_true, if_false]
    split
    · simp
    rename_i kl hkl
    rcases Nat.lt_or_ge done.length n with hlt | hge
    · obtain ⟨t, l', hs, ht'⟩ := hexp.1 hlt
      rcases hP.next _ t l' hs (expectedTerminals s.items) kl (usable_of_items hsh hkl) ht' with hnext | ⟨rats, hnext, hrats⟩
      · rw [hnext]; simp
      rw [hnext]
      dsimp only
      unfold afterNext
      split
      · simp
      split
      · simp
      · simp
      rename_i k ks hk
      split
      · unfold finish; split <;> simp
      · have hinv : ChartInv c W (done ++ [⟨(S done.length).2, s.items⟩]) (k :: ks) := by
          refine chartInv_next h hsh hch hst hk ?_
          intro x hx t' l'' ha hs'
          exact hrats t' l'' (mem_expectedTerminals.2 ⟨x, hx, ha⟩) hs'
        have := ih _ (k :: ks) (newLatest c s.items latest) hinv (by simp; omega)
        simpa using this
    · have he : done.length = n := by omega
      rcases hend.2 (expectedTerminals s.items) kl (usable_of_items hsh hkl) (hexp.2 he) with hnext | ⟨p', st', hnext⟩
      · rw [he, hnext]; simp
      rw [he, hnext]
      dsimp only
      unfold afterNext
      split
      · simp
      split
      · simp
      · simp
      · rw [if_pos (by simp [atEnd, hend.1])]
        unfold finish; split <;> simp

theorem run_complete_all {c : Cfg σ L} {W : World L} {S : Nat → σ × Nat} (hall : c.all = true)
    (hP : Presents c W S) (hq : CheckQuiet c.tip)
    (hf : Filed c.G) (hcl : Closed c.G) (hgoal : (c.G c.goal).isSome = true)
    {n node l} (ht : IsTree c.G W c.goal 0 n node) (hend : EndsAt c S n l) (fuel : Nat) :
    run c fuel (S 0).1 (S 0).2 ≠ .error .parse :=
  loop_complete_all hall hP hq hf hcl hgoal (tree_iff.2 ht) hend fuel [] _ none chartInv_init (Nat.zero_le _)

/-! ## Consuming as much as possible -/

/-- The provider presents exactly the world `W`. -/
structure Exact (c : Cfg σ L) (W : World L) (S : Nat → σ × Nat) : Prop extends Presents c W S where
  check : ∀ k prev con, c.tip.check (S k).1 prev (S k).2 con = .ok true → W.holds k prev con
  some : ∀ k expected kludge rats p' st', c.tip.next (S k).1 (S k).2 expected kludge = .ok (some (rats, p'), st') →
    (st', p') = S (k + 1) ∧ ∀ r ∈ rats, W.scan k r.1 r.2

/-- What is known about the latest accepting item when the sets before place `k` have been seen. -/
def LatestOk (c : Cfg σ L) (W : World L) (k : Nat) : Option (Item L) → Prop
  | none => ∀ j node, j < k → ¬ Tree c.G W c.goal 0 j node
  | some x => ∃ j node, j < k ∧ x.transit = some node ∧ Tree c.G W c.goal 0 j node ∧
      ∀ j' node', j' < k → Tree c.G W c.goal 0 j' node' → j' ≤ j

/-- `ChartInv` together with soundness in the same world. -/
structure ExactInv (c : Cfg σ L) (W : World L) (done : List (ESet L)) (kernel : List (Item L))
    (latest : Option (Item L)) : Prop extends ChartInv c W done kernel where
  dones : ∀ (b : Nat) e, done[b]? = some e → ∀ x ∈ e.items, ItemOk c.G c.startProd W x b
  kernelOk : ∀ x ∈ kernel, ItemOk c.G c.startProd W x done.length
  latest : LatestOk c W done.length latest

/-- The result of a run that takes as much as possible. -/
def Longest (c : Cfg σ L) (W : World L) : Except Err (Node L) → Prop
  | .ok node => ∃ k, Tree c.G W c.goal 0 k node ∧
      ∀ k' node', Tree c.G W c.goal 0 k' node' → k' ≤ k
  | .error .parse => (Closed c.G → CheckQuiet c.tip → (c.G c.goal).isSome = true →
      (∀ st pos e kl, Usable c e kl → c.tip.next st pos e kl ≠ .error .parse) →
      ∀ k node, ¬ Tree c.G W c.goal 0 k node)
  | .error _ => True

omit [DecidableEq L] in
theorem cannot_longest {c : Cfg σ L} {W : World L} (hamap : c.all = false) {k latest}
    (h : LatestOk c W k latest) (hno : ∀ j node, k ≤ j → ¬ Tree c.G W c.goal 0 j node) :
    Longest c W (cannotContinue c latest) := by
  unfold cannotContinue
  rw [if_neg (by simp [hamap])]
  split
  · intro _ _ _ _ j node ht
    rcases Nat.lt_or_ge j k with g | g
    · exact h j node g ht
    · exact hno j node g ht
  · rename_i x
    obtain ⟨j, node, hj, hx, ht, hmax⟩ := h
    rw [hx]
    split
    · rename_i p b s e cs heq
      injection heq with heq
      split
      · refine ⟨j, heq ▸ ht, ?_⟩
        intro k' node' ht'
        rcases Nat.lt_or_ge k' k with g | g
        · exact hmax k' node' g ht'
        · exact absurd ht' (hno k' node' g)
      · trivial
    · trivial

theorem loop_longest {c : Cfg σ L} {W : World L} {S : Nat → σ × Nat} (hamap : c.all = false)
    (hP : Exact c W S) (hf : Filed c.G) (hnf : NoFinal c.G) (he : EoiOk c.tip) :
    ∀ f done kernel latest, ExactInv c W done kernel latest →
      Longest c W (loop c f done (S done.length).1 (S done.length).2 kernel latest) := by
  intro f
  induction f with
  | zero => intro done kernel latest _; simp only [loop]; trivial
  | succ f ih =>
    intro done kernel latest h
    simp only [loop]
    split
    · rename_i e he'
      cases e with
      | parse =>
        intro hcl hq hgoal _ k node _
        exact absurd he' (close_noparse hq hf hcl hgoal h.toChartInv)
      | crash => trivial
      | fuel => trivial
    rename_i s hcl'
    obtain ⟨hch, hst⟩ := chart_close hP.toPresents h.toChartInv hf hcl'
    have hsh := shape_close h.toChartInv hf hcl'
    have hi : ∀ x ∈ s.items, ItemOk c.G c.startProd W x done.length := by
      have hc : CtxOk c.startProd ⟨c.G, c.tip, (S done.length).1, done, (S done.length).2⟩ W :=
        ⟨hf, h.dones, hP.here _, fun prev k hk => hP.check _ _ _ hk, hP.first, hP.last⟩
      exact close_ok hc h.kernelOk hcl'
    have hbeyond : ∀ j node, done.length < j → Tree c.G W c.goal 0 j node →
        ∃ t l, W.scan done.length t l ∧ t ∈ expectedTerminals s.items := by
      intro j node hlt ht
      obtain ⟨ps, p, ds, pos, h1, h2, h3, h4, h5⟩ := ht
      obtain ⟨ps', hps', hpr⟩ := hch.pred 0 (Nat.zero_le _) _ hst c.goal rfl
      rw [h1] at hps'; injection hps' with hps'; subst hps'
      obtain ⟨t, l', hs, y, hy, hya⟩ := hch.viable hf h3 (Nat.zero_le _) hlt _ (hpr p h2) rfl rfl
      rw [itemsAt_last] at hy
      exact ⟨t, l', hs, mem_expectedTerminals.2 ⟨y, hy, hya⟩⟩
    have hhere : ∀ node, Tree c.G W c.goal 0 done.length node → ∃ x ∈ s.items, x.after = some (.term acceptance) := by
      intro node ht
      have := hch.over_tree hf ht (Nat.le_refl _) hst rfl
      rw [itemsAt_last] at this
      refine ⟨_, this, ?_⟩
      simp [Item.after, Item.advance, Cfg.startProd, Cfg.final, hamap]
    have hnl : LatestOk c W (done.length + 1) (newLatest c s.items latest) := by
      unfold newLatest
      rw [if_neg (by simp [hamap])]
      split
      · rename_i hnil
        have hno : ∀ node, ¬ Tree c.G W c.goal 0 done.length node := by
          intro node ht
          obtain ⟨x, hx, ha⟩ := hhere node ht
          have := mem_expecting.2 ⟨hx, ha⟩
          rw [hnil] at this; cases this
        have := h.latest
        cases latest with
        | none =>
          intro j node hj ht
          rcases Nat.lt_or_ge j done.length with g | g
          · exact this j node g ht
          · have : j = done.length := by omega
            subst this; exact hno node ht
        | some x =>
          obtain ⟨j, node, a1, a2, a3, a4⟩ := this
          refine ⟨j, node, by omega, a2, a3, ?_⟩
          intro j' node' hj' ht'
          rcases Nat.lt_or_ge j' done.length with g | g
          · exact a4 j' node' g ht'
          · have : j' = done.length := by omega
            subst this; exact absurd ht' (hno node')
      · rename_i x xs hx
        have hxm : x ∈ expecting (.term acceptance) s.items := by rw [hx]; exact List.mem_cons_self
        have hxm := mem_expecting.1 hxm
        obtain ⟨_, node, g1, g2⟩ := final_item hnf (hi x hxm.1) (.inr rfl) hxm.2
        exact ⟨done.length, node, by omega, by simp [Item.transit, g1], g2, fun j' _ hj' _ => by omega⟩
    unfold afterClose
    split
    · rename_i hemp
      rw [List.isEmpty_iff] at hemp
      refine cannot_longest hamap h.latest ?_
      intro j node hj ht
      rcases Nat.lt_or_ge done.length j with g | g
      · obtain ⟨t, _, _, hm⟩ := hbeyond j node g ht
        rw [hemp] at hm; cases hm
      · have : j = done.length := by omega
        subst this
        obtain ⟨x, hx, ha⟩ := hhere node ht
        have := mem_expectedTerminals.2 ⟨x, hx, ha⟩
        rw [hemp] at this; cases this
    split
    · trivial
    rename_i kl hkl
    split
    · rename_i e he'
      cases e with
      | parse =>
        intro _ _ _ hnp k node _
        exact absurd he' (hnp _ _ _ _ (usable_of_items hsh hkl))
      | crash => trivial
      | fuel => trivial
    · rename_i st' hnone
      refine cannot_longest hamap hnl ?_
      intro j node hj ht
      obtain ⟨t, l, hs, hm⟩ := hbeyond j node hj ht
      rcases hP.next _ t l hs _ kl (usable_of_items hsh hkl) hm with hnext | ⟨rats, hnext, _⟩
      · rw [hnext] at hnone; cases hnone
      rw [hnext] at hnone; injection hnone with hnone; injection hnone with hnone; cases hnone
    · rename_i rats pos' st' hnext
      obtain ⟨hS, hscan⟩ := hP.some _ _ _ _ _ _ hnext
      unfold afterNext
      split
      · trivial
      split
      · trivial
      · trivial
      rename_i k ks hk
      split
      · -- an end-of-input instance: impossible here
        rename_i hend
        obtain ⟨t, l, hrats, heoi⟩ := atEnd_iff hend
        have ht : t = endOfInput := he _ _ _ _ _ _ _ hnext (t, l) (by rw [hrats]; exact List.mem_cons_self) heoi
        obtain ⟨r, hr1, x, hx, ha, _⟩ := (mem_nextKernel hk).1 List.mem_cons_self
        rw [hrats] at hr1
        rw [List.mem_singleton.1 hr1] at ha
        dsimp only at ha
        obtain ⟨g0, _⟩ := final_item hnf (hi x hx) (.inl ht) ha
        rw [ht] at g0
        simp [Cfg.final, hamap, endOfInput, acceptance] at g0
      · have hinv : ChartInv c W (done ++ [⟨(S done.length).2, s.items⟩]) (k :: ks) := by
          refine chartInv_next h.toChartInv hsh hch hst hk ?_
          intro x hx t' l'' ha hs'
          have hm := mem_expectedTerminals.2 ⟨x, hx, ha⟩
          rcases hP.next _ t' l'' hs' (expectedTerminals s.items) kl (usable_of_items hsh hkl) hm with hnext' | ⟨rats', hnext', hr'⟩
          · rw [hnext] at hnext'; cases hnext'
          rw [hnext] at hnext'
          injection hnext' with hnext'; injection hnext' with e1 _; injection e1 with e1; injection e1 with e1 _
          rw [e1]; exact hr' t' l'' hm hs'
        have hx : ExactInv c W (done ++ [⟨(S done.length).2, s.items⟩]) (k :: ks) (newLatest c s.items latest) := by
          refine { toChartInv := hinv, dones := ?_, kernelOk := ?_, latest := by simpa using hnl }
          · intro b e hb x hx
            by_cases hlt : b < done.length
            · rw [List.getElem?_append_left hlt] at hb
              exact h.dones b e hb x hx
            · have hb' := (List.getElem?_eq_some_iff.1 hb).1
              have hbl : b = done.length := by simp at hb'; omega
              subst hbl
              rw [List.getElem?_concat_length] at hb
              injection hb with hb; subst hb
              exact hi x hx
          · intro y hy
            obtain ⟨r, hr1, x, hx, ha, rfl⟩ := (mem_nextKernel hk).1 hy
            simp only [List.length_append, List.length_singleton]
            exact ItemOk.advance_term (hi x hx) ha (hscan r hr1)
        have := ih _ _ _ hx
        simp only [List.length_append, List.length_singleton] at this
        rw [← hS] at this
        exact this

theorem run_longest {c : Cfg σ L} {W : World L} {S : Nat → σ × Nat} (hamap : c.all = false)
    (hP : Exact c W S) (hf : Filed c.G) (hnf : NoFinal c.G) (he : EoiOk c.tip) (fuel : Nat) :
    Longest c W (run c fuel (S 0).1 (S 0).2) := by
  refine loop_longest hamap hP hf hnf he fuel [] _ none ⟨chartInv_init, by simp, ?_, by intro j node hj; cases hj⟩
  intro x hx
  rw [List.mem_singleton.1 hx]
  exact ⟨[], _, rfl, .inl ⟨rfl, rfl, .nil⟩⟩

end Verif.Earley
