import Verif.Earley.LexRun
/-! # The lexical parse of a whole text; grammars with infinitely many trees -/
namespace Verif.Earley
section
variable {σ L : Type} [DecidableEq L]

/-- If some prefix has infinitely many trees, no run returns a tree. -/
theorem loop_infinite {c : Cfg σ L} {W : World L} {S : Nat → σ × Nat} (hamap : c.all = false)
    (hP : Exact c W S) (hf : Filed c.G) (hnf : NoFinal c.G) (he : EoiOk c.tip) {m : Nat}
    (hinf : ¬ Few (Tree c.G W c.goal 0 m)) :
    ∀ f done kernel latest, ExactInv c W done kernel latest → done.length ≤ m → ∀ node,
      loop c f done (S done.length).1 (S done.length).2 kernel latest ≠ .ok node := by
  intro f
  induction f with
  | zero => intro done kernel latest _ _ node; simp [loop]
  | succ f ih =>
    intro done kernel latest h hm node
    simp only [loop]
    split
    · intro hh; cases hh
    rename_i s hcl'
    obtain ⟨hch, hst⟩ := chart_close hP.toPresents h.toChartInv hf hcl'
    have hsh := shape_close h.toChartInv hf hcl'
    have hi : ∀ x ∈ s.items, ItemOk c.G c.startProd W x done.length := by
      have hc : CtxOk c.startProd ⟨c.G, c.tip, (S done.length).1, done, (S done.length).2⟩ W :=
        ⟨hf, h.dones, hP.here _, fun prev k hk => hP.check _ _ _ hk, hP.first, hP.last⟩
      exact close_ok hc h.kernelOk hcl'
    have hlt : done.length < m := by
      rcases Nat.lt_or_ge done.length m with g | g
      · exact g
      · exfalso
        have hm' : m = done.length := by omega
        subst hm'
        apply hinf
        refine ⟨s.items.filterMap Item.transit, ?_⟩
        intro t ht
        have := hch.over_tree hf ht (Nat.le_refl _) hst rfl
        rw [itemsAt_last] at this
        exact List.mem_filterMap.2 ⟨_, this, by simp [Item.advance, Item.transit]⟩
    have hex : ∃ node, Tree c.G W c.goal 0 m node := by
      by_cases hh : ∃ node, Tree c.G W c.goal 0 m node
      · exact hh
      · exact absurd (Few.none.imp (fun a ha => hh ⟨a, ha⟩)) hinf
    obtain ⟨node0, ht⟩ := hex
    obtain ⟨t, l, hs, hmem⟩ : ∃ t l, W.scan done.length t l ∧ t ∈ expectedTerminals s.items := by
      obtain ⟨ps, p, ds, pos, h1, h2, h3, h4, h5⟩ := ht
      obtain ⟨ps', hps', hpr⟩ := hch.pred 0 (Nat.zero_le _) _ hst c.goal rfl
      rw [h1] at hps'; injection hps' with hps'; subst hps'
      obtain ⟨t, l', hs, y, hy, hya⟩ := hch.viable hf h3 (Nat.zero_le _) hlt _ (hpr p h2) rfl rfl
      rw [itemsAt_last] at hy
      exact ⟨t, l', hs, mem_expectedTerminals.2 ⟨y, hy, hya⟩⟩
    have hnl : LatestOk c W (done.length + 1) (newLatest c s.items latest) := by
      unfold newLatest
      rw [if_neg (by simp [hamap])]
      have hhere : ∀ node, Tree c.G W c.goal 0 done.length node → ∃ x ∈ s.items, x.after = some (.term acceptance) := by
        intro node ht
        have := hch.over_tree hf ht (Nat.le_refl _) hst rfl
        rw [itemsAt_last] at this
        refine ⟨_, this, ?_⟩
        simp [Item.after, Item.advance, Cfg.startProd, Cfg.final, hamap]
      split
      · rename_i hnil
        have hno : ∀ node, ¬ Tree c.G W c.goal 0 done.length node := by
          intro node ht
          obtain ⟨x, hx, ha⟩ := hhere node ht
          have := mem_expecting.2 ⟨hx, ha⟩
          rw [hnil] at this; cases this
        have := h.latest
        cases latest with
        | none =>
          intro j node hj ht
          rcases Nat.lt_or_ge j done.length with g | g
          · exact this j node g ht
          · have : j = done.length := by omega
            subst this; exact hno node ht
        | some x =>
          obtain ⟨j, node, a1, a2, a3, a4⟩ := this
          refine ⟨j, node, by omega, a2, a3, ?_⟩
          intro j' node' hj' ht'
          rcases Nat.lt_or_ge j' done.length with g | g
          · exact a4 j' node' g ht'
          · have : j' = done.length := by omega
            subst this; exact absurd ht' (hno node')
      · rename_i x xs hx
        have hxm : x ∈ expecting (.term acceptance) s.items := by rw [hx]; exact List.mem_cons_self
        have hxm := mem_expecting.1 hxm
        obtain ⟨_, node, g1, g2⟩ := final_item hnf (hi x hxm.1) (.inr rfl) hxm.2
        exact ⟨done.length, node, by omega, by simp [Item.transit, g1], g2, fun j' _ hj' _ => by omega⟩
    unfold afterClose
    split
    · rename_i hemp
      rw [List.isEmpty_iff] at hemp
      rw [hemp] at hmem; cases hmem
    split
    · intro hh; cases hh
    rename_i kl hkl
    rcases hP.next _ t l hs _ kl (usable_of_items hsh hkl) hmem with hnext | ⟨rats, hnext, _⟩
    · rw [hnext]; simp
    rw [hnext]
    dsimp only
    obtain ⟨hS, hscan⟩ := hP.some _ _ _ _ _ _ hnext
    unfold afterNext
    split
    · intro hh; cases hh
    split
    · intro hh; cases hh
    · intro hh; cases hh
    rename_i k ks hk
    split
    · rename_i hend
      obtain ⟨t, l, hrats, heoi⟩ := atEnd_iff hend
      have ht : t = endOfInput := he _ _ _ _ _ _ _ hnext (t, l) (by rw [hrats]; exact List.mem_cons_self) heoi
      obtain ⟨r, hr1, x, hx, ha, _⟩ := (mem_nextKernel hk).1 List.mem_cons_self
      rw [hrats] at hr1
      rw [List.mem_singleton.1 hr1] at ha
      dsimp only at ha
      obtain ⟨g0, _⟩ := final_item hnf (hi x hx) (.inl ht) ha
      rw [ht] at g0
      simp [Cfg.final, hamap, endOfInput, acceptance] at g0
    · have hinv : ChartInv c W (done ++ [⟨(S done.length).2, s.items⟩]) (k :: ks) := by
        refine chartInv_next h.toChartInv hsh hch hst hk ?_
        intro x hx t' l'' ha hs'
        have hm := mem_expectedTerminals.2 ⟨x, hx, ha⟩
        rcases hP.next _ t' l'' hs' (expectedTerminals s.items) kl (usable_of_items hsh hkl) hm with hnext' | ⟨rats', hnext', hr'⟩
        · rw [hnext] at hnext'; cases hnext'
        rw [hnext] at hnext'
        injection hnext' with hnext'; injection hnext' with e1 _; injection e1 with e1; injection e1 with e1 _
        rw [e1]; exact hr' t' l'' hm hs'
      have hx : ExactInv c W (done ++ [⟨(S done.length).2, s.items⟩]) (k :: ks) (newLatest c s.items latest) := by
        refine { toChartInv := hinv, dones := ?_, kernelOk := ?_, latest := by simpa using hnl }
        · intro b e hb x hx
          by_cases hlt : b < done.length
          · rw [List.getElem?_append_left hlt] at hb
            exact h.dones b e hb x hx
          · have hb' := (List.getElem?_eq_some_iff.1 hb).1
            have hbl : b = done.length := by simp at hb'; omega
            subst hbl
            rw [List.getElem?_concat_length] at hb
            injection hb with hb; subst hb
            exact hi x hx
        · intro y hy
          obtain ⟨r, hr1, x, hx, ha, rfl⟩ := (mem_nextKernel hk).1 hy
          simp only [List.length_append, List.length_singleton]
          exact ItemOk.advance_term (hi x hx) ha (hscan r hr1)
      have := ih _ _ _ hx (by simp; omega) node
      simp only [List.length_append, List.length_singleton] at this
      exact this
end

/-- If some prefix of the text has infinitely many trees, the lexical parser never returns. -/
theorem lex_infinite {env G goal text start m} (hG : LexGrammar env G)
    (hgoal : (G goal).isSome = true) (hca : ConsApply env G text start) (hst : start ≤ text.length)
    (hinf : ¬ Few (fun t => IsTree G (textWorld env text start) goal 0 m t)) (f : Nat) :
    run (lexCfg env G goal text) f () start = .error .fuel := by
  have hx := lex_exact (goal := goal) (text := text) (start := start) hG
  have hinf' : ¬ Few (Tree G (opWorld env text start) goal 0 m) := fun h =>
    hinf (h.imp (fun a ha => tree_iff.2 ((isTree_op hG).2 ha)))
  cases hr : run (lexCfg env G goal text) f () start with
  | ok node =>
    exact absurd hr (loop_infinite (c := lexCfg env G goal text) rfl hx hG.filed (lex_noFinal hG) lex_eoi hinf' f [] _ none
      ⟨chartInv_init, by simp, by
        intro x hx
        rw [List.mem_singleton.1 hx]
        exact ⟨[], _, rfl, .inl ⟨rfl, rfl, .nil⟩⟩, by intro j node hj; cases hj⟩ (Nat.zero_le _) node)
  | error e =>
    rcases lex_run_any hG hgoal hca hst f with ⟨node, k, h, _⟩ | ⟨_, hno⟩ | h
    · rw [hr] at h; cases h
    · exact absurd (Few.none.imp (fun a ha => hno m a ha)) hinf
    · rw [hr] at h; injection h with h; rw [h]

/-- Parsing a whole text: a tree of the whole text if there is one, else a parse error. -/
theorem lexParse_total {env G goal text} (hG : LexGrammar env G) (hfin : FiniteGrammar G) (hac : Acyclic G)
    (hgoal : (G goal).isSome = true) (hca : ConsApply env G text 0) :
    ∃ F, ∀ f, F ≤ f →
      (∃ node, lexParse env G goal text f = .ok node ∧ IsTree G (textWorld env text 0) goal 0 text.length node) ∨
      (lexParse env G goal text f = .error .parse ∧
        ∀ node, ¬ IsTree G (textWorld env text 0) goal 0 text.length node) := by
  obtain ⟨F, hF⟩ := lex_run hG hfin hac hgoal hca (Nat.zero_le _)
  refine ⟨F, fun f hf => ?_⟩
  unfold lexParse
  rcases hF f hf with ⟨node, k, h1, h2, h3⟩ | ⟨h1, h2⟩
  · rw [h1]
    have hsp := (tree_span h2).2.2
    dsimp only
    rw [hsp]
    simp only [Nat.zero_add]
    split
    · rename_i hne
      refine .inr ⟨rfl, ?_⟩
      intro node' h'
      have hle := h3 _ _ h'
      have hk : k ≤ text.length := by
        have := (tree_span h2).1
        have hl := (tree_span h2).2.1
        rcases Nat.lt_or_ge text.length k with g | g
        · exfalso
          have hmem : (k - 1) ∈ (leaves node).map (fun l => l.s) := by
            rw [this, List.mem_range'_1]; omega
          obtain ⟨l, hl1, hl2⟩ := List.mem_map.1 hmem
          obtain ⟨_, ch, hc, _⟩ := hl l hl1
          have := (List.getElem?_eq_some_iff.1 hc).1
          omega
        · exact g
      omega
    · rename_i he
      have : k = text.length := by simpa using he
      subst this
      exact .inl ⟨node, rfl, h2⟩
  · rw [h1]
    exact .inr ⟨rfl, fun node => h2 _ node⟩

/-- A tree of a text does not go beyond its end. -/
theorem tree_le {env G text start n k t} (h : IsTree G (textWorld env text start) n 0 k t) : k = 0 ∨ start + k ≤ text.length := by
  obtain ⟨h1, h2, _⟩ := tree_span h
  rcases Nat.eq_zero_or_pos k with g | g
  · exact .inl g
  · right
    have hmem : (start + k - 1) ∈ (leaves t).map (fun l => l.s) := by
      rw [h1, List.mem_range'_1]; omega
    obtain ⟨l, hl1, hl2⟩ := List.mem_map.1 hmem
    obtain ⟨_, ch, hc, _⟩ := h2 l hl1
    have := (List.getElem?_eq_some_iff.1 hc).1
    omega

/-- Whatever tree the lexical parser returns is one of the whole text. -/
theorem lexParse_sound {env G goal text fuel node} (hG : LexGrammar env G) (h : lexParse env G goal text fuel = .ok node) :
    IsTree G (textWorld env text 0) goal 0 text.length node := by
  unfold lexParse at h
  split at h
  · cases h
  rename_i n hr
  split at h
  · cases h
  rename_i he
  injection h with h; subst h
  have hx := lex_exact (goal := goal) (text := text) (start := 0) hG
  have hlong := run_longest (c := lexCfg env G goal text) rfl hx hG.filed (lex_noFinal hG) lex_eoi fuel
  have hlong : Longest (lexCfg env G goal text) (opWorld env text 0) (run (lexCfg env G goal text) fuel () 0) := hlong
  rw [hr] at hlong
  obtain ⟨k, h1, _⟩ := hlong
  have ht := (isTree_op hG).1 (tree_iff.1 h1)
  have hsp := (tree_span ht).2.2
  rw [hsp] at he
  have : k = text.length := by simpa using he
  subst this
  exact ht

end Verif.Earley
