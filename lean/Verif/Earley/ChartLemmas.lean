import Verif.Earley.CloseLemmas
/-! # A closed chart contains every derivation -/
namespace Verif.Earley
variable {σ L : Type}

theorem Derives.le {G : Grammar} {W : World L} {rhs prev i j cs} (h : Derives G W rhs prev i j cs) : i ≤ j := by
  induction h with
  | nil => exact Nat.le_refl _
  | con _ _ ih => exact ih
  | term _ _ ih => omega
  | nt _ _ _ _ _ _ ih1 ih2 => omega

theorem Path.le {G : Grammar} {W : World L} {i pre tr k} (h : Path G W i pre tr k) : i ≤ k := by
  induction h with
  | nil => exact Nat.le_refl _
  | con _ _ ih => exact ih
  | term _ _ ih => omega
  | nt _ ht ih => obtain ⟨_, _, _, _, _, _, hd, _, _⟩ := ht; have := hd.le; omega

/-- A chart: sets of items at the places `0 … J`, closed with respect to `W`. -/
structure Chart (G : Grammar) (W : World L) (J : Nat) (items : Nat → List (Item L)) : Prop where
  pred : ∀ j, j ≤ J → ∀ x ∈ items j, ∀ n, x.after = some (.nt n) → ∃ ps, G n = some ps ∧
    ∀ p ∈ ps, (⟨some j, p, []⟩ : Item L) ∈ items j
  comp : ∀ j, j ≤ J → ∀ x ∈ items j, x.after = none → ∃ back, x.origin = some back ∧ back ≤ j ∧
    ∀ b ∈ items back, b.after = some (.nt x.prod.lhs) → ∀ pos node, W.at j pos →
      IsNode W x.prod x.kids pos node → b.advance (some node) ∈ items j
  con : ∀ j, j ≤ J → ∀ x ∈ items j, ∀ k, x.after = some (.con k) → W.holds j x.transit k →
    x.advance none ∈ items j
  scan : ∀ j, j < J → ∀ x ∈ items j, ∀ t l, x.after = some (.term t) → W.scan j t l →
    x.advance (some (.leaf l)) ∈ items (j + 1)

theorem after_of_drop {x : Item L} {r rest} (h : x.prod.rhs.drop x.trans.length = r :: rest) :
    x.after = some r := by
  unfold Item.after
  have := congrArg (fun l => l[0]?) h
  simpa using this

theorem drop_advance {x : Item L} {r rest v} (h : x.prod.rhs.drop x.trans.length = r :: rest) :
    (x.advance v).prod.rhs.drop (x.advance v).trans.length = rest := by
  simp only [Item.advance, List.length_append, List.length_singleton]
  rw [← List.drop_drop, h]; rfl

theorem transit_advance (x : Item L) (v) : (x.advance v).transit = v := by
  simp [Item.advance, Item.transit]

theorem kids_advance_some (x : Item L) (n) : (x.advance (some n)).kids = x.kids ++ [n] := by
  simp [Item.advance, Item.kids]

theorem kids_advance_none (x : Item L) : (x.advance none).kids = x.kids := by
  simp [Item.advance, Item.kids]

/-- From an item at place `i`, a derivation of what is left of its right-hand side leads to the
finished item. -/
theorem Chart.complete {G : Grammar} {W : World L} {J items} (hc : Chart G W J items) (hf : Filed G)
    {rest prev i j cs} (hd : Derives G W rest prev i j cs) : j ≤ J → ∀ x ∈ items i,
      x.prod.rhs.drop x.trans.length = rest → x.transit = prev →
      ∃ y ∈ items j, y.origin = x.origin ∧ y.prod = x.prod ∧ y.after = none ∧ y.kids = x.kids ++ cs := by
  induction hd with
  | nil prev i =>
    intro _ x hx hdr _
    refine ⟨x, hx, rfl, rfl, ?_, by simp⟩
    unfold Item.after
    rw [List.drop_eq_nil_iff] at hdr
    simp [hdr]
  | con hh _ ih =>
    intro hj x hx hdr ht
    have h1 := hc.con _ (by have := Derives.le ‹_›; omega) x hx _ (after_of_drop hdr) (by rw [ht]; exact hh)
    obtain ⟨y, g1, g2, g3, g4, g5⟩ := ih hj _ h1 (drop_advance hdr) (transit_advance _ _)
    exact ⟨y, g1, g2, g3, g4, by rw [g5, kids_advance_none]⟩
  | term hh hd ih =>
    intro hj x hx hdr ht
    have h1 := hc.scan _ (by have := hd.le; omega) x hx _ _ (after_of_drop hdr) hh
    obtain ⟨y, g1, g2, g3, g4, g5⟩ := ih hj _ h1 (drop_advance hdr) (transit_advance _ _)
    exact ⟨y, g1, g2, g3, g4, by rw [g5, kids_advance_some]; simp⟩
  | nt hG hp hd1 hat hnode hd2 ih1 ih2 =>
    intro hj x hx hdr ht
    have hm := hd2.le
    have hi := hd1.le
    have ha := after_of_drop hdr
    obtain ⟨ps', hps', hpr⟩ := hc.pred _ (by omega) x hx _ ha
    rw [hG] at hps'; injection hps' with hps'; subst hps'
    obtain ⟨y, y1, y2, y3, y4, y5⟩ := ih1 (by omega) _ (hpr _ hp) rfl rfl
    obtain ⟨back, b1, _, b2⟩ := hc.comp _ (by omega) y y1 y4
    rw [y2] at b1; injection b1 with b1; subst b1
    have hl := hf _ _ hG _ hp
    have y3' : y.prod = _ := y3
    have hkids : y.kids = _ := y5
    have h1 := b2 x hx (by rw [y3', hl]; exact ha) _ _ hat (by rw [y3', hkids]; exact hnode)
    obtain ⟨z, g1, g2, g3, g4, g5⟩ := ih2 hj _ h1 (drop_advance hdr) (transit_advance _ _)
    exact ⟨z, g1, g2, g3, g4, by rw [g5, kids_advance_some]; simp⟩

/-- Advancing an item over a tree. -/
theorem Chart.over_tree {G : Grammar} {W : World L} {J items} (hc : Chart G W J items) (hf : Filed G)
    {n i m node} (ht : Tree G W n i m node) (hm : m ≤ J) {x} (hx : x ∈ items i)
    (ha : x.after = some (.nt n)) : x.advance (some node) ∈ items m := by
  obtain ⟨ps, p, ds, pos, h1, h2, h3, h4, h5⟩ := ht
  have hi := h3.le
  obtain ⟨ps', hps', hpr⟩ := hc.pred _ (by omega) x hx _ ha
  rw [h1] at hps'; injection hps' with hps'; subst hps'
  obtain ⟨y, y1, y2, y3, y4, y5⟩ := hc.complete hf h3 hm _ (hpr _ h2) rfl rfl
  obtain ⟨back, b1, _, b2⟩ := hc.comp _ hm y y1 y4
  rw [y2] at b1; injection b1 with b1; subst b1
  have hl := hf _ _ h1 _ h2
  have y3' : y.prod = _ := y3
  have hkids : y.kids = _ := y5
  exact b2 x hx (by rw [y3', hl]; exact ha) _ _ h4 (by rw [y3', hkids]; exact h5)

/-- If a derivation goes on beyond place `J`, some item at `J` expects the terminal it needs there. -/
theorem Chart.viable {G : Grammar} {W : World L} {J items} (hc : Chart G W J items) (hf : Filed G)
    {rest prev i j cs} (hd : Derives G W rest prev i j cs) : i ≤ J → J < j → ∀ x ∈ items i,
      x.prod.rhs.drop x.trans.length = rest → x.transit = prev →
      ∃ t l, W.scan J t l ∧ ∃ y ∈ items J, y.after = some (.term t) := by
  induction hd with
  | nil => intro _ _; omega
  | con hh _ ih =>
    intro hi hj x hx hdr ht
    have h1 := hc.con _ hi x hx _ (after_of_drop hdr) (by rw [ht]; exact hh)
    exact ih hi hj _ h1 (drop_advance hdr) (transit_advance _ _)
  | @term t l _ _ i j _ hh hd ih =>
    intro hi hj x hx hdr ht
    by_cases he : i = J
    · subst he
      exact ⟨t, l, hh, x, hx, after_of_drop hdr⟩
    · have h1 := hc.scan _ (by omega) x hx _ _ (after_of_drop hdr) hh
      exact ih (by omega) hj _ h1 (drop_advance hdr) (transit_advance _ _)
  | @nt n ps p ds pos node _ _ i m j _ hG hp hd1 hat hnode hd2 ih1 ih2 =>
    intro hi hj x hx hdr ht
    have ha := after_of_drop hdr
    by_cases hm : J < m
    · obtain ⟨ps', hps', hpr⟩ := hc.pred _ hi x hx _ ha
      rw [hG] at hps'; injection hps' with hps'; subst hps'
      exact ih1 hi hm _ (hpr _ hp) rfl rfl
    · have h1 := hc.over_tree hf ⟨_, _, _, _, hG, hp, hd1, hat, hnode⟩ (by omega) hx ha
      exact ih2 (by omega) hj _ h1 (drop_advance hdr) (transit_advance _ _)

/-! ## Charts as lists of finished sets -/

/-- The items at a place. -/
def itemsAt (sets : List (ESet L)) (j : Nat) : List (Item L) := ((sets[j]?).map ESet.items).getD []

theorem itemsAt_append {sets more : List (ESet L)} {j : Nat} (h : j < sets.length) :
    itemsAt (sets ++ more) j = itemsAt sets j := by
  unfold itemsAt; rw [List.getElem?_append_left h]

theorem itemsAt_last (sets : List (ESet L)) (e : ESet L) : itemsAt (sets ++ [e]) sets.length = e.items := by
  unfold itemsAt; simp

theorem itemsOf_eq {c : Ctx σ L} {s : CSt L} {back : Nat} (h : back ≤ c.done.length) (pos) :
    c.itemsOf s back = itemsAt (c.done ++ [⟨pos, s.items⟩]) back := by
  unfold Ctx.itemsOf
  split
  · rename_i hb; rw [hb, itemsAt_last]
  · rw [itemsAt_append (by omega)]; rfl

/-- The world where everything holds; used to read off only the shape of items. -/
def topWorld (tip : Tip σ L) : World L := ⟨fun _ _ _ => True, fun _ _ _ => True, fun _ _ => True,
  tip.leafStart, tip.leafEnd⟩

theorem topWorld_le (tip : Tip σ L) (W : World L) (h1 : W.first = tip.leafStart) (h2 : W.last = tip.leafEnd) :
    W.Le (topWorld tip) := ⟨fun _ _ _ _ => trivial, fun _ _ _ _ => trivial, fun _ _ _ => trivial, h1.symm, h2.symm⟩

/-- What a run has established when it has finished the sets `done` and is about to close the next one
from `kernel`. -/
structure ChartInv (c : Cfg σ L) (W : World L) (done : List (ESet L)) (kernel : List (Item L)) : Prop where
  shape : ∀ (b : Nat) e, done[b]? = some e → ∀ x ∈ e.items, ItemOk c.G c.startProd (topWorld c.tip) x b
  kshape : ∀ x ∈ kernel, ItemOk c.G c.startProd (topWorld c.tip) x done.length
  chart : ∀ J, J + 1 = done.length → Chart c.G W J (itemsAt done)
  scan : ∀ J, J + 1 = done.length → ∀ x ∈ itemsAt done J, ∀ t l, x.after = some (.term t) →
    W.scan J t l → x.advance (some (.leaf l)) ∈ kernel
  start : (⟨none, c.startProd, []⟩ : Item L) ∈ if done = [] then kernel else itemsAt done 0

/-- The provider presents the world `W`, the state and position at place `k` being `S k`, and hands out
terminal instances of `W` when they are expected (unless an assertion fails). -/
structure Presents (c : Cfg σ L) (W : World L) (S : Nat → σ × Nat) : Prop where
  first : W.first = c.tip.leafStart
  last : W.last = c.tip.leafEnd
  «at» : ∀ k p, W.at k p → p = (S k).2
  holds : ∀ k prev con, W.holds k prev con → c.tip.check (S k).1 prev (S k).2 con ≠ .ok false
  next : ∀ k t l, W.scan k t l → ∀ expected kludge, Usable c expected kludge → t ∈ expected →
    c.tip.next (S k).1 (S k).2 expected kludge = .error .crash ∨ ∃ rats,
    c.tip.next (S k).1 (S k).2 expected kludge = .ok (some (rats, (S (k + 1)).2), (S (k + 1)).1) ∧
    ∀ t' l', t' ∈ expected → W.scan k t' l' → (t', l') ∈ rats
  here : ∀ k, W.at k (S k).2

theorem ItemOk.origin_le {G : Grammar} {start} {W : World L} {x : Item L} {k o}
    (h : ItemOk G start W x k) (ho : x.origin = some o) : o ≤ k := by
  obtain ⟨_, _, _, h2⟩ := h
  rcases h2 with ⟨a, _, _⟩ | ⟨o', n, ps, a, b, c, d⟩
  · rw [a] at ho; cases ho
  · rw [a] at ho; injection ho with ho; subst ho; exact d.le

variable [DecidableEq L]

theorem shape_close {c : Cfg σ L} {W : World L} {st pos done kernel f s}
    (h : ChartInv c W done kernel) (hf : Filed c.G)
    (hcl : close ⟨c.G, c.tip, st, done, pos⟩ f kernel = .ok s) :
    ∀ x ∈ s.items, ItemOk c.G c.startProd (topWorld c.tip) x done.length := by
  have hc : CtxOk c.startProd ⟨c.G, c.tip, st, done, pos⟩ (topWorld c.tip) :=
    ⟨hf, h.shape, trivial, fun _ _ _ => trivial, rfl, rfl⟩
  exact close_ok hc h.kshape hcl

theorem chart_close {c : Cfg σ L} {W : World L} {S : Nat → σ × Nat} {done kernel f s}
    (hP : Presents c W S) (h : ChartInv c W done kernel) (hf : Filed c.G)
    (hcl : close ⟨c.G, c.tip, (S done.length).1, done, (S done.length).2⟩ f kernel = .ok s) :
    Chart c.G W done.length (itemsAt (done ++ [⟨(S done.length).2, s.items⟩])) ∧
    (⟨none, c.startProd, []⟩ : Item L) ∈ itemsAt (done ++ [⟨(S done.length).2, s.items⟩]) 0 := by
  obtain ⟨hk, hcl'⟩ := close_closed hcl
  have hsh := shape_close h hf hcl
  have hold : ∀ j, j < done.length → ∃ J, J + 1 = done.length ∧ j ≤ J :=
    fun j hj => ⟨done.length - 1, by omega, by omega⟩
  refine ⟨⟨?_, ?_, ?_, ?_⟩, ?_⟩
  · intro j hj x hx n ha
    rcases Nat.lt_or_ge j done.length with hlt | hge
    · obtain ⟨J, h1, h2⟩ := hold j hlt
      rw [itemsAt_append hlt] at hx ⊢
      exact (h.chart J h1).pred j h2 x hx n ha
    · have : j = done.length := by omega
      subst this
      rw [itemsAt_last] at hx ⊢
      exact hcl'.pred x hx n ha
  · intro j hj x hx ha
    rcases Nat.lt_or_ge j done.length with hlt | hge
    · obtain ⟨J, h1, h2⟩ := hold j hlt
      rw [itemsAt_append hlt] at hx ⊢
      obtain ⟨back, b1, b2, b3⟩ := (h.chart J h1).comp j h2 x hx ha
      refine ⟨back, b1, b2, ?_⟩
      rw [itemsAt_append (by omega)]
      exact b3
    · have : j = done.length := by omega
      subst this
      rw [itemsAt_last] at hx ⊢
      obtain ⟨back, b1, b2⟩ := hcl'.comp x hx ha
      have hble := (hsh x hx).origin_le b1
      refine ⟨back, b1, hble, ?_⟩
      intro b hb hba p node hat hnode
      rw [← itemsOf_eq (c := ⟨c.G, c.tip, (S done.length).1, done, (S done.length).2⟩) hble] at hb
      have := b2 b hb hba
      have hpos := hP.at _ _ hat
      have hn : nodeOf ⟨c.G, c.tip, (S done.length).1, done, (S done.length).2⟩ x = node := by
        have := mkNode_isNode (W := W) hP.first hP.last (S done.length).2 x.prod x.kids
        unfold IsNode at this hnode
        rw [hpos] at hnode
        rw [hnode]; exact this
      rw [hn] at this
      exact this
  · intro j hj x hx k ha hh
    rcases Nat.lt_or_ge j done.length with hlt | hge
    · obtain ⟨J, h1, h2⟩ := hold j hlt
      rw [itemsAt_append hlt] at hx ⊢
      exact (h.chart J h1).con j h2 x hx k ha hh
    · have : j = done.length := by omega
      subst this
      rw [itemsAt_last] at hx ⊢
      have hchk := hP.holds _ _ _ hh
      rcases hcl'.con x hx k ha with g | ⟨_, g⟩
      · exact absurd g hchk
      · exact g
  · intro j hj x hx t l ha hs
    rw [itemsAt_append hj] at hx
    rcases Nat.lt_or_ge (j + 1) done.length with hlt | hge
    · obtain ⟨J, h1, h2⟩ := hold (j + 1) hlt
      rw [itemsAt_append hlt]
      exact (h.chart J h1).scan j (by omega) x hx t l ha hs
    · have : j + 1 = done.length := by omega
      rw [this, itemsAt_last]
      exact hk _ (h.scan j this x hx t l ha hs)
  · have := h.start
    by_cases hd : done = []
    · rw [if_pos hd] at this
      subst hd
      exact hk _ this
    · rw [if_neg hd] at this
      rw [itemsAt_append (List.length_pos_iff.2 hd)]; exact this

theorem chartInv_next {c : Cfg σ L} {W : World L} {done kernel items pos rats ks}
    (h : ChartInv c W done kernel)
    (hsh : ∀ x ∈ items, ItemOk c.G c.startProd (topWorld c.tip) x done.length)
    (hch : Chart c.G W done.length (itemsAt (done ++ [⟨pos, items⟩])))
    (hst : (⟨none, c.startProd, []⟩ : Item L) ∈ itemsAt (done ++ [⟨pos, items⟩]) 0)
    (hk : nextKernel items rats = some ks)
    (hr : ∀ x ∈ items, ∀ t l, x.after = some (.term t) → W.scan done.length t l → (t, l) ∈ rats) :
    ChartInv c W (done ++ [⟨pos, items⟩]) ks := by
  refine ⟨?_, ?_, ?_, ?_, ?_⟩
  · intro b e hb x hx
    by_cases hlt : b < done.length
    · rw [List.getElem?_append_left hlt] at hb
      exact h.shape b e hb x hx
    · have hb' := (List.getElem?_eq_some_iff.1 hb).1
      have hbl : b = done.length := by simp at hb'; omega
      subst hbl
      rw [List.getElem?_concat_length] at hb
      injection hb with hb; subst hb
      exact hsh x hx
  · intro y hy
    obtain ⟨r, hr1, x, hx, ha, rfl⟩ := (mem_nextKernel hk).1 hy
    simp only [List.length_append, List.length_singleton]
    exact ItemOk.advance_term (hsh x hx) ha trivial
  · intro J hJ
    simp only [List.length_append, List.length_singleton] at hJ
    have : J = done.length := by omega
    subst this; exact hch
  · intro J hJ x hx t l ha hs
    simp only [List.length_append, List.length_singleton] at hJ
    have : J = done.length := by omega
    subst this
    rw [itemsAt_last] at hx
    exact (mem_nextKernel hk).2 ⟨(t, l), hr x hx t l ha hs, x, hx, ha, rfl⟩
  · rw [if_neg (by simp)]; exact hst

omit [DecidableEq L] in
theorem mem_addExpected {acc : List Term} {x : Item L} {t} :
    t ∈ addExpected acc x ↔ t ∈ acc ∨ x.after = some (.term t) := by
  unfold addExpected
  split
  · rename_i u hu
    split
    · rename_i hm
      constructor
      · exact .inl
      · rintro (h | h)
        · exact h
        · rw [hu] at h; injection h with h; injection h with h; rw [← h]; exact hm
    · rw [List.mem_append, List.mem_singleton, hu]
      constructor
      · rintro (h | h)
        · exact .inl h
        · exact .inr (by rw [h])
      · rintro (h | h)
        · exact .inl h
        · injection h with h; injection h with h; exact .inr h.symm
  · rename_i hn
    constructor
    · exact .inl
    · rintro (h | h)
      · exact h
      · exact absurd h (hn t)

omit [DecidableEq L] in
theorem mem_expectedTerminals {items : List (Item L)} {t} :
    t ∈ expectedTerminals items ↔ ∃ x ∈ items, x.after = some (.term t) := by
  have : ∀ (items : List (Item L)) acc, t ∈ items.foldl addExpected acc ↔
      t ∈ acc ∨ ∃ x ∈ items, x.after = some (.term t) := by
    intro items
    induction items with
    | nil => intro acc; simp
    | cons x xs ih =>
      intro acc
      rw [List.foldl_cons, ih, mem_addExpected]
      constructor
      · rintro ((h | h) | ⟨y, h1, h2⟩)
        · exact .inl h
        · exact .inr ⟨x, List.mem_cons_self, h⟩
        · exact .inr ⟨y, List.mem_cons_of_mem _ h1, h2⟩
      · rintro (h | ⟨y, h1, h2⟩)
        · exact .inl (.inl h)
        · rcases List.mem_cons.1 h1 with rfl | h1
          · exact .inl (.inr h2)
          · exact .inr ⟨y, h1, h2⟩
  rw [expectedTerminals, this]; simp


omit [DecidableEq L] in
theorem expectedTerminals_nodup (items : List (Item L)) : (expectedTerminals items).Nodup := by
  have : ∀ (items : List (Item L)) acc, acc.Nodup → (items.foldl addExpected acc).Nodup := by
    intro items
    induction items with
    | nil => intro acc h; exact h
    | cons x xs ih =>
      intro acc h
      refine ih _ ?_
      unfold addExpected
      split
      · split
        · exact h
        · rename_i hn
          rw [List.nodup_append]
          refine ⟨h, by simp, ?_⟩
          intro a ha b hb e
          rw [List.mem_singleton] at hb
          subst hb e
          exact hn ha
      · exact h
  exact this items [] .nil

omit [DecidableEq L] in
/-- What the parser asks for is what its grammar mentions. -/
theorem usable_of_items {c : Cfg σ L} {W : World L} {items : List (Item L)} {k kl}
    (h : ∀ x ∈ items, ItemOk c.G c.startProd W x k) (hk : kludgeOf c.syntactic items = some kl) :
    Usable c (expectedTerminals items) kl := by
  refine ⟨?_, ?_, expectedTerminals_nodup items⟩
  · intro t ht
    obtain ⟨x, hx, ha⟩ := mem_expectedTerminals.1 ht
    have hm : Rthing.term t ∈ x.prod.rhs := List.mem_of_getElem? ha
    obtain ⟨pre, post, _, h2⟩ := h x hx
    rcases h2 with ⟨_, h3, _⟩ | ⟨o, n, ps, _, h4, h5, _⟩
    · rw [h3] at hm; simp [Cfg.startProd] at hm; exact .inl hm
    · exact .inr ⟨n, ps, _, h4, h5, hm⟩
  · intro hs
    rw [hs] at hk
    simp [kludgeOf] at hk
    exact hk.symm

end Verif.Earley
