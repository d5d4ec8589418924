import Verif.Earley.Spec
/-! # Everything in an Earley set is a piece of a derivation -/
namespace Verif.Earley
variable {σ L : Type}

/-! ## Worlds with more in them -/

/-- `W'` shows at least what `W` shows. -/
structure World.Le (W W' : World L) : Prop where
  scan : ∀ k t l, W.scan k t l → W'.scan k t l
  holds : ∀ k p c, W.holds k p c → W'.holds k p c
  «at» : ∀ k p, W.at k p → W'.at k p
  first : W'.first = W.first
  last : W'.last = W.last

theorem startOf_le {W W' : World L} (h : W.Le W') (n : Node L) : W'.startOf n = W.startOf n := by
  cases n <;> simp [World.startOf, h.first]

theorem endOf_le {W W' : World L} (h : W.Le W') (n : Node L) : W'.endOf n = W.endOf n := by
  cases n <;> simp [World.endOf, h.last]

theorem IsNode.mono {W W' : World L} (h : W.Le W') {p cs pos n} (hn : IsNode W p cs pos n) :
    IsNode W' p cs pos n := by
  unfold IsNode at *
  simp only [startOf_le h, endOf_le h]; exact hn

theorem Derives.mono {G : Grammar} {W W' : World L} (h : W.Le W') {rhs prev i j cs}
    (hd : Derives G W rhs prev i j cs) : Derives G W' rhs prev i j cs := by
  induction hd with
  | nil => exact .nil _ _
  | con h1 _ ih => exact .con (h.holds _ _ _ h1) ih
  | term h1 _ ih => exact .term (h.scan _ _ _ h1) ih
  | nt h1 h2 _ h4 h5 _ ih1 ih2 => exact .nt h1 h2 ih1 (h.at _ _ h4) (h5.mono h) ih2

/-- `node` is a tree for `n` (production and children spelled out). -/
def Tree (G : Grammar) (W : World L) (n : String) (i m : Nat) (node : Node L) : Prop :=
  ∃ ps p ds pos, G n = some ps ∧ p ∈ ps ∧ Derives G W p.rhs none i m ds ∧ W.at m pos ∧
    IsNode W p ds pos node

theorem Tree.mono {G : Grammar} {W W' : World L} (h : W.Le W') {n i m node}
    (ht : Tree G W n i m node) : Tree G W' n i m node := by
  obtain ⟨ps, p, ds, pos, h1, h2, h3, h4, h5⟩ := ht
  exact ⟨ps, p, ds, pos, h1, h2, h3.mono h, h.at _ _ h4, h5.mono h⟩

theorem tree_iff {G : Grammar} {W : World L} {n i m node} : Tree G W n i m node ↔ IsTree G W n i m node := by
  constructor
  · rintro ⟨ps, p, ds, pos, h1, h2, h3, h4, h5⟩
    exact .nt h1 h2 h3 h4 h5 (.nil _ _)
  · intro h
    cases h with
    | nt h1 h2 h3 h4 h5 h6 => cases h6; exact ⟨_, _, _, _, h1, h2, h3, h4, h5⟩

/-- The last transit of a list of transits. -/
def lastT (tr : List (Option (Node L))) : Option (Node L) := (tr.getLast?).getD none

@[simp] theorem lastT_snoc (tr : List (Option (Node L))) (x) : lastT (tr ++ [x]) = x := by
  simp [lastT]

/-- Left-to-right reading of the part of a right-hand side before the dot. -/
inductive Path (G : Grammar) (W : World L) (i : Nat) :
    List Rthing → List (Option (Node L)) → Nat → Prop
  | nil : Path G W i [] [] i
  | con {pre tr k c} : Path G W i pre tr k → W.holds k (lastT tr) c →
      Path G W i (pre ++ [.con c]) (tr ++ [none]) k
  | term {pre tr k t l} : Path G W i pre tr k → W.scan k t l →
      Path G W i (pre ++ [.term t]) (tr ++ [some (.leaf l)]) (k + 1)
  | nt {pre tr k n m node} : Path G W i pre tr k → Tree G W n k m node →
      Path G W i (pre ++ [.nt n]) (tr ++ [some node]) m

theorem Path.mono {G : Grammar} {W W' : World L} (h : W.Le W') {i pre tr k} (hp : Path G W i pre tr k) :
    Path G W' i pre tr k := by
  induction hp with
  | nil => exact .nil
  | con _ h1 ih => exact .con ih (h.holds _ _ _ h1)
  | term _ h1 ih => exact .term ih (h.scan _ _ _ h1)
  | nt _ h1 ih => exact .nt ih (h1.mono h)

theorem Path.length {G : Grammar} {W : World L} {i pre tr k} (hp : Path G W i pre tr k) :
    pre.length = tr.length := by
  induction hp with
  | nil => rfl
  | con _ _ ih => simp [ih]
  | term _ _ ih => simp [ih]
  | nt _ _ ih => simp [ih]

/-- The path followed by a derivation of the rest is a derivation of the whole. -/
theorem Path.derives {G : Grammar} {W : World L} {i pre tr k} (hp : Path G W i pre tr k) :
    ∀ {rest j cs}, Derives G W rest (lastT tr) k j cs →
      Derives G W (pre ++ rest) none i j (tr.filterMap id ++ cs) := by
  induction hp with
  | nil => intro rest j cs h; simpa [lastT] using h
  | con hp h1 ih =>
    intro rest j cs h
    rw [lastT_snoc] at h
    have := ih (.con h1 h)
    simpa using this
  | term hp h1 ih =>
    intro rest j cs h
    rw [lastT_snoc] at h
    have := ih (.term h1 h)
    simpa using this
  | nt hp h1 ih =>
    intro rest j cs h
    rw [lastT_snoc] at h
    obtain ⟨ps, p, ds, pos, g1, g2, g3, g4, g5⟩ := h1
    have := ih (.nt g1 g2 g3 g4 g5 h)
    simpa using this

theorem Path.derives_all {G : Grammar} {W : World L} {i pre tr k} (hp : Path G W i pre tr k) :
    Derives G W pre none i k (tr.filterMap id) := by
  have := hp.derives (.nil _ _)
  simpa using this

/-! ## Items -/

/-- `x`, in the set at place `k`, is a production of the grammar (or the start production) whose part
before the dot derives the input between its origin and `k`. -/
def ItemOk (G : Grammar) (start : Prod) (W : World L) (x : Item L) (k : Nat) : Prop :=
  ∃ pre post, x.prod.rhs = pre ++ post ∧
    ((x.origin = none ∧ x.prod = start ∧ Path G W 0 pre x.trans k) ∨
     (∃ o n ps, x.origin = some o ∧ G n = some ps ∧ x.prod ∈ ps ∧ Path G W o pre x.trans k))

theorem ItemOk.mono {G : Grammar} {start} {W W' : World L} (h : W.Le W') {x k}
    (hx : ItemOk G start W x k) : ItemOk G start W' x k := by
  obtain ⟨pre, post, h1, h2⟩ := hx
  refine ⟨pre, post, h1, ?_⟩
  rcases h2 with ⟨a, b, c⟩ | ⟨o, n, ps, a, b, c, d⟩
  · exact .inl ⟨a, b, c.mono h⟩
  · exact .inr ⟨o, n, ps, a, b, c, d.mono h⟩

/-- Advancing an item over what follows its dot. -/
theorem ItemOk.advance {G : Grammar} {start} {W : World L} {x : Item L} {k m : Nat} {r : Rthing} {v}
    (hx : ItemOk G start W x k) (ha : x.after = some r)
    (hstep : ∀ i pre, Path G W i pre x.trans k → Path G W i (pre ++ [r]) (x.trans ++ [v]) m) :
    ItemOk G start W (x.advance v) m := by
  obtain ⟨pre, post, h1, h2⟩ := hx
  have hlen : pre.length = x.trans.length := by
    rcases h2 with ⟨_, _, c⟩ | ⟨_, _, _, _, _, _, d⟩
    · exact c.length
    · exact d.length
  have hpost : ∃ post', post = r :: post' := by
    unfold Item.after at ha
    rw [h1, ← hlen, List.getElem?_append_right (Nat.le_refl _)] at ha
    cases post with
    | nil => simp at ha
    | cons a b => simp at ha; exact ⟨b, by rw [ha]⟩
  obtain ⟨post', rfl⟩ := hpost
  refine ⟨pre ++ [r], post', by simp [Item.advance, h1], ?_⟩
  rcases h2 with ⟨a, b, c⟩ | ⟨o, n, ps, a, b, c, d⟩
  · exact .inl ⟨a, b, hstep _ _ c⟩
  · exact .inr ⟨o, n, ps, a, b, c, hstep _ _ d⟩

theorem ItemOk.advance_nt {G : Grammar} {start} {W : World L} {x : Item L} {k m n node}
    (hx : ItemOk G start W x k) (ha : x.after = some (.nt n)) (ht : Tree G W n k m node) :
    ItemOk G start W (x.advance (some node)) m :=
  hx.advance ha (fun _ _ hp => .nt hp ht)

theorem ItemOk.advance_con {G : Grammar} {start} {W : World L} {x : Item L} {k c}
    (hx : ItemOk G start W x k) (ha : x.after = some (.con c)) (ht : W.holds k x.transit c) :
    ItemOk G start W (x.advance none) k :=
  hx.advance ha (fun _ _ hp => .con hp ht)

theorem ItemOk.advance_term {G : Grammar} {start} {W : World L} {x : Item L} {k t l}
    (hx : ItemOk G start W x k) (ha : x.after = some (.term t)) (ht : W.scan k t l) :
    ItemOk G start W (x.advance (some (.leaf l))) (k + 1) :=
  hx.advance ha (fun _ _ hp => .term hp ht)

/-- A finished item (with an origin) is a tree. -/
theorem ItemOk.complete {G : Grammar} {start} {W : World L} {x : Item L} {k o pos node}
    (hf : Filed G) (hx : ItemOk G start W x k) (ha : x.after = none) (ho : x.origin = some o)
    (hat : W.at k pos) (hn : IsNode W x.prod x.kids pos node) : Tree G W x.prod.lhs o k node := by
  obtain ⟨pre, post, h1, h2⟩ := hx
  rcases h2 with ⟨a, _, _⟩ | ⟨o', n, ps, a, b, c, d⟩
  · rw [a] at ho; cases ho
  · rw [a] at ho; injection ho with ho; subst ho
    have hpost : post = [] := by
      unfold Item.after at ha
      rw [h1, ← d.length, List.getElem?_append_right (Nat.le_refl _)] at ha
      cases post with
      | nil => rfl
      | cons => simp at ha
    subst hpost
    rw [List.append_nil] at h1
    have hl := hf n ps b _ c
    rw [hl]
    exact ⟨ps, x.prod, x.kids, pos, b, c, by rw [h1]; exact d.derives_all, hat, hn⟩

theorem bitsOf_eq (cs : List (Node L)) : bitsOf cs = cs.filterMap optBit := by
  induction cs with
  | nil => rfl
  | cons c r ih =>
    cases c with
    | leaf l => rw [bitsOf, List.filterMap_cons_none rfl, ih]
    | nt p b s e ds =>
      by_cases h : p.ogLhs.toList.getLast? = some '?'
      · rw [bitsOf, if_pos h, List.filterMap_cons_some (b := ds.length) (by simp [optBit, h]), ih]
      · rw [bitsOf, if_neg h, List.filterMap_cons_none (by simp [optBit, h]), ih]

theorem mkNode_isNode {tip : Tip σ L} {W : World L} (h1 : W.first = tip.leafStart)
    (h2 : W.last = tip.leafEnd) (pos p) (cs : List (Node L)) :
    IsNode W p cs pos (mkNode tip pos p cs) := by
  have hs : ∀ n, W.startOf n = Node.start tip n := by
    intro n; cases n <;> simp [World.startOf, Node.start, h1]
  have he : ∀ n, W.endOf n = Node.stop tip n := by
    intro n; cases n <;> simp [World.endOf, Node.stop, h2]
  unfold IsNode mkNode
  rw [bitsOf_eq]
  cases hh : cs.head? <;> cases hl : cs.getLast? <;> simp [hs, he]

/-! ## Closing a set -/

/-- What closing a set may rely on. -/
structure CtxOk (start : Prod) (c : Ctx σ L) (W : World L) : Prop where
  filed : Filed c.G
  done : ∀ (b : Nat) e, c.done[b]? = some e → ∀ x ∈ e.items, ItemOk c.G start W x b
  here : W.at c.done.length c.pos
  check : ∀ prev k, c.tip.check c.st prev c.pos k = .ok true → W.holds c.done.length prev k
  first : W.first = c.tip.leafStart
  last : W.last = c.tip.leafEnd

/-- What is true of a suspended task. -/
def TaskOk (start : Prod) (c : Ctx σ L) (W : World L) (s : CSt L) : Task L → Prop
  | .add x => ItemOk c.G start W x c.done.length
  | .nulls x _ => x ∈ s.items
  | .derive x => x ∈ s.items
  | .predict ps => ∃ n qs, c.G n = some qs ∧ ∀ p ∈ ps, p ∈ qs
  | .complete b n node _ => Tree c.G W n b c.done.length node

/-- The invariant of closing. -/
structure Inv (start : Prod) (c : Ctx σ L) (W : World L) (ts : List (Task L)) (s : CSt L) : Prop where
  items : ∀ x ∈ s.items, ItemOk c.G start W x c.done.length
  nulls : ∀ q ∈ s.nullables, Tree c.G W q.1 c.done.length c.done.length q.2
  tasks : ∀ t ∈ ts, TaskOk start c W s t

theorem TaskOk.mono {start} {c : Ctx σ L} {W : World L} {s s' : CSt L}
    (h : ∀ x ∈ s.items, x ∈ s'.items) {t} (ht : TaskOk start c W s t) : TaskOk start c W s' t := by
  cases t with
  | add x => exact ht
  | nulls x i => exact h _ ht
  | derive x => exact h _ ht
  | predict ps => exact ht
  | complete b n node i => exact ht

theorem itemsOf_ok {start} {c : Ctx σ L} {W : World L} (hc : CtxOk start c W) {s : CSt L}
    (hi : ∀ x ∈ s.items, ItemOk c.G start W x c.done.length) {b x} (hx : x ∈ c.itemsOf s b) :
    ItemOk c.G start W x b := by
  unfold Ctx.itemsOf at hx
  by_cases hb : b = c.done.length
  · rw [if_pos hb] at hx; subst hb; exact hi x hx
  · rw [if_neg hb] at hx
    cases hd : c.done[b]? with
    | none => rw [hd] at hx; simp at hx
    | some e => rw [hd] at hx; exact hc.done b e hd x (by simpa using hx)

theorem mem_expecting {r : Rthing} {items : List (Item L)} {x} :
    x ∈ expecting r items ↔ x ∈ items ∧ x.after = some r := by
  simp [expecting, List.mem_filter]

variable [DecidableEq L]

theorem step_inv {start} {c : Ctx σ L} {W : World L} (hc : CtxOk start c W) {t rest s ts' s'}
    (h : Inv start c W (t :: rest) s) (hs : step c t rest s = .ok (ts', s')) : Inv start c W ts' s' := by
  have hrest : ∀ u ∈ rest, TaskOk start c W s u := fun u hu => h.tasks u (List.mem_cons_of_mem _ hu)
  have ht := h.tasks t List.mem_cons_self
  cases t with
  | add x =>
    simp only [step, stepAdd] at hs
    split at hs
    · injection hs with hs; injection hs with e1 e2; subst e1 e2
      exact ⟨h.items, h.nulls, hrest⟩
    · injection hs with hs; injection hs with e1 e2; subst e1 e2
      refine ⟨?_, h.nulls, ?_⟩
      · intro y hy
        rcases List.mem_append.1 hy with hy | hy
        · exact h.items y hy
        · rw [List.mem_singleton.1 hy]; exact ht
      · intro u hu
        rcases List.mem_cons.1 hu with rfl | hu
        · exact List.mem_append_right _ List.mem_cons_self
        rcases List.mem_cons.1 hu with rfl | hu
        · exact List.mem_append_right _ List.mem_cons_self
        · exact (hrest u hu).mono (fun x hx => List.mem_append_left _ hx)
  | nulls x i =>
    simp only [step, stepNulls] at hs
    split at hs
    · injection hs with hs; injection hs with e1 e2; subst e1 e2
      exact ⟨h.items, h.nulls, hrest⟩
    · rename_i n node hq
      split at hs
      · rename_i ha
        injection hs with hs; injection hs with e1 e2; subst e1 e2
        refine ⟨h.items, h.nulls, ?_⟩
        intro u hu
        rcases List.mem_cons.1 hu with rfl | hu
        · exact (h.items x ht).advance_nt ha (h.nulls _ (List.mem_of_getElem? hq))
        rcases List.mem_cons.1 hu with rfl | hu
        · exact ht
        · exact hrest u hu
      · injection hs with hs; injection hs with e1 e2; subst e1 e2
        refine ⟨h.items, h.nulls, ?_⟩
        intro u hu
        rcases List.mem_cons.1 hu with rfl | hu
        · exact ht
        · exact hrest u hu
  | derive x =>
    have hx := h.items x ht
    simp only [step, stepDerive] at hs
    split at hs
    · rename_i ha
      unfold stepReduce at hs
      split at hs
      · cases hs
      · rename_i o ho
        dsimp only at hs
        split at hs
        · cases hs
        · injection hs with hs; injection hs with e1 e2; subst e1 e2
          have htree := hx.complete hc.filed ha ho hc.here (mkNode_isNode hc.first hc.last c.pos x.prod x.kids)
          have hitems : (if o = c.done.length then
              { s with nullables := s.nullables ++ [(x.prod.lhs, mkNode c.tip c.pos x.prod x.kids)] } else s).items
              = s.items := by split <;> rfl
          refine ⟨by rw [hitems]; exact h.items, ?_, ?_⟩
          · intro q hq
            split at hq
            · rename_i ho'
              rcases List.mem_append.1 hq with hq | hq
              · exact h.nulls q hq
              · rw [List.mem_singleton.1 hq]; rw [ho'] at htree; exact htree
            · exact h.nulls q hq
          · intro u hu
            rcases List.mem_cons.1 hu with rfl | hu
            · exact htree
            · exact (hrest u hu).mono (fun y hy => by rw [hitems]; exact hy)
    · rename_i n ha
      split at hs
      · cases hs
      · rename_i ps hps
        injection hs with hs; injection hs with e1 e2; subst e1 e2
        refine ⟨h.items, h.nulls, ?_⟩
        intro u hu
        rcases List.mem_cons.1 hu with rfl | hu
        · exact ⟨n, ps, hps, fun p hp => hp⟩
        · exact hrest u hu
    · injection hs with hs; injection hs with e1 e2; subst e1 e2
      exact ⟨h.items, h.nulls, hrest⟩
    · rename_i k ha
      split at hs
      · cases hs
      · rename_i hk
        injection hs with hs; injection hs with e1 e2; subst e1 e2
        refine ⟨h.items, h.nulls, ?_⟩
        intro u hu
        rcases List.mem_cons.1 hu with rfl | hu
        · exact hx.advance_con ha (hc.check _ _ hk)
        · exact hrest u hu
      · injection hs with hs; injection hs with e1 e2; subst e1 e2
        exact ⟨h.items, h.nulls, hrest⟩
  | predict ps =>
    simp only [step, stepPredict] at hs
    split at hs
    · injection hs with hs; injection hs with e1 e2; subst e1 e2
      exact ⟨h.items, h.nulls, hrest⟩
    · rename_i p ps'
      injection hs with hs; injection hs with e1 e2; subst e1 e2
      obtain ⟨n, qs, h1, h2⟩ := ht
      refine ⟨h.items, h.nulls, ?_⟩
      intro u hu
      rcases List.mem_cons.1 hu with rfl | hu
      · exact ⟨[], p.rhs, rfl, .inr ⟨c.done.length, n, qs, rfl, h1, h2 p List.mem_cons_self, .nil⟩⟩
      rcases List.mem_cons.1 hu with rfl | hu
      · exact ⟨n, qs, h1, fun q hq => h2 q (List.mem_cons_of_mem _ hq)⟩
      · exact hrest u hu
  | complete b n node i =>
    simp only [step, stepComplete] at hs
    split at hs
    · injection hs with hs; injection hs with e1 e2; subst e1 e2
      exact ⟨h.items, h.nulls, hrest⟩
    · rename_i y hy
      injection hs with hs; injection hs with e1 e2; subst e1 e2
      refine ⟨h.items, h.nulls, ?_⟩
      have hy := mem_expecting.1 (List.mem_of_getElem? hy)
      intro u hu
      rcases List.mem_cons.1 hu with rfl | hu
      · exact (itemsOf_ok hc h.items hy.1).advance_nt hy.2 ht
      rcases List.mem_cons.1 hu with rfl | hu
      · exact ht
      · exact hrest u hu

theorem closeLoop_inv {start} {c : Ctx σ L} {W : World L} (hc : CtxOk start c W) :
    ∀ f ts s s', Inv start c W ts s → closeLoop c f ts s = .ok s' → Inv start c W [] s' := by
  intro f
  induction f with
  | zero =>
    intro ts s s' h hr
    cases ts with
    | nil => simp [closeLoop] at hr; subst hr; exact h
    | cons => simp [closeLoop] at hr
  | succ f ih =>
    intro ts s s' h hr
    cases ts with
    | nil => simp [closeLoop] at hr; subst hr; exact h
    | cons t rest =>
      simp only [closeLoop] at hr
      split at hr
      · cases hr
      · rename_i ts1 s1 hst
        exact ih _ _ _ (step_inv hc h hst) hr

theorem close_ok {start} {c : Ctx σ L} {W : World L} (hc : CtxOk start c W) {f kernel s}
    (hk : ∀ x ∈ kernel, ItemOk c.G start W x c.done.length) (hr : close c f kernel = .ok s) :
    ∀ x ∈ s.items, ItemOk c.G start W x c.done.length := by
  refine (closeLoop_inv hc f _ _ s ⟨by simp, by simp, ?_⟩ hr).items
  intro t ht
  obtain ⟨x, hx, rfl⟩ := List.mem_map.1 ht
  exact hk x hx

end Verif.Earley
