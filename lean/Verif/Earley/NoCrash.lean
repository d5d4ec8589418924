import Verif.Earley.RunComplete
import Verif.Common
/-! # No assertion in the parser can fail (if the provider behaves) -/
namespace Verif.Earley
variable {σ L : Type}

/-- Every item that started in some set is expected by an item of that set. -/
def Anchored (items : Nat → List (Item L)) (x : Item L) : Prop :=
  match x.origin with
  | none => x.trans.length ≤ 1
  | some o => ∃ b ∈ items o, b.after = some (.nt x.prod.lhs)

/-- The invariant: all items are anchored. -/
structure AInv (c : Ctx σ L) (ts : List (Task L)) (s : CSt L) : Prop where
  items : ∀ x ∈ s.items, Anchored (c.itemsOf s) x
  adds : ∀ x, .add x ∈ ts → Anchored (c.itemsOf s) x
  preds : ∀ ps, .predict ps ∈ ts → ∃ n, (∃ b ∈ s.items, b.after = some (.nt n)) ∧ ∀ p ∈ ps, p.lhs = n
  derivs : ∀ x, .derive x ∈ ts → x ∈ s.items
  nullsIn : ∀ x i, .nulls x i ∈ ts → x ∈ s.items

theorem Anchored.mono {f g : Nat → List (Item L)} (h : ∀ o, ∀ b ∈ f o, b ∈ g o) {x : Item L}
    (hx : Anchored f x) : Anchored g x := by
  unfold Anchored at *
  split
  · rename_i ho; rw [ho] at hx; exact hx
  · rename_i o ho; rw [ho] at hx; obtain ⟨b, h1, h2⟩ := hx; exact ⟨b, h _ _ h1, h2⟩

/-- Advancing keeps the anchor; the start production may not be advanced over its last symbol. -/
theorem Anchored.advance {f : Nat → List (Item L)} {x : Item L} (v) (hx : Anchored f x)
    (h0 : x.origin = none → x.trans.length = 0) : Anchored f (x.advance v) := by
  unfold Anchored at *
  split
  · rename_i ho
    have := h0 ho
    simp [Item.advance, this]
  · rename_i o ho
    have ho' : x.origin = some o := ho
    rw [ho'] at hx; exact hx

theorem itemsOf_mono {c : Ctx σ L} {s s' : CSt L} (h : ∀ x ∈ s.items, x ∈ s'.items) :
    ∀ o, ∀ b ∈ c.itemsOf s o, b ∈ c.itemsOf s' o := by
  intro o b hb
  unfold Ctx.itemsOf at *
  split
  · rename_i ho; rw [if_pos ho] at hb; exact h _ hb
  · rename_i ho; rw [if_neg ho] at hb; exact hb

/-- In an item of the start production, a nonterminal or constraint after the dot means the dot is at
the beginning. -/
theorem start_dot {c : Cfg σ L} {W : World L} {x : Item L} {k r} (hx : ItemOk c.G c.startProd W x k)
    (ha : x.after = some r) (hr : ∀ t, r ≠ .term t) : x.origin = none → x.trans.length = 0 := by
  intro ho
  obtain ⟨pre, post, h1, h2⟩ := hx
  rcases h2 with ⟨_, h3, h4⟩ | ⟨o, n, ps, h2, _⟩
  · unfold Item.after at ha
    rw [h3] at ha
    simp only [Cfg.startProd] at ha
    rcases hl : x.trans.length with _ | _ | m
    · rfl
    · rw [hl] at ha; simp at ha; exact absurd ha.symm (hr _)
    · rw [hl] at ha; simp at ha
  · rw [h2] at ho; cases ho

/-- `check_constraint` does not hit an assertion on the constraints that items at place `k` have
after their dot. -/
def CheckSafe (c : Cfg σ L) (W : World L) (k : Nat) (st : σ) (pos : Nat) : Prop :=
  ∀ x con, ItemOk c.G c.startProd W x k → x.after = some (.con con) →
    ∃ b, c.tip.check st x.transit pos con = .ok b

theorem itemsAt_itemsOf {c : Ctx σ L} (s : CSt L) : ∀ o, ∀ b ∈ itemsAt c.done o, b ∈ c.itemsOf s o := by
  intro o b hb
  unfold Ctx.itemsOf
  split
  · rename_i ho
    subst ho
    simp [itemsAt] at hb
  · exact hb

variable [DecidableEq L]

theorem step_safe {c : Cfg σ L} {st pos done} {W : World L} (hq : CheckSafe c W done.length st pos)
    (hc : CtxOk c.startProd ⟨c.G, c.tip, st, done, pos⟩ W)
    (hdone : ∀ (b : Nat) e, done[b]? = some e → ∀ x ∈ e.items, Anchored (itemsAt done) x) {t rest s}
    (h : Inv c.startProd ⟨c.G, c.tip, st, done, pos⟩ W (t :: rest) s)
    (ha : AInv ⟨c.G, c.tip, st, done, pos⟩ (t :: rest) s) :
    (∀ e, step ⟨c.G, c.tip, st, done, pos⟩ t rest s = .error e → e = .parse) ∧
    (∀ ts' s', step ⟨c.G, c.tip, st, done, pos⟩ t rest s = .ok (ts', s') →
      AInv ⟨c.G, c.tip, st, done, pos⟩ ts' s') := by
  have hrest : AInv ⟨c.G, c.tip, st, done, pos⟩ rest s :=
    ⟨ha.items, fun x hx => ha.adds x (List.mem_cons_of_mem _ hx),
      fun ps hx => ha.preds ps (List.mem_cons_of_mem _ hx),
      fun x hx => ha.derivs x (List.mem_cons_of_mem _ hx),
      fun x i hx => ha.nullsIn x i (List.mem_cons_of_mem _ hx)⟩
  cases t with
  | add x =>
    simp only [step, stepAdd]
    refine ⟨(by intro e he; cases he), ?_⟩
    intro ts' s' hs
    split at hs <;> injection hs with hs <;> injection hs with e1 e2 <;> subst e1 e2
    · exact hrest
    · have hm := itemsOf_mono (c := ⟨c.G, c.tip, st, done, pos⟩) (s := s)
        (s' := { s with items := s.items ++ [x] }) (fun y hy => List.mem_append_left _ hy)
      refine ⟨?_, ?_, ?_, ?_, ?_⟩
      · intro y hy
        rcases List.mem_append.1 hy with hy | hy
        · exact (ha.items y hy).mono hm
        · rw [List.mem_singleton.1 hy]; exact (ha.adds x List.mem_cons_self).mono hm
      · intro y hy
        simp at hy
        exact (hrest.adds y hy).mono hm
      · intro ps hps
        simp at hps
        obtain ⟨n, ⟨b, h1, h2⟩, h3⟩ := hrest.preds ps hps
        exact ⟨n, ⟨b, List.mem_append_left _ h1, h2⟩, h3⟩
      · intro y hy
        simp at hy
        rcases hy with rfl | hy
        · simp
        · exact List.mem_append_left _ (hrest.derivs y hy)
      · intro y i hy
        simp at hy
        rcases hy with ⟨rfl, _⟩ | hy
        · simp
        · exact List.mem_append_left _ (hrest.nullsIn y i hy)
  | nulls x i =>
    simp only [step, stepNulls]
    refine ⟨(by intro e he; cases he), ?_⟩
    intro ts' s' hs
    have hx := ha.nullsIn x i List.mem_cons_self
    split at hs
    · injection hs with hs; injection hs with e1 e2; subst e1 e2; exact hrest
    · split at hs <;> injection hs with hs <;> injection hs with e1 e2 <;> subst e1 e2
      · rename_i hax
        refine ⟨ha.items, ?_, ?_, ?_, ?_⟩
        · intro y hy
          simp at hy
          rcases hy with rfl | hy
          · exact (ha.items x hx).advance _ (start_dot (h.items x hx) hax (by simp))
          · exact hrest.adds y hy
        · intro ps hps; simp at hps; exact hrest.preds ps hps
        · intro y hy; simp at hy; exact hrest.derivs y hy
        · intro y j hy; simp at hy
          rcases hy with ⟨rfl, _⟩ | hy
          · exact hx
          · exact hrest.nullsIn y j hy
      · refine ⟨ha.items, ?_, ?_, ?_, ?_⟩
        · intro y hy; simp at hy; exact hrest.adds y hy
        · intro ps hps; simp at hps; exact hrest.preds ps hps
        · intro y hy; simp at hy; exact hrest.derivs y hy
        · intro y j hy; simp at hy
          rcases hy with ⟨rfl, _⟩ | hy
          · exact hx
          · exact hrest.nullsIn y j hy
  | derive x =>
    have hx := ha.derivs x List.mem_cons_self
    simp only [step, stepDerive]
    cases hax : x.after with
    | none =>
      dsimp only
      unfold stepReduce
      have han := ha.items x hx
      cases ho : x.origin with
      | none =>
        -- a finished start production cannot be here
        exfalso
        unfold Anchored at han
        rw [ho] at han
        dsimp only at han
        obtain ⟨pre, post, h1, h2⟩ := h.items x hx
        rcases h2 with ⟨_, h3, h4⟩ | ⟨o, n, ps, h2, _⟩
        · unfold Item.after at hax
          rw [h3, List.getElem?_eq_none_iff] at hax
          simp [Cfg.startProd] at hax
          omega
        · rw [h2] at ho; cases ho
      | some back =>
        dsimp only
        unfold Anchored at han
        rw [ho] at han
        obtain ⟨b, hb1, hb2⟩ := han
        have hne : ¬ (expecting (.nt x.prod.lhs) (Ctx.itemsOf ⟨c.G, c.tip, st, done, pos⟩ s back)).isEmpty = true := by
          rw [List.isEmpty_iff]
          intro hh
          have := mem_expecting.2 ⟨hb1, hb2⟩
          rw [hh] at this; cases this
        rw [if_neg hne]
        refine ⟨(by intro e he; cases he), ?_⟩
        intro ts' s' hs
        injection hs with hs; injection hs with e1 e2; subst e1 e2
        have hit : (if back = done.length then
            { s with nullables := s.nullables ++ [(x.prod.lhs, mkNode c.tip pos x.prod x.kids)] } else s).items
            = s.items := by split <;> rfl
        have hm := itemsOf_mono (c := ⟨c.G, c.tip, st, done, pos⟩) (s := s)
          (s' := if back = done.length then
            { s with nullables := s.nullables ++ [(x.prod.lhs, mkNode c.tip pos x.prod x.kids)] } else s)
          (fun y hy => by rw [hit]; exact hy)
        refine ⟨?_, ?_, ?_, ?_, ?_⟩
        · intro y hy; rw [hit] at hy; exact (ha.items y hy).mono hm
        · intro y hy; simp at hy; exact (hrest.adds y hy).mono hm
        · intro ps hps; simp at hps; rw [hit]; exact hrest.preds ps hps
        · intro y hy; simp at hy; rw [hit]; exact hrest.derivs y hy
        · intro y j hy; simp at hy; rw [hit]; exact hrest.nullsIn y j hy
    | some r =>
      cases r with
      | nt n =>
        dsimp only
        cases hG : c.G n with
        | none => exact ⟨(by intro e he; injection he with he; exact he.symm), (by intro _ _ hs; cases hs)⟩
        | some ps =>
          refine ⟨(by intro e he; cases he), ?_⟩
          intro ts' s' hs
          injection hs with hs; injection hs with e1 e2; subst e1 e2
          refine ⟨ha.items, ?_, ?_, ?_, ?_⟩
          · intro y hy; simp at hy; exact hrest.adds y hy
          · intro qs hqs
            simp at hqs
            rcases hqs with rfl | hqs
            · exact ⟨n, ⟨x, hx, hax⟩, fun p hp => hc.filed n _ hG p hp⟩
            · exact hrest.preds qs hqs
          · intro y hy; simp at hy; exact hrest.derivs y hy
          · intro y j hy; simp at hy; exact hrest.nullsIn y j hy
      | term t =>
        refine ⟨(by intro e he; cases he), ?_⟩
        intro ts' s' hs
        injection hs with hs; injection hs with e1 e2; subst e1 e2; exact hrest
      | con k =>
        dsimp only
        obtain ⟨b, hb⟩ := hq x k (h.items x hx) hax
        rw [hb]
        cases b with
        | true =>
          refine ⟨(by intro e he; cases he), ?_⟩
          intro ts' s' hs
          injection hs with hs; injection hs with e1 e2; subst e1 e2
          refine ⟨ha.items, ?_, ?_, ?_, ?_⟩
          · intro y hy
            simp at hy
            rcases hy with rfl | hy
            · exact (ha.items x hx).advance _ (start_dot (h.items x hx) hax (by simp))
            · exact hrest.adds y hy
          · intro ps hps; simp at hps; exact hrest.preds ps hps
          · intro y hy; simp at hy; exact hrest.derivs y hy
          · intro y j hy; simp at hy; exact hrest.nullsIn y j hy
        | false =>
          refine ⟨(by intro e he; cases he), ?_⟩
          intro ts' s' hs
          injection hs with hs; injection hs with e1 e2; subst e1 e2; exact hrest
  | predict ps =>
    simp only [step, stepPredict]
    refine ⟨(by intro e he; cases he), ?_⟩
    intro ts' s' hs
    split at hs <;> injection hs with hs <;> injection hs with e1 e2 <;> subst e1 e2
    · exact hrest
    · rename_i p ps'
      obtain ⟨n, ⟨b, h1, h2⟩, h3⟩ := ha.preds _ List.mem_cons_self
      refine ⟨ha.items, ?_, ?_, ?_, ?_⟩
      · intro y hy
        simp at hy
        rcases hy with rfl | hy
        · refine ⟨b, ?_, ?_⟩
          · unfold Ctx.itemsOf; rw [if_pos rfl]; exact h1
          · rw [h2, h3 p List.mem_cons_self]
        · exact hrest.adds y hy
      · intro qs hqs
        simp at hqs
        rcases hqs with rfl | hqs
        · exact ⟨n, ⟨b, h1, h2⟩, fun q hq => h3 q (List.mem_cons_of_mem _ hq)⟩
        · exact hrest.preds qs hqs
      · intro y hy; simp at hy; exact hrest.derivs y hy
      · intro y j hy; simp at hy; exact hrest.nullsIn y j hy
  | complete back n node i =>
    simp only [step, stepComplete]
    refine ⟨(by intro e he; cases he), ?_⟩
    intro ts' s' hs
    split at hs <;> injection hs with hs <;> injection hs with e1 e2 <;> subst e1 e2
    · exact hrest
    · rename_i b hb
      have hb := mem_expecting.1 (List.mem_of_getElem? hb)
      have hbok := itemsOf_ok hc h.items hb.1
      have hban : Anchored (Ctx.itemsOf ⟨c.G, c.tip, st, done, pos⟩ s) b := by
        have hb1 := hb.1
        unfold Ctx.itemsOf at hb1
        split at hb1
        · exact ha.items b hb1
        · cases hd : done[back]? with
          | none => dsimp only at hb1; rw [hd] at hb1; simp at hb1
          | some e =>
            dsimp only at hb1; rw [hd] at hb1
            exact (hdone back e hd b (by simpa using hb1)).mono (itemsAt_itemsOf s)
      refine ⟨ha.items, ?_, ?_, ?_, ?_⟩
      · intro y hy
        simp at hy
        rcases hy with rfl | hy
        · exact hban.advance _ (start_dot hbok hb.2 (by simp))
        · exact hrest.adds y hy
      · intro qs hqs; simp at hqs; exact hrest.preds qs hqs
      · intro y hy; simp at hy; exact hrest.derivs y hy
      · intro y j hy; simp at hy; exact hrest.nullsIn y j hy

theorem close_safe {c : Cfg σ L} {st pos done} {W : World L} (hq : CheckSafe c W done.length st pos)
    (hc : CtxOk c.startProd ⟨c.G, c.tip, st, done, pos⟩ W)
    (hdone : ∀ (b : Nat) e, done[b]? = some e → ∀ x ∈ e.items, Anchored (itemsAt done) x) :
    ∀ f ts s, Inv c.startProd ⟨c.G, c.tip, st, done, pos⟩ W ts s → AInv ⟨c.G, c.tip, st, done, pos⟩ ts s →
      closeLoop ⟨c.G, c.tip, st, done, pos⟩ f ts s ≠ .error .crash ∧
      ∀ s', closeLoop ⟨c.G, c.tip, st, done, pos⟩ f ts s = .ok s' → AInv ⟨c.G, c.tip, st, done, pos⟩ [] s' := by
  intro f
  induction f with
  | zero =>
    intro ts s h ha
    cases ts with
    | nil => simp only [closeLoop]; exact ⟨by simp, by intro s' hs; injection hs with hs; subst hs; exact ha⟩
    | cons => simp [closeLoop]
  | succ f ih =>
    intro ts s h ha
    cases ts with
    | nil => simp only [closeLoop]; exact ⟨by simp, by intro s' hs; injection hs with hs; subst hs; exact ha⟩
    | cons t rest =>
      obtain ⟨h1, h2⟩ := step_safe hq hc hdone h ha
      simp only [closeLoop]
      split
      · rename_i e he
        rw [h1 e he]; exact ⟨by simp, by intro s' hs; cases hs⟩
      · rename_i ts' s' hst
        exact ih _ _ (step_inv hc h hst) (h2 _ _ hst)

/-! ## The whole run -/

/-- A well-behaved provider: it hands out only terminals that were expected, at least one; never the
acceptance marker; the end of the input only by itself; and positions do not go back. -/
structure TipOk (c : Cfg σ L) (I : Nat → σ → Nat → Prop) : Prop where
  quiet : ∀ k st pos e kl, I k st pos → Usable c e kl → c.tip.next st pos e kl ≠ .error .crash
  some : ∀ st pos e kl rats pos' st', c.tip.next st pos e kl = .ok (some (rats, pos'), st') →
    pos ≤ pos' ∧ rats ≠ [] ∧ (∀ r ∈ rats, r.1 ∈ e ∧ r.1 ≠ acceptance) ∧
    (∀ r ∈ rats, r.1 = endOfInput → atEnd c.tip rats = true)
  eoi : EoiOk c.tip

/-- The two assertions about `ASI_kludge` (es_parser.py:862, 865) do not fail. -/
def KludgeSafe (c : Cfg σ L) : Prop := ∀ (W : World L) k items,
  (∀ x ∈ items, ItemOk c.G c.startProd W x k) → kludgeOf c.syntactic items ≠ none

/-- What is known at the top of the main loop. -/
structure SafeInv (c : Cfg σ L) (W : World L) (done : List (ESet L)) (kernel : List (Item L))
    (latest : Option (Item L)) : Prop where
  dones : ∀ (b : Nat) e, done[b]? = some e → ∀ x ∈ e.items, ItemOk c.G c.startProd W x b
  kern : ∀ x ∈ kernel, ItemOk c.G c.startProd W x done.length
  adone : ∀ (b : Nat) e, done[b]? = some e → ∀ x ∈ e.items, Anchored (itemsAt done) x
  akernel : ∀ x ∈ kernel, Anchored (itemsAt done) x
  lat : ∀ x, latest = some x → ∃ k, ItemOk c.G c.startProd W x k ∧ x.after = some (.term acceptance)

omit [DecidableEq L] in
theorem tree_shape {G : Grammar} {W : World L} (hf : Filed G) {n i j node} (h : Tree G W n i j node) :
    ∃ p b s e cs, node = .nt p b s e cs ∧ p.lhs = n := by
  obtain ⟨ps, p, ds, pos, h1, h2, _, _, h5⟩ := h
  exact ⟨p, _, _, _, _, h5, hf _ _ h1 _ h2⟩

omit [DecidableEq L] in
theorem cannot_safe {c : Cfg σ L} {W : World L} (hf : Filed c.G) (hnf : NoFinal c.G) {latest}
    (h : ∀ x, latest = some x → ∃ k, ItemOk c.G c.startProd W x k ∧ x.after = some (.term acceptance)) :
    cannotContinue c latest ≠ .error .crash := by
  unfold cannotContinue
  split
  · simp
  · split
    · simp
    · rename_i x
      obtain ⟨k, hx, ha⟩ := h x rfl
      obtain ⟨_, n, g1, g2⟩ := final_item hnf hx (.inr rfl) ha
      obtain ⟨p, b, s, e, cs, rfl, hp⟩ := tree_shape hf g2
      simp [Item.transit, g1, hp]

theorem nextKernel_some {items : List (Item L)} {rats : List (Term × L)}
    (h : ∀ r ∈ rats, ∃ x ∈ items, x.after = some (.term r.1)) (hne : rats ≠ []) :
    ∃ k ks, nextKernel items rats = some (k :: ks) := by
  have h1 : ∀ r ∈ rats, ∃ ys, scanOne items r = some ys := by
    intro r hr
    obtain ⟨x, hx, ha⟩ := h r hr
    refine ⟨_, if_neg ?_⟩
    rintro ⟨he, _⟩
    rw [List.isEmpty_iff] at he
    have := mem_expecting.2 ⟨hx, ha⟩
    rw [he] at this; cases this
  obtain ⟨yss, hm, _, _⟩ := mapM_some h1
  have hk : nextKernel items rats = some yss.flatten := by unfold nextKernel; rw [hm]; rfl
  cases rats with
  | nil => exact absurd rfl hne
  | cons r rs =>
    obtain ⟨x, hx, ha⟩ := h r List.mem_cons_self
    have hmem := (mem_nextKernel hk).2 ⟨r, List.mem_cons_self, x, hx, ha, rfl⟩
    cases hfl : yss.flatten with
    | nil => rw [hfl] at hmem; cases hmem
    | cons k ks => exact ⟨k, ks, by rw [hk, hfl]⟩

theorem loop_safe {c : Cfg σ L} {W : World L} (hf : Filed c.G) (hnf : NoFinal c.G)
    (hk : KludgeSafe c) (I : Nat → σ → Nat → Prop) (htip : TipOk c I)
    (hI : ∀ k st pos, I k st pos → CheckSafe c W k st pos ∧ W.at k pos ∧
      (∀ prev con, c.tip.check st prev pos con = .ok true → W.holds k prev con) ∧
      W.first = c.tip.leafStart ∧ W.last = c.tip.leafEnd)
    (hInext : ∀ k st pos e kl rats pos' st', I k st pos →
      c.tip.next st pos e kl = .ok (some (rats, pos'), st') → I (k + 1) st' pos' ∧
      ∀ r ∈ rats, W.scan k r.1 r.2) :
    ∀ f done st pos kernel latest, I done.length st pos → SafeInv c W done kernel latest →
      loop c f done st pos kernel latest ≠ .error .crash := by
  intro f
  induction f with
  | zero => intro done st pos kernel latest _ _; simp [loop]
  | succ f ih =>
    intro done st pos kernel latest hi h
    obtain ⟨hchk, hat, hhold, hfi, hla⟩ := hI _ _ _ hi
    have hc : CtxOk c.startProd ⟨c.G, c.tip, st, done, pos⟩ W :=
      ⟨hf, h.dones, hat, hhold, hfi, hla⟩
    have hinv0 : Inv c.startProd ⟨c.G, c.tip, st, done, pos⟩ W (kernel.map .add) ⟨[], []⟩ := by
      refine ⟨by simp, by simp, ?_⟩
      intro t ht
      obtain ⟨x, hx, rfl⟩ := List.mem_map.1 ht
      exact h.kern x hx
    have hainv0 : AInv ⟨c.G, c.tip, st, done, pos⟩ (kernel.map .add) ⟨[], []⟩ := by
      refine ⟨by simp, ?_, by simp, by simp, by simp⟩
      intro x hx
      simp at hx
      exact (h.akernel x hx).mono (itemsAt_itemsOf (c := ⟨c.G, c.tip, st, done, pos⟩) _)
    obtain ⟨s1, s2⟩ := close_safe hchk hc h.adone f _ _ hinv0 hainv0
    simp only [loop]
    split
    · rename_i e he
      intro hh; injection hh with hh; subst hh
      exact s1 he
    rename_i s hcl
    have hai := s2 s hcl
    have hit := close_ok hc h.kern hcl
    have hitems : ∀ x ∈ s.items, Anchored (itemsAt (done ++ [⟨pos, s.items⟩])) x := by
      intro x hx
      have := hai.items x hx
      unfold Anchored at this ⊢
      split
      · rename_i ho; rw [ho] at this; exact this
      · rename_i o ho
        rw [ho] at this
        obtain ⟨b, hb1, hb2⟩ := this
        have hle := (hit x hx).origin_le ho
        rw [itemsOf_eq hle pos] at hb1
        exact ⟨b, hb1, hb2⟩
    have hlat : ∀ x, newLatest c s.items latest = some x →
        ∃ k, ItemOk c.G c.startProd W x k ∧ x.after = some (.term acceptance) := by
      intro x hx
      unfold newLatest at hx
      split at hx
      · cases hx
      · split at hx
        · exact h.lat x hx
        · rename_i y ys he
          injection hx with hx
          have : x ∈ expecting (.term acceptance) s.items := by rw [he, hx]; exact List.mem_cons_self
          have := mem_expecting.1 this
          exact ⟨done.length, hit x this.1, this.2⟩
    unfold afterClose
    split
    · exact cannot_safe hf hnf h.lat
    split
    · rename_i hkl; exact absurd hkl (hk _ _ _ hit)
    rename_i kl hkl
    split
    · rename_i e he
      intro hh; injection hh with hh; subst hh
      exact htip.quiet _ _ _ _ _ hi (usable_of_items hit hkl) he
    · exact cannot_safe hf hnf hlat
    · rename_i rats pos' st' hnext
      obtain ⟨t1, t2, t3, t4⟩ := htip.some _ _ _ _ _ _ _ hnext
      obtain ⟨i1, i3⟩ := hInext _ _ _ _ _ _ _ _ hi hnext
      have hexp : ∀ r ∈ rats, ∃ x ∈ s.items, x.after = some (.term r.1) :=
        fun r hr => mem_expectedTerminals.1 (t3 r hr).1
      obtain ⟨k, ks, hker⟩ := nextKernel_some hexp t2
      unfold afterNext
      rw [if_neg (by omega), hker]
      dsimp only
      split
      · rename_i hend
        obtain ⟨t, l, hrats, heoi⟩ := atEnd_iff hend
        have ht : t = endOfInput := htip.eoi _ _ _ _ _ _ _ hnext (t, l) (by rw [hrats]; exact List.mem_cons_self) heoi
        have hgo : ∀ y ∈ k :: ks, ∃ n, goalOf y = some n := by
          intro y hy
          obtain ⟨r, hr1, x, hx, ha, hkx⟩ := (mem_nextKernel hker).1 hy
          rw [hrats] at hr1
          rw [List.mem_singleton.1 hr1] at ha
          obtain ⟨g0, n, g1, g2⟩ := final_item hnf (hit x hx) (.inl ht) ha
          exact ⟨n, by rw [hkx]; simp [goalOf, Item.advance, g1]⟩
        obtain ⟨ns, hns, hlen, _⟩ := mapM_some hgo
        unfold finish
        rw [hns]
        cases ns with
        | nil => simp at hlen
        | cons => simp
      · rename_i hend
        have hlen : (done ++ [(⟨pos, s.items⟩ : ESet L)]).length = done.length + 1 := by simp
        refine ih _ _ _ _ _ (by rw [hlen]; exact i1) ⟨?_, ?_, ?_, ?_, ?_⟩
        · intro b e hb x hx
          by_cases hlt : b < done.length
          · rw [List.getElem?_append_left hlt] at hb
            exact (h.dones b e hb x hx)
          · have hb' := (List.getElem?_eq_some_iff.1 hb).1
            have hbl : b = done.length := by simp at hb'; omega
            subst hbl
            rw [List.getElem?_concat_length] at hb
            injection hb with hb; subst hb
            exact (hit x hx)
        · intro y hy
          obtain ⟨r, hr1, x, hx, ha, rfl⟩ := (mem_nextKernel hker).1 hy
          rw [hlen]
          exact ItemOk.advance_term (hit x hx) ha (i3 r hr1)
        · intro b e hb x hx
          by_cases hlt : b < done.length
          · rw [List.getElem?_append_left hlt] at hb
            refine (h.adone b e hb x hx).mono ?_
            intro o y hy
            by_cases ho : o < done.length
            · rw [itemsAt_append ho]; exact hy
            · unfold itemsAt at hy; rw [List.getElem?_eq_none (by omega)] at hy; simp at hy
          · have hb' := (List.getElem?_eq_some_iff.1 hb).1
            have hbl : b = done.length := by simp at hb'; omega
            subst hbl
            rw [List.getElem?_concat_length] at hb
            injection hb with hb; subst hb
            exact hitems x hx
        · intro y hy
          obtain ⟨r, hr1, x, hx, ha, rfl⟩ := (mem_nextKernel hker).1 hy
          refine (hitems x hx).advance _ ?_
          intro ho
          -- only the start production has no origin, and it expects its final symbol
          exfalso
          obtain ⟨pre, post, h1, h2⟩ := hit x hx
          rcases h2 with ⟨_, h3, _⟩ | ⟨o, n, ps, h2, _⟩
          · have hm : Rthing.term r.1 ∈ x.prod.rhs := List.mem_of_getElem? ha
            rw [h3] at hm
            simp [Cfg.startProd] at hm
            have hfin := hm
            unfold Cfg.final at hfin
            split at hfin
            · exact hend (t4 r hr1 hfin)
            · exact (t3 r hr1).2 hfin
          · rw [h2] at ho; cases ho
        · intro x hx
          obtain ⟨k', a1, a2⟩ := hlat x hx
          exact ⟨k', a1, a2⟩

omit [DecidableEq L] in
theorem safeInv_init {c : Cfg σ L} {W : World L} :
    SafeInv c W [] [(⟨none, c.startProd, []⟩ : Item L)] none := by
  refine ⟨by simp, ?_, by simp, ?_, by simp⟩
  · intro x hx
    rw [List.mem_singleton.1 hx]
    exact ⟨[], _, rfl, .inl ⟨rfl, rfl, .nil⟩⟩
  · intro x hx
    rw [List.mem_singleton.1 hx]
    simp [Anchored]

end Verif.Earley
