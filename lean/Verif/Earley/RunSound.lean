import Verif.Earley.SoundLemmas
/-! # What a run returns is a derivation -/
namespace Verif.Earley
variable {σ L : Type}

/-! ## Histories that grow -/

theorem hist_le {tip : Tip σ L} {H H' : Hist σ L} (h1 : ∀ (k : Nat) r, H.rats[k]? = some r → H'.rats[k]? = some r)
    (h2 : ∀ (k : Nat) s, H.sts[k]? = some s → H'.sts[k]? = some s) : (H.world tip).Le (H'.world tip) where
  scan := by rintro k t l ⟨r, hr, hm⟩; exact ⟨r, h1 _ _ hr, hm⟩
  holds := by rintro k p c ⟨s, hs, hc⟩; exact ⟨s, h2 _ _ hs, hc⟩
  «at» := by rintro k p ⟨s, hs, hc⟩; exact ⟨s, h2 _ _ hs, hc⟩
  first := rfl
  last := rfl

theorem getElem?_append_some {α} {l m : List α} {k : Nat} {x : α} (h : l[k]? = some x) :
    (l ++ m)[k]? = some x := by
  have := (List.getElem?_eq_some_iff.1 h).1
  rw [List.getElem?_append_left this]; exact h

/-- The history with one more answer. -/
def Hist.addRats (H : Hist σ L) (r : List (Term × L)) : Hist σ L := { H with rats := H.rats ++ [r] }
/-- The history with one more answer and one more state. -/
def Hist.snoc (H : Hist σ L) (r : List (Term × L)) (s : σ × Nat) : Hist σ L :=
  ⟨H.sts ++ [s], H.rats ++ [r]⟩

theorem Path.nil_inv {G : Grammar} {W : World L} {i pre tr k} (h : Path G W i pre tr k) (hp : pre = []) :
    k = i ∧ tr = [] := by
  cases h with
  | nil => exact ⟨rfl, rfl⟩
  | con => simp at hp
  | term => simp at hp
  | nt => simp at hp

theorem Path.single_inv {G : Grammar} {W : World L} {i pre tr k n} (h : Path G W i pre tr k)
    (hp : pre = [.nt n]) : ∃ node, tr = [some node] ∧ Tree G W n i k node := by
  cases h with
  | nil => simp at hp
  | con h1 h2 =>
    have := (List.append_eq_singleton_iff.1 hp)
    rcases this with ⟨_, h⟩ | ⟨_, h⟩ <;> simp at h
  | term h1 h2 =>
    have := (List.append_eq_singleton_iff.1 hp)
    rcases this with ⟨_, h⟩ | ⟨_, h⟩ <;> simp at h
  | nt h1 h2 =>
    have := (List.append_eq_singleton_iff.1 hp)
    rcases this with ⟨g, h⟩ | ⟨_, h⟩
    · simp at h; subst h
      obtain ⟨rfl, rfl⟩ := h1.nil_inv g
      exact ⟨_, rfl, h2⟩
    · simp at h

/-- An item that expects the final symbol has the goal's tree behind it. -/
theorem final_item {c : Cfg σ L} {W : World L} {x : Item L} {k : Nat} (hnf : NoFinal c.G)
    (hx : ItemOk c.G c.startProd W x k) {t : Term} (ht : t = endOfInput ∨ t = acceptance)
    (ha : x.after = some (.term t)) :
    t = c.final ∧ ∃ node, x.trans = [some node] ∧ Tree c.G W c.goal 0 k node := by
  obtain ⟨pre, post, h1, h2⟩ := hx
  rcases h2 with ⟨h2, h3, h4⟩ | ⟨o, n, ps, h2, h3, h4, h5⟩
  · unfold Item.after at ha
    rw [h3] at ha h1
    have hlen := h4.length
    have hl1 : x.trans.length = 1 ∧ t = c.final := by
      simp only [Cfg.startProd] at ha
      rcases hl : x.trans.length with _ | _ | m
      · rw [hl] at ha; simp at ha
      · rw [hl] at ha; simp at ha; exact ⟨rfl, ha.symm⟩
      · rw [hl] at ha; simp at ha
    rw [hl1.1] at hlen
    match pre, hlen with
    | [a], _ =>
      simp only [Cfg.startProd, List.singleton_append, List.cons.injEq] at h1
      obtain ⟨node, g1, g2⟩ := h4.single_inv (n := c.goal) (by rw [h1.1])
      exact ⟨hl1.2, node, g1, g2⟩
  · have hm : Rthing.term t ∈ x.prod.rhs := List.mem_of_getElem? ha
    have := hnf n ps h3 _ h4
    rcases ht with rfl | rfl
    · exact absurd hm this.1
    · exact absurd hm this.2

/-- What is known at the top of the main loop. -/
structure RunInv (c : Cfg σ L) (st0 : σ) (start : Nat) (H : Hist σ L) (done : List (ESet L)) (st : σ)
    (pos : Nat) (kernel : List (Item L)) (latest : Option (Item L)) : Prop where
  lsts : H.sts.length = done.length + 1
  lrats : H.rats.length = done.length
  real : H.Real c.tip st0 start
  cur : H.sts[done.length]? = some (st, pos)
  dones : ∀ (b : Nat) e, done[b]? = some e → ∀ x ∈ e.items, ItemOk c.G c.startProd (H.world c.tip) x b
  kernel : ∀ x ∈ kernel, ItemOk c.G c.startProd (H.world c.tip) x done.length
  latest : ∀ x, latest = some x → c.all = false ∧ ∃ k, k ≤ done.length ∧
    ItemOk c.G c.startProd (H.world c.tip) x k ∧ x.after = some (.term acceptance)

/-- What is known of a result. -/
def Outcome (c : Cfg σ L) (st0 : σ) (start : Nat) (node : Node L) : Prop :=
  ∃ (H : Hist σ L) (k : Nat), H.Real c.tip st0 start ∧ IsTree c.G (H.world c.tip) c.goal 0 k node ∧
    (c.all = true → ∃ l, c.tip.isEoi l = true ∧ H.rats[k]? = some [(endOfInput, l)])

theorem RunInv.ctx {c : Cfg σ L} {st0 start H done st pos kernel latest}
    (h : RunInv c st0 start H done st pos kernel latest) (hf : Filed c.G) :
    CtxOk c.startProd ⟨c.G, c.tip, st, done, pos⟩ (H.world c.tip) where
  filed := hf
  done := h.dones
  here := ⟨_, h.cur, rfl⟩
  check := fun prev k hk => ⟨_, h.cur, hk⟩
  first := rfl
  last := rfl

theorem mem_nextKernel [DecidableEq L] {items : List (Item L)} {rats : List (Term × L)} {ks}
    (h : nextKernel items rats = some ks) {y} : y ∈ ks ↔ ∃ r ∈ rats, ∃ x ∈ items,
      x.after = some (.term r.1) ∧ y = x.advance (some (.leaf r.2)) := by
  unfold nextKernel at h
  obtain ⟨xss, h1, rfl⟩ := Option.map_eq_some_iff.1 h
  clear h
  induction rats generalizing xss with
  | nil => simp at h1; subst h1; simp
  | cons r rats ih =>
    rw [List.mapM_cons] at h1
    cases hs : scanOne items r with
    | none => rw [hs] at h1; simp at h1
    | some zs =>
      rw [hs] at h1
      simp only [Option.bind_eq_bind, Option.bind_some] at h1
      have hz : zs = (expecting (.term r.1) items).map (fun x => x.advance (some (.leaf r.2))) := by
        unfold scanOne at hs
        split at hs
        · cases hs
        · injection hs with hs; exact hs.symm
      subst hz
      cases hm : rats.mapM (scanOne items) with
      | none => rw [hm] at h1; simp at h1
      | some yss =>
        rw [hm] at h1
        simp at h1
        subst h1
        rw [List.flatten_cons, List.mem_append, ih _ hm]
        constructor
        · rintro (h | ⟨r', h1, h2⟩)
          · obtain ⟨x, hx, rfl⟩ := List.mem_map.1 h
            have := mem_expecting.1 hx
            exact ⟨r, List.mem_cons_self, x, this.1, this.2, rfl⟩
          · exact ⟨r', List.mem_cons_of_mem _ h1, h2⟩
        · rintro ⟨r', h1, x, hx, ha, rfl⟩
          rcases List.mem_cons.1 h1 with rfl | h1
          · exact .inl (List.mem_map.2 ⟨x, mem_expecting.2 ⟨hx, ha⟩, rfl⟩)
          · exact .inr ⟨r', h1, x, hx, ha, rfl⟩

theorem cannot_outcome {c : Cfg σ L} {st0 start H done st pos kernel latest node} (hnf : NoFinal c.G)
    (h : RunInv c st0 start H done st pos kernel latest) (hr : cannotContinue c latest = .ok node) :
    Outcome c st0 start node := by
  unfold cannotContinue at hr
  split at hr
  · cases hr
  · rename_i hall
    split at hr
    · cases hr
    · rename_i x
      obtain ⟨_, k, hk, hx, ha⟩ := h.latest x rfl
      obtain ⟨_, n, g1, g2⟩ := final_item hnf hx (.inr rfl) ha
      unfold Item.transit at hr
      rw [g1] at hr
      simp only [List.getLast?_singleton, Option.getD_some] at hr
      refine ⟨H, k, h.real, ?_, fun h => absurd h hall⟩
      have : n = node := by
        split at hr
        · rename_i he
          split at hr
          · injection hr with hr; injection he with he; rw [he, hr]
          · cases hr
        · cases hr
      rw [← this]
      exact tree_iff.1 g2

variable [DecidableEq L]

omit [DecidableEq L] in
theorem newLatest_ok {c : Cfg σ L} {st0 start H done st pos kernel latest} {items : List (Item L)}
    (h : RunInv c st0 start H done st pos kernel latest)
    (hi : ∀ x ∈ items, ItemOk c.G c.startProd (H.world c.tip) x done.length) :
    RunInv c st0 start H done st pos kernel (newLatest c items latest) := by
  refine { h with latest := ?_ }
  intro x hx
  unfold newLatest at hx
  split at hx
  · cases hx
  · rename_i hall
    split at hx
    · exact h.latest x hx
    · rename_i y ys he
      injection hx with hx
      have : x ∈ expecting (.term acceptance) items := by rw [he, hx]; exact List.mem_cons_self
      have := mem_expecting.1 this
      exact ⟨by simpa using hall, done.length, Nat.le_refl _, hi x this.1, this.2⟩

omit [DecidableEq L] in
theorem atEnd_iff {tip : Tip σ L} {rats : List (Term × L)} (h : atEnd tip rats = true) :
    ∃ t l, rats = [(t, l)] ∧ tip.isEoi l = true := by
  unfold atEnd at h
  split at h
  · exact ⟨_, _, rfl, h⟩
  · cases h

theorem loop_sound {c : Cfg σ L} (hf : Filed c.G) (hnf : NoFinal c.G) (he : EoiOk c.tip) {st0 start} :
    ∀ f H done st pos kernel latest node, RunInv c st0 start H done st pos kernel latest →
      loop c f done st pos kernel latest = .ok node → Outcome c st0 start node := by
  intro f
  induction f with
  | zero => intro H done st pos kernel latest node _ hr; simp [loop] at hr
  | succ f ih =>
    intro H done st pos kernel latest node h hr
    simp only [loop] at hr
    split at hr
    · cases hr
    rename_i s hcl
    have hi := close_ok (h.ctx hf) h.kernel hcl
    dsimp only at hi
    unfold afterClose at hr
    split at hr
    · exact cannot_outcome hnf h hr
    split at hr
    · cases hr
    split at hr
    · cases hr
    · exact cannot_outcome hnf (newLatest_ok h hi) hr
    · rename_i kl _ _ rats pos' st' hnext
      have h' := newLatest_ok h hi
      unfold afterNext at hr
      split at hr
      · cases hr
      split at hr
      · cases hr
      · cases hr
      rename_i k ks hk
      split at hr
      · -- the end of the input
        rename_i hend
        obtain ⟨t, l, hrats, heoi⟩ := atEnd_iff hend
        have ht : t = endOfInput := he _ _ _ _ _ _ _ hnext (t, l) (by rw [hrats]; exact List.mem_cons_self) heoi
        subst hrats
        have hkk : k ∈ k :: ks := List.mem_cons_self
        obtain ⟨r, hr1, x, hx, ha, hkx⟩ := (mem_nextKernel hk).1 hkk
        rw [List.mem_singleton.1 hr1] at ha hkx
        dsimp only at ha hkx
        obtain ⟨g0, n, g1, g2⟩ := final_item hnf (hi x hx) (.inl ht) ha
        have hgoal : goalOf k = some n := by
          rw [hkx]; simp [goalOf, Item.advance, g1]
        have hn : n = node := by
          unfold finish at hr
          rw [List.mapM_cons, hgoal] at hr
          cases hm : ks.mapM goalOf with
          | none => rw [hm] at hr; simp at hr
          | some ys => rw [hm] at hr; simpa using hr
        subst hn
        have hle : (H.world c.tip).Le ((H.addRats [(t, l)]).world c.tip) :=
          hist_le (fun k r hr => getElem?_append_some hr) (fun k s hs => hs)
        refine ⟨H.addRats [(t, l)], done.length, ⟨h.real.1, ?_⟩, tree_iff.1 (g2.mono hle), ?_⟩
        · intro q r hq
          simp only [Hist.addRats] at hq ⊢
          by_cases hlt : q < H.rats.length
          · rw [List.getElem?_append_left hlt] at hq
            exact h.real.2 q r hq
          · have hq' := (List.getElem?_eq_some_iff.1 hq).1
            have hql : q = done.length := by simp [h.lrats] at hq' hlt; omega
            subst hql
            rw [← h.lrats, List.getElem?_concat_length] at hq
            injection hq with hq; subst hq
            exact ⟨(st, pos), (st', pos'), _, _, h.cur, hnext, .inr h.lsts⟩
        · intro _
          refine ⟨l, heoi, ?_⟩
          simp only [Hist.addRats]
          rw [← h.lrats, List.getElem?_concat_length, ht]
      · have hle : (H.world c.tip).Le ((H.snoc rats (st', pos')).world c.tip) :=
          hist_le (fun k r hr => getElem?_append_some hr) (fun k s hs => getElem?_append_some hs)
        refine ih (H.snoc rats (st', pos')) _ _ _ _ _ _ ⟨?_, ?_, ⟨?_, ?_⟩, ?_, ?_, ?_, ?_⟩ hr
        · simp [Hist.snoc, h.lsts]
        · simp [Hist.snoc, h.lrats]
        · exact getElem?_append_some h.real.1
        · intro q r hq
          simp only [Hist.snoc] at hq ⊢
          by_cases hlt : q < H.rats.length
          · rw [List.getElem?_append_left hlt] at hq
            obtain ⟨s1, s2, e, kk, a1, a2, a3⟩ := h.real.2 q r hq
            refine ⟨s1, s2, e, kk, getElem?_append_some a1, a2, .inl ?_⟩
            rcases a3 with a3 | a3
            · exact getElem?_append_some a3
            · exfalso; rw [h.lsts] at a3; rw [h.lrats] at hlt; omega
          · have hq' := (List.getElem?_eq_some_iff.1 hq).1
            have hql : q = done.length := by simp [h.lrats] at hq' hlt; omega
            subst hql
            rw [← h.lrats, List.getElem?_concat_length] at hq
            injection hq with hq; subst hq
            refine ⟨(st, pos), (st', pos'), _, _, getElem?_append_some h.cur, hnext, .inl ?_⟩
            rw [← h.lsts, List.getElem?_concat_length]
        · simp only [Hist.snoc, List.length_append, List.length_singleton]
          rw [← h.lsts, List.getElem?_concat_length]
        · intro b e hb x hx
          by_cases hlt : b < done.length
          · rw [List.getElem?_append_left hlt] at hb
            exact (h.dones b e hb x hx).mono hle
          · have hb' := (List.getElem?_eq_some_iff.1 hb).1
            have hbl : b = done.length := by simp at hb'; omega
            subst hbl
            rw [List.getElem?_concat_length] at hb
            injection hb with hb; subst hb
            exact (hi x hx).mono hle
        · intro y hy
          obtain ⟨r, hr1, x, hx, ha, rfl⟩ := (mem_nextKernel hk).1 hy
          simp only [List.length_append, List.length_singleton]
          refine ItemOk.advance_term ((hi x hx).mono hle) ha ⟨rats, ?_, hr1⟩
          simp only [Hist.snoc]
          rw [← h.lrats, List.getElem?_concat_length]
        · intro x hx
          obtain ⟨a0, k', a1, a2, a3⟩ := h'.latest x hx
          exact ⟨a0, k', by simp; omega, a2.mono hle, a3⟩

theorem run_sound {c : Cfg σ L} (hf : Filed c.G) (hnf : NoFinal c.G) (he : EoiOk c.tip) {fuel st0 start node}
    (hr : run c fuel st0 start = .ok node) : Outcome c st0 start node := by
  refine loop_sound hf hnf he fuel ⟨[(st0, start)], []⟩ _ _ _ _ _ _ ⟨rfl, rfl, ⟨rfl, by simp⟩, rfl, by simp, ?_, by simp⟩ hr
  intro x hx
  rw [List.mem_singleton.1 hx]
  exact ⟨[], _, rfl, .inl ⟨rfl, rfl, .nil⟩⟩

end Verif.Earley
