import Verif.Earley.FiniteLemmas
import Verif.Earley.RunSound
/-! # The parser halts on acyclic grammars -/
namespace Verif.Earley
variable {σ L : Type}

/-- What a suspended task can still cost, when no loop goes round more than `B` times. -/
def weight (B : Nat) : Task L → Nat
  | .add _ => 1
  | .nulls _ i => 2 * (B - i) + 1
  | .derive _ => 2 * B + 2
  | .predict ps => 2 * ps.length + 1
  | .complete _ _ _ i => 2 * (B - i) + 1

/-- The cost of a stack of tasks. -/
def weights (B : Nat) : List (Task L) → Nat
  | [] => 0
  | t :: ts => weight B t + weights B ts

/-- Number of pending `derive` tasks. -/
def derives : List (Task L) → Nat
  | [] => 0
  | .derive _ :: ts => derives ts + 1
  | _ :: ts => derives ts

variable [DecidableEq L]

/-- All loops are bounded by `B`. -/
structure Bounded (c : Ctx σ L) (V : List (Item L)) (B : Nat) : Prop where
  univ : V.length ≤ B
  done : ∀ (b : Nat) e, c.done[b]? = some e → e.items.length ≤ B
  prods : ∀ n ps, c.G n = some ps → ps.length ≤ B

/-- The invariant for termination. -/
structure TInv (V : List (Item L)) (ts : List (Task L)) (s : CSt L) : Prop where
  nodup : s.items.Nodup
  sub : ∀ x ∈ s.items, x ∈ V
  nulls : s.nullables.length + derives ts ≤ s.items.length

/-- The measure. -/
def meas (V : List (Item L)) (B : Nat) (ts : List (Task L)) (s : CSt L) : Nat :=
  (V.length - s.items.length) * (4 * B + 3) + weights B ts

omit [DecidableEq L] in
theorem expecting_le {c : Ctx σ L} {V B} (hb : Bounded c V B) {s : CSt L} (hs : s.items.length ≤ B) (r back) :
    (expecting r (c.itemsOf s back)).length ≤ B := by
  refine Nat.le_trans (List.length_filter_le _ _) ?_
  unfold Ctx.itemsOf
  split
  · exact hs
  · cases hd : c.done[back]? with
    | none => simp
    | some e => exact hb.done _ _ hd

theorem step_meas {start} {c : Ctx σ L} {W : World L} {V B} (hb : Bounded c V B)
    (hV : ∀ x, ItemOk c.G start W x c.done.length → x ∈ V) {t rest s ts' s'}
    (hi : Inv start c W (t :: rest) s) (h : TInv V (t :: rest) s) (hs : step c t rest s = .ok (ts', s')) :
    TInv V ts' s' ∧ meas V B ts' s' < meas V B (t :: rest) s := by
  have hlen := nodup_length_le h.nodup h.sub
  have hnd := h.nulls
  have hu := hb.univ
  cases t with
  | add x =>
    simp only [step, stepAdd] at hs
    split at hs <;> injection hs with hs <;> injection hs with e1 e2 <;> subst e1 e2
    · refine ⟨⟨h.nodup, h.sub, by simpa [derives] using hnd⟩, ?_⟩
      simp only [meas, weights, weight]; omega
    · rename_i hx
      have hnd' : (s.items ++ [x]).Nodup := by
        rw [List.nodup_append]
        refine ⟨h.nodup, by simp, ?_⟩
        intro a ha b hb e
        rw [List.mem_singleton.1 hb] at e; exact hx (e ▸ ha)
      have hsub' : ∀ y ∈ s.items ++ [x], y ∈ V := by
        intro y hy
        rcases List.mem_append.1 hy with hy | hy
        · exact h.sub y hy
        · rw [List.mem_singleton.1 hy]; exact hV x (hi.tasks _ List.mem_cons_self)
      have hlen' := nodup_length_le hnd' hsub'
      simp only [List.length_append, List.length_singleton] at hlen'
      refine ⟨⟨hnd', hsub', ?_⟩, ?_⟩
      · simp only [derives, List.length_append, List.length_singleton] at hnd ⊢; omega
      · simp only [meas, weights, weight, List.length_append, List.length_singleton]
        have : V.length - s.items.length = (V.length - (s.items.length + 1)) + 1 := by omega
        rw [this, Nat.add_mul]
        omega
  | nulls x i =>
    simp only [step, stepNulls] at hs
    simp only [derives] at hnd
    split at hs
    · injection hs with hs; injection hs with e1 e2; subst e1 e2
      refine ⟨⟨h.nodup, h.sub, hnd⟩, ?_⟩
      simp only [meas, weights, weight]; omega
    · rename_i n node hn
      have hlt : i < s.nullables.length := (List.getElem?_eq_some_iff.1 hn).1
      split at hs <;> injection hs with hs <;> injection hs with e1 e2 <;> subst e1 e2
      · refine ⟨⟨h.nodup, h.sub, by simpa [derives] using hnd⟩, ?_⟩
        simp only [meas, weights, weight]; omega
      · refine ⟨⟨h.nodup, h.sub, by simpa [derives] using hnd⟩, ?_⟩
        simp only [meas, weights, weight]; omega
  | derive x =>
    simp only [derives] at hnd
    simp only [step, stepDerive] at hs
    split at hs
    · unfold stepReduce at hs
      split at hs
      · cases hs
      · dsimp only at hs
        split at hs
        · cases hs
        · injection hs with hs; injection hs with e1 e2; subst e1 e2
          split
          · refine ⟨⟨h.nodup, h.sub, ?_⟩, ?_⟩
            · simp only [derives, List.length_append, List.length_singleton]; omega
            · simp only [meas, weights, weight]; omega
          · refine ⟨⟨h.nodup, h.sub, ?_⟩, ?_⟩
            · simp only [derives]; omega
            · simp only [meas, weights, weight]; omega
    · split at hs
      · cases hs
      · rename_i ps hps
        have := hb.prods _ _ hps
        injection hs with hs; injection hs with e1 e2; subst e1 e2
        refine ⟨⟨h.nodup, h.sub, by simp only [derives]; omega⟩, ?_⟩
        simp only [meas, weights, weight]; omega
    · injection hs with hs; injection hs with e1 e2; subst e1 e2
      refine ⟨⟨h.nodup, h.sub, by omega⟩, ?_⟩
      simp only [meas, weights, weight]; omega
    · split at hs
      · cases hs
      · injection hs with hs; injection hs with e1 e2; subst e1 e2
        refine ⟨⟨h.nodup, h.sub, by simp only [derives]; omega⟩, ?_⟩
        simp only [meas, weights, weight]; omega
      · injection hs with hs; injection hs with e1 e2; subst e1 e2
        refine ⟨⟨h.nodup, h.sub, by omega⟩, ?_⟩
        simp only [meas, weights, weight]; omega
  | predict ps =>
    simp only [derives] at hnd
    simp only [step, stepPredict] at hs
    split at hs <;> injection hs with hs <;> injection hs with e1 e2 <;> subst e1 e2
    · refine ⟨⟨h.nodup, h.sub, hnd⟩, ?_⟩
      simp only [meas, weights, weight]; omega
    · refine ⟨⟨h.nodup, h.sub, by simpa [derives] using hnd⟩, ?_⟩
      simp only [meas, weights, weight, List.length_cons]; omega
  | complete back n node i =>
    simp only [derives] at hnd
    simp only [step, stepComplete] at hs
    have hle := expecting_le hb (s := s) (by omega) (.nt n) back
    split at hs
    · injection hs with hs; injection hs with e1 e2; subst e1 e2
      refine ⟨⟨h.nodup, h.sub, hnd⟩, ?_⟩
      simp only [meas, weights, weight]; omega
    · rename_i b hbb
      have hlt := (List.getElem?_eq_some_iff.1 hbb).1
      injection hs with hs; injection hs with e1 e2; subst e1 e2
      refine ⟨⟨h.nodup, h.sub, by simpa [derives] using hnd⟩, ?_⟩
      simp only [meas, weights, weight]; omega

theorem step_nofuel {c : Ctx σ L} (hq : ∀ st prev pos k, c.tip.check st prev pos k ≠ .error .fuel) {t rest s} :
    step c t rest s ≠ .error .fuel := by
  intro hs
  cases t with
  | add x => simp [step] at hs
  | nulls x i => simp [step] at hs
  | predict ps => simp [step] at hs
  | complete b n node i => simp [step] at hs
  | derive x =>
    simp only [step, stepDerive] at hs
    split at hs
    · unfold stepReduce at hs
      split at hs
      · cases hs
      · dsimp only at hs; split at hs <;> cases hs
    · split at hs <;> cases hs
    · cases hs
    · split at hs
      · rename_i e he
        injection hs with hs; subst hs
        exact hq _ _ _ _ he
      · cases hs
      · cases hs

theorem closeLoop_halts {start} {c : Ctx σ L} {W : World L} (hc : CtxOk start c W) {V B} (hb : Bounded c V B)
    (hq : ∀ st prev pos k, c.tip.check st prev pos k ≠ .error .fuel)
    (hV : ∀ x, ItemOk c.G start W x c.done.length → x ∈ V) : ∀ f ts s, Inv start c W ts s → TInv V ts s →
      meas V B ts s ≤ f → closeLoop c f ts s ≠ .error .fuel := by
  intro f
  induction f with
  | zero =>
    intro ts s hi h hm
    cases ts with
    | nil => simp [closeLoop]
    | cons t rest => exfalso; cases t <;> simp [meas, weights, weight] at hm
  | succ f ih =>
    intro ts s hi h hm
    cases ts with
    | nil => simp [closeLoop]
    | cons t rest =>
      simp only [closeLoop]
      split
      · rename_i e he
        intro hh; injection hh with hh; subst hh
        exact step_nofuel hq he
      · rename_i ts' s' hst
        obtain ⟨h1, h2⟩ := step_meas hb hV hi h hst
        exact ih _ _ (step_inv hc hi hst) h1 (by omega)

theorem closeLoop_mono {c : Ctx σ L} : ∀ f ts s r, closeLoop c f ts s = r → r ≠ .error .fuel →
    ∀ g, f ≤ g → closeLoop c g ts s = r := by
  intro f
  induction f with
  | zero =>
    intro ts s r h hr g _
    cases ts with
    | nil => cases g <;> simpa [closeLoop] using h
    | cons => exact absurd h.symm hr
  | succ f ih =>
    intro ts s r h hr g hg
    cases ts with
    | nil => cases g <;> simpa [closeLoop] using h
    | cons t rest =>
      cases g with
      | zero => omega
      | succ g =>
        simp only [closeLoop] at h ⊢
        split at h
        · exact h
        · exact ih _ _ _ h hr g (by omega)

/-- With enough fuel, closing gives one and the same answer. -/
theorem close_halts {c : Cfg σ L} {st pos done} {W : World L}
    (hc : CtxOk c.startProd ⟨c.G, c.tip, st, done, pos⟩ W)
    (hq : ∀ st prev pos k, c.tip.check st prev pos k ≠ .error .fuel)
    (hw : FewWorld W) (hfin : FiniteGrammar c.G) (ha : Acyclic c.G) {kernel}
    (hk : ∀ x ∈ kernel, ItemOk c.G c.startProd W x done.length) :
    ∃ F r, r ≠ .error .fuel ∧ ∀ f, F ≤ f → close ⟨c.G, c.tip, st, done, pos⟩ f kernel = r := by
  obtain ⟨V, hV⟩ := items_few hw hfin ha c.startProd done.length (G := c.G)
  have hps : ∃ P, ∀ n ps, c.G n = some ps → ps.length ≤ P := by
    obtain ⟨names, hn⟩ := hfin
    refine ⟨(names.map (fun n => ((c.G n).getD []).length)).foldl max 0, ?_⟩
    intro n ps hps
    refine (foldl_max_spec _ 0).1.2 _ (List.mem_map.2 ⟨n, hn n (by simp [hps]), by simp [hps]⟩)
  obtain ⟨P, hP⟩ := hps
  have hb : Bounded ⟨c.G, c.tip, st, done, pos⟩ V
      (V.length + (done.map (fun e => e.items.length)).foldl max 0 + P) := by
    refine ⟨by omega, ?_, ?_⟩
    · intro b e hbe
      have := (foldl_max_spec (done.map (fun e => e.items.length)) 0).1.2 e.items.length
        (List.mem_map.2 ⟨e, List.mem_of_getElem? hbe, rfl⟩)
      omega
    · intro n ps h
      have := hP n ps h
      omega
  have hi : Inv c.startProd ⟨c.G, c.tip, st, done, pos⟩ W (kernel.map .add) ⟨[], []⟩ := by
    refine ⟨by simp, by simp, ?_⟩
    intro t ht
    obtain ⟨x, hx, rfl⟩ := List.mem_map.1 ht
    exact hk x hx
  have hder : ∀ ks : List (Item L), derives (ks.map .add) = 0 := by
    intro ks
    induction ks with
    | nil => rfl
    | cons x xs ih => simp only [List.map_cons, derives]; exact ih
  have ht : TInv V (kernel.map .add) ⟨[], []⟩ := ⟨by simp, by simp, by simp [hder]⟩
  have hh := closeLoop_halts hc hb hq hV _ _ _ hi ht (Nat.le_refl _)
  exact ⟨_, _, hh, fun f hf => closeLoop_mono _ _ _ _ rfl hh f hf⟩

/-- A run halts. -/
theorem loop_halts {c : Cfg σ L} {W : World L} (hf : Filed c.G)
    (hq : ∀ st prev pos k, c.tip.check st prev pos k ≠ .error .fuel)
    (hq' : ∀ st pos e kl, c.tip.next st pos e kl ≠ .error .fuel)
    (hw : FewWorld W) (hfin : FiniteGrammar c.G) (hac : Acyclic c.G)
    (I : Nat → σ → Nat → Prop)
    (hI : ∀ k st pos, I k st pos → W.at k pos ∧
      (∀ prev con, c.tip.check st prev pos con = .ok true → W.holds k prev con) ∧
      W.first = c.tip.leafStart ∧ W.last = c.tip.leafEnd) (μ : σ → Nat → Nat)
    (hInext : ∀ k st pos e kl rats pos' st', I k st pos →
      c.tip.next st pos e kl = .ok (some (rats, pos'), st') → I (k + 1) st' pos' ∧
      (∀ r ∈ rats, W.scan k r.1 r.2) ∧ (atEnd c.tip rats = false → μ st' pos' < μ st pos)) :
    ∀ m done st pos kernel latest, μ st pos ≤ m → I done.length st pos →
      (∀ (b : Nat) e, done[b]? = some e → ∀ x ∈ e.items, ItemOk c.G c.startProd W x b) →
      (∀ x ∈ kernel, ItemOk c.G c.startProd W x done.length) →
      ∃ F r, r ≠ .error .fuel ∧ ∀ f, F ≤ f → loop c f done st pos kernel latest = r := by
  intro m
  induction m using Nat.strongRecOn with
  | _ m ih =>
    intro done st pos kernel latest hm hi hd hk
    obtain ⟨hat, hhold, hfi, hla⟩ := hI _ _ _ hi
    have hc : CtxOk c.startProd ⟨c.G, c.tip, st, done, pos⟩ W := ⟨hf, hd, hat, hhold, hfi, hla⟩
    obtain ⟨F, r, hr, hF⟩ := close_halts hc hq hw hfin hac hk
    cases r with
    | error e =>
      refine ⟨F + 1, .error e, by intro h; injection h with h; subst h; exact hr rfl, ?_⟩
      intro f hf'
      obtain ⟨f, rfl⟩ : ∃ g, f = g + 1 := ⟨f - 1, by omega⟩
      simp only [loop, hF f (by omega)]
    | ok s =>
      have hit := close_ok hc hk (hF F (Nat.le_refl _))
      -- what happens next depends on the recursive call only through `afterNext`
      suffices h : ∃ F' r, r ≠ Except.error Err.fuel ∧ ∀ f, F' ≤ f →
          afterClose c (loop c f) done st pos s.items latest = r by
        obtain ⟨F', r, hr, hF'⟩ := h
        refine ⟨max F F' + 1, r, hr, ?_⟩
        intro f hf'
        obtain ⟨f, rfl⟩ : ∃ g, f = g + 1 := ⟨f - 1, by omega⟩
        simp only [loop, hF f (by omega)]
        exact hF' f (by omega)
      have hcc : ∀ l, cannotContinue c l ≠ .error .fuel := by
        intro l
        unfold cannotContinue
        split
        · simp
        · split
          · simp
          · split
            · split <;> simp
            · simp
      unfold afterClose
      split
      · exact ⟨0, _, hcc _, fun _ _ => rfl⟩
      split
      · exact ⟨0, _, by simp, fun _ _ => rfl⟩
      split
      · rename_i e he
        exact ⟨0, _, by intro h; injection h with h; subst h; exact hq' _ _ _ _ he, fun _ _ => rfl⟩
      · exact ⟨0, _, hcc _, fun _ _ => rfl⟩
      rename_i rats pos' st' hnext
      obtain ⟨i1, i2, i3⟩ := hInext _ _ _ _ _ _ _ _ hi hnext
      unfold afterNext
      split
      · exact ⟨0, _, by simp, fun _ _ => rfl⟩
      split
      · exact ⟨0, _, by simp, fun _ _ => rfl⟩
      · exact ⟨0, _, by simp, fun _ _ => rfl⟩
      rename_i k ks hker
      split
      · refine ⟨0, _, ?_, fun _ _ => rfl⟩
        unfold finish; split <;> simp
      rename_i hend
      have hlt := i3 (by simpa using hend)
      refine ih (μ st' pos') (by omega) _ _ _ _ _ (Nat.le_refl _) (by simpa using i1) ?_ ?_
      · intro b e hb x hx
        by_cases hlt : b < done.length
        · rw [List.getElem?_append_left hlt] at hb
          exact hd b e hb x hx
        · have hb' := (List.getElem?_eq_some_iff.1 hb).1
          have hbl : b = done.length := by simp at hb'; omega
          subst hbl
          rw [List.getElem?_concat_length] at hb
          injection hb with hb; subst hb
          exact hit x hx
      · intro y hy
        obtain ⟨r, hr1, x, hx, ha, rfl⟩ := (mem_nextKernel hker).1 hy
        simp only [List.length_append, List.length_singleton]
        exact ItemOk.advance_term (hit x hx) ha (i2 r hr1)

end Verif.Earley
