import Verif.Earley.RunSound
/-! # A set that has been closed is closed -/
namespace Verif.Earley
variable {σ L : Type}

/-- The node that reducing `x` makes. -/
def nodeOf (c : Ctx σ L) (x : Item L) : Node L := mkNode c.tip c.pos x.prod x.kids

/-- A set `items` (with index `c.done.length`) that needs nothing more. -/
structure IsClosed (c : Ctx σ L) (s : CSt L) : Prop where
  pred : ∀ x ∈ s.items, ∀ n, x.after = some (.nt n) → ∃ ps, c.G n = some ps ∧
    ∀ p ∈ ps, (⟨some c.done.length, p, []⟩ : Item L) ∈ s.items
  comp : ∀ x ∈ s.items, x.after = none → ∃ back, x.origin = some back ∧
    ∀ b ∈ c.itemsOf s back, b.after = some (.nt x.prod.lhs) → b.advance (some (nodeOf c x)) ∈ s.items
  con : ∀ x ∈ s.items, ∀ k, x.after = some (.con k) → c.tip.check c.st x.transit c.pos k = .ok false ∨
    (c.tip.check c.st x.transit c.pos k = .ok true ∧ x.advance none ∈ s.items)

/-- `y` is there or about to be added. -/
def Pend (ts : List (Task L)) (s : CSt L) (y : Item L) : Prop := y ∈ s.items ∨ .add y ∈ ts

/-- What closing owes an item whose `get_derived_items` has been started. -/
def Derived (c : Ctx σ L) (ts : List (Task L)) (s : CSt L) (x : Item L) : Prop :=
  match x.after with
  | none => ∃ back, x.origin = some back ∧
      if back = c.done.length then (x.prod.lhs, nodeOf c x) ∈ s.nullables
      else ∀ (i : Nat) b, (expecting (.nt x.prod.lhs) (c.itemsOf s back))[i]? = some b →
        Pend ts s (b.advance (some (nodeOf c x))) ∨
        ∃ m, m ≤ i ∧ .complete back x.prod.lhs (nodeOf c x) m ∈ ts
  | some (.nt n) => ∃ ps, c.G n = some ps ∧ ∀ p ∈ ps,
      Pend ts s ⟨some c.done.length, p, []⟩ ∨ ∃ qs, .predict qs ∈ ts ∧ p ∈ qs
  | some (.term _) => True
  | some (.con k) => c.tip.check c.st x.transit c.pos k = .ok false ∨
      (c.tip.check c.st x.transit c.pos k = .ok true ∧ Pend ts s (x.advance none))

/-- The invariant. -/
structure CInv (c : Ctx σ L) (K : List (Item L)) (ts : List (Task L)) (s : CSt L) : Prop where
  kernel : ∀ k ∈ K, Pend ts s k
  items : ∀ x ∈ s.items, .derive x ∈ ts ∨ Derived c ts s x
  nul : ∀ (q : Nat) n node, s.nullables[q]? = some (n, node) → ∀ (i : Nat) b,
    (expecting (.nt n) s.items)[i]? = some b →
    Pend ts s (b.advance (some node)) ∨ (∃ m, m ≤ q ∧ .nulls b m ∈ ts) ∨
    ∃ m, m ≤ i ∧ .complete c.done.length n node m ∈ ts

theorem CInv.closed {c : Ctx σ L} {K s} (h : CInv c K [] s) : (∀ k ∈ K, k ∈ s.items) ∧ IsClosed c s := by
  have hp : ∀ y, Pend ([] : List (Task L)) s y → y ∈ s.items := by
    intro y hy; rcases hy with hy | hy
    · exact hy
    · cases hy
  have hd : ∀ x ∈ s.items, Derived c [] s x := by
    intro x hx; rcases h.items x hx with g | g
    · cases g
    · exact g
  refine ⟨fun k hk => hp k (h.kernel k hk), ?_, ?_, ?_⟩
  · intro x hx n ha
    have := hd x hx
    rw [Derived, ha] at this
    obtain ⟨ps, h1, h2⟩ := this
    refine ⟨ps, h1, fun p hpm => ?_⟩
    rcases h2 p hpm with g | ⟨qs, g, _⟩
    · exact hp _ g
    · cases g
  · intro x hx ha
    have := hd x hx
    rw [Derived, ha] at this
    obtain ⟨back, h1, h2⟩ := this
    refine ⟨back, h1, fun b hb hba => ?_⟩
    have hbe : b ∈ expecting (.nt x.prod.lhs) (c.itemsOf s back) := mem_expecting.2 ⟨hb, hba⟩
    obtain ⟨i, hi⟩ := List.getElem?_of_mem hbe
    split at h2
    · rename_i heq
      obtain ⟨q, hq⟩ := List.getElem?_of_mem h2
      rw [Ctx.itemsOf, if_pos heq] at hi
      rcases h.nul q _ _ hq i b hi with g | ⟨m, _, g⟩ | ⟨m, _, g⟩
      · exact hp _ g
      · cases g
      · cases g
    · rcases h2 i b hi with g | ⟨m, _, g⟩
      · exact hp _ g
      · cases g
  · intro x hx k ha
    have := hd x hx
    rw [Derived, ha] at this
    rcases this with g | ⟨g1, g2⟩
    · exact .inl g
    · exact .inr ⟨g1, hp _ g2⟩

theorem expecting_append (r : Rthing) (a b : List (Item L)) :
    expecting r (a ++ b) = expecting r a ++ expecting r b := by simp [expecting]

/-- An obligation carried over to later tasks and a later state (same finished sets). -/
theorem Derived.mono {c : Ctx σ L} {ts ts' : List (Task L)} {s s' : CSt L} {x : Item L}
    (hP : ∀ y, Pend ts s y → Pend ts' s' y)
    (hn : ∀ q ∈ s.nullables, q ∈ s'.nullables)
    (hpred : ∀ qs, .predict qs ∈ ts → ∀ p ∈ qs, Pend ts' s' ⟨some c.done.length, p, []⟩ ∨
      ∃ qs', .predict qs' ∈ ts' ∧ p ∈ qs')
    (hcomp : ∀ back n node m, back ≠ c.done.length → .complete back n node m ∈ ts → ∀ (i : Nat) b, m ≤ i →
      (expecting (.nt n) (c.itemsOf s back))[i]? = some b →
      Pend ts' s' (b.advance (some node)) ∨ ∃ m', m' ≤ i ∧ .complete back n node m' ∈ ts')
    (h : Derived c ts s x) : Derived c ts' s' x := by
  unfold Derived at *
  split
  · rename_i ha
    rw [ha] at h
    obtain ⟨back, h1, h2⟩ := h
    refine ⟨back, h1, ?_⟩
    split at h2
    · rename_i hb; rw [if_pos hb]; exact hn _ h2
    · rename_i hb; rw [if_neg hb]
      intro i b hi
      have hit : c.itemsOf s' back = c.itemsOf s back := by
        rw [Ctx.itemsOf, if_neg hb, Ctx.itemsOf, if_neg hb]
      rw [hit] at hi
      rcases h2 i b hi with g | ⟨m, g1, g2⟩
      · exact .inl (hP _ g)
      · exact hcomp _ _ _ _ hb g2 i b g1 hi
  · rename_i n ha
    rw [ha] at h
    obtain ⟨ps, h1, h2⟩ := h
    refine ⟨ps, h1, fun p hp => ?_⟩
    rcases h2 p hp with g | ⟨qs, g1, g2⟩
    · exact .inl (hP _ g)
    · exact hpred _ g1 p g2
  · trivial
  · rename_i k ha
    rw [ha] at h
    rcases h with g | ⟨g1, g2⟩
    · exact .inl g
    · exact .inr ⟨g1, hP _ g2⟩

variable [DecidableEq L]

theorem step_cinv {c : Ctx σ L} {K t rest s ts' s'} (h : CInv c K (t :: rest) s)
    (ht : ∀ x, t = .derive x → x ∈ s.items)
    (hs : step c t rest s = .ok (ts', s')) : CInv c K ts' s' := by
  cases t with
  | add x =>
    simp only [step, stepAdd] at hs
    split at hs
    · -- already there
      rename_i hx
      injection hs with hs; injection hs with e1 e2; subst e1 e2
      have hP : ∀ y, Pend (.add x :: rest) s y → Pend rest s y := by
        rintro y (hy | hy)
        · exact .inl hy
        · rcases List.mem_cons.1 hy with hy | hy
          · injection hy with hy; rw [hy]; exact .inl hx
          · exact .inr hy
      refine ⟨fun k hk => hP k (h.kernel k hk), ?_, ?_⟩
      · intro y hy
        rcases h.items y hy with g | g
        · rcases List.mem_cons.1 g with g | g
          · cases g
          · exact .inl g
        · refine .inr (g.mono hP (fun q hq => hq) ?_ ?_)
          · intro qs hqs p hp
            rcases List.mem_cons.1 hqs with hqs | hqs
            · cases hqs
            · exact .inr ⟨qs, hqs, hp⟩
          · intro back n node m _ hm i b hmi hb
            rcases List.mem_cons.1 hm with hm | hm
            · cases hm
            · exact .inr ⟨m, hmi, hm⟩
      · intro q n node hq i b hb
        rcases h.nul q n node hq i b hb with g | ⟨m, g1, g2⟩ | ⟨m, g1, g2⟩
        · exact .inl (hP _ g)
        · rcases List.mem_cons.1 g2 with g2 | g2
          · cases g2
          · exact .inr (.inl ⟨m, g1, g2⟩)
        · rcases List.mem_cons.1 g2 with g2 | g2
          · cases g2
          · exact .inr (.inr ⟨m, g1, g2⟩)
    · -- new
      rename_i hx
      injection hs with hs; injection hs with e1 e2; subst e1 e2
      have hP : ∀ y, Pend (.add x :: rest) s y →
          Pend (.nulls x 0 :: .derive x :: rest) { s with items := s.items ++ [x] } y := by
        rintro y (hy | hy)
        · exact .inl (List.mem_append_left _ hy)
        · rcases List.mem_cons.1 hy with hy | hy
          · injection hy with hy; rw [hy]; exact .inl (List.mem_append_right _ List.mem_cons_self)
          · exact .inr (List.mem_cons_of_mem _ (List.mem_cons_of_mem _ hy))
      have hlater : ∀ u, u ∈ (Task.add x :: rest) → u ≠ .add x → u ∈ (Task.nulls x 0 :: .derive x :: rest) := by
        intro u hu hne
        rcases List.mem_cons.1 hu with hu | hu
        · exact absurd hu hne
        · exact List.mem_cons_of_mem _ (List.mem_cons_of_mem _ hu)
      refine ⟨fun k hk => hP k (h.kernel k hk), ?_, ?_⟩
      · intro y hy
        rcases List.mem_append.1 hy with hy | hy
        · rcases h.items y hy with g | g
          · exact .inl (hlater _ g (by simp))
          · refine .inr (g.mono hP (fun q hq => hq) ?_ ?_)
            · intro qs hqs p hp
              exact .inr ⟨qs, hlater _ hqs (by simp), hp⟩
            · intro back n node m _ hm i b hmi hb
              exact .inr ⟨m, hmi, hlater _ hm (by simp)⟩
        · rw [List.mem_singleton.1 hy]
          exact .inl (List.mem_cons_of_mem _ List.mem_cons_self)
      · intro q n node hq i b hb
        dsimp only at hq hb
        rw [expecting_append] at hb
        by_cases hi : i < (expecting (.nt n) s.items).length
        · rw [List.getElem?_append_left hi] at hb
          rcases h.nul q n node hq i b hb with g | ⟨m, g1, g2⟩ | ⟨m, g1, g2⟩
          · exact .inl (hP _ g)
          · exact .inr (.inl ⟨m, g1, hlater _ g2 (by simp)⟩)
          · exact .inr (.inr ⟨m, g1, hlater _ g2 (by simp)⟩)
        · rw [List.getElem?_append_right (by omega)] at hb
          have hbm := (mem_expecting.1 (List.mem_of_getElem? hb)).1
          rw [List.mem_singleton.1 hbm]
          exact .inr (.inl ⟨0, Nat.zero_le _, List.mem_cons_self⟩)
  | nulls x i0 =>
    simp only [step, stepNulls] at hs
    -- the state does not change
    have key : ∀ (ts' : List (Task L)), (∀ u ∈ rest, u ∈ ts') →
        (∀ q n node, i0 ≤ q → s.nullables[q]? = some (n, node) → x.after = some (.nt n) →
          Pend ts' s (x.advance (some node)) ∨ ∃ m, m ≤ q ∧ .nulls x m ∈ ts') → CInv c K ts' s := by
      intro ts' hr hq
      have hlater : ∀ u, u ∈ (Task.nulls x i0 :: rest) → (∀ j, u ≠ .nulls x j) → u ∈ ts' := by
        intro u hu hne
        rcases List.mem_cons.1 hu with hu | hu
        · exact absurd hu (hne _)
        · exact hr _ hu
      have hP : ∀ y, Pend (.nulls x i0 :: rest) s y → Pend ts' s y := by
        rintro y (hy | hy)
        · exact .inl hy
        · exact .inr (hlater _ hy (by simp))
      refine ⟨fun k hk => hP k (h.kernel k hk), ?_, ?_⟩
      · intro y hy
        rcases h.items y hy with g | g
        · exact .inl (hlater _ g (by simp))
        · refine .inr (g.mono hP (fun q hq => hq) ?_ ?_)
          · intro qs hqs p hp
            exact .inr ⟨qs, hlater _ hqs (by simp), hp⟩
          · intro back n node m _ hm i b hmi hb
            exact .inr ⟨m, hmi, hlater _ hm (by simp)⟩
      · intro q n node hqq i b hb
        rcases h.nul q n node hqq i b hb with g | ⟨m, g1, g2⟩ | ⟨m, g1, g2⟩
        · exact .inl (hP _ g)
        · rcases List.mem_cons.1 g2 with g2 | g2
          · injection g2 with e1 e2; subst e1 e2
            rcases hq q n node g1 hqq (mem_expecting.1 (List.mem_of_getElem? hb)).2 with g | g
            · exact .inl g
            · exact .inr (.inl g)
          · exact .inr (.inl ⟨m, g1, hr _ g2⟩)
        · exact .inr (.inr ⟨m, g1, hlater _ g2 (by simp)⟩)
    split at hs
    · rename_i hnone
      injection hs with hs; injection hs with e1 e2; subst e1 e2
      refine key rest (fun u hu => hu) ?_
      intro q n node hle hq
      rw [List.getElem?_eq_none_iff] at hnone
      have := (List.getElem?_eq_some_iff.1 hq).1
      omega
    · rename_i n node hsome
      split at hs
      · rename_i ha
        injection hs with hs; injection hs with e1 e2; subst e1 e2
        refine key _ (fun u hu => List.mem_cons_of_mem _ (List.mem_cons_of_mem _ hu)) ?_
        intro q n' node' hle hq ha'
        by_cases he : q = i0
        · subst he
          rw [hsome] at hq; injection hq with hq; injection hq with e1 e2; subst e1 e2
          exact .inl (.inr List.mem_cons_self)
        · exact .inr ⟨i0 + 1, by omega, List.mem_cons_of_mem _ List.mem_cons_self⟩
      · rename_i ha
        injection hs with hs; injection hs with e1 e2; subst e1 e2
        refine key _ (fun u hu => List.mem_cons_of_mem _ hu) ?_
        intro q n' node' hle hq ha'
        by_cases he : q = i0
        · subst he
          rw [hsome] at hq; injection hq with hq; injection hq with e1 e2; subst e1 e2
          exact absurd ha' ha
        · exact .inr ⟨i0 + 1, by omega, List.mem_cons_self⟩
  | derive x =>
    have hx := ht x rfl
    -- the items do not change, nullables may get one more entry
    have key : ∀ (ts' : List (Task L)) (add : List (String × Node L)), (∀ u ∈ rest, u ∈ ts') →
        (∀ n node, (n, node) ∈ add → .complete c.done.length n node 0 ∈ ts') →
        Derived c ts' { s with nullables := s.nullables ++ add } x →
        CInv c K ts' { s with nullables := s.nullables ++ add } := by
      intro ts' add hr hadd hdx
      have hlater : ∀ u, u ∈ (Task.derive x :: rest) → u ≠ .derive x → u ∈ ts' := by
        intro u hu hne
        rcases List.mem_cons.1 hu with hu | hu
        · exact absurd hu hne
        · exact hr _ hu
      have hP : ∀ y, Pend (.derive x :: rest) s y → Pend ts' { s with nullables := s.nullables ++ add } y := by
        rintro y (hy | hy)
        · exact .inl hy
        · exact .inr (hlater _ hy (by simp))
      refine ⟨fun k hk => hP k (h.kernel k hk), ?_, ?_⟩
      · intro y hy
        rcases h.items y hy with g | g
        · rcases List.mem_cons.1 g with g | g
          · injection g with g; rw [g]; exact .inr hdx
          · exact .inl (hr _ g)
        · refine .inr (g.mono hP (fun q hq => List.mem_append_left _ hq) ?_ ?_)
          · intro qs hqs p hp
            exact .inr ⟨qs, hlater _ hqs (by simp), hp⟩
          · intro back n node m _ hm i b hmi hb
            exact .inr ⟨m, hmi, hlater _ hm (by simp)⟩
      · intro q n node hq i b hb
        dsimp only at hq hb
        by_cases hql : q < s.nullables.length
        · rw [List.getElem?_append_left hql] at hq
          rcases h.nul q n node hq i b hb with g | ⟨m, g1, g2⟩ | ⟨m, g1, g2⟩
          · exact .inl (hP _ g)
          · exact .inr (.inl ⟨m, g1, hlater _ g2 (by simp)⟩)
          · exact .inr (.inr ⟨m, g1, hlater _ g2 (by simp)⟩)
        · rw [List.getElem?_append_right (by omega)] at hq
          exact .inr (.inr ⟨0, Nat.zero_le _, hadd _ _ (List.mem_of_getElem? hq)⟩)
    have key0 : ∀ (ts' : List (Task L)), (∀ u ∈ rest, u ∈ ts') → Derived c ts' s x → CInv c K ts' s := by
      intro ts' hr hd
      have := key ts' [] hr (by simp)
      simp only [List.append_nil] at this
      exact this hd
    simp only [step, stepDerive] at hs
    split at hs
    · rename_i ha
      unfold stepReduce at hs
      split at hs
      · cases hs
      · rename_i back hback
        dsimp only at hs
        split at hs
        · cases hs
        · injection hs with hs; injection hs with e1 e2; subst e1 e2
          by_cases hb : back = c.done.length
          · rw [if_pos hb]
            refine key _ _ (fun u hu => List.mem_cons_of_mem _ hu) ?_ ?_
            · intro n node hn
              rw [List.mem_singleton] at hn
              injection hn with e1 e2; subst e1 e2
              rw [← hb]; exact List.mem_cons_self
            · rw [Derived, ha]
              refine ⟨back, hback, ?_⟩
              rw [if_pos hb]
              exact List.mem_append_right _ List.mem_cons_self
          · rw [if_neg hb]
            refine key0 _ (fun u hu => List.mem_cons_of_mem _ hu) ?_
            rw [Derived, ha]
            refine ⟨back, hback, ?_⟩
            rw [if_neg hb]
            intro i b _
            exact .inr ⟨0, Nat.zero_le _, List.mem_cons_self⟩
    · rename_i n ha
      split at hs
      · cases hs
      · rename_i ps hps
        injection hs with hs; injection hs with e1 e2; subst e1 e2
        refine key0 _ (fun u hu => List.mem_cons_of_mem _ hu) ?_
        rw [Derived, ha]
        exact ⟨ps, hps, fun p hp => .inr ⟨ps, List.mem_cons_self, hp⟩⟩
    · rename_i t ha
      injection hs with hs; injection hs with e1 e2; subst e1 e2
      refine key0 _ (fun u hu => hu) ?_
      rw [Derived, ha]; trivial
    · rename_i k ha
      split at hs
      · cases hs
      · rename_i hk
        injection hs with hs; injection hs with e1 e2; subst e1 e2
        refine key0 _ (fun u hu => List.mem_cons_of_mem _ hu) ?_
        rw [Derived, ha]
        exact .inr ⟨hk, .inr List.mem_cons_self⟩
      · rename_i hk
        injection hs with hs; injection hs with e1 e2; subst e1 e2
        refine key0 _ (fun u hu => hu) ?_
        rw [Derived, ha]
        exact .inl hk
  | predict ps =>
    simp only [step, stepPredict] at hs
    have key : ∀ (ts' : List (Task L)), (∀ u ∈ rest, u ∈ ts') →
        (∀ p ∈ ps, Pend ts' s ⟨some c.done.length, p, []⟩ ∨ ∃ qs, .predict qs ∈ ts' ∧ p ∈ qs) → CInv c K ts' s := by
      intro ts' hr hq
      have hlater : ∀ u, u ∈ (Task.predict ps :: rest) → (u ≠ .predict ps) → u ∈ ts' := by
        intro u hu hne
        rcases List.mem_cons.1 hu with hu | hu
        · exact absurd hu hne
        · exact hr _ hu
      have hP : ∀ y, Pend (.predict ps :: rest) s y → Pend ts' s y := by
        rintro y (hy | hy)
        · exact .inl hy
        · exact .inr (hlater _ hy (by simp))
      refine ⟨fun k hk => hP k (h.kernel k hk), ?_, ?_⟩
      · intro y hy
        rcases h.items y hy with g | g
        · exact .inl (hlater _ g (by simp))
        · refine .inr (g.mono hP (fun q hq => hq) ?_ ?_)
          · intro qs hqs p hp
            rcases List.mem_cons.1 hqs with hqs | hqs
            · injection hqs with hqs; subst hqs; exact hq p hp
            · exact .inr ⟨qs, hr _ hqs, hp⟩
          · intro back n node m _ hm i b hmi hb
            exact .inr ⟨m, hmi, hlater _ hm (by simp)⟩
      · intro q n node hqq i b hb
        rcases h.nul q n node hqq i b hb with g | ⟨m, g1, g2⟩ | ⟨m, g1, g2⟩
        · exact .inl (hP _ g)
        · exact .inr (.inl ⟨m, g1, hlater _ g2 (by simp)⟩)
        · exact .inr (.inr ⟨m, g1, hlater _ g2 (by simp)⟩)
    split at hs
    · injection hs with hs; injection hs with e1 e2; subst e1 e2
      exact key _ (fun u hu => hu) (by simp)
    · rename_i p ps'
      injection hs with hs; injection hs with e1 e2; subst e1 e2
      refine key _ (fun u hu => List.mem_cons_of_mem _ (List.mem_cons_of_mem _ hu)) ?_
      intro q hq
      rcases List.mem_cons.1 hq with hq | hq
      · rw [hq]; exact .inl (.inr List.mem_cons_self)
      · exact .inr ⟨ps', List.mem_cons_of_mem _ List.mem_cons_self, hq⟩
  | complete back n0 node0 i0 =>
    simp only [step, stepComplete] at hs
    have key : ∀ (ts' : List (Task L)), (∀ u ∈ rest, u ∈ ts') →
        (∀ (i : Nat) b, i0 ≤ i → (expecting (.nt n0) (c.itemsOf s back))[i]? = some b →
          Pend ts' s (b.advance (some node0)) ∨ ∃ m, m ≤ i ∧ .complete back n0 node0 m ∈ ts') →
        CInv c K ts' s := by
      intro ts' hr hq
      have hlater : ∀ u, u ∈ (Task.complete back n0 node0 i0 :: rest) →
          (u ≠ .complete back n0 node0 i0) → u ∈ ts' := by
        intro u hu hne
        rcases List.mem_cons.1 hu with hu | hu
        · exact absurd hu hne
        · exact hr _ hu
      have hP : ∀ y, Pend (.complete back n0 node0 i0 :: rest) s y → Pend ts' s y := by
        rintro y (hy | hy)
        · exact .inl hy
        · exact .inr (hlater _ hy (by simp))
      refine ⟨fun k hk => hP k (h.kernel k hk), ?_, ?_⟩
      · intro y hy
        rcases h.items y hy with g | g
        · exact .inl (hlater _ g (by simp))
        · refine .inr (g.mono hP (fun q hq => hq) ?_ ?_)
          · intro qs hqs p hp
            exact .inr ⟨qs, hlater _ hqs (by simp), hp⟩
          · intro back' n node m _ hm i b hmi hb
            rcases List.mem_cons.1 hm with hm | hm
            · injection hm with e1 e2 e3 e4; subst e1 e2 e3 e4
              exact hq i b hmi hb
            · exact .inr ⟨m, hmi, hr _ hm⟩
      · intro q n node hqq i b hb
        rcases h.nul q n node hqq i b hb with g | ⟨m, g1, g2⟩ | ⟨m, g1, g2⟩
        · exact .inl (hP _ g)
        · exact .inr (.inl ⟨m, g1, hlater _ g2 (by simp)⟩)
        · rcases List.mem_cons.1 g2 with g2 | g2
          · injection g2 with e1 e2 e3 e4; subst e1 e2 e3 e4
            rcases hq i b g1 (by rw [Ctx.itemsOf, if_pos rfl]; exact hb) with g | g
            · exact .inl g
            · exact .inr (.inr g)
          · exact .inr (.inr ⟨m, g1, hr _ g2⟩)
    split at hs
    · rename_i hnone
      injection hs with hs; injection hs with e1 e2; subst e1 e2
      refine key rest (fun u hu => hu) ?_
      intro i b hle hb
      rw [List.getElem?_eq_none_iff] at hnone
      have := (List.getElem?_eq_some_iff.1 hb).1
      omega
    · rename_i y hy
      injection hs with hs; injection hs with e1 e2; subst e1 e2
      refine key _ (fun u hu => List.mem_cons_of_mem _ (List.mem_cons_of_mem _ hu)) ?_
      intro i b hle hb
      by_cases he : i = i0
      · subst he
        rw [hy] at hb; injection hb with hb; subst hb
        exact .inl (.inr List.mem_cons_self)
      · exact .inr ⟨i0 + 1, by omega, List.mem_cons_of_mem _ List.mem_cons_self⟩

/-- The items a `derive` task is about are in the set. -/
def DerivesIn (ts : List (Task L)) (s : CSt L) : Prop := ∀ x, .derive x ∈ ts → x ∈ s.items

theorem step_derivesIn {c : Ctx σ L} {t rest s ts' s'} (h : DerivesIn (t :: rest) s)
    (hs : step c t rest s = .ok (ts', s')) : DerivesIn ts' s' := by
  have hr : DerivesIn rest s := fun x hx => h x (List.mem_cons_of_mem _ hx)
  intro x hx
  cases t with
  | add y =>
    simp only [step, stepAdd] at hs
    split at hs <;> injection hs with hs <;> injection hs with e1 e2 <;> subst e1 e2
    · exact hr x hx
    · simp at hx
      rcases hx with rfl | hx
      · simp
      · exact List.mem_append_left _ (hr x hx)
  | nulls y i =>
    simp only [step, stepNulls] at hs
    split at hs
    · injection hs with hs; injection hs with e1 e2; subst e1 e2; exact hr x hx
    · split at hs <;> injection hs with hs <;> injection hs with e1 e2 <;> subst e1 e2
      · simp at hx; exact hr x hx
      · simp at hx; exact hr x hx
  | derive y =>
    simp only [step, stepDerive] at hs
    split at hs
    · unfold stepReduce at hs
      split at hs
      · cases hs
      · dsimp only at hs
        split at hs
        · cases hs
        · injection hs with hs; injection hs with e1 e2; subst e1 e2
          simp at hx
          split <;> exact hr x hx
    · split at hs
      · cases hs
      · injection hs with hs; injection hs with e1 e2; subst e1 e2
        simp at hx; exact hr x hx
    · injection hs with hs; injection hs with e1 e2; subst e1 e2; exact hr x hx
    · split at hs
      · cases hs
      · injection hs with hs; injection hs with e1 e2; subst e1 e2
        simp at hx; exact hr x hx
      · injection hs with hs; injection hs with e1 e2; subst e1 e2; exact hr x hx
  | predict ps =>
    simp only [step, stepPredict] at hs
    split at hs <;> injection hs with hs <;> injection hs with e1 e2 <;> subst e1 e2
    · exact hr x hx
    · simp at hx; exact hr x hx
  | complete b n node i =>
    simp only [step, stepComplete] at hs
    split at hs <;> injection hs with hs <;> injection hs with e1 e2 <;> subst e1 e2
    · exact hr x hx
    · simp at hx; exact hr x hx

theorem closeLoop_cinv {c : Ctx σ L} {K} :
    ∀ f ts s s', CInv c K ts s → DerivesIn ts s → closeLoop c f ts s = .ok s' → CInv c K [] s' := by
  intro f
  induction f with
  | zero =>
    intro ts s s' h _ hr
    cases ts with
    | nil => simp [closeLoop] at hr; subst hr; exact h
    | cons => simp [closeLoop] at hr
  | succ f ih =>
    intro ts s s' h hd hr
    cases ts with
    | nil => simp [closeLoop] at hr; subst hr; exact h
    | cons t rest =>
      simp only [closeLoop] at hr
      split at hr
      · cases hr
      · rename_i ts1 s1 hst
        exact ih _ _ _ (step_cinv h (fun x hx => hd x (by rw [hx]; exact List.mem_cons_self)) hst)
          (step_derivesIn hd hst) hr

theorem close_closed {c : Ctx σ L} {f kernel s} (hr : close c f kernel = .ok s) :
    (∀ k ∈ kernel, k ∈ s.items) ∧ IsClosed c s := by
  refine (closeLoop_cinv f _ _ s ⟨?_, by simp, by simp⟩ ?_ hr).closed
  · intro k hk; exact .inr (List.mem_map.2 ⟨k, hk, rfl⟩)
  · intro x hx; simp at hx

end Verif.Earley
