import Verif.Earley.ChartLemmas
import Verif.Common
/-! # In an acyclic grammar a stretch of input has finitely many trees -/
namespace Verif.Earley
variable {σ L : Type}

namespace Few
variable {α β : Type}

theorem imp {P Q : α → Prop} (h : ∀ a, P a → Q a) : Few Q → Few P
  | ⟨l, hl⟩ => ⟨l, fun a ha => hl a (h a ha)⟩

theorem none : Few (fun _ : α => False) := ⟨[], fun _ h => h.elim⟩

theorem one (a : α) : Few (fun x => x = a) := ⟨[a], fun _ h => by simp [h]⟩

theorem list (l : List α) : Few (fun x => x ∈ l) := ⟨l, fun _ h => h⟩

theorem or {P Q : α → Prop} : Few P → Few Q → Few (fun a => P a ∨ Q a)
  | ⟨l, hl⟩, ⟨m, hm⟩ => ⟨l ++ m, fun a ha => by
      rcases ha with ha | ha
      · exact List.mem_append_left _ (hl a ha)
      · exact List.mem_append_right _ (hm a ha)⟩

theorem union_list {P : β → α → Prop} {l : List β} (h : ∀ b ∈ l, Few (P b)) :
    Few (fun a => ∃ b ∈ l, P b a) := by
  induction l with
  | nil => exact none.imp (by simp)
  | cons b l ih =>
    refine ((h b (by simp)).or (ih (fun x hx => h x (List.mem_cons_of_mem _ hx)))).imp ?_
    rintro a ⟨c, hc, hp⟩
    rcases List.mem_cons.1 hc with rfl | hc
    · exact .inl hp
    · exact .inr ⟨c, hc, hp⟩

theorem bind {Q : β → Prop} {P : β → α → Prop} (hq : Few Q) (hp : ∀ b, Q b → Few (P b)) :
    Few (fun a => ∃ b, Q b ∧ P b a) := by
  obtain ⟨l, hl⟩ := hq
  refine (union_list (P := fun b a => Q b ∧ P b a) (l := l) ?_).imp ?_
  · intro b _
    by_cases hb : Q b
    · exact (hp b hb).imp (fun a h => h.2)
    · exact none.imp (fun a h => hb h.1)
  · rintro a ⟨b, h1, h2⟩
    exact ⟨b, hl b h1, h1, h2⟩

theorem image {Q : β → Prop} (f : β → α) (hq : Few Q) : Few (fun a => ∃ b, Q b ∧ a = f b) :=
  hq.bind (fun b _ => one (f b))

theorem lt (n : Nat) : Few (fun k => k < n) := ⟨List.range n, fun _ h => List.mem_range.2 h⟩
end Few

/-- Finitely many terminal instances and one position at each place. -/
structure FewWorld (W : World L) : Prop where
  scan : ∀ k t, Few (fun l => W.scan k t l)
  «at» : ∀ k, Few (fun p => W.at k p)

theorem NullSeq.append {G : Grammar} {a b} (ha : NullSeq G a) (hb : NullSeq G b) : NullSeq G (a ++ b) := by
  induction ha with
  | nil => exact hb
  | con _ ih => exact .con ih
  | nt h1 h2 h3 _ _ ih => exact .nt h1 h2 h3 ih

theorem Derives.nullSeq {G : Grammar} {W : World L} {rhs prev i j cs} (h : Derives G W rhs prev i j cs) :
    i = j → NullSeq G rhs := by
  induction h with
  | nil => intro _; exact .nil
  | con _ _ ih => intro e; exact .con (ih e)
  | term _ hd _ => intro e; have := hd.le; omega
  | nt h1 h2 hd1 _ _ hd2 ih1 ih2 =>
    intro e
    have := hd1.le; have := hd2.le
    exact .nt h1 h2 (ih1 (by omega)) (ih2 (by omega))

theorem acyclic_rank {G : Grammar} (hfin : FiniteGrammar G) (ha : Acyclic G) :
    ∃ r : String → Nat, ∀ n b, UnitStep G n b → (G b).isSome = true → r b < r n := by
  obtain ⟨names, hn⟩ := hfin
  classical
  refine ⟨fun n => names.countP (fun b => decide (∃ m, UnitStep G n m ∧ Star (UnitStep G) m b)), ?_⟩
  intro n b hu hb
  refine countP_lt (v := b) ?_ (hn b hb) ?_ ?_
  · intro x _ hx
    obtain ⟨m, h1, h2⟩ := of_decide_eq_true hx
    exact decide_eq_true ⟨b, hu, .head h1 h2⟩
  · refine decide_eq_false ?_
    rintro ⟨m, h1, h2⟩
    exact ha b m h1 h2
  · exact decide_eq_true ⟨b, hu, .refl _⟩

theorem derives_few {G : Grammar} {W : World L} (hw : FewWorld W) {lo j : Nat}
    (hT : ∀ n a b, lo ≤ a → b ≤ j → Few (Tree G W n a b)) :
    ∀ rhs prev i, lo ≤ i → Few (fun cs => Derives G W rhs prev i j cs) := by
  intro rhs
  induction rhs with
  | nil => intro prev i _; exact (Few.one []).imp (by intro a h; cases h; rfl)
  | cons r rest ih =>
    intro prev i hi
    cases r with
    | con k => exact (ih none i hi).imp (by intro a h; cases h; assumption)
    | term t =>
      refine ((hw.scan i t).bind (fun l _ => (ih (some (.leaf l)) (i + 1) (by omega)).image (fun cs => .leaf l :: cs))).imp ?_
      intro a h
      cases h with
      | term h1 h2 => exact ⟨_, h1, _, h2, rfl⟩
    | nt n =>
      have h1 : Few (fun a => ∃ m, m < j + 1 ∧ ∃ node, (i ≤ m ∧ Tree G W n i m node) ∧
          ∃ cs, Derives G W rest (some node) m j cs ∧ a = node :: cs) := by
        refine (Few.lt (j + 1)).bind (fun m hm => ?_)
        refine ((hT n i m hi (by omega)).imp (Q := Tree G W n i m) (fun _ h => h.2)).bind (fun node hnode => ?_)
        exact (ih (some node) m (by omega)).image _
      refine h1.imp ?_
      intro a h
      cases h with
      | nt g1 g2 g3 g4 g5 g6 =>
        have := g6.le; have := g3.le
        exact ⟨_, by omega, _, ⟨by omega, _, _, _, _, g1, g2, g3, g4, g5⟩, _, g6, rfl⟩

/-- The children of one production of `n`, when its proper parts and the nonterminals below `n` are
known to have finitely many trees. -/
theorem derives_few_at {G : Grammar} {W : World L} (hw : FewWorld W) {n ps p i j}
    (hG : G n = some ps) (hp : p ∈ ps)
    (hsmall : ∀ m a b, i ≤ a → b ≤ j → b - a < j - i → Few (Tree G W m a b))
    (hunit : ∀ b, UnitStep G n b → Few (Tree G W b i j)) :
    ∀ post pre prev, p.rhs = pre ++ post → NullSeq G pre → Few (fun cs => Derives G W post prev i j cs) := by
  intro post
  induction post with
  | nil => intro pre prev _ _; exact (Few.one []).imp (by intro a h; cases h; rfl)
  | cons r rest ih =>
    intro pre prev hpp hpre
    cases r with
    | con k =>
      exact (ih (pre ++ [.con k]) none (by simp [hpp]) (hpre.append (.con .nil))).imp
        (by intro a h; cases h; assumption)
    | term t =>
      by_cases hij : i < j
      · have hr : ∀ l, Few (fun cs => Derives G W rest (some (.leaf l)) (i + 1) j cs) := fun l =>
          derives_few hw (lo := i + 1) (fun m a b ha hb => hsmall m a b (by omega) hb (by omega)) rest _ _
            (Nat.le_refl _)
        refine ((hw.scan i t).bind (fun l _ => (hr l).image (fun cs => .leaf l :: cs))).imp ?_
        intro a h
        cases h with
        | term h1 h2 => exact ⟨_, h1, _, h2, rfl⟩
      · refine Few.none.imp ?_
        intro a h
        cases h with
        | term h1 h2 => have := h2.le; omega
    | nt b =>
      have h1 : Few (fun a => ∃ m, m < j + 1 ∧ ∃ node, (i ≤ m ∧ Tree G W b i m node ∧ (m = j → NullSeq G rest)) ∧
          ∃ cs, Derives G W rest (some node) m j cs ∧ a = node :: cs) := by
        refine (Few.lt (j + 1)).bind (fun m hm => ?_)
        have hnode : Few (fun node => i ≤ m ∧ Tree G W b i m node ∧ (m = j → NullSeq G rest)) := by
          by_cases hmj : m = j
          · subst hmj
            by_cases hr : NullSeq G rest
            · exact (hunit b ⟨ps, p, pre, rest, hG, hp, hpp, hpre, hr⟩).imp (fun _ h => h.2.1)
            · exact Few.none.imp (fun _ h => hr (h.2.2 rfl))
          · by_cases him : i ≤ m
            · exact (hsmall b i m (Nat.le_refl _) (by omega) (by omega)).imp (fun _ h => h.2.1)
            · exact Few.none.imp (fun _ h => him h.1)
        refine hnode.bind (fun node hnd => ?_)
        refine Few.image _ ?_
        by_cases him : m = i
        · subst him
          obtain ⟨_, ⟨qs, q, ds, pos, g1, g2, g3, _, _⟩, _⟩ := hnd
          exact ih (pre ++ [.nt b]) _ (by simp [hpp]) (hpre.append (.nt g1 g2 (g3.nullSeq rfl) .nil))
        · exact derives_few hw (lo := m) (fun n' a b' ha hb => hsmall n' a b' (by omega) hb (by omega)) rest _ _
            (Nat.le_refl _)
      refine h1.imp ?_
      intro a h
      cases h with
      | nt g1 g2 g3 g4 g5 g6 =>
        have := g6.le; have := g3.le
        exact ⟨_, by omega, _, ⟨by omega, ⟨_, _, _, _, g1, g2, g3, g4, g5⟩, fun e => g6.nullSeq e⟩, _, g6, rfl⟩

theorem trees_few {G : Grammar} {W : World L} (hw : FewWorld W) (hfin : FiniteGrammar G) (ha : Acyclic G) :
    ∀ n i j, Few (Tree G W n i j) := by
  obtain ⟨r, hr⟩ := acyclic_rank hfin ha
  have main : ∀ d, ∀ e n i j, j - i ≤ d → r n ≤ e → (G n).isSome = true → Few (Tree G W n i j) := by
    intro d
    induction d using Nat.strongRecOn with
    | _ d ihd =>
      intro e
      induction e using Nat.strongRecOn with
      | _ e ihe =>
        intro n i j hd he hn
        obtain ⟨ps, hG⟩ := Option.isSome_iff_exists.1 hn
        have hdef : ∀ m a b, ((G m).isSome = true → Few (Tree G W m a b)) → Few (Tree G W m a b) := by
          intro m a b h
          by_cases hm : (G m).isSome = true
          · exact h hm
          · refine Few.none.imp ?_
            rintro node ⟨qs, _, _, _, g, _⟩
            rw [g] at hm; exact hm rfl
        have hsmall : ∀ m a b, i ≤ a → b ≤ j → b - a < j - i → Few (Tree G W m a b) := by
          intro m a b _ _ hlt
          exact hdef m a b (fun hm => ihd (b - a) (by omega) (r m) m a b (Nat.le_refl _) (Nat.le_refl _) hm)
        have hunit : ∀ b, UnitStep G n b → Few (Tree G W b i j) := by
          intro b hb
          refine hdef b i j (fun hm => ?_)
          have := hr n b hb hm
          exact ihe (r b) (by omega) b i j hd (Nat.le_refl _) hm
        have h1 : Few (fun node => ∃ p, p ∈ ps ∧ ∃ ds, Derives G W p.rhs none i j ds ∧
            ∃ pos, W.at j pos ∧ IsNode W p ds pos node) := by
          refine (Few.list ps).bind (fun p hp => ?_)
          refine (derives_few_at hw hG hp hsmall hunit p.rhs [] none (by simp) .nil).bind (fun ds _ => ?_)
          refine (hw.at j).bind (fun pos _ => ?_)
          exact Few.one _
        refine h1.imp ?_
        rintro node ⟨ps', p, ds, pos, g1, g2, g3, g4, g5⟩
        rw [hG] at g1; injection g1 with g1; subst g1
        exact ⟨p, g2, ds, g3, pos, g4, g5⟩
  intro n i j
  by_cases hn : (G n).isSome = true
  · exact main (j - i) (r n) n i j (Nat.le_refl _) (Nat.le_refl _) hn
  · refine Few.none.imp ?_
    rintro node ⟨qs, _, _, _, g, _⟩
    rw [g] at hn; exact hn rfl

theorem snoc_inj {α} {a b : List α} {x y : α} (h : a ++ [x] = b ++ [y]) : a = b ∧ x = y := by
  have := List.append_inj' h rfl
  exact ⟨this.1, by simpa using this.2⟩

/-- Finitely many ways to read the part before the dot. -/
theorem paths_few {G : Grammar} {W : World L} (hw : FewWorld W) (hT : ∀ n i j, Few (Tree G W n i j)) (i : Nat) :
    ∀ len pre k, pre.length = len → Few (fun tr => Path G W i pre tr k) := by
  intro len
  induction len with
  | zero =>
    intro pre k hl
    refine (Few.one []).imp ?_
    intro tr h
    have := h.length
    rw [hl] at this
    exact List.length_eq_zero_iff.1 this.symm
  | succ len ih =>
    intro pre k hl
    obtain ⟨q, r, rfl⟩ : ∃ q r, pre = q ++ [r] := by
      rcases List.eq_nil_or_concat pre with rfl | ⟨q, r, rfl⟩
      · simp at hl
      · exact ⟨q, r, by simp⟩
    have hq : q.length = len := by simpa using hl
    have h1 : Few (fun tr => ∃ m, m < k + 1 ∧ ∃ tr0, Path G W i q tr0 m ∧
        ∃ v, (v = none ∨ (∃ t l, r = .term t ∧ W.scan m t l ∧ v = some (.leaf l)) ∨
          (∃ n node, r = .nt n ∧ Tree G W n m k node ∧ v = some node)) ∧ tr = tr0 ++ [v]) := by
      refine (Few.lt (k + 1)).bind (fun m _ => ?_)
      refine (ih q m hq).bind (fun tr0 _ => ?_)
      refine Few.image _ ?_
      refine (Few.one none).or (Few.or ?_ ?_)
      · cases r with
        | term t =>
          refine ((hw.scan m t).image (fun l => some (.leaf l))).imp ?_
          rintro v ⟨t', l, h1, h2, h3⟩
          injection h1 with h1; subst h1
          exact ⟨l, h2, h3⟩
        | nt n => exact Few.none.imp (by rintro v ⟨t', l, h1, _⟩; cases h1)
        | con c => exact Few.none.imp (by rintro v ⟨t', l, h1, _⟩; cases h1)
      · cases r with
        | nt n =>
          refine ((hT n m k).image (fun l => some l)).imp ?_
          rintro v ⟨t', l, h1, h2, h3⟩
          injection h1 with h1; subst h1
          exact ⟨l, h2, h3⟩
        | term t => exact Few.none.imp (by rintro v ⟨t', l, h1, _⟩; cases h1)
        | con c => exact Few.none.imp (by rintro v ⟨t', l, h1, _⟩; cases h1)
    refine h1.imp ?_
    intro tr h
    generalize hpre : q ++ [r] = pre at h
    cases h with
    | nil => simp at hpre
    | con hp hh =>
      obtain ⟨rfl, rfl⟩ := snoc_inj hpre
      exact ⟨k, by omega, _, hp, none, .inl rfl, rfl⟩
    | term hp hs =>
      obtain ⟨rfl, rfl⟩ := snoc_inj hpre
      exact ⟨_, by omega, _, hp, _, .inr (.inl ⟨_, _, rfl, hs, rfl⟩), rfl⟩
    | nt hp ht =>
      obtain ⟨rfl, rfl⟩ := snoc_inj hpre
      obtain ⟨_, _, _, _, _, _, hd, _, _⟩ := id ht
      have := hd.le
      exact ⟨_, by omega, _, hp, _, .inr (.inr ⟨_, _, rfl, ht, rfl⟩), rfl⟩

/-- Finitely many items can stand at a place. -/
theorem items_few {G : Grammar} {W : World L} (hw : FewWorld W) (hfin : FiniteGrammar G) (ha : Acyclic G)
    (start : Prod) (k : Nat) : Few (fun x : Item L => ItemOk G start W x k) := by
  have hT := trees_few hw hfin ha (G := G) (W := W)
  have htr : ∀ (p : Prod) o, Few (fun tr => ∃ pre, pre ∈ (List.range (p.rhs.length + 1)).map p.rhs.take ∧
      Path G W o pre tr k) := fun p o =>
    (Few.list _).bind (fun pre _ => paths_few hw hT o pre.length pre k rfl)
  have hpre : ∀ {p : Prod} {pre post}, p.rhs = pre ++ post →
      pre ∈ (List.range (p.rhs.length + 1)).map p.rhs.take := by
    intro p pre post h
    refine List.mem_map.2 ⟨pre.length, List.mem_range.2 (by rw [h]; simp; omega), by simp [h]⟩
  obtain ⟨names, hn⟩ := hfin
  have h1 := ((htr start 0).image (fun tr => (⟨none, start, tr⟩ : Item L)))
  have h2 : Few (fun x : Item L => ∃ n, n ∈ names ∧ ∃ p, p ∈ (G n).getD [] ∧ ∃ o, o < k + 1 ∧
      ∃ tr, (∃ pre, pre ∈ (List.range (p.rhs.length + 1)).map p.rhs.take ∧ Path G W o pre tr k) ∧
        x = ⟨some o, p, tr⟩) := by
    refine (Few.list names).bind (fun n _ => ?_)
    refine (Few.list _).bind (fun p _ => ?_)
    refine (Few.lt _).bind (fun o _ => ?_)
    exact (htr p o).image _
  refine (h1.or h2).imp ?_
  rintro ⟨o, p, tr⟩ ⟨pre, post, g1, g2⟩
  rcases g2 with ⟨e1, e2, g3⟩ | ⟨o', n, ps, e1, g3, g4, g5⟩
  · dsimp only at *
    subst e1 e2
    exact .inl ⟨tr, ⟨pre, hpre g1, g3⟩, rfl⟩
  · dsimp only at *
    subst e1
    refine .inr ⟨n, hn n (by simp [g3]), p, by simpa [g3] using g4, o', ?_, tr, ⟨pre, hpre g1, g5⟩, rfl⟩
    have := g5.le; omega

end Verif.Earley
