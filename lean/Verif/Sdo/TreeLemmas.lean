import Verif.Sdo.LoopLemmas
/-!
# Lemmas: trees of a grammar
-/
namespace Verif.Sdo
open Verif.Gram (Sym Item IKind)

variable {R : Type} {G : Name → NtDef} {defs : List (R × List Puk)} {exc : Name → List Char → Bool}
  {roots : List Name}

/-- The lists have the same length and corresponding elements are related. -/
inductive All2 {α β : Type} (r : α → β → Prop) : List α → List β → Prop
  | nil : All2 r [] []
  | cons {a b as bs} : r a b → All2 r as bs → All2 r (a :: as) (b :: bs)

theorem belows_append (as bs : List Tree) : belows (as ++ bs) = belows as ++ belows bs := by
  induction as with
  | nil => rfl
  | cons a as ih => cases a <;> simp [belows, ih]

theorem belows_leaves (n : Nat) : belows (List.replicate n .leaf) = [] := by
  induction n with
  | zero => rfl
  | succ n ih => rw [List.replicate_succ, belows, ih]

theorem conf_below (hG : Plain G) {n : Name} {c : Tree} (h : Conf G n c) (cs : List Tree) :
    belows (c :: cs) = c :: belows cs := by
  cases h with
  | node h1 _ _ => simp [belows, hG.names _ _ h1]

theorem opt_below (s : Name) (r b : List Char) (gs cs : List Tree) :
    belows (.node (s ++ ['?']) r b gs :: cs) = gs ++ belows cs := by simp [belows]

/-- The nonterminals of an instance are those of the trees below the node. -/
theorem kids_instance (hG : Plain G) : ∀ (its : List Item) (bits : List Char) (cs : List Tree),
    (∀ k t, Item.qm (.other k t) ∉ its) → Kids G its bits cs →
    ∃ ns, InstanceNts its bits ns ∧ All2 (Conf G) ns (belows cs) := by
  intro its
  induction its with
  | nil => intro bits cs _ h; cases h; exact ⟨[], .nil, .nil⟩
  | cons it its ih =>
    intro bits cs ho h
    have ho' : ∀ k t, Item.qm (.other k t) ∉ its := fun k t hm => ho k t (by simp [hm])
    cases h with
    | terminals n h =>
      obtain ⟨ns, h1, h2⟩ := ih _ _ ho' h
      refine ⟨ns, .terminal h1, ?_⟩
      rw [belows_append, belows_leaves]
      exact h2
    | nt hc h =>
      obtain ⟨ns, h1, h2⟩ := ih _ _ ho' h
      refine ⟨_ :: ns, .nt h1, ?_⟩
      rw [conf_below hG hc]
      exact .cons hc h2
    | absentNt h =>
      obtain ⟨ns, h1, h2⟩ := ih _ _ ho' h
      refine ⟨ns, .absent h1, ?_⟩
      rw [opt_below]
      exact h2
    | presentNt hc h =>
      obtain ⟨ns, h1, h2⟩ := ih _ _ ho' h
      refine ⟨_ :: ns, .presentNt h1, ?_⟩
      rw [opt_below]
      exact .cons hc h2
    | absentTerminal h => exact absurd (List.mem_cons_self ..) (ho _ _)
    | presentTerminal h => exact absurd (List.mem_cons_self ..) (ho _ _)

/-- There is a node for any instance, given trees for its nonterminals. -/
theorem instance_kids (hG : Plain G) {its : List Item} {bits : List Char} {ns : List Name}
    (h : InstanceNts its bits ns) : (∀ k t, Item.qm (.other k t) ∉ its) →
    ∀ ts, All2 (Conf G) ns ts → ∃ cs, Kids G its bits cs ∧ belows cs = ts := by
  induction h with
  | nil => intro _ ts h; cases h; exact ⟨[], .nil, rfl⟩
  | terminal _ ih =>
    intro ho ts h
    obtain ⟨cs, h1, h2⟩ := ih (fun k t hm => ho k t (by simp [hm])) ts h
    exact ⟨_, .terminals 0 h1, h2⟩
  | nt _ ih =>
    intro ho ts h
    cases h with
    | cons hc h =>
      obtain ⟨cs, h1, h2⟩ := ih (fun k t hm => ho k t (by simp [hm])) _ h
      exact ⟨_, .nt hc h1, by rw [conf_below hG hc, h2]⟩
  | @absent s _ _ _ _ ih =>
    intro ho ts h
    obtain ⟨cs, h1, h2⟩ := ih (fun k t hm => ho k t (by simp [hm])) ts h
    cases s with
    | gnt n ps => exact ⟨_, .absentNt h1, by rw [opt_below, h2]; rfl⟩
    | other k t => exact absurd (List.mem_cons_self ..) (ho k t)
  | presentNt _ ih =>
    intro ho ts h
    cases h with
    | cons hc h =>
      obtain ⟨cs, h1, h2⟩ := ih (fun k t hm => ho k t (by simp [hm])) _ h
      exact ⟨_, .presentNt hc h1, by rw [opt_below, h2]; rfl⟩
  | presentTerminal _ _ => intro ho; exact absurd (List.mem_cons_self ..) (ho _ _)

theorem optNode_ok {s : Name} {r b : List Char} {gs cs : List Tree} (h1 : ∀ c ∈ gs, OptOk c) (h2 : ShortOpts gs)
    (h3 : gs.length ≤ 1) (ih : (∀ c ∈ cs, OptOk c) ∧ ShortOpts cs) :
    (∀ c ∈ Tree.node s r b gs :: cs, OptOk c) ∧ ShortOpts (Tree.node s r b gs :: cs) := by
  refine ⟨?_, ?_⟩
  · intro x hx
    rcases List.mem_cons.mp hx with rfl | hx
    · exact .node h1 h2
    · exact ih.1 x hx
  · intro s' r' b' gs' hm hq
    rcases List.mem_cons.mp hm with hm | hm
    · cases hm; exact h3
    · exact ih.2 s' r' b' gs' hm hq

theorem conf_optOk (hG : Plain G) {s : Name} {t : Tree} (h : Conf G s t) : OptOk t := by
  refine Conf.rec (motive_1 := fun _ t _ => OptOk t)
    (motive_2 := fun _ _ cs _ => (∀ c ∈ cs, OptOk c) ∧
      ShortOpts cs)
    ?_ ?_ ?_ ?_ ?_ ?_ ?_ ?_ h
  · intro s rhss its bits cs _ _ _ ih
    exact .node ih.1 ih.2
  · exact ⟨by simp, by simp [ShortOpts]⟩
  · intro k t its bits cs n _ ih
    refine ⟨?_, ?_⟩
    · intro c hc
      rcases List.mem_append.mp hc with hc | hc
      · rw [List.eq_of_mem_replicate hc]; exact .leaf
      · exact ih.1 c hc
    · intro s' r' b' gs hm
      rcases List.mem_append.mp hm with hm | hm
      · cases List.eq_of_mem_replicate hm
      · exact ih.2 s' r' b' gs hm
  · intro n ps its bits c cs hc _ ihc ih
    refine ⟨?_, ?_⟩
    · intro x hx
      rcases List.mem_cons.mp hx with rfl | hx
      · exact ihc
      · exact ih.1 x hx
    · intro s' r' b' gs hm hq
      rcases List.mem_cons.mp hm with rfl | hm
      · cases hc with
        | node h1 _ _ => exact absurd hq (hG.names _ _ h1)
      · exact ih.2 s' r' b' gs hm hq
  · intro n ps its bits cs _ ih
    exact optNode_ok (by simp) (by simp [ShortOpts]) (by simp) ih
  · intro n ps its bits c cs hc _ ihc ih
    refine optNode_ok (by simpa using ihc) ?_ (by simp) ih
    intro s' r' b' gs hm hq
    rw [List.mem_singleton] at hm
    subst hm
    cases hc with
    | node h1 _ _ => exact absurd hq (hG.names _ _ h1)
  · intro k t its bits cs _ ih
    exact optNode_ok (by simp) (by simp [ShortOpts]) (by simp) ih
  · intro k t its bits cs _ ih
    exact optNode_ok (by simpa using OptOk.leaf) (by simp [ShortOpts]) (by simp) ih

/-- A tree for a needed nonterminal is at the end of a chain that starts with a tree for a root. -/
theorem needed_tree (hG : Plain G) {n : Name} (h : Needed G defs exc roots n) :
    ∀ c, Conf G n c → ∃ s t, s ∈ roots ∧ Conf G s t ∧ ChainTo defs t c := by
  induction h with
  | root hr => intro c hc; exact ⟨_, c, hr, hc, .here c⟩
  | @chain s p n _ hk hr _ ih =>
    intro c hc
    obtain ⟨rhss, its, hGs, hi, hl, hred, hins⟩ := hk
    obtain ⟨cs, h1, h2⟩ := instance_kids hG hins (fun k t => hG.optional _ _ _ k t hGs hi) [c] (.cons hc .nil)
    obtain ⟨s0, t, a, b, d⟩ := ih (.node s (label its) p.bits cs) (.node hGs hi h1)
    refine ⟨s0, t, a, b, ?_⟩
    clear ih hc b
    have hpk : (Tree.node s (label its) p.bits cs).puk? = some p := by
      rw [← hred, ← hl]; rfl
    have hob : OnlyBelow (.node s (label its) p.bits cs) c := ⟨_, _, _, _, rfl, h2⟩
    generalize Tree.node s (label its) p.bits cs = v at d hpk hob
    induction d with
    | here t => exact .next hpk hr hob (.here c)
    | next a1 a2 a3 _ ih => exact .next a1 a2 a3 (ih hpk hob)

end Verif.Sdo
