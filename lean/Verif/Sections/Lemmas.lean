import Verif.Common
import Verif.Sections.Spec
/-!
# Lemmas about the section tree
-/
namespace Verif.Sections

abbrev flat (l : List (HNode × List HNode)) : List HNode := l.flatMap (fun p => p.1 :: p.2)

theorem flat_addToLast (l : List (HNode × List HNode)) (c : HNode) (h : l ≠ []) : flat (addToLast l c) = flat l ++ [c] := by
  fun_induction addToLast l c with
  | case1 => exact absurd rfl h
  | case2 => simp [flat]
  | case3 p q r ih =>
    have := ih (by simp)
    simp only [flat, List.flatMap_cons] at this ⊢
    rw [this]; simp

theorem addToLast_ne (l : List (HNode × List HNode)) (c : HNode) (h : l ≠ []) : addToLast l c ≠ [] := by
  fun_cases addToLast l c <;> simp_all

theorem addToLast_ok (l : List (HNode × List HNode)) (c : HNode) (hc : c.kind ≠ .h2)
    (h : ∀ p ∈ l, p.1.kind = .h2 ∧ ∀ b ∈ p.2, b.kind ≠ .h2) : ∀ p ∈ addToLast l c, p.1.kind = .h2 ∧ ∀ b ∈ p.2, b.kind ≠ .h2 := by
  fun_induction addToLast l c with
  | case1 => exact h
  | case2 a bs =>
    intro p hp
    simp only [List.mem_singleton] at hp
    subst hp
    have := h (a, bs) (by simp)
    refine ⟨this.1, ?_⟩
    intro b hb
    simp only [List.mem_append, List.mem_singleton] at hb
    rcases hb with hb | rfl
    · exact this.2 b hb
    · exact hc
  | case3 p q r ih =>
    intro x hx
    simp only [List.mem_cons] at hx
    rcases hx with rfl | hx
    · exact h x (by simp)
    · exact ih (fun y hy => h y (List.mem_cons_of_mem _ hy)) x hx

structure FillOk (f : Fill) : Prop where
  blocks : ∀ b ∈ f.blocks, b.kind ≠ .h2
  numless : ∀ p ∈ f.numless, p.1.kind = .h2 ∧ ∀ b ∈ p.2, b.kind ≠ .h2

abbrev flowP (c : HNode) : Bool := decide (¬ IsSection c ∧ c.kind ≠ .space ∧ c.kind ≠ .comment)

theorem not_section {c : HNode} (h : ∀ k, c.kind ≠ .sec k) : ¬ IsSection c := fun ⟨k, hk⟩ => h k hk

theorem fillOne_ok (f : Fill) (c : HNode) (h : FillOk f) : FillOk (fillOne f c) ∧
    (fillOne f c).blocks ++ flat (fillOne f c).numless = f.blocks ++ flat f.numless ++ (if flowP c then [c] else []) ∧
    (fillOne f c).subs = f.subs ++ (if IsSection c then [c] else []) := by
  have other : c.kind = .h1 ∨ c.kind = .other → FillOk (fillOne f c) ∧
      (fillOne f c).blocks ++ flat (fillOne f c).numless = f.blocks ++ flat f.numless ++ (if flowP c then [c] else []) ∧
      (fillOne f c).subs = f.subs ++ (if IsSection c then [c] else []) := by
    intro hk
    have hns : ¬ IsSection c := not_section (by intro k; rcases hk with hk | hk <;> simp [hk])
    have hf : flowP c = true := by rcases hk with hk | hk <;> simp [flowP, hns, hk]
    have h2 : c.kind ≠ .h2 := by rcases hk with hk | hk <;> simp [hk]
    have e : fillOne f c = if f.numless.isEmpty then { f with blocks := f.blocks ++ [c] } else { f with numless := addToLast f.numless c } := by
      rcases hk with hk | hk <;> simp [fillOne, hk]
    rw [e]
    simp only [hf, hns, if_true, if_false, List.append_nil]
    cases hn : f.numless with
    | nil =>
      simp only [List.isEmpty_nil, if_true]
      refine ⟨⟨?_, ?_⟩, by simp [flat, hn], trivial⟩
      · intro b hb
        simp only [List.mem_append, List.mem_singleton] at hb
        rcases hb with hb | rfl
        · exact h.blocks b hb
        · exact h2
      · intro p hp; simp [hn] at hp
    | cons p r =>
      simp only [List.isEmpty_cons, Bool.false_eq_true, if_false]
      refine ⟨⟨h.blocks, ?_⟩, ?_, trivial⟩
      · exact addToLast_ok _ _ h2 (fun q hq => h.numless q (by rw [hn]; exact hq))
      · rw [flat_addToLast _ _ (by simp)]; simp
  cases hk : c.kind with
  | space =>
    have hns : ¬ IsSection c := not_section (by simp [hk])
    simp [fillOne, hk, hns, h, flowP]
  | comment =>
    have hns : ¬ IsSection c := not_section (by simp [hk])
    simp [fillOne, hk, hns, h, flowP]
  | sec k =>
    have hns : IsSection c := ⟨k, hk⟩
    simp only [fillOne, hk, hns, flowP]
    exact ⟨⟨h.blocks, h.numless⟩, by simp, by simp⟩
  | h2 =>
    have hns : ¬ IsSection c := not_section (by simp [hk])
    simp only [fillOne, hk, hns, flowP]
    refine ⟨⟨h.blocks, ?_⟩, by simp [flat], by simp⟩
    intro p hp
    simp only [List.mem_append, List.mem_singleton] at hp
    rcases hp with hp | rfl
    · exact h.numless p hp
    · exact ⟨hk, fun b hb => by simp at hb⟩
  | h1 => exact other (.inl hk)
  | other => exact other (.inr hk)

theorem foldl_fill (kids : List HNode) (f : Fill) (h : FillOk f) : FillOk (kids.foldl fillOne f) ∧
    (kids.foldl fillOne f).blocks ++ flat (kids.foldl fillOne f).numless = f.blocks ++ flat f.numless ++ kids.filter flowP ∧
    (kids.foldl fillOne f).subs = f.subs ++ kids.filter (fun c => IsSection c) := by
  induction kids generalizing f with
  | nil => simp [h]
  | cons c cs ih =>
    obtain ⟨h1, h2, h3⟩ := fillOne_ok f c h
    obtain ⟨i1, i2, i3⟩ := ih _ h1
    refine ⟨i1, ?_, ?_⟩
    · simp only [List.foldl_cons]
      rw [i2, h2, List.filter_cons]
      split <;> simp
    · simp only [List.foldl_cons]
      rw [i3, h3, List.filter_cons]
      by_cases hc : IsSection c <;> simp [hc]

theorem fill_ok (n : HNode) : FillOk (fill n.kids) ∧ (fill n.kids).blocks ++ flat (fill n.kids).numless = flow n ∧ (fill n.kids).subs = sectionsIn n := by
  obtain ⟨h1, h2, h3⟩ := foldl_fill n.kids ⟨[], [], []⟩ ⟨by simp, by simp⟩
  refine ⟨h1, ?_, ?_⟩
  · exact h2.trans (by simp only [flat, List.flatMap_nil, List.nil_append]; rfl)
  · exact h3.trans (by simp [sectionsIn])

/-- A list splits in only one way into parts that start with an h2. -/
theorem split_unique (b : List HNode) : ∀ (b' : List HNode) (nl nl' : List (HNode × List HNode)),
    (∀ x ∈ b, x.kind ≠ .h2) → (∀ x ∈ b', x.kind ≠ .h2) → 
    (∀ p ∈ nl, p.1.kind = .h2 ∧ ∀ b ∈ p.2, b.kind ≠ .h2) → (∀ p ∈ nl', p.1.kind = .h2 ∧ ∀ b ∈ p.2, b.kind ≠ .h2) →
    b ++ flat nl = b' ++ flat nl' → b = b' ∧ flat nl = flat nl' := by
  induction b with
  | nil =>
    intro b' nl nl' _ hb' hn _ he
    cases b' with
    | nil => exact ⟨rfl, he⟩
    | cons x r =>
      cases nl with
      | nil => simp at he
      | cons p q =>
        simp only [flat, List.flatMap_cons, List.nil_append, List.cons_append, List.cons.injEq] at he
        exact absurd (he.1 ▸ (hn p (by simp)).1) (hb' x (by simp))
  | cons x r ih =>
    intro b' nl nl' hb hb' hn hn' he
    cases b' with
    | nil =>
      cases nl' with
      | nil => simp at he
      | cons p q =>
        simp only [flat, List.flatMap_cons, List.nil_append, List.cons_append, List.cons.injEq] at he
        exact absurd (he.1 ▸ (hn' p (by simp)).1) (hb x (by simp))
    | cons y r' =>
      simp only [List.cons_append, List.cons.injEq] at he
      obtain ⟨rfl, he⟩ := he
      obtain ⟨e1, e2⟩ := ih r' nl nl' (fun z hz => hb z (List.mem_cons_of_mem _ hz)) (fun z hz => hb' z (List.mem_cons_of_mem _ hz)) hn hn' he
      exact ⟨by rw [e1], e2⟩

theorem flat_unique (nl : List (HNode × List HNode)) : ∀ nl' : List (HNode × List HNode),
    (∀ p ∈ nl, p.1.kind = .h2 ∧ ∀ b ∈ p.2, b.kind ≠ .h2) → (∀ p ∈ nl', p.1.kind = .h2 ∧ ∀ b ∈ p.2, b.kind ≠ .h2) →
    flat nl = flat nl' → nl = nl' := by
  induction nl with
  | nil =>
    intro nl' _ _ he
    cases nl' with
    | nil => rfl
    | cons p q => simp at he
  | cons p r ih =>
    intro nl' hn hn' he
    cases nl' with
    | nil => simp at he
    | cons p' r' =>
      simp only [flat, List.flatMap_cons, List.cons_append, List.cons.injEq] at he
      obtain ⟨e1, e2⟩ := he
      have hr := fun z hz => hn z (List.mem_cons_of_mem p hz)
      have hr' := fun z hz => hn' z (List.mem_cons_of_mem p' hz)
      obtain ⟨e3, e4⟩ := split_unique p.2 p'.2 r r' (hn p (by simp)).2 (hn' p' (by simp)).2 hr hr' e2
      rw [ih r' hr hr' e4]
      obtain ⟨a, b⟩ := p
      obtain ⟨a', b'⟩ := p'
      simp only at e1 e3
      rw [e1, e3]

theorem mem_depths {c : HNode} {l : List HNode} (h : c ∈ l) : depth c ≤ depths l := by
  induction l with
  | nil => cases h
  | cons k ks ih =>
    rw [depths]
    rcases List.mem_cons.1 h with rfl | h
    · omega
    · have := ih h; omega

theorem depth_lt {c n : HNode} (h : c ∈ sectionsIn n) : depth c < depth n := by
  obtain ⟨k, i, t, kids⟩ := n
  have : c ∈ kids := (List.mem_filter.1 h).1
  have := mem_depths this
  rw [depth]; omega

theorem mapM_idx {α β} {f : α → Option β} {l : List α} {bs : List β} :
    l.mapM f = some bs ↔ bs.length = l.length ∧ ∀ (i : Nat) a b, l[i]? = some a → bs[i]? = some b → f a = some b := by
  rw [mapM_some_iff]
  constructor
  · intro h
    refine ⟨by simpa using (congrArg List.length h).symm, ?_⟩
    intro i a b ha hb
    have := congrArg (fun (l : List (Option β)) => l[i]?) h
    simpa [ha, hb] using this
  · intro ⟨hl, h⟩
    apply List.ext_getElem?
    intro i
    rw [List.getElem?_map, List.getElem?_map]
    cases ha : l[i]? with
    | none =>
      have : bs[i]? = none := by rw [List.getElem?_eq_none_iff] at ha ⊢; omega
      simp [this]
    | some a =>
      have hi := (List.getElem?_eq_some_iff.1 ha).1
      have hb : bs[i]? = some (bs[i]'(by omega)) := List.getElem?_eq_getElem (by omega)
      rw [hb]
      simp [h i a _ ha hb]

theorem makeTree_sound (n : Nat) : ∀ node level s, makeTree n node level = some s → Outline node level s := by
  induction n with
  | zero => intro _ _ _ h; simp [makeTree] at h
  | succ n ih =>
    intro node level s h
    obtain ⟨ok, hflow, hsubs⟩ := fill_ok node
    simp only [makeTree] at h
    cases ht : takeHeading level (fill node.kids).blocks with
    | none => simp [ht] at h
    | some p =>
      obtain ⟨hd, bs⟩ := p
      simp only [ht] at h
      cases hm : (fill node.kids).subs.mapM (fun c => makeTree n c (level + 1)) with
      | none => simp [hm] at h
      | some subs =>
        simp only [hm, Option.some.injEq] at h
        subst h
        rw [hsubs] at hm
        have hm' := (mapM_idx).1 hm
        have hhd : hd.toList ++ bs = (fill node.kids).blocks ∧ (if level = 0 then hd = none else ∃ h, hd = some h ∧ h.kind = .h1) := by
          unfold takeHeading at ht
          split at ht
          · next hl =>
            simp only [Option.some.injEq, Prod.mk.injEq] at ht
            obtain ⟨rfl, rfl⟩ := ht
            simp [hl]
          · next hl =>
            split at ht
            · simp at ht
            · next h0 r he =>
              split at ht
              · next hk =>
                simp only [Option.some.injEq, Prod.mk.injEq] at ht
                obtain ⟨rfl, rfl⟩ := ht
                simp [hl, hk, he]
              · simp at ht
        refine .mk ?_ ?_ ok.numless hhd.2 hm'.1 ?_
        · rw [hhd.1]; exact hflow
        · intro b hb
          exact ok.blocks b (by rw [← hhd.1]; simp [hb])
        · intro i c s hc hs
          exact ih _ _ _ (hm'.2 i c s hc hs)

theorem makeTree_complete (n : Nat) : ∀ node level s, Outline node level s → depth node ≤ n → makeTree n node level = some s := by
  induction n with
  | zero =>
    intro node level s _ hd
    obtain ⟨k, i, t, kids⟩ := node
    rw [depth] at hd; omega
  | succ n ih =>
    intro node level s ho hd
    obtain ⟨ok, hflow, hsubs⟩ := fill_ok node
    cases ho with
    | @mk _ _ heading blocks numless subs h1 h2 h3 h4 h5 h6 =>
      have hb : ∀ x ∈ heading.toList ++ blocks, x.kind ≠ .h2 := by
        intro x hx
        simp only [List.mem_append, Option.mem_toList] at hx
        rcases hx with hx | hx
        · split at h4
          · simp [h4] at hx
          · obtain ⟨h, he, hk⟩ := h4
            simp only [he, Option.some.injEq] at hx
            subst hx; simp [hk]
        · exact h2 x hx
      obtain ⟨e1, e2⟩ := split_unique (fill node.kids).blocks (heading.toList ++ blocks) (fill node.kids).numless numless ok.blocks hb ok.numless h3
        (by rw [hflow]; exact h1.symm)
      have e3 := flat_unique _ _ ok.numless h3 e2
      have ht : takeHeading level (fill node.kids).blocks = some (heading, blocks) := by
        rw [e1]
        unfold takeHeading
        split
        · next hl =>
          simp only [hl, if_true] at h4
          subst h4; rfl
        · next hl =>
          simp only [hl, if_false] at h4
          obtain ⟨h, rfl, hk⟩ := h4
          simp [hk]
      have hm : (fill node.kids).subs.mapM (fun c => makeTree n c (level + 1)) = some subs := by
        rw [hsubs]
        refine mapM_idx.2 ⟨h5, ?_⟩
        intro i c s hc hs
        refine ih _ _ _ (h6 i c s hc hs) ?_
        have := depth_lt (List.mem_of_getElem? hc)
        omega
      simp only [makeTree, ht, hm, e3]

end Verif.Sections
