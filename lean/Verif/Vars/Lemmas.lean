import Verif.Vars.Spec
/-!
# Lemmas about the check of variables
-/
namespace Verif.Vars

/-! ### Nodes and paths -/

mutual
def pathsN : VNode → List (List Nat)
  | .mk _ _ _ kids => [] :: pathsK kids 0
def pathsK : List VNode → Nat → List (List Nat)
  | [], _ => []
  | c :: cs, i => match c.kind with
    | .text => pathsK cs (i + 1)
    | _ => (pathsN c).map (i :: ·) ++ pathsK cs (i + 1)
end

abbrev trip (o : Occ) : VNode × VKind × Nat := (o.node, o.parent, o.index)

/-- The node at a path below the children. -/
def kidAt (p : VKind) (kids : List VNode) (path : List Nat) : Option (VNode × VKind × Nat) :=
  match path with
  | [] => none
  | j :: js => match kids[j]? with
    | none => none
    | some c => if c.kind = .text then none else nodeAt p j c js

theorem pathsK_cons (c : VNode) (cs : List VNode) (i : Nat) :
    pathsK (c :: cs) i = if c.kind = .text then pathsK cs (i + 1) else (pathsN c).map (i :: ·) ++ pathsK cs (i + 1) := by
  rw [pathsK]
  cases c.kind <;> simp

theorem descendAll_cons (p : VKind) (c : VNode) (cs : List VNode) (i : Nat) :
    descendAll p i (c :: cs) = if c.kind = .text then descendAll p (i + 1) cs else descend p i c ++ descendAll p (i + 1) cs := by
  rw [descendAll]
  cases c.kind <;> simp

theorem pathsK_ne : ∀ (cs : List VNode) (i : Nat) (p : List Nat), p ∈ pathsK cs i → p ≠ []
  | [], _, _, h => by simp [pathsK] at h
  | c :: cs, i, p, h => by
    rw [pathsK_cons] at h
    split at h
    · exact pathsK_ne cs (i + 1) p h
    · simp only [List.mem_append, List.mem_map] at h
      rcases h with ⟨a, _, rfl⟩ | h
      · simp
      · exact pathsK_ne cs (i + 1) p h

mutual
theorem pathsN_map : ∀ (n : VNode) (p : VKind) (i : Nat), (pathsN n).map (nodeAt p i n) = (descend p i n).map (fun o => some (trip o))
  | .mk id k t kids, p, i => by
    have h := pathsK_map kids k []
    simp only [pathsN, descend, List.map_cons, nodeAt, List.cons.injEq, true_and]
    refine Eq.trans ?_ h
    apply List.map_congr_left
    intro q hq
    have hne := pathsK_ne kids 0 q hq
    cases q with
    | nil => exact absurd rfl hne
    | cons a q => rfl
theorem pathsK_map : ∀ (cs : List VNode) (p : VKind) (pre : List VNode),
    (pathsK cs pre.length).map (kidAt p (pre ++ cs)) = (descendAll p pre.length cs).map (fun o => some (trip o))
  | [], _, _ => by simp [pathsK, descendAll]
  | c :: cs, p, pre => by
    have h2 := pathsK_map cs p (pre ++ [c])
    simp only [List.length_append, List.length_cons, List.length_nil, List.append_assoc, List.cons_append, List.nil_append, Nat.zero_add] at h2
    rw [pathsK_cons, descendAll_cons]
    split
    · exact h2
    · next hc =>
      have h1 := pathsN_map c p pre.length
      simp only [List.map_append, List.map_map]
      rw [h2, ← h1]
      congr 1
      apply List.map_congr_left
      intro q _
      simp [kidAt, hc]
end

mutual
theorem mem_pathsN : ∀ (n : VNode) (p : VKind) (i : Nat) (q : List Nat), q ∈ pathsN n ↔ (nodeAt p i n q).isSome = true
  | .mk id k t kids, p, i, q => by
    have h := mem_pathsK kids k [] q
    simp only [pathsN, List.mem_cons]
    cases q with
    | nil => simp [nodeAt]
    | cons a q =>
      simp only [List.length_nil, List.nil_append] at h
      rw [h]
      constructor
      · rintro (h' | ⟨_, h'⟩)
        · cases h'
        · exact h'
      · intro h'
        exact .inr ⟨⟨a, q, rfl, by omega⟩, h'⟩
theorem mem_pathsK : ∀ (cs : List VNode) (p : VKind) (pre : List VNode) (q : List Nat), q ∈ pathsK cs pre.length ↔
    (∃ i q', q = i :: q' ∧ pre.length ≤ i) ∧ (kidAt p (pre ++ cs) q).isSome = true
  | [], p, pre, q => by
    simp only [pathsK, List.not_mem_nil, List.append_nil, false_iff]
    rintro ⟨⟨i, q', rfl, h⟩, h'⟩
    simp [kidAt, List.getElem?_eq_none h] at h'
  | c :: cs, p, pre, q => by
    have h2 := mem_pathsK cs p (pre ++ [c]) q
    simp only [List.length_append, List.length_cons, List.length_nil, List.append_assoc, List.cons_append, List.nil_append, Nat.zero_add] at h2
    rw [pathsK_cons]
    have hat : ∀ q', kidAt p (pre ++ c :: cs) (pre.length :: q') = if c.kind = .text then none else nodeAt p pre.length c q' := by
      intro q'; simp [kidAt]
    split
    · next hc =>
      rw [h2]
      constructor
      · rintro ⟨⟨i, q', rfl, hi⟩, h⟩
        exact ⟨⟨i, q', rfl, by omega⟩, h⟩
      · rintro ⟨⟨i, q', rfl, hi⟩, h⟩
        refine ⟨⟨i, q', rfl, ?_⟩, h⟩
        by_cases he : i = pre.length
        · subst he
          rw [hat] at h
          simp [hc] at h
        · omega
    · next hc =>
      simp only [List.mem_append, List.mem_map]
      rw [h2]
      constructor
      · rintro (⟨q', hq, rfl⟩ | ⟨⟨i, q', rfl, hi⟩, h⟩)
        · refine ⟨⟨_, _, rfl, Nat.le_refl _⟩, ?_⟩
          rw [hat]
          simp only [hc, if_false]
          exact (mem_pathsN c p pre.length q').1 hq
        · exact ⟨⟨i, q', rfl, by omega⟩, h⟩
      · rintro ⟨⟨i, q', rfl, hi⟩, h⟩
        by_cases he : i = pre.length
        · subst he
          rw [hat] at h
          simp only [hc, if_false] at h
          exact .inl ⟨q', (mem_pathsN c p pre.length q').2 h, rfl⟩
        · exact .inr ⟨⟨i, q', rfl, by omega⟩, h⟩
end

theorem head_pathsK : ∀ (cs : List VNode) (i : Nat) (q : List Nat), q ∈ pathsK cs i → ∃ j q', q = j :: q' ∧ i ≤ j
  | [], _, _, h => by simp [pathsK] at h
  | c :: cs, i, q, h => by
    rw [pathsK_cons] at h
    split at h
    · obtain ⟨j, q', rfl, hj⟩ := head_pathsK cs (i + 1) q h
      exact ⟨j, q', rfl, by omega⟩
    · simp only [List.mem_append, List.mem_map] at h
      rcases h with ⟨a, _, rfl⟩ | h
      · exact ⟨i, a, rfl, Nat.le_refl _⟩
      · obtain ⟨j, q', rfl, hj⟩ := head_pathsK cs (i + 1) q h
        exact ⟨j, q', rfl, by omega⟩

mutual
theorem sorted_pathsN : ∀ (n : VNode), (pathsN n).Pairwise (· < ·)
  | .mk id k t kids => by
    simp only [pathsN, List.pairwise_cons]
    refine ⟨?_, sorted_pathsK kids 0⟩
    intro p hp
    obtain ⟨j, q, rfl, _⟩ := head_pathsK kids 0 p hp
    exact List.nil_lt_cons j q
theorem sorted_pathsK : ∀ (cs : List VNode) (i : Nat), (pathsK cs i).Pairwise (· < ·)
  | [], _ => by simp [pathsK]
  | c :: cs, i => by
    rw [pathsK_cons]
    split
    · exact sorted_pathsK cs (i + 1)
    · rw [List.pairwise_append]
      refine ⟨?_, sorted_pathsK cs (i + 1), ?_⟩
      · rw [List.pairwise_map]
        refine (sorted_pathsN c).imp ?_
        intro a b h
        rw [List.cons_lt_cons_iff]
        exact .inr ⟨rfl, h⟩
      · intro p hp q hq
        obtain ⟨j, q', rfl, hj⟩ := head_pathsK cs (i + 1) q hq
        obtain ⟨p', _, rfl⟩ := List.mem_map.1 hp
        rw [List.cons_lt_cons_iff]
        exact .inl (by omega)
end

/-- The first element that `f` accepts, in the order of paths. -/
theorem first_filterMap {O : Type} (g : List Nat → Option O) (f : O → Option Nat) : ∀ (ps : List (List Nat)) (l : List O),
    ps.map g = l.map some → ps.Pairwise (· < ·) → ∀ i r, l.filterMap f = i :: r →
    ∃ p ∈ ps, ∃ o, g p = some o ∧ f o = some i ∧ ∀ q ∈ ps, ∀ o', g q = some o' → f o' ≠ none → ¬ q < p
  | [], [], _, _, i, r, h => by simp at h
  | [], o :: l, hm, _, _, _, _ => by simp at hm
  | p :: ps, [], hm, _, _, _, _ => by simp at hm
  | p :: ps, o :: l, hm, hs, i, r, h => by
    simp only [List.map_cons, List.cons.injEq] at hm
    rw [List.pairwise_cons] at hs
    cases hf : f o with
    | some j =>
      simp only [List.filterMap_cons, hf, List.cons.injEq] at h
      refine ⟨p, by simp, o, hm.1, by rw [hf, h.1], ?_⟩
      intro q hq o' _ _ hlt
      rcases List.mem_cons.1 hq with rfl | hq
      · exact List.lt_irrefl _ hlt
      · exact List.lt_irrefl _ (List.lt_trans (hs.1 q hq) hlt)
    | none =>
      simp only [List.filterMap_cons, hf] at h
      obtain ⟨p', hp', o', h1, h2, h3⟩ := first_filterMap g f ps l hm.2 hs.2 i r h
      refine ⟨p', List.mem_cons_of_mem _ hp', o', h1, h2, ?_⟩
      intro q hq o'' hq' hf'
      rcases List.mem_cons.1 hq with rfl | hq
      · rw [hm.1] at hq'
        injection hq' with hq'
        subst hq'
        exact absurd hf hf'
      · exact h3 q hq o'' hq' hf'

/-! ### Things -/

def get (x : String) : Things → Option Thing
  | [] => none
  | (n, t) :: r => if n = x then some t else get x r

theorem get_update (f : Thing → Thing) (x y : String) (ts : Things) :
    get y (update f x ts) = if y = x then some (f ((get x ts).getD ⟨[], [], false⟩)) else get y ts := by
  induction ts with
  | nil =>
    by_cases h : y = x
    · subst h; simp [update, get]
    · simp [update, get, h, Ne.symm h]
  | cons p r ih =>
    obtain ⟨n, t⟩ := p
    rw [update]
    by_cases hn : n = x
    · subst hn
      by_cases h : y = n
      · subst h; simp [get]
      · simp [get, h, Ne.symm h]
    · simp only [hn, if_false, get]
      by_cases h : y = x
      · subst h
        simp only [hn, if_false, if_true, ih]
      · rw [ih]
        simp [h]

theorem keys_update (f : Thing → Thing) (x : String) (ts : Things) (h : (ts.map (·.1)).Nodup) :
    ((update f x ts).map (·.1)).Nodup ∧ ∀ y, y ∈ (update f x ts).map (·.1) → y = x ∨ y ∈ ts.map (·.1) := by
  induction ts with
  | nil => simp [update]
  | cons p r ih =>
    obtain ⟨n, t⟩ := p
    simp only [List.map_cons, List.nodup_cons] at h
    obtain ⟨h1, h2⟩ := ih h.2
    rw [update]
    by_cases hn : n = x
    · simp only [hn, if_true, List.map_cons, List.nodup_cons]
      subst hn
      exact ⟨h, fun y hy => .inr hy⟩
    · simp only [hn, if_false, List.map_cons, List.nodup_cons]
      refine ⟨⟨?_, h1⟩, ?_⟩
      · intro hm
        rcases h2 n hm with h' | h'
        · exact hn h'
        · exact h.1 h'
      · intro y hy
        rcases List.mem_cons.1 hy with rfl | hy
        · exact .inr (by simp)
        · rcases h2 y hy with h' | h'
          · exact .inl h'
          · exact .inr (by simp only [List.mem_cons]; exact .inr h')

theorem get_mem {ts : Things} (h : (ts.map (·.1)).Nodup) {x : String} {t : Thing} : get x ts = some t ↔ (x, t) ∈ ts := by
  induction ts with
  | nil => simp [get]
  | cons p r ih =>
    obtain ⟨n, s⟩ := p
    simp only [List.map_cons, List.nodup_cons] at h
    rw [get]
    by_cases hn : n = x
    · subst hn
      simp only [if_true, Option.some.injEq, List.mem_cons, Prod.mk.injEq, true_and]
      constructor
      · intro he; exact .inl he.symm
      · rintro (he | he)
        · exact he.symm
        · exact absurd (List.mem_map.2 ⟨_, he, rfl⟩) h.1
    · simp only [hn, if_false, List.mem_cons, Prod.mk.injEq]
      rw [ih h.2]
      constructor
      · exact .inr
      · rintro (⟨he, _⟩ | he)
        · exact absurd he.symm hn
        · exact he

/-- The three parts of what is known about a variable. -/
abbrev dDefs (ts : Things) (x : String) : List (Option Nat) := ((get x ts).getD ⟨[], [], false⟩).defs
abbrev dUses (ts : Things) (x : String) : List Nat := ((get x ts).getD ⟨[], [], false⟩).uses
abbrev dOkay (ts : Things) (x : String) : Bool := ((get x ts).getD ⟨[], [], false⟩).okay

def isDef (x : String) (o : Occ) : Option Nat :=
  if o.node.kind = .var ∧ o.node.text = x ∧ o.parent = .defvar then some o.node.id else none
def isUse (x : String) (o : Occ) : Option Nat :=
  if o.node.kind = .var ∧ o.node.text = x ∧ o.parent ≠ .defvar ∧ ¬ (o.parent = .sorted ∧ o.index = 3) then some o.node.id else none

theorem visit_ok (ts : Things) (o : Occ) (x : String) :
    dDefs (visit ts o) x = dDefs ts x ++ ((isDef x o).map some).toList ∧
    dUses (visit ts o) x = dUses ts x ++ (isUse x o).toList ∧
    dOkay (visit ts o) x = dOkay ts x := by
  unfold visit isDef isUse
  by_cases hk : o.node.kind = .var
  · simp only [hk, if_true, true_and]
    by_cases hx : x = o.node.text
    · subst hx
      by_cases hd : o.parent = .defvar
      · simp [hd, get_update, dDefs, dUses, dOkay]
      · by_cases hs : o.parent = .sorted ∧ o.index = 3
        · simp [hs, get_update, dDefs, dUses, dOkay]
        · simp [hd, hs, get_update, dDefs, dUses, dOkay]
    · have hx' : ¬ o.node.text = x := fun h => hx h.symm
      by_cases hd : o.parent = .defvar
      · simp [hd, hx', get_update, dDefs, dUses, dOkay, hx]
      · by_cases hs : o.parent = .sorted ∧ o.index = 3
        · simp [hs, hx', get_update, dDefs, dUses, dOkay, hx]
        · simp [hd, hs, hx', get_update, dDefs, dUses, dOkay, hx]
  · simp [hk]

theorem visits_ok (l : List Occ) (x : String) : ∀ ts : Things,
    dDefs (l.foldl visit ts) x = dDefs ts x ++ (l.filterMap (isDef x)).map some ∧
    dUses (l.foldl visit ts) x = dUses ts x ++ l.filterMap (isUse x) ∧
    dOkay (l.foldl visit ts) x = dOkay ts x := by
  induction l with
  | nil => intro ts; simp
  | cons o l ih =>
    intro ts
    obtain ⟨h1, h2, h3⟩ := ih (visit ts o)
    obtain ⟨g1, g2, g3⟩ := visit_ok ts o x
    simp only [List.foldl_cons]
    rw [h1, h2, h3, g1, g2, g3]
    refine ⟨?_, ?_, rfl⟩
    · cases hd : isDef x o <;> simp [List.filterMap_cons, hd]
    · cases hd : isUse x o <;> simp [List.filterMap_cons, hd]

theorem visits_nodup (l : List Occ) : ∀ ts : Things, (ts.map (·.1)).Nodup → ((l.foldl visit ts).map (·.1)).Nodup := by
  induction l with
  | nil => intro ts h; exact h
  | cons o l ih =>
    intro ts h
    refine ih _ ?_
    unfold visit
    split
    · split
      · exact (keys_update _ _ _ h).1
      · split <;> exact (keys_update _ _ _ h).1
    · exact h

def headerDefs (h : Header) (x : String) : List (Option Nat) :=
  (h.params.filter (fun p => p.1 = x)).map (·.2) ++ (match h.forVar with
    | some (y, i) => if y = x then [some i] else []
    | none => [])

theorem params_ok (disc : Bool) (x : String) (l : List (String × Option Nat)) : ∀ ts : Things,
    let ts' := l.foldl (fun ts p => update (fun t => { t with defs := t.defs ++ [p.2], okay := disc }) p.1 ts) ts
    dDefs ts' x = dDefs ts x ++ (l.filter (fun p => p.1 = x)).map (·.2) ∧ dUses ts' x = dUses ts x ∧
    dOkay ts' x = (if x ∈ l.map (·.1) then disc else dOkay ts x) ∧ ((ts.map (·.1)).Nodup → (ts'.map (·.1)).Nodup) := by
  induction l with
  | nil => intro ts; simp
  | cons p l ih =>
    intro ts
    obtain ⟨y, d⟩ := p
    obtain ⟨h1, h2, h3, h4⟩ := ih (update (fun t => { t with defs := t.defs ++ [d], okay := disc }) y ts)
    simp only [List.foldl_cons]
    refine ⟨?_, ?_, ?_, fun h => h4 (keys_update _ _ _ h).1⟩
    · rw [h1]
      by_cases hy : x = y
      · subst hy; simp [dDefs, get_update]
      · have : ¬ y = x := fun h => hy h.symm
        simp [dDefs, get_update, hy, this]
    · rw [h2]
      by_cases hy : x = y
      · subst hy; simp [dUses, get_update]
      · simp [dUses, get_update, hy]
    · rw [h3]
      by_cases hy : x = y
      · subst hy
        simp only [dOkay, get_update, List.map_cons, List.mem_cons, true_or, if_true, Option.getD_some, ite_self]
      · simp only [dOkay, get_update, hy, if_false, List.map_cons, List.mem_cons, false_or]

theorem header_ok (h : Header) (x : String) : dDefs (fromHeader h) x = headerDefs h x ∧ dUses (fromHeader h) x = [] ∧
    (dOkay (fromHeader h) x = true ↔ h.discriminated = true ∧ Declares h x) ∧ ((fromHeader h).map (·.1)).Nodup := by
  obtain ⟨h1, h2, h3, h4⟩ := params_ok h.discriminated x h.params []
  have h4 := h4 (by simp)
  have hex : x ∈ h.params.map (·.1) ↔ ∃ d, (x, d) ∈ h.params := by simp
  unfold fromHeader headerDefs Declares
  cases hf : h.forVar with
  | none =>
    simp only [List.append_nil]
    refine ⟨by rw [h1]; simp [dDefs, get], by rw [h2]; simp [dUses, get], ?_, h4⟩
    rw [h3]
    by_cases hd : ∃ d, (x, d) ∈ h.params
    · rw [if_pos (hex.2 hd)]; simp [hd]
    · rw [if_neg (fun h => hd (hex.1 h))]; simp [hd, dOkay, get]
  | some q =>
    obtain ⟨y, i⟩ := q
    simp only
    refine ⟨?_, ?_, ?_, (keys_update _ _ _ h4).1⟩
    · by_cases hy : x = y
      · subst hy
        simp only [dDefs, get_update, if_true, Option.getD_some] at h1 ⊢
        rw [h1]; simp [get]
      · have : ¬ y = x := fun h => hy h.symm
        simp only [dDefs, get_update, hy, if_false, this, List.append_nil] at h1 ⊢
        rw [h1]; simp [get]
    · by_cases hy : x = y
      · subst hy
        simp only [dUses, get_update, if_true, Option.getD_some] at h2 ⊢
        rw [h2]; simp [get]
      · simp only [dUses, get_update, hy, if_false] at h2 ⊢
        rw [h2]; simp [get]
    · by_cases hy : x = y
      · subst hy
        simp [dOkay, get_update]
      · have hy' : ¬ y = x := fun h => hy h.symm
        simp only [dOkay, get_update, hy, if_false] at h3 ⊢
        rw [h3]
        by_cases hd : ∃ d, (x, d) ∈ h.params
        · rw [if_pos (hex.2 hd)]; simp [hd]
        · rw [if_neg (fun h => hd (hex.1 h))]; simp [hd, get, hy']

end Verif.Vars
