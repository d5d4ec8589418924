import Verif.Focus.Lemmas
/-!
# C65: references to the nonterminals of a production
-/
namespace Verif.Focus
open Verif.Gram (Sym Item IKind)
open Verif.Sdo (Name Puk Tree NtDef Conf Kids Plain isOpt label)

variable {G : Name → NtDef}

theorem map_of (hp : Plain G) {s : Name} {rhss : List (List Item)} {its : List Item} {bits : List Char} {cs : List Tree} (hg : G s = .main rhss) (hi : its ∈ rhss) (hk : Kids G its bits cs) (n : Name) :
    ∃ m rs, makeMap (.node s (label its) bits cs) = some m ∧ Stands n its cs rs ∧ rs.map Ref.there = marks n its bits ∧
      refs m n = (if s = n then [.node (.node s (label its) bits cs)] else []) ++ rs ∧ ∀ r ∈ rs, checked n r = some r := by
  obtain ⟨h1, rs, h2, h3⟩ := kids_stands hp n hk (fun k t => hp.optional s rhss its k t hg hi)
  obtain ⟨m, h4, h5, h6⟩ := stands_refs h2 h1
  refine ⟨(s, .node (.node s (label its) bits cs)) :: m, rs, ?_, h2, h3, ?_, h6⟩
  · simp only [makeMap, kids, entries, entry, isOpt_false (hp.names s rhss hg), h4]; rfl
  · rw [← List.singleton_append, refs_append, refs_one, h5]

theorem stands_unique (hp : Plain G) {s : Name} {rhss : List (List Item)} {its : List Item} {bits : List Char} {cs : List Tree} (hg : G s = .main rhss) (hi : its ∈ rhss) (hk : Kids G its bits cs) {n : Name}
    {rs rs' : List Ref} (h : Stands n its cs rs) (h' : Stands n its cs rs') : rs = rs' := by
  obtain ⟨h1, _⟩ := kids_stands hp n hk (fun k t => hp.optional s rhss its k t hg hi)
  obtain ⟨m, g1, g2, _⟩ := stands_refs h h1
  obtain ⟨m', g3, g4, _⟩ := stands_refs h' h1
  rw [g1] at g3
  cases g3
  rw [← g2, g4]

/-- C65: every nonterminal stands for something, in one way, at each node of a tree of the grammar. -/
theorem c65_stands (hp : Plain G) (s : Name) (rhss : List (List Item)) (its : List Item) (bits : List Char) (cs : List Tree) (hg : G s = .main rhss) (hi : its ∈ rhss) (hk : Kids G its bits cs) (n : Name) :
    ∃ rs, Stands n its cs rs ∧ ∀ rs', Stands n its cs rs' → rs' = rs := by
  obtain ⟨m, rs, _, h, _⟩ := map_of hp hg hi hk n
  exact ⟨rs, h, fun rs' h' => stands_unique hp hg hi hk h' h⟩

/-- C65: the execution of an algorithm on a node of a tree of the grammar: a reference is resolved exactly to what it means. -/
theorem c65_resolves (hp : Plain G) (s : Name) (rhss : List (List Item)) (its : List Item) (bits : List Char) (cs : List Tree) (hg : G s = .main rhss) (hi : its ∈ rhss) (hk : Kids G its bits cs) (n : Name)
    (rs : List Ref) (hs : Stands n its cs rs) :
    ∃ m, makeMap (.node s (label its) bits cs) = some m ∧
      ∀ o r, resolve ⟨s, label its, bits⟩ m o n = some r ↔ Means n (.node s (label its) bits cs) ⟨s, label its, bits⟩ rs o r := by
  obtain ⟨m, rs', h1, h2, _, h4, h5⟩ := map_of hp hg hi hk n
  obtain rfl := stands_unique hp hg hi hk hs h2
  exact ⟨m, h1, fun o r => resolve_iff _ ⟨s, label its, bits⟩ m rs (by simp [checked]) h5 h4 o r⟩

/-- C65: the analysis gives up on a reference exactly if it doesn't fit one of the productions. -/
theorem c65_static_stops (x : Prefix) (n : Name) (ps : List (Name × List (List Item))) :
    sResolve x n ps = none ↔ ∃ lhs rhss its os, (lhs, rhss) ∈ ps ∧ its ∈ rhss ∧ Occ n its os ∧ Unfit n lhs os x := by
  rw [sResolve, (sLoop_spec x n _).1]
  constructor
  · rintro ⟨q, lhs, its, h1, h2⟩
    obtain ⟨rhss, h3, h4⟩ := mem_sites'.1 ⟨q, h1⟩
    exact ⟨lhs, rhss, its, _, h3, h4, occ_named n its, h2⟩
  · rintro ⟨lhs, rhss, its, os, h1, h2, h3, h4⟩
    obtain rfl := occ_iff.1 h3
    obtain ⟨q, hq⟩ := mem_sites'.2 ⟨rhss, h1, h2⟩
    exact ⟨q, lhs, its, hq, h4⟩

/-- C65: the analysis complains about a reference exactly at the productions where it is ambiguous. -/
theorem c65_static_errors (x : Prefix) (n : Name) (ps : List (Name × List (List Item))) (es : List ((Nat × Nat) × Nat)) (a : Bool) (h : sResolve x n ps = some (es, a)) (i j k : Nat) :
    ((i, j), k) ∈ es ↔ x = .bare ∧ 2 ≤ k ∧ ∃ lhs rhss its os, 1 ≤ i ∧ ps[i - 1]? = some (lhs, rhss) ∧ 1 ≤ j ∧ rhss[j - 1]? = some its ∧ Occ n its os ∧ k = total n lhs os := by
  rw [((sLoop_spec x n _).2 es a h).1]
  constructor
  · rintro ⟨lhs, its, h1, h2, h3, h4⟩
    obtain ⟨rhss, g1, g2, g3, g4⟩ := mem_sites.1 h1
    exact ⟨h2, h4, lhs, rhss, its, _, g1, g2, g3, g4, occ_named n its, h3⟩
  · rintro ⟨h1, h2, lhs, rhss, its, os, g1, g2, g3, g4, g5, g6⟩
    obtain rfl := occ_iff.1 g5
    exact ⟨lhs, its, mem_sites.2 ⟨rhss, g1, g2, g3, g4⟩, h1, g6, h2⟩

/-- C65: the type allows for a missing node exactly if one of the productions does. -/
theorem c65_static_type (x : Prefix) (n : Name) (ps : List (Name × List (List Item))) (es : List ((Nat × Nat) × Nat)) (a : Bool) (h : sResolve x n ps = some (es, a)) :
    a = true ↔ ∃ lhs rhss its os, (lhs, rhss) ∈ ps ∧ its ∈ rhss ∧ Occ n its os ∧ MayMiss n lhs os x := by
  rw [((sLoop_spec x n _).2 es a h).2]
  constructor
  · rintro ⟨q, lhs, its, h1, h2⟩
    obtain ⟨rhss, h3, h4⟩ := mem_sites'.1 ⟨q, h1⟩
    exact ⟨lhs, rhss, its, _, h3, h4, occ_named n its, h2⟩
  · rintro ⟨lhs, rhss, its, os, h1, h2, h3, h4⟩
    obtain rfl := occ_iff.1 h3
    obtain ⟨q, hq⟩ := mem_sites'.2 ⟨rhss, h1, h2⟩
    exact ⟨q, lhs, its, hq, h4⟩

/-- C65: if the analysis has no objections to a reference in an algorithm for some productions, then it can be resolved at each node that is shown by one of the productions with all occurrences of the nonterminal
(and with several, for a reference with a number); it gives a node with this symbol, or nothing, and this only if the type says so. -/
theorem c65_sound (hp : Plain G) (s : Name) (rhss : List (List Item)) (its : List Item) (bits : List Char) (cs : List Tree) (hg : G s = .main rhss) (hi : its ∈ rhss) (hk : Kids G its bits cs)
    (x : Prefix) (n : Name) (ps : List (Name × List (List Item))) (a : Bool) (h : sResolve x n ps = some ([], a))
    (hss : List (List Item)) (hs : List Item) (h1 : (s, hss) ∈ ps) (h2 : hs ∈ hss) (hw : Shows hs its bits) (os os' : List Bool) (ho : Occ n hs os) (ho' : Occ n its os') (hl : os.length = os'.length)
    (hx : x ∈ [Prefix.first, .second, .third, .fourth] → 2 ≤ os.length) :
    ∃ m r, makeMap (.node s (label its) bits cs) = some m ∧ exec m x n (.node s (label its) bits cs) = some r ∧ (r = .absent ∧ a = true ∨ ∃ u, r = .node u ∧ HasSym n u) := by
  obtain ⟨m, rs, g1, g2, g3, g4, g5⟩ := map_of hp hg hi hk n
  obtain rfl := occ_iff.1 ho
  obtain rfl := occ_iff.1 ho'
  have hml := marks_len n hk (fun k t => hp.optional s rhss its k t hg hi)
  have hlen : rs.length = (named n hs).length := by
    have := congrArg List.length g3
    rw [List.length_map] at this
    omega
  have habs : ∀ (i : Nat), rs[i]? = some .absent → (named n hs)[i]? = some true := by
    intro i hi'
    refine (shows_marks hw n).2 (by omega) i ?_
    rw [← g3, List.getElem?_map, hi']
    rfl
  have hmiss : MayMiss n s (named n hs) x → a = true := fun hm => (c65_static_type x n ps [] a h).2 ⟨s, hss, hs, _, h1, h2, occ_named n hs, hm⟩
  have hfit : ¬ Unfit n s (named n hs) x := fun hu => by
    have := (c65_static_stops x n ps).2 ⟨s, hss, hs, _, h1, h2, occ_named n hs, hu⟩
    rw [h] at this; cases this
  have hone : x = .bare → total n s (named n hs) < 2 := by
    intro hb
    refine Nat.lt_of_not_le fun hge => ?_
    obtain ⟨⟨i, j⟩, hq⟩ := mem_sites'.2 ⟨hss, h1, h2⟩
    obtain ⟨hss', e1, e2, e3, e4⟩ := mem_sites.1 hq
    have := (c65_static_errors x n ps [] a h i j (total n s (named n hs))).2 ⟨hb, hge, s, hss', hs, _, e1, e2, e3, e4, occ_named n hs, rfl⟩
    cases this
  have hr := resolve_iff (.node s (label its) bits cs) ⟨s, label its, bits⟩ m rs (by simp [checked]) g5 g4
  have fin : ∀ (i : Nat) r, rs[i]? = some r → ((named n hs)[i]? = some true → MayMiss n s (named n hs) x) → (r = .absent ∧ a = true ∨ ∃ u, r = .node u ∧ HasSym n u) := by
    intro i r hri hmm
    rcases checked_sym (g5 r (List.mem_of_getElem? hri)) with rfl | hu
    · exact .inl ⟨rfl, hmiss (hmm (habs i hri))⟩
    · exact .inr hu
  have nth : ∀ (j : Nat), x ∈ [Prefix.first, .second, .third, .fourth] → x.num = j + 1 → (∀ m', exec m' x n (.node s (label its) bits cs) = resolve ⟨s, label its, bits⟩ m' (.num x.num) n) →
      s ≠ n → j < (named n hs).length → ((named n hs)[j]? = some true → MayMiss n s (named n hs) x) →
      ∃ m r, makeMap (.node s (label its) bits cs) = some m ∧ exec m x n (.node s (label its) bits cs) = some r ∧ (r = .absent ∧ a = true ∨ ∃ u, r = .node u ∧ HasSym n u) := by
    intro j hxm hj he hsn hlt hmm
    have hlt' : j < rs.length := by omega
    have hget : rs[j]? = some rs[j] := List.getElem?_eq_getElem hlt'
    refine ⟨m, rs[j], g1, ?_, fin j _ hget hmm⟩
    rw [he, hr, hj]
    exact .nth hsn (by have := hx hxm; omega) (by omega) hget
  cases x with
  | this =>
    have hsn : s = n := Classical.byContradiction fun e => hfit (.this e)
    subst hsn
    exact ⟨m, .node (.node s (label its) bits cs), g1, by rw [exec]; exact if_pos rfl, .inr ⟨_, rfl, .node⟩⟩
  | bare =>
    have hone := hone rfl
    rw [total] at hone
    by_cases hsn : s = n
    · rw [if_pos hsn] at hone
      have h0 : rs = [] := List.length_eq_zero_iff.1 (by omega)
      refine ⟨m, _, g1, (hr _ _).2 (.self hsn h0), .inr ⟨_, rfl, ?_⟩⟩
      subst hsn
      exact .node
    · rw [if_neg hsn] at hone
      match rs, hlen, fin, hr with
      | [], hlen, fin, hr =>
        refine ⟨m, .absent, g1, (hr .no .absent).2 (.missing hsn rfl), .inl ⟨rfl, hmiss (.missing hsn (List.length_eq_zero_iff.1 hlen.symm))⟩⟩
      | [r], hlen, fin, hr =>
        exact ⟨m, r, g1, (hr _ _).2 (.only hsn rfl), fin 0 r rfl (fun ht => .bare (List.mem_of_getElem? ht))⟩
      | _ :: _ :: _, hlen, _, _ =>
        simp only [List.length_cons] at hlen
        omega
  | derived =>
    have hsn : s = n := Classical.byContradiction fun e => hfit (.derived (.inl e))
    have h1' : (named n hs).length = 1 := Classical.byContradiction fun e => hfit (.derived (.inr e))
    match rs, hlen, fin, hr with
    | [], hlen, _, _ => rw [h1'] at hlen; cases hlen
    | [r], hlen, fin, hr =>
      exact ⟨m, r, g1, (hr _ _).2 (.derived hsn rfl), fin 0 r rfl (fun ht => .derived (List.mem_of_getElem? ht))⟩
    | _ :: _ :: _, hlen, _, _ =>
      simp only [List.length_cons] at hlen
      omega
  | first => exact nth 0 (by simp) rfl (fun _ => rfl) (fun e => hfit (.first (.inl e))) (Nat.lt_of_not_le fun hge => hfit (.first (.inr (by omega)))) (fun ht => .first ht)
  | second => exact nth 1 (by simp) rfl (fun _ => rfl) (fun e => hfit (.second (.inl e))) (Nat.lt_of_not_le fun hge => hfit (.second (.inr (by omega)))) (fun ht => .second ht)
  | third => exact nth 2 (by simp) rfl (fun _ => rfl) (fun e => hfit (.third (.inl e))) (Nat.lt_of_not_le fun hge => hfit (.third (.inr (by omega)))) (fun ht => .third ht)
  | fourth => exact nth 3 (by simp) rfl (fun _ => rfl) (fun e => hfit (.fourth (.inl e))) (Nat.lt_of_not_le fun hge => hfit (.fourth (.inr (by omega)))) (fun ht => .fourth ht)

/-! ### Conditions that add to the references -/

def symIs (n : Name) : Tree → Bool
  | .leaf => false
  | .node s _ _ _ => s = n

theorem symIs_iff {n : Name} {t : Tree} : symIs n t = true ↔ HasSym n t := by
  cases t with
  | leaf => exact ⟨fun h => (by cases h), fun h => (by cases h)⟩
  | node s r b cs =>
    rw [symIs, decide_eq_true_eq]
    exact ⟨fun h => h ▸ .node, fun h => by cases h; rfl⟩

/-- No two with the same symbol. -/
def Distinct (cs : List Tree) : Prop := cs.Pairwise (fun c d => ∀ s, HasSym s c → ¬ HasSym s d)

theorem filter_distinct {n : Name} {c : Tree} (hn : HasSym n c) : ∀ {cs : List Tree}, Distinct cs → c ∈ cs → cs.filter (symIs n) = [c]
  | d :: cs, hd, hc => by
    obtain ⟨h1, h2⟩ := List.pairwise_cons.1 hd
    rcases List.mem_cons.1 hc with rfl | hc
    · rw [List.filter_cons_of_pos (symIs_iff.2 hn)]
      congr 1
      exact List.filter_eq_nil_iff.2 fun e he hs => h1 e he n hn (symIs_iff.1 hs)
    · rw [List.filter_cons_of_neg (fun hs => h1 c hc n (symIs_iff.1 hs) hn)]
      exact filter_distinct hn h2 hc

/-- All are nonterminals that aren't known. -/
def Fresh (m : FocusMap) (cs : List Tree) : Prop := ∀ c ∈ cs, ∃ s, HasSym s c ∧ s.getLast? ≠ some '?' ∧ refs m s = []

theorem augmentLoop_spec : ∀ (cs : List Tree) (m : FocusMap),
    (∀ m', augmentLoop m cs = some m' → Fresh m cs ∧ Distinct cs ∧ ∀ n, refs m' n = refs m n ++ (cs.filter (symIs n)).map Ref.node) ∧
    (Fresh m cs → Distinct cs → ∃ m', augmentLoop m cs = some m')
  | [], m => by
    refine ⟨fun m' h => ?_, fun _ _ => ⟨m, rfl⟩⟩
    cases h
    exact ⟨fun c h => (by cases h), .nil, fun n => by simp⟩
  | .leaf :: cs, m => by
    refine ⟨fun m' h => (by cases h), fun h _ => ?_⟩
    obtain ⟨s, h1, _⟩ := h _ (List.mem_cons_self ..)
    cases h1
  | .node s r b gs :: cs, m => by
    obtain ⟨i1, i2⟩ := augmentLoop_spec cs (m ++ [(s, .node (.node s r b gs))])
    rw [augmentLoop]
    constructor
    · intro m' h
      by_cases ho : isOpt s = true
      · rw [if_pos ho] at h; cases h
      · rw [if_neg ho] at h
        by_cases he : (refs m s).isEmpty = true
        · rw [if_pos he] at h
          obtain ⟨g1, g3, g2⟩ := i1 m' h
          have he' : refs m s = [] := List.isEmpty_iff.1 he
          have hs : s.getLast? ≠ some '?' := by simpa [isOpt] using ho
          refine ⟨fun c hc => ?_, List.pairwise_cons.2 ⟨fun d hd s' h1 h2 => ?_, g3⟩, fun n => ?_⟩
          · rcases List.mem_cons.1 hc with rfl | hc
            · exact ⟨s, .node, hs, he'⟩
            · obtain ⟨s', e1, e2, e3⟩ := g1 c hc
              rw [refs_append] at e3
              exact ⟨s', e1, e2, (List.append_eq_nil_iff.1 e3).1⟩
          · cases h1
            obtain ⟨s'', e1, _, e3⟩ := g1 d hd
            cases h2
            cases e1
            rw [refs_append, refs_one, if_pos rfl] at e3
            simp at e3
          · rw [g2 n, refs_append, refs_one]
            by_cases e : s = n
            · simp [e, symIs, List.filter_cons]
            · simp [e, symIs, List.filter_cons]
        · rw [if_neg he] at h; cases h
    · intro h1 h2
      obtain ⟨s', e1, e2, e3⟩ := h1 _ (List.mem_cons_self ..)
      cases e1
      obtain ⟨p1, p2⟩ := List.pairwise_cons.1 h2
      have ho : ¬ isOpt s = true := by rw [isOpt_false e2]; simp
      rw [if_neg ho, e3, if_pos List.isEmpty_nil]
      refine i2 (fun c hc => ?_) p2
      obtain ⟨s', e1, e2, e3⟩ := h1 c (List.mem_cons_of_mem _ hc)
      refine ⟨s', e1, e2, ?_⟩
      have : s ≠ s' := fun e => p1 c hc s .node (e ▸ e1)
      rw [refs_append, refs_one, if_neg this, e3]
      rfl

/-- C65: a condition that asks whether a node is an instance of a production makes the children of the node known; the program stops exactly if the node isn't known, or a child isn't a
nonterminal, or is optional, or one with this symbol is known already. -/
theorem c65_augment (m : FocusMap) (s : Name) (r b : List Char) (cs : List Tree) :
    (∃ m', augment m (.node s r b cs) = some m') ↔ Ref.node (.node s r b cs) ∈ refs m s ∧ (∀ c ∈ cs, ∃ s', HasSym s' c ∧ s'.getLast? ≠ some '?' ∧ refs m s' = []) ∧
      cs.Pairwise (fun c d => ∀ s', HasSym s' c → ¬ HasSym s' d) := by
  rw [augment]
  by_cases h : (refs m s).any (Ref.is (.node s r b cs)) = true
  · rw [if_pos h]
    rw [any_is] at h
    obtain ⟨g1, g2⟩ := augmentLoop_spec cs m
    exact ⟨fun ⟨m', hm⟩ => ⟨h, (g1 m' hm).1, (g1 m' hm).2.1⟩, fun hh => g2 hh.2.1 hh.2.2⟩
  · rw [if_neg h]
    rw [any_is] at h
    exact ⟨fun ⟨m', hm⟩ => (by cases hm), fun hh => absurd hh.1 h⟩

theorem augment_refs {m m' : FocusMap} {s : Name} {r b : List Char} {cs : List Tree} (h : augment m (.node s r b cs) = some m') : Fresh m cs ∧ Distinct cs ∧ ∀ n, refs m' n = refs m n ++ (cs.filter (symIs n)).map Ref.node := by
  rw [augment] at h
  by_cases hc : (refs m s).any (Ref.is (.node s r b cs)) = true
  · rw [if_pos hc] at h
    exact (augmentLoop_spec cs m).1 m' h
  · rw [if_neg hc] at h; cases h

/-- C65: after that, a reference to a child gives the child, and all others give what they gave before. -/
theorem c65_augmented (m m' : FocusMap) (s : Name) (r b : List Char) (cs : List Tree) (h : augment m (.node s r b cs) = some m') (p : Puk) (n : Name) :
    (∀ c ∈ cs, HasSym n c → resolve p m' .no n = some (.node c)) ∧ ((∀ c ∈ cs, ¬ HasSym n c) → ∀ o, resolve p m' o n = resolve p m o n) := by
  obtain ⟨hf, hd, hr⟩ := augment_refs h
  constructor
  · intro c hc hn
    obtain ⟨s', f1, _, f3⟩ := hf c hc
    have hss : s' = n := by cases f1; cases hn; rfl
    subst hss
    have e1 := hr s'
    rw [f3, filter_distinct hn hd hc] at e1
    rw [resolve, e1]
    cases hn
    exact if_pos rfl
  · intro hno o
    have e1 := hr n
    rw [List.filter_eq_nil_iff.2 fun d hd hs => hno d hd (symIs_iff.1 hs)] at e1
    have e1 : refs m' n = refs m n := by rw [e1]; simp
    rw [resolve, resolve, e1]

/-- C65: asking twice stops the program, if the node has children. -/
theorem c65_ask_twice_witness (m m' : FocusMap) (s : Name) (r b : List Char) (c : Tree) (cs : List Tree) (h : augment m (.node s r b (c :: cs)) = some m') : augment m' (.node s r b (c :: cs)) = none := by
  obtain ⟨hf, hd, hr⟩ := augment_refs h
  cases hm : augment m' (.node s r b (c :: cs)) with
  | none => rfl
  | some m'' =>
    obtain ⟨hf', _, _⟩ := augment_refs hm
    obtain ⟨s', e1, _, e3⟩ := hf' c (List.mem_cons_self ..)
    rw [hr s', filter_distinct e1 hd (List.mem_cons_self ..)] at e3
    simp at e3

/-- C65: the productions with a symbol on both sides for which it is settled which of them is meant. -/
theorem c65_names : meansLeft = [⟨"IdentifierName".toList, "IdentifierName IdentifierPart".toList, "".toList⟩,
      ⟨"UnaryExpression".toList, "`delete` UnaryExpression".toList, "".toList⟩] ∧
    meansRight = [⟨"BindingPropertyList".toList, "BindingPropertyList `,` BindingProperty".toList, "".toList⟩,
      ⟨"ClassElementList".toList, "ClassElementList ClassElement".toList, "".toList⟩,
      ⟨"FormalParameterList".toList, "FormalParameterList `,` FormalParameter".toList, "".toList⟩,
      ⟨"StatementList".toList, "StatementList StatementListItem".toList, "".toList⟩,
      ⟨"DoubleStringCharacters".toList, "DoubleStringCharacter DoubleStringCharacters?".toList, "1".toList⟩,
      ⟨"ImportsList".toList, "ImportsList `,` ImportSpecifier".toList, "".toList⟩,
      ⟨"ModuleItemList".toList, "ModuleItemList ModuleItem".toList, "".toList⟩,
      ⟨"BindingList".toList, "BindingList `,` LexicalBinding".toList, "".toList⟩,
      ⟨"BindingElementList".toList, "BindingElementList `,` BindingElisionElement".toList, "".toList⟩,
      ⟨"MemberExpression".toList, "MemberExpression `.` IdentifierName".toList, "".toList⟩,
      ⟨"ExportsList".toList, "ExportsList `,` ExportSpecifier".toList, "".toList⟩,
      ⟨"HexDigits".toList, "HexDigits HexDigit".toList, "".toList⟩,
      ⟨"CaseClauses".toList, "CaseClauses CaseClause".toList, "".toList⟩,
      ⟨"VariableDeclarationList".toList, "VariableDeclarationList `,` VariableDeclaration".toList, "".toList⟩,
      ⟨"CallExpression".toList, "CallExpression `.` IdentifierName".toList, "".toList⟩,
      ⟨"TemplateCharacters".toList, "TemplateCharacter TemplateCharacters?".toList, "1".toList⟩,
      ⟨"SingleStringCharacters".toList, "SingleStringCharacter SingleStringCharacters?".toList, "1".toList⟩,
      ⟨"TemplateMiddleList".toList, "TemplateMiddleList TemplateMiddle Expression".toList, "".toList⟩,
      ⟨"PropertyDefinitionList".toList, "PropertyDefinitionList `,` PropertyDefinition".toList, "".toList⟩,
      ⟨"DecimalDigits".toList, "DecimalDigits DecimalDigit".toList, "".toList⟩,
      ⟨"LegacyOctalIntegerLiteral".toList, "LegacyOctalIntegerLiteral OctalDigit".toList, "".toList⟩] :=
  ⟨rfl, rfl⟩

/-! ### Cases -/

def nt (s : String) : Item := .plain (.gnt s.toList [])
def ntOpt (s : String) : Item := .qm (.gnt s.toList [])
def tok (s : String) : Item := .plain (.other .BACKTICKED_THING s.toList)

/-- A statement with two optional expressions; a list. -/
def exRhs : List Item := [tok "`for`", ntOpt "E", tok "`;`", ntOpt "E", tok "`;`", nt "S"]

def exG : Name → NtDef
  | ['F'] => .main [exRhs]
  | ['E'] => .main [[tok "`e`"]]
  | ['S'] => .main [[tok "`s`"], [nt "S", tok "`,`", nt "E"], [tok "`x`", nt "F"]]
  | _ => .unknown

def exE : Tree := .node ['E'] (label [tok "`e`"]) [] [.leaf]
def exS : Tree := .node ['S'] (label [tok "`s`"]) [] [.leaf]
def exKids : List Tree := [.leaf, .node ['E', '?'] [] [] [], .leaf, .node ['E', '?'] ['E'] [] [exE], .leaf, exS]
def exF : Tree := .node ['F'] (label exRhs) ['0', '1'] exKids

theorem exPlain : Plain exG where
  names s rhss h := by
    unfold exG at h
    split at h <;> first | decide | cases h
  optional s rhss its k t h hi hq := by
    unfold exG at h
    split at h
    · cases h
      simp [exRhs, tok, nt, ntOpt] at hi
      subst hi
      simp at hq
    · cases h
      simp [tok] at hi
      subst hi
      simp at hq
    · cases h
      simp [tok, nt] at hi
      rcases hi with rfl | rfl | rfl <;> simp at hq
    · cases h

theorem exEConf : Conf exG ['E'] exE := .node (rhss := [[tok "`e`"]]) rfl (by simp) (.terminals 1 .nil)
theorem exSConf : Conf exG ['S'] exS := .node (its := [tok "`s`"]) rfl (by simp) (.terminals 1 .nil)
theorem exKidsOk : Kids exG exRhs ['0', '1'] exKids := .terminals 1 (.absentNt (.terminals 1 (.presentNt exEConf (.terminals 1 (.nt exSConf .nil)))))

/-- The second E is there, the first is not. -/
example : Stands ['E'] exRhs exKids [.absent, .node exE] := .terminals 1 (.hereAbsent (.terminals 1 (.herePresent (.terminals 1 (.other (by decide) .nil)))))

example : Means ['E'] exF ⟨['F'], label exRhs, ['0', '1']⟩ [.absent, .node exE] (.num 2) (.node exE) := .nth (by decide) (by decide) (by decide) rfl

example : ∃ m r, makeMap exF = some m ∧ exec m .second ['E'] exF = some r ∧ (r = .absent ∧ true = true ∨ ∃ u, r = .node u ∧ HasSym ['E'] u) :=
  c65_sound exPlain ['F'] [exRhs] exRhs ['0', '1'] exKids rfl (by simp) exKidsOk .second ['E'] [(['F'], [exRhs])] true (by decide +kernel) [exRhs] exRhs (by simp) (by simp)
    (.more (.less (.opt (.more (.less (.opt (.more (.less (.nt .nil))))))))) [true, true] [true, true] (occ_iff.2 (by decide +kernel)) (occ_iff.2 (by decide +kernel)) rfl (fun _ => by decide)

/-- The analysis complains about E, and gives up on the third. -/
example : sResolve .bare ['E'] [(['F'], [exRhs])] = some ([((1, 1), 2)], true) ∧ sResolve .third ['E'] [(['F'], [exRhs])] = none ∧ sResolve .bare ['S'] [(['F'], [exRhs])] = some ([], false) := by decide +kernel

/-- The analysis allows for "the first S" if there is only one, but the program stops there. -/
theorem c65_first_of_one_witness : sResolve .first ['S'] [(['F'], [exRhs])] = some ([], false) ∧ ∃ m, makeMap exF = some m ∧ exec m .first ['S'] exF = none := ⟨by decide +kernel, _, rfl, rfl⟩

/-- The heading `F : for ; E ; S` shows the instances without the first E: the analysis has no objections to "E", but the program stops there. -/
theorem c65_hidden_witness : Shows [tok "`for`", tok "`;`", nt "E", tok "`;`", nt "S"] exRhs ['0', '1'] ∧
    sResolve .bare ['E'] [(['F'], [[tok "`for`", tok "`;`", nt "E", tok "`;`", nt "S"]])] = some ([], false) ∧ ∃ m, makeMap exF = some m ∧ exec m .bare ['E'] exF = none :=
  ⟨.more (.less (.hidden (.more (.less (.present (.more (.less (.nt .nil)))))))), by decide +kernel, _, rfl, rfl⟩

/-- A reference to a nonterminal that isn't there gives nothing, even with a number. -/
example : ∃ m, makeMap exF = some m ∧ resolve ⟨['F'], label exRhs, ['0', '1']⟩ m (.num 7) ['Z'] = some .absent := ⟨_, rfl, rfl⟩

/-- A node whose child can be made known. -/
def exD : Tree := .node ['D'] ['H'] [] [.node ['H'] [] [] []]
example : ∃ m m', makeMap (.node ['I'] ['D'] [] [exD]) = some m ∧ augment m exD = some m' ∧ resolve ⟨['I'], ['D'], []⟩ m' .no ['H'] = some (.node (.node ['H'] [] [] [])) := ⟨_, _, rfl, rfl, rfl⟩

/-- "this F", "the derived S". -/
example : ∃ m, makeMap exF = some m ∧ exec m .this ['F'] exF = some (.node exF) := ⟨_, rfl, rfl⟩
example : ∃ m, makeMap (.node ['S'] (label [nt "S", tok "`,`", nt "E"]) [] [exS, .leaf, exE]) = some m ∧ exec m .derived ['S'] (.node ['S'] (label [nt "S", tok "`,`", nt "E"]) [] [exS, .leaf, exE]) = some (.node exS) := ⟨_, rfl, rfl⟩
example : sResolve .derived ['S'] [(['S'], [[nt "S", tok "`,`", nt "E"]])] = some ([], false) := by decide +kernel

end Verif.Focus
