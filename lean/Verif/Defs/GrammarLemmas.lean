import Verif.Defs.TableLemmas
/-!
# Lemmas on the grammars
-/
namespace Verif.Defs
open Spec

theorem put_new {α β : Type} [DecidableEq α] (k : α) (v : β) (d : List (α × β)) (h : k ∉ d.map (·.1)) : put k v d = d ++ [(k, v)] := by
  induction d with
  | nil => rfl
  | cons p d ih =>
    obtain ⟨k', v'⟩ := p
    simp only [List.map_cons, List.mem_cons, not_or] at h
    unfold put
    rw [if_neg (fun e => h.1 e.symm), ih h.2]
    rfl

/-- What an entry of the table gives to a grammar. -/
def pick (l : Level) (a : Arena) (x : Str × Info) : Option (Str × DProd) :=
  if levelOf x.1 x.2 = l then (appropriate x.2 a).map (fun d => (x.1, d)) else none

theorem pick_iff (l : Level) (a : Arena) (x : Str × Info) (n : Str) (d : DProd) :
    pick l a x = some (n, d) ↔ x.1 = n ∧ levelOf x.1 x.2 = l ∧ appropriate x.2 a = some d := by
  unfold pick
  split
  · rename_i h
    rw [Option.map_eq_some_iff]
    constructor
    · rintro ⟨e, h1, h2⟩
      cases h2
      exact ⟨rfl, h, h1⟩
    · rintro ⟨rfl, _, h1⟩
      exact ⟨d, h1, rfl⟩
  · rename_i h
    simp [h]

theorem makeGrammar_eq (l : Level) (a : Arena) (r : List (Str × Info)) (g : List (Str × DProd))
    (hn : ∀ x ∈ r, ∀ d, appropriate x.2 a = some d → d.prod.lhs.name = x.1)
    (hd : (r.map (·.1)).Nodup) (hg : ∀ n ∈ g.map (·.1), n ∉ r.map (·.1)) :
    makeGrammar l a r g = some (g ++ r.filterMap (pick l a)) := by
  induction r generalizing g with
  | nil => simp [makeGrammar]
  | cons x r ih =>
    obtain ⟨n, info⟩ := x
    simp only [List.map_cons, List.nodup_cons] at hd
    have hn' : ∀ x ∈ r, ∀ d, appropriate x.2 a = some d → d.prod.lhs.name = x.1 := fun x hx => hn x (List.mem_cons_of_mem _ hx)
    have hg' : ∀ m ∈ g.map (·.1), m ∉ r.map (·.1) := fun m hm h => hg m hm (by simp only [List.map_cons, List.mem_cons]; exact Or.inr h)
    rw [makeGrammar, List.filterMap_cons]
    by_cases hl : levelOf n info = l
    · rw [if_pos hl]
      cases ha : appropriate info a with
      | none =>
        have : pick l a (n, info) = none := by simp [pick, ha]
        simp only [this]
        exact ih g hn' hd.2 hg'
      | some d =>
        have hp : pick l a (n, info) = some (n, d) := (pick_iff ..).2 ⟨rfl, hl, ha⟩
        have hdn : d.prod.lhs.name = n := hn (n, info) (List.mem_cons_self ..) d ha
        have hng : n ∉ g.map (·.1) := fun h => hg n h (by simp)
        have hadd : addProdn g d = some (g ++ [(n, d)]) := by
          unfold addProdn
          rw [hdn, (lookup_none_iff g n).2 hng]
          simp only []
          rw [put_new n d g hng]
        simp only [hp, hadd]
        rw [ih (g ++ [(n, d)]) hn' hd.2]
        · simp
        · intro m hm
          simp only [List.map_append, List.map_cons, List.map_nil, List.mem_append, List.mem_singleton] at hm
          rcases hm with hm | hm
          · exact hg' m hm
          · subst hm; exact hd.1
    · rw [if_neg hl]
      have : pick l a (n, info) = none := by simp [pick, hl]
      simp only [this]
      exact ih g hn' hd.2 hg'

theorem filterMap_sorted (l : Level) (a : Arena) (r : List (Str × Info))
    (h : r.Pairwise (fun a b => strLt a.1 b.1 = true)) : Increasing ((r.filterMap (pick l a)).map (·.1)) := by
  unfold Increasing
  rw [List.pairwise_map, List.pairwise_filterMap]
  refine h.imp ?_
  rintro x y hxy ⟨n, d⟩ hn ⟨m, e⟩ hm
  rw [pick_iff] at hn hm
  rw [← hn.1, ← hm.1]
  exact (strLt_iff _ _).1 hxy

theorem finalRhss_iff {doc : List Block} {i : Nat} {s : Sec} {p : Prodn} (h : (prodns doc)[i]? = some (s, p)) (rs : List Rhs) :
    Rs (prodns doc) (prodns doc).length i s p rs ↔ FinalRhss doc i rs := by
  have hlt : i < (prodns doc).length := (List.getElem?_eq_some_iff.1 h).1
  unfold Rs FinalRhss
  constructor
  · rintro (⟨h1, h2⟩ | ⟨_, h2, j, s', q, h3, h4⟩)
    · exact ⟨s, p, h, Or.inl ⟨fun ha => h1 ⟨hlt, (augB_iff s).2 ha⟩, h2⟩⟩
    · exact ⟨s, p, h, Or.inr ⟨(augB_iff s).1 h2, j, q, (defines_at ..).2 ⟨s', h3⟩, h4⟩⟩
  · rintro ⟨s', p', h', hc⟩
    rw [h] at h'
    cases h'
    rcases hc with ⟨h1, h2⟩ | ⟨h1, j, q, h3, h4⟩
    · exact Or.inl ⟨fun ha => h1 ((augB_iff s).1 ha.2), h2⟩
    · obtain ⟨s', h3⟩ := (defines_at ..).1 h3
      exact Or.inr ⟨hlt, (augB_iff s).2 h1, j, s', q, h3, h4⟩

theorem levelOf_iff (n : Str) (info : Info) (p : Prodn) (h : p.colons = info.colons) (l : Level) :
    levelOf n info = l ↔ (l = .syntactic ↔ Syntactic n p) := by
  unfold levelOf Syntactic moved
  rw [← h]
  by_cases h1 : p.colons = 1
  · rw [if_pos h1]
    simp only [h1, true_or, iff_true]
    exact eq_comm
  · rw [if_neg h1]
    simp only [h1, false_or]
    by_cases h2 : n = "ReservedWord".toList ∨ n = "NullLiteral".toList ∨ n = "BooleanLiteral".toList
    · have : n ∈ ["ReservedWord".toList, "NullLiteral".toList, "BooleanLiteral".toList] := by simpa using h2
      rw [if_pos this]
      simp only [h2, iff_true]
      exact eq_comm
    · have : n ∉ ["ReservedWord".toList, "NullLiteral".toList, "BooleanLiteral".toList] := by simpa using h2
      rw [if_neg this]
      simp only [h2, iff_false]
      cases l <;> simp

theorem counts_at {doc : List Block} {a : Arena} {n : Str} {i : Nat} {p : Prodn} (h : Counts doc a n i p) :
    ∃ s, (prodns doc)[i]? = some (s, p) ∧ p.lhs.name = n := by
  rcases h with ⟨s, h1, h2, _⟩ | ⟨_, s, h1, h2, _⟩
  · exact ⟨s, h1, h2⟩
  · exact ⟨s, h1, h2⟩

theorem grammar_spec {doc : List Block} {t : Table} (hi : Inv (prodns doc) (prodns doc).length t) (l : Level) (a : Arena) :
    ∃ g, grammarOf t l a = some g ∧ Increasing (g.map (·.1)) ∧
      (∀ n d, (n, d) ∈ g → ∃ p rs, Counts doc a n d.docI p ∧ FinalRhss doc d.docI rs ∧ (l = .syntactic ↔ Syntactic n p) ∧
        d.prod = { p with rhss := rs }) ∧
      (∀ n i p rs, Counts doc a n i p → FinalRhss doc i rs → (l = .syntactic ↔ Syntactic n p) →
        ∃ d, (n, d) ∈ g ∧ d.docI = i ∧ d.prod = { p with rhss := rs }) := by
  have hs := sorted_sortBy (Prod.fst : Str × Info → Str) t hi.nodup
  have hmem : ∀ n info, (n, info) ∈ sortBy (Prod.fst : Str × Info → Str) t ↔ t.lookup n = some info := by
    intro n info
    rw [mem_sortBy, mem_iff_lookup t hi.nodup]
  have hnd : ((sortBy (Prod.fst : Str × Info → Str) t).map (·.1)).Nodup := by
    rw [List.nodup_iff_pairwise_ne, List.pairwise_map]
    refine hs.imp ?_
    intro x y h e
    rw [e] at h
    rw [strLt_iff] at h
    obtain ⟨k, _, h | ⟨c, d, hc, hd, hl⟩⟩ := h
    · omega
    · rw [hc] at hd
      cases hd
      omega
  have heq : grammarOf t l a = some ([] ++ (sortBy (Prod.fst : Str × Info → Str) t).filterMap (pick l a)) := by
    unfold grammarOf
    apply makeGrammar_eq l a _ _ _ hnd
    · intro n hn; cases hn
    · rintro ⟨n, info⟩ hx d hd
      obtain ⟨s, q, rs, h1, h2, h3, h4⟩ := appropriate_some hi ((hmem n info).1 hx) hd
      obtain ⟨_, h5, h6⟩ := counts_at h4
      rw [h3]
      exact h6
  refine ⟨_, heq, ?_, ?_, ?_⟩
  · rw [List.nil_append]
    exact filterMap_sorted l a _ hs
  · intro n d hm
    rw [List.nil_append, List.mem_filterMap] at hm
    obtain ⟨⟨n', info⟩, hx, hp⟩ := hm
    rw [pick_iff] at hp
    obtain ⟨rfl, hl, ha⟩ := hp
    rw [hmem] at hx
    obtain ⟨s, q, rs, h1, h2, h3, h4⟩ := appropriate_some hi hx ha
    obtain ⟨_, h5, h6⟩ := counts_at h4
    refine ⟨q, rs, h4, (finalRhss_iff h1 rs).1 h2, (levelOf_iff _ _ q (hi.colons _ _ hx _ _ q h1 h6) l).1 hl, ?_⟩
    rw [h3]
    rfl
  · intro n i p rs hc hf hl
    obtain ⟨s, h1, h2⟩ := counts_at hc
    obtain ⟨info, hx⟩ := (hi.keys n).2 ⟨i, s, p, h1, h2⟩
    have hlv := (levelOf_iff n info p (hi.colons _ _ hx _ _ p h1 h2) l).2 hl
    cases ha : appropriate info a with
    | none => exact absurd ⟨i, p, hc⟩ ((appropriate_none hi hx).1 ha)
    | some d =>
      obtain ⟨s', q, rs', g1, g2, g3, g4⟩ := appropriate_some hi hx ha
      obtain ⟨hij, hpq⟩ := counts_unique hi hc g4
      subst hpq
      have hrs : rs = rs' := by
        rw [hij] at hf
        have hf' := (finalRhss_iff g1 rs).2 hf
        rcases g2 with g2 | g2
        · rcases hf' with hf' | hf'
          · rw [g2.2, hf'.2]
          · exact absurd ⟨hf'.1, hf'.2.1⟩ g2.1
        · rcases hf' with hf' | hf'
          · exact absurd ⟨g2.1, g2.2.1⟩ hf'.1
          · obtain ⟨_, _, j, sj, qj, hA, e1⟩ := hf'
            obtain ⟨_, _, j', sj', qj', hA', e2⟩ := g2
            have := (once_of_inv hi ((defines_at ..).2 ⟨sj, hA⟩) ((defines_at ..).2 ⟨sj', hA'⟩)).2
            subst this
            rw [e1, e2]
      subst hrs
      refine ⟨d, ?_, hij.symm, ?_⟩
      · rw [List.nil_append, List.mem_filterMap]
        exact ⟨(n, info), (hmem n info).2 hx, (pick_iff ..).2 ⟨rfl, hlv, ha⟩⟩
      · rw [g3]
        rfl

/-! ## Goals and named terminals -/

theorem mem_symNames (s : Sym) (n : Str) :
    n ∈ symNames s ↔ (∃ g, s = .gnt g ∧ g.name = n) ∨ ∃ k text nts, s = .other k text nts ∧ n ∈ nts := by
  cases s with
  | gnt g =>
    simp only [symNames, List.mem_singleton, Sym.gnt.injEq, reduceCtorEq, false_and, exists_false, or_false, exists_eq_left']
    exact eq_comm
  | other k text nts =>
    simp only [symNames, reduceCtorEq, false_and, exists_false, false_or, Sym.other.injEq]
    constructor
    · intro h; exact ⟨k, text, nts, ⟨rfl, rfl, rfl⟩, h⟩
    · rintro ⟨_, _, _, ⟨rfl, rfl, rfl⟩, h⟩; exact h

theorem mem_items (is : List Item) (n : Str) :
    n ∈ is.flatMap itemNames ↔ ∃ s, (Item.plain s ∈ is ∨ Item.qm s ∈ is) ∧
      ((∃ g, s = .gnt g ∧ g.name = n) ∨ ∃ k text nts, s = .other k text nts ∧ n ∈ nts) := by
  rw [List.mem_flatMap]
  constructor
  · rintro ⟨i, hi, hn⟩
    cases i with
    | plain s => exact ⟨s, Or.inl hi, (mem_symNames s n).1 hn⟩
    | qm s => exact ⟨s, Or.inr hi, (mem_symNames s n).1 hn⟩
  · rintro ⟨s, hi | hi, hn⟩
    · exact ⟨_, hi, (mem_symNames s n).2 hn⟩
    · exact ⟨_, hi, (mem_symNames s n).2 hn⟩

theorem mem_rhsNames (r : Rhs) (n : Str) : n ∈ rhsNames r ↔ OccursIn n r := by
  unfold OccursIn
  have hno : (∀ is, (¬∃ guard label, r = .line guard (.items is) label) ∧ r ≠ .bare is) → rhsNames r = [] →
      (n ∈ rhsNames r ↔ ∃ is, ((∃ guard label, r = .line guard (.items is) label) ∨ r = .bare is) ∧
        ∃ s, (Item.plain s ∈ is ∨ Item.qm s ∈ is) ∧ ((∃ g, s = .gnt g ∧ g.name = n) ∨ ∃ k text nts, s = .other k text nts ∧ n ∈ nts)) := by
    intro h1 h2
    rw [h2]
    constructor
    · intro h; cases h
    · rintro ⟨is, h | h, _⟩
      · exact absurd h (h1 is).1
      · exact absurd h (h1 is).2
  cases r with
  | thing text => exact hno (by intro is; simp) rfl
  | bare is =>
    rw [rhsNames, mem_items]
    constructor
    · intro h; exact ⟨is, Or.inr rfl, h⟩
    · rintro ⟨is', h | h, hs⟩
      · obtain ⟨_, _, h⟩ := h; cases h
      · cases h; exact hs
  | line guard body label =>
    cases body with
    | empty => exact hno (by intro is; simp) rfl
    | unicode text => exact hno (by intro is; simp) rfl
    | items is =>
      rw [rhsNames, mem_items]
      constructor
      · intro h; exact ⟨is, Or.inl ⟨guard, label, rfl⟩, h⟩
      · rintro ⟨is', h | h, hs⟩
        · obtain ⟨_, _, h⟩ := h; cases h; exact hs
        · cases h

theorem leftRight_spec (l : Level) (a : Arena) (g : List (Str × DProd)) :
    Increasing (leftRight l a g).goals ∧ Increasing (leftRight l a g).namedTerminals ∧
    (∀ n, n ∈ (leftRight l a g).goals ↔ n ∈ g.map (·.1) ∧ ¬∃ m d r, (m, d) ∈ g ∧ r ∈ d.prod.rhss ∧ OccursIn n r) ∧
    (∀ n, n ∈ (leftRight l a g).namedTerminals ↔ n ∉ g.map (·.1) ∧ ∃ m d r, (m, d) ∈ g ∧ r ∈ d.prod.rhss ∧ OccursIn n r) := by
  have hname : ¬nameOf l a = "syntactic".toList := by
    cases l <;> cases a <;> decide
  have hl : ∀ n, n ∈ addAll [] ((sortBy (Prod.fst : Str × DProd → Str) g).map Prod.fst) ↔ n ∈ g.map (·.1) := by
    intro n
    rw [mem_addAll]
    simp only [List.not_mem_nil, false_or, List.mem_map, mem_sortBy]
  have hr : ∀ n, n ∈ addAll [] ((sortBy (Prod.fst : Str × DProd → Str) g).flatMap (fun x => x.2.prod.rhss.flatMap rhsNames)) ↔
      ∃ m d r, (m, d) ∈ g ∧ r ∈ d.prod.rhss ∧ OccursIn n r := by
    intro n
    rw [mem_addAll]
    simp only [List.not_mem_nil, false_or, List.mem_flatMap, mem_sortBy, mem_rhsNames]
    constructor
    · rintro ⟨⟨m, d⟩, h1, r, h2, h3⟩; exact ⟨m, d, r, h1, h2, h3⟩
    · rintro ⟨m, d, r, h1, h2, h3⟩; exact ⟨(m, d), h1, r, h2, h3⟩
  have inc : ∀ (ns : List Str), ns.Nodup → Increasing (sortBy id ns) := by
    intro ns h
    have := increasing_sortBy (id : Str → Str) ns (by simpa using h)
    simpa using this
  unfold leftRight
  simp only [if_neg hname]
  refine ⟨inc _ ?_, inc _ ?_, ?_, ?_⟩
  · exact (nodup_addAll _ _ List.nodup_nil).filter _
  · exact (nodup_addAll _ _ List.nodup_nil).filter _
  · intro n
    rw [mem_sortBy, List.mem_filter, hl, ← hr]
    simp
  · intro n
    rw [mem_sortBy, List.mem_filter, hr, ← hl]
    simp [and_comm]

end Verif.Defs
