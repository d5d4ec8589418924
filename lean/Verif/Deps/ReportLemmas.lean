import Verif.Deps.RtLemmas
/-!
# Lemmas about the whole report
-/
namespace Verif.Deps

theorem all_walk_iff (a : Alg) (g : Inv → Bool) : (algWalk a).all (fun e => g e.2.2) = true ↔ ∀ p i, InAlg a p i → g i = true := by
  rw [List.all_eq_true]
  constructor
  · intro h p i hp
    obtain ⟨s, hs⟩ := sect_of_inAlg hp
    exact h (p, (s, i)) (((algWalk_listing a).2 p (s, i)).2 ⟨hp, hs⟩)
  · rintro h ⟨p, s, i⟩ he
    exact h p i (((algWalk_listing a).2 p (s, i)).1 he).1

theorem plain_of_given (S : Spec) (hS : Given S) (a : Alg) (ha : a ∈ S.ops ++ S.bifs) : (algWalk a).all (fun e => plainInv e.2.2) = true := by
  rw [all_walk_iff]
  intro p i hp
  have := hS.plain a ha p i hp
  simp only [plainInv, Bool.or_eq_true, Option.isNone_iff_eq_none]
  by_cases h : i.node.attr.names = none
  · exact Or.inl h
  · exact Or.inr (this h)

theorem defns_nil_iff (a : Alg) : a.defns = [] ↔ a.heads.flatMap (·.defs) = [] := by
  simp [Alg.defns, List.flatMap_eq_nil_iff]

theorem defns_length (a : Alg) : a.defns.length = (a.heads.flatMap (·.defs)).length := by
  simp [Alg.defns, List.length_flatMap]

theorem okAlg_iff (S : Spec) (hS : Given S) (a : Alg) (ha : a ∈ S.ops ++ S.bifs) : okAlg a = true ↔
    (a.name = earlyErrors ∨ ¬ Embeds a) ∧ (a.name = hostLoad → a.heads.flatMap (·.defs) = []) := by
  unfold okAlg
  rw [Bool.and_eq_true, Bool.or_eq_true, beq_iff_eq, all_walk_iff]
  refine and_congr (or_congr Iff.rfl ?_) ?_
  · constructor
    · rintro h ⟨p, i, hp, he⟩
      have := h p i hp
      simp only [okEmb, Bool.or_eq_true, Option.isNone_iff_eq_none] at this
      rcases this with h' | h'
      · exact he (hS.plain a ha p i hp (fun hn => by simp [hn] at h'))
      · exact he h'
    · intro h p i hp
      simp only [okEmb, Bool.or_eq_true, Option.isNone_iff_eq_none]
      exact Or.inr (Classical.byContradiction (fun he => h ⟨p, i, hp, he⟩))
  · simp only [Bool.not_eq_true', decide_eq_false_iff_not, not_and, ne_eq, Classical.not_not, defns_nil_iff]

theorem mem_callers (S : Spec) (hS : Given S) (o c : String) : (o, c) ∈ (final S).callers ↔ ∃ a ∈ S.ops ++ S.bifs, a.name = c ∧ Calls a o ∧ Declared S o := by
  have h : (final S).callers = (sortAlgs S.ops ++ sortAlgs S.bifs).flatMap (fun a => ((S.enum (calleeSet a)).filter S.isOp).map (fun c => (c, a.name))) := by
    simp [final, after, List.flatMap_append]
  rw [h]
  simp only [List.mem_flatMap, List.mem_append, mem_sortAlgs, List.mem_map, List.mem_filter, Prod.mk.injEq]
  constructor
  · rintro ⟨a, ha, x, ⟨h1, h2⟩, rfl, h3⟩
    exact ⟨a, ha, h3, mem_calleeSet.1 ((hS.enum _).mem_iff.1 h1), (isOp_iff S x).1 h2⟩
  · rintro ⟨a, ha, h3, h1, h2⟩
    exact ⟨a, ha, o, ⟨(hS.enum _).mem_iff.2 (mem_calleeSet.2 h1), (isOp_iff S o).2 h2⟩, rfl, h3⟩

theorem rtOp_declared {S : Spec} {o : String} (h : RtOp S o) : Declared S o := by
  cases h with
  | direct ha _ _ => exact ⟨_, ha, rfl⟩
  | caller _ hd _ _ => exact hd

theorem rt_spec (S : Spec) (hS : Given S) (hok : ∀ a ∈ S.ops ++ S.bifs, okAlg a = true) : ∃ d rt, direct (sortAlgs S.ops) = some d ∧
    spread S (final S).callers (S.ops.length + 1) d = some rt ∧ ∀ o, o ∈ rt ↔ RtOp S o := by
  have hd := direct_eq (sortAlgs S.ops) (fun a ha => by
    have ha' : a ∈ S.ops ++ S.bifs := List.mem_append_left _ (mem_sortAlgs.1 ha)
    exact ⟨hok a ha', plain_of_given S hS a ha'⟩)
  have hrt : ∀ a, rtAlg a = true ↔ ∃ p i, InAlg a p i ∧ Runtimey i.node := by
    intro a
    rw [rtAlg, List.any_eq_true]
    constructor
    · rintro ⟨⟨p, s, i⟩, he, hl⟩
      exact ⟨p, i, (((algWalk_listing a).2 p (s, i)).1 he).1, (looks_iff i).1 hl⟩
    · rintro ⟨p, i, hp, hl⟩
      obtain ⟨s, hs⟩ := sect_of_inAlg hp
      exact ⟨(p, (s, i)), ((algWalk_listing a).2 p (s, i)).2 ⟨hp, hs⟩, (looks_iff i).2 hl⟩
  have hmem : ∀ o, o ∈ ((sortAlgs S.ops).filter rtAlg).map (·.name) ↔ ∃ a ∈ S.ops, a.name = o ∧ ∃ p i, InAlg a p i ∧ Runtimey i.node := by
    intro o
    simp only [List.mem_map, List.mem_filter, mem_sortAlgs, hrt]
    constructor
    · rintro ⟨a, ⟨h1, h2⟩, h3⟩; exact ⟨a, h1, h3, h2⟩
    · rintro ⟨a, h1, h3, h2⟩; exact ⟨a, ⟨h1, h2⟩, h3⟩
  obtain ⟨rt, h1, h2⟩ := spread_spec S (final S).callers (S.ops.length + 1) (((sortAlgs S.ops).filter rtAlg).map (·.name)) (by
    intro o ho
    obtain ⟨a, ha, hn, _⟩ := (hmem o).1 ho
    exact ⟨a, ha, hn⟩) (Nat.lt_succ_of_le (Nat.le_trans List.countP_le_length (by simp)))
  refine ⟨_, rt, hd, h1, fun o => (h2 o).trans ⟨fun hc => ?_, fun hr => ?_⟩⟩
  · induction hc with
    | base h =>
      obtain ⟨a, ha, rfl, p, i, hp, hr⟩ := (hmem _).1 h
      exact .direct ha hp hr
    | step _ h1 h2 ih =>
      obtain ⟨a, ha, rfl, hc, _⟩ := (mem_callers S hS _ _).1 h1
      exact .caller ha h2 hc ih
  · induction hr with
    | direct ha hp hr => exact .base ((hmem _).2 ⟨_, ha, rfl, _, _, hp, hr⟩)
    | caller ha hd hc hr ih => exact .step ih ((mem_callers S hS _ _).2 ⟨_, ha, rfl, hc, rtOp_declared hr⟩) hd

theorem sortedPairs_calls (S : Spec) (hS : Given S) (a b : String → Bool) (A B : String → Prop) (ha : ∀ o, a o = true ↔ A o) (hb : ∀ o, b o = true ↔ B o) :
    SortedPairs (callPairs a b (final S).opCallees) (fun o c => OpCalls S o c ∧ A o ∧ B c) := by
  have h : (final S).opCallees = (sortAlgs S.ops).map (fun a => (a.name, calleeSet a)) := by simp [final, after]
  rw [h, callPairs, List.flatMap_map]
  have hs := sorted_sortAlgs S.ops hS.ops
  constructor
  · generalize sortAlgs S.ops = l at hs ⊢
    induction l with
    | nil => exact .nil
    | cons x l ih =>
      rw [List.pairwise_cons] at hs
      rw [List.flatMap_cons, List.pairwise_append]
      refine ⟨?_, ih hs.2, ?_⟩
      · simp only
        split
        · rw [List.pairwise_map]
          exact ((sorted_sortNames _ (nodup_calleeSet x)).filter _).imp (fun h => Or.inr ⟨rfl, h⟩)
        · exact .nil
      · intro p hp q hq
        left
        simp only at hp
        split at hp
        · simp only [List.mem_map] at hp
          obtain ⟨_, _, rfl⟩ := hp
          simp only [List.mem_flatMap] at hq
          obtain ⟨y, hy, hq⟩ := hq
          split at hq
          · simp only [List.mem_map] at hq
            obtain ⟨_, _, rfl⟩ := hq
            exact hs.1 y hy
          · cases hq
        · cases hp
  · intro o c
    simp only [List.mem_flatMap, mem_sortAlgs]
    constructor
    · rintro ⟨x, hx, h⟩
      split at h
      · rename_i hax
        simp only [List.mem_map, List.mem_filter, mem_sortNames, mem_calleeSet, Prod.mk.injEq] at h
        obtain ⟨c', ⟨h1, h2⟩, rfl, rfl⟩ := h
        exact ⟨⟨x, hx, rfl, h1⟩, (ha _).1 hax, (hb _).1 h2⟩
      · cases h
    · rintro ⟨⟨x, hx, rfl, h1⟩, h2, h3⟩
      refine ⟨x, hx, ?_⟩
      rw [if_pos ((ha _).2 h2)]
      simp only [List.mem_map, List.mem_filter, mem_sortNames, mem_calleeSet, Prod.mk.injEq]
      exact ⟨c, ⟨h1, (hb _).2 h3⟩, trivial, rfl⟩

theorem sortedPairs_unique {l l' : List (String × String)} {P : String → String → Prop} (h : SortedPairs l P) (h' : SortedPairs l' P) : l = l' := by
  obtain ⟨h1, h2⟩ := h
  obtain ⟨h3, h4⟩ := h'
  have hm : ∀ x, x ∈ l ↔ x ∈ l' := fun x => (h2 x.1 x.2).trans (h4 x.1 x.2).symm
  clear h2 h4
  have irr : ∀ x : String × String, ¬ (x.1 < x.1 ∨ x.1 = x.1 ∧ x.2 < x.2) := by
    rintro x (h | ⟨_, h⟩)
    · exact String.lt_irrefl _ h
    · exact String.lt_irrefl _ h
  have asy : ∀ x y : String × String, (x.1 < y.1 ∨ x.1 = y.1 ∧ x.2 < y.2) → ¬ (y.1 < x.1 ∨ y.1 = x.1 ∧ y.2 < x.2) := by
    rintro x y (h | ⟨h, h'⟩) (k | ⟨k, k'⟩)
    · exact String.lt_asymm h k
    · rw [k] at h; exact String.lt_irrefl _ h
    · rw [h] at k; exact String.lt_irrefl _ k
    · exact String.lt_asymm h' k'
  induction l generalizing l' with
  | nil =>
    cases l' with
    | nil => rfl
    | cons y l' => exact absurd ((hm y).2 (by simp)) (by simp)
  | cons x l ih =>
    cases l' with
    | nil => exact absurd ((hm x).1 (by simp)) (by simp)
    | cons y l' =>
      rw [List.pairwise_cons] at h1 h3
      have hxy : x = y := by
        rcases List.mem_cons.1 ((hm x).1 (by simp)) with h | h
        · exact h
        · rcases List.mem_cons.1 ((hm y).2 (by simp)) with h' | h'
          · exact h'.symm
          · exact absurd (h1.1 y h') (asy _ _ (h3.1 x h))
      subst hxy
      congr 1
      refine ih h1.2 h3.2 (fun z => ?_)
      constructor
      · intro hz
        rcases List.mem_cons.1 ((hm z).1 (List.mem_cons_of_mem _ hz)) with h | h
        · subst h; exact absurd (h1.1 z hz) (irr _)
        · exact h
      · intro hz
        rcases List.mem_cons.1 ((hm z).2 (List.mem_cons_of_mem _ hz)) with h | h
        · subst h; exact absurd (h3.1 z hz) (irr _)
        · exact h

theorem sortedAlgs_unique {l l' : List Alg} (h1 : l.Pairwise (fun a b => a.name < b.name)) (h3 : l'.Pairwise (fun a b => a.name < b.name)) (hm : ∀ x, x ∈ l ↔ x ∈ l') : l = l' := by
  induction l generalizing l' with
  | nil =>
    cases l' with
    | nil => rfl
    | cons y l' => exact absurd ((hm y).2 (by simp)) (by simp)
  | cons x l ih =>
    cases l' with
    | nil => exact absurd ((hm x).1 (by simp)) (by simp)
    | cons y l' =>
      rw [List.pairwise_cons] at h1 h3
      have hxy : x = y := by
        rcases List.mem_cons.1 ((hm x).1 (by simp)) with h | h
        · exact h
        · rcases List.mem_cons.1 ((hm y).2 (by simp)) with h' | h'
          · exact h'.symm
          · exact absurd (h1.1 y h') (String.lt_asymm (h3.1 x h))
      subst hxy
      congr 1
      refine ih h1.2 h3.2 (fun z => ?_)
      constructor
      · intro hz
        rcases List.mem_cons.1 ((hm z).1 (List.mem_cons_of_mem _ hz)) with h | h
        · subst h; exact absurd (h1.1 z hz) (String.lt_irrefl _)
        · exact h
      · intro hz
        rcases List.mem_cons.1 ((hm z).2 (List.mem_cons_of_mem _ hz)) with h | h
        · subst h; exact absurd (h3.1 z hz) (String.lt_irrefl _)
        · exact h

theorem isReport_parts (S : Spec) (hS : Given S) {m : Nat} {r ss rt} (hr : Gram.reachAll (final S).calleesOf m (final S).allRoots = some r)
    (hss : ∀ o, o ∈ ss ↔ Reaches (SsCalls S) SsStart o ∧ Declared S o) (hssn : ss.Nodup) (hrt : ∀ o, o ∈ rt ↔ RtOp S o) :
    IsReport S ((final S).out ++ parts S (final S) r.reached r.unknown ss rt) := by
  have hL := fun o => mem_labelled S isSS SsTitle isSS_iff o
  have hR := fun o => mem_labelled S isRS RsTitle isRS_iff o
  have hU := fun o => mem_labelled S isUn UnTitle isUn_iff o
  have hun : r.unknown.Nodup := (eachOp_nodup _ _ _ _ _ ⟨List.nodup_nil, List.nodup_nil⟩ hr).2
  have hdont : ∀ o, o ∈ minus (S.ops.map (·.name)) rt ↔ Declared S o ∧ ¬ RtOp S o := by
    intro o
    rw [mem_minus, hrt]
    refine and_congr ?_ Iff.rfl
    simp [Declared]
  have hout : (final S).out = (sortAlgs S.ops ++ sortAlgs S.bifs).map algPart := by simp [final, after]
  refine ⟨(sortAlgs S.ops ++ sortAlgs S.bifs).map (fun a => (a, sortNames (calleeSet a))), sortAlgs S.ops, sortAlgs S.bifs,
    sortNames r.unknown, ((sortAlgs S.ops).map (·.name)).filter (fun o => !r.reached.contains o),
    sortNames (inter (labelled isSS S.sections) (labelled isRS S.sections)), sortNames (inter (labelled isSS S.sections) (labelled isUn S.sections)),
    sortNames (inter (labelled isRS S.sections) (labelled isUn S.sections)),
    sortNames (minus (labelled isSS S.sections) ss), sortNames (minus ss (labelled isSS S.sections)),
    callPairs (fun o => (labelled isSS S.sections).contains o) (fun c => !(labelled isSS S.sections).contains c) (final S).opCallees,
    callPairs (fun o => !(labelled isSS S.sections).contains o) (fun c => (labelled isSS S.sections).contains c) (final S).opCallees,
    sortNames (minus (labelled isSS S.sections) (minus (S.ops.map (·.name)) rt)), sortNames (minus (minus (S.ops.map (·.name)) rt) (labelled isSS S.sections)),
    by simp [Function.comp_def], perm_sortAlgs _, perm_sortAlgs _, sorted_sortAlgs _ hS.ops, sorted_sortAlgs _ hS.bifs, ?_,
    sortedSet_sortNames hun (fun o => (reach_spec S hS hr o).2),
    ?_,
    sortedSet_sortNames (nodup_inter (nodup_labelled isSS S.sections)) (fun o => by rw [mem_inter, hL, hR]),
    sortedSet_sortNames (nodup_inter (nodup_labelled isSS S.sections)) (fun o => by rw [mem_inter, hL, hU]),
    sortedSet_sortNames (nodup_inter (nodup_labelled isRS S.sections)) (fun o => by rw [mem_inter, hR, hU]),
    sortedSet_sortNames (nodup_minus (nodup_labelled isSS S.sections)) (fun o => by rw [mem_minus, hL, hss]),
    sortedSet_sortNames (nodup_minus hssn) (fun o => by rw [mem_minus, hL, hss]),
    sortedPairs_calls S hS _ _ _ _ (fun o => by rw [List.contains_iff_mem, hL]) (fun o => by rw [Bool.not_eq_true', ← Bool.not_eq_true, List.contains_iff_mem, hL]),
    sortedPairs_calls S hS _ _ _ _ (fun o => by rw [Bool.not_eq_true', ← Bool.not_eq_true, List.contains_iff_mem, hL]) (fun o => by rw [List.contains_iff_mem, hL]),
    sortedSet_sortNames (nodup_minus (nodup_labelled isSS S.sections)) (fun o => by rw [mem_minus, hL, hdont]),
    sortedSet_sortNames (nodup_minus (nodup_minus hS.ops)) (fun o => by rw [mem_minus, hL, hdont]), ?_⟩
  · intro x hx
    simp only [List.mem_map] at hx
    obtain ⟨a, _, rfl⟩ := hx
    exact sortedSet_sortNames (nodup_calleeSet a) (fun o => mem_calleeSet)
  · show SortedSet (((sortAlgs S.ops).map (·.name)).filter (fun o => !r.reached.contains o)) _
    constructor
    · exact (List.pairwise_map.2 (sorted_sortAlgs _ hS.ops)).filter _
    · intro o
      rw [List.mem_filter, Bool.not_eq_true', ← Bool.not_eq_true, List.contains_iff_mem, (reach_spec S hS hr o).1, not_and]
      have : o ∈ (sortAlgs S.ops).map (·.name) ↔ Declared S o := by
        simp [Declared, mem_sortAlgs]
      rw [this]
      exact ⟨fun h => ⟨h.1, fun h' => h.2 h' h.1⟩, fun h => ⟨h.1, fun h' => absurd h' h.2⟩⟩
  · rw [hout, List.map_map, parts]
    congr 1
    refine List.map_congr_left (fun a _ => ?_)
    simp only [algPart, Function.comp, defns_length]

end Verif.Deps
