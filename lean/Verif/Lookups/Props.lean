import Verif.Lookups.Spec
/-!
# C102: the table of rules for productions
-/
namespace Verif.Lookups
open Verif.Util

variable {A : Type}

/-- The comparison that the table uses. -/
local instance (priority := 100000) strBEq : BEq Str := instBEqOfDecidableEq

theorem lookup_isSome {F : Type} (k : Str) : ∀ fs : List (Str × F), (fs.lookup k).isSome = true ↔ k ∈ fs.map Prod.fst
  | [] => ⟨fun h => (nomatch h), fun h => (nomatch h)⟩
  | (k', f) :: fs => by
    rw [List.lookup_cons, List.map_cons, List.mem_cons]
    by_cases hk : k = k'
    · subst hk
      rw [beq_self_eq_true]
      exact ⟨fun _ => .inl rfl, fun _ => rfl⟩
    · rw [beq_eq_false_iff_ne.2 hk]
      exact (lookup_isSome k fs).trans ⟨.inr, fun h => h.resolve_left hk⟩

theorem lookup_nodup {F : Type} {k : Str} {f : F} : ∀ {fs : List (Str × F)}, (fs.map Prod.fst).Nodup → (fs.lookup k = some f ↔ (k, f) ∈ fs)
  | [], _ => ⟨fun h => (nomatch h), fun h => (nomatch h)⟩
  | (k', f') :: fs, hn => by
    rw [List.map_cons, List.nodup_cons] at hn
    rw [List.lookup_cons, List.mem_cons]
    by_cases hk : k = k'
    · subst hk
      rw [beq_self_eq_true]
      constructor
      · intro h; rw [Option.some.inj h]; exact .inl rfl
      · rintro (h | h)
        · rw [(Prod.mk.inj h).2]
        · exact absurd (List.mem_map.2 ⟨_, h, rfl⟩) hn.1
    · rw [beq_eq_false_iff_ne.2 hk]
      exact (lookup_nodup hn.2).trans ⟨.inr, fun h => h.resolve_left (fun e => hk (Prod.mk.inj e).1)⟩

theorem putAll_iff : ∀ (es : List (Str × Cls A)) (d d' : Dfd Str (Cls A)), putAll d es = some d' ↔
    ((es.map Prod.fst).Nodup ∧ ∀ k ∈ es.map Prod.fst, k ∉ d.funcs.map Prod.fst) ∧ d' = ⟨d.funcs ++ es, d.counts ++ es.map (fun e => (e.1, 0))⟩
  | [], d, d' => by
    simp only [putAll, List.map_nil, List.append_nil]
    exact ⟨fun h => ⟨⟨.nil, fun _ h => (nomatch h)⟩, (Option.some.inj h).symm⟩, fun h => by rw [h.2]⟩
  | (k, c) :: es, d, d' => by
    rw [putAll, Dfd.set]
    by_cases hk : (d.funcs.lookup k).isSome = true
    · rw [if_pos hk]
      exact ⟨fun h => (nomatch h), fun h => absurd ((lookup_isSome k _).1 hk) (h.1.2 k (.head _))⟩
    · rw [if_neg hk, Option.bind_some, putAll_iff es]
      have hk' : k ∉ d.funcs.map Prod.fst := fun h => hk ((lookup_isSome k _).2 h)
      rw [List.map_cons, List.nodup_cons]
      simp only [List.map_append, List.map_cons, List.map_nil, List.mem_append, List.append_assoc, List.singleton_append, List.mem_cons, not_or]
      constructor
      · rintro ⟨⟨h1, h2⟩, h3⟩
        refine ⟨⟨⟨fun h => (h2 k h).2.1 rfl, h1⟩, ?_⟩, h3⟩
        rintro a (rfl | ha)
        · exact hk'
        · exact (h2 a ha).1
      · rintro ⟨⟨⟨h0, h1⟩, h2⟩, h3⟩
        exact ⟨⟨h1, fun a ha => ⟨h2 a (.inr ha), fun e => h0 (e ▸ ha), fun e => (nomatch e)⟩⟩, h3⟩

theorem entries_keys (ds : List (Decl A)) : (entries ds).map Prod.fst = ds.flatMap (fun d => d.prods.reverse) := by
  unfold entries
  induction ds with
  | nil => rfl
  | cons d ds ih =>
    rw [List.flatMap_cons, List.flatMap_cons, List.map_append, ih, List.map_map]
    congr 1
    exact (List.map_congr_left (fun _ _ => rfl)).trans (List.map_id _)

theorem perm_flat : ∀ ds : List (Decl A), (ds.flatMap (fun d => d.prods.reverse)).Perm (ds.flatMap (fun d => d.prods))
  | [] => .nil
  | d :: ds => by
    rw [List.flatMap_cons, List.flatMap_cons]
    exact (List.reverse_perm _).append (perm_flat ds)

theorem mem_entries {ds : List (Decl A)} {p : Str} {c : Cls A} : (p, c) ∈ entries ds ↔ Rule ds p c := by
  unfold entries Rule
  rw [List.mem_flatMap]
  constructor
  · rintro ⟨d, hd, h⟩
    obtain ⟨q, hq, he⟩ := List.mem_map.1 h
    injection he with h1 h2
    subst h1
    exact ⟨d, hd, List.mem_reverse.1 hq, h2⟩
  · rintro ⟨d, hd, h1, rfl⟩
    exact ⟨d, hd, List.mem_map.2 ⟨p, List.mem_reverse.2 h1, rfl⟩⟩

theorem load_iff (ds : List (Decl A)) (d : Dfd Str (Cls A)) : load ds = some d ↔ Once ds ∧ d = ⟨entries ds, (entries ds).map (fun e => (e.1, 0))⟩ := by
  unfold load
  rw [putAll_iff, entries_keys, (perm_flat ds).nodup_iff]
  exact ⟨fun h => ⟨h.1.1, h.2⟩, fun h => ⟨⟨h.1, fun _ _ e => nomatch e⟩, h.2⟩⟩

/-- **C102.**  The program can be loaded just if no production has two rules. -/
theorem c102_load (ds : List (Decl A)) : (load ds).isSome = true ↔ Once ds := by
  constructor
  · intro h
    obtain ⟨d, hd⟩ := Option.isSome_iff_exists.1 h
    exact ((load_iff ds d).1 hd).1
  · intro h
    rw [(load_iff ds _).2 ⟨h, rfl⟩]
    rfl

/-- One call: the functions stay, and the count of the key is raised if there is one. -/
theorem lookupForProd_some {d d' : Dfd Str (Cls A)} {q : Query} {o : Option A} (hk : d.funcs.map Prod.fst = d.counts.map Prod.fst) (h : lookupForProd d q = some (o, d')) :
    d'.funcs = d.funcs ∧ d'.counts = d.counts.map (fun p => if p.1 = q.prod then (p.1, p.2 + 1) else p) ∧ o = (d.funcs.lookup q.prod).bind (fun c => c q.attr) := by
  unfold lookupForProd at h
  cases hl : d.funcs.lookup q.prod with
  | none =>
    have hg : d.get q.prod = none := by rw [Dfd.get, hl]
    rw [hg] at h
    dsimp only at h
    split at h
    · exact nomatch h
    · injection h with h
      injection h with h1 h2
      subst h2
      refine ⟨rfl, ?_, h1.symm⟩
      refine ((List.map_congr_left (g := id) ?_).trans (List.map_id _)).symm
      intro p hp
      rw [if_neg]
      · rfl
      · intro e
        have : q.prod ∈ d.funcs.map Prod.fst := by rw [hk, ← e]; exact List.mem_map.2 ⟨p, hp, rfl⟩
        have := (lookup_isSome q.prod d.funcs).2 this
        rw [hl] at this
        exact nomatch this
  | some c =>
    have hg : d.get q.prod = some (c, { d with counts := d.counts.map (fun p => if p.1 = q.prod then (p.1, p.2 + 1) else p) }) := by
      rw [Dfd.get, hl]
    rw [hg] at h
    dsimp only at h
    rw [Option.bind_some]
    split at h
    · next a ha =>
      injection h with h
      injection h with h1 h2
      subst h2
      exact ⟨rfl, rfl, by rw [ha]; exact h1.symm⟩
    · next ha =>
      split at h
      · exact nomatch h
      · injection h with h
        injection h with h1 h2
        subst h2
        exact ⟨rfl, rfl, by rw [ha]; exact h1.symm⟩

theorem lookupForProd_none {d : Dfd Str (Cls A)} {q : Query} : lookupForProd d q = none ↔ q.must = true ∧ (d.funcs.lookup q.prod).bind (fun c => c q.attr) = none := by
  unfold lookupForProd
  cases hl : d.funcs.lookup q.prod with
  | none =>
    have hg : d.get q.prod = none := by rw [Dfd.get, hl]
    rw [hg]
    cases q.must <;> simp
  | some c =>
    have hg : d.get q.prod = some (c, { d with counts := d.counts.map (fun p => if p.1 = q.prod then (p.1, p.2 + 1) else p) }) := by
      rw [Dfd.get, hl]
    rw [hg, Option.bind_some]
    dsimp only
    cases ha : c q.attr with
    | none => cases q.must <;> simp
    | some a => simp

theorem bump_keys (k : Str) (cs : List (Str × Nat)) : (cs.map (fun p => if p.1 = k then (p.1, p.2 + 1) else p)).map Prod.fst = cs.map Prod.fst := by
  rw [List.map_map]
  apply List.map_congr_left
  intro p _
  dsimp only [Function.comp]
  split <;> rfl

theorem lookups_inv : ∀ (qs : List Query) {d d' : Dfd Str (Cls A)} {os : List (Option A)}, d.funcs.map Prod.fst = d.counts.map Prod.fst → lookups d qs = some (os, d') →
    d'.counts.map Prod.fst = d.counts.map Prod.fst ∧ d'.counts.length = d.counts.length ∧
    os = qs.map (fun q => (d.funcs.lookup q.prod).bind (fun c => c q.attr)) ∧
    unusedKeys d' = (unusedKeys d).filter (fun k => decide (∀ q ∈ qs, q.prod ≠ k))
  | [], d, d', os, _, h => by
    injection h with h
    injection h with h1 h2
    subst h2
    refine ⟨rfl, rfl, h1.symm, ?_⟩
    rw [List.filter_eq_self.2]
    intro a _
    exact decide_eq_true (fun q hq => nomatch hq)
  | q :: qs, d, d', os, hk, h => by
    rw [lookups] at h
    obtain ⟨⟨o, d1⟩, h1, h2⟩ := Option.bind_eq_some_iff.1 h
    obtain ⟨⟨os', d2⟩, h3, h4⟩ := Option.map_eq_some_iff.1 h2
    injection h4 with h5 h6
    dsimp only at h5 h6 h3
    subst h6
    obtain ⟨a1, a2, a3⟩ := lookupForProd_some hk h1
    have hk1 : d1.funcs.map Prod.fst = d1.counts.map Prod.fst := by rw [a1, a2, bump_keys, hk]
    obtain ⟨b1, b2, b3, b4⟩ := lookups_inv qs hk1 h3
    refine ⟨by rw [b1, a2, bump_keys], by rw [b2, a2, List.length_map], ?_, ?_⟩
    · rw [← h5, b3, a1, a3]; rfl
    · rw [b4]
      have hu : unusedKeys d1 = (unusedKeys d).filter (fun k => decide (q.prod ≠ k)) := by
        unfold unusedKeys
        rw [a2]
        induction d.counts with
        | nil => rfl
        | cons p cs ih =>
          obtain ⟨k, n⟩ := p
          rw [List.map_cons]
          dsimp only
          by_cases e : k = q.prod
          · rw [if_pos e, List.filter_cons_of_neg (by simp), ih]
            by_cases hn : n = 0
            · rw [List.filter_cons_of_pos (by simp [hn]), List.map_cons, List.filter_cons_of_neg (by simp [e])]
            · rw [List.filter_cons_of_neg (by simp [hn])]
          · rw [if_neg e]
            by_cases hn : n = 0
            · rw [List.filter_cons_of_pos (by simp [hn]), List.filter_cons_of_pos (by simp [hn]), List.map_cons, List.map_cons, ih,
                List.filter_cons_of_pos (by simp [Ne.symm e])]
            · rw [List.filter_cons_of_neg (by simp [hn]), List.filter_cons_of_neg (by simp [hn]), ih]
      rw [hu, List.filter_filter]
      apply List.filter_congr
      intro k _
      rw [← Bool.decide_and]
      apply decide_eq_decide.2
      constructor
      · rintro ⟨x1, x2⟩ z hz
        rcases List.mem_cons.1 hz with rfl | hz
        · exact x2
        · exact x1 z hz
      · exact fun x => ⟨fun z hz => x z (.tail _ hz), x q (.head _)⟩

theorem rule_lookup {ds : List (Decl A)} (ho : Once ds) (p attr : Str) (a : A) :
    ((entries ds).lookup p).bind (fun c => c attr) = some a ↔ Gives ds p attr a := by
  have hn : ((entries ds).map Prod.fst).Nodup := by rw [entries_keys]; exact (perm_flat ds).nodup_iff.2 ho
  rw [Option.bind_eq_some_iff]
  unfold Gives
  constructor
  · rintro ⟨c, h1, h2⟩
    exact ⟨c, mem_entries.1 ((lookup_nodup hn).1 h1), h2⟩
  · rintro ⟨c, h1, h2⟩
    exact ⟨c, (lookup_nodup hn).2 (mem_entries.2 h1), h2⟩

/-- **C102.**  After any calls: each call gave the attribute of the rule of its production, or nothing if there is no such rule or attribute. -/
theorem c102_answers {ds : List (Decl A)} {d d' : Dfd Str (Cls A)} (hl : load ds = some d) {qs : List Query} {os : List (Option A)} (h : lookups d qs = some (os, d')) :
    os.length = qs.length ∧ ∀ (i : Nat) (q : Query) (o : Option A), qs[i]? = some q → os[i]? = some o → ∀ a, o = some a ↔ Gives ds q.prod q.attr a := by
  obtain ⟨ho, rfl⟩ := (load_iff ds d).1 hl
  obtain ⟨_, _, h3, _⟩ := lookups_inv qs (by rw [List.map_map]; rfl) h
  dsimp only at h3
  subst h3
  refine ⟨List.length_map _, fun i q o hq hos a => ?_⟩
  rw [List.getElem?_map, hq, Option.map_some] at hos
  rw [← Option.some.inj hos]
  exact rule_lookup ho _ _ _

/-- **C102.**  The program is ended just by a call for something that must exist and does not. -/
theorem c102_ends {ds : List (Decl A)} {d : Dfd Str (Cls A)} (hl : load ds = some d) (qs : List Query) :
    lookups d qs = none ↔ ∃ q ∈ qs, q.must = true ∧ ∀ a, ¬ Gives ds q.prod q.attr a := by
  obtain ⟨ho, rfl⟩ := (load_iff ds d).1 hl
  have key : ∀ (qs : List Query) (d : Dfd Str (Cls A)), d.funcs = entries ds → d.funcs.map Prod.fst = d.counts.map Prod.fst →
      (lookups d qs = none ↔ ∃ q ∈ qs, q.must = true ∧ ∀ a, ¬ Gives ds q.prod q.attr a) := by
    intro qs
    induction qs with
    | nil => exact fun d _ _ => ⟨fun h => (nomatch h), fun ⟨q, hq, _⟩ => (nomatch hq)⟩
    | cons q qs ih =>
      intro d hf hk
      rw [lookups]
      have hq : lookupForProd d q = none ↔ q.must = true ∧ ∀ a, ¬ Gives ds q.prod q.attr a := by
        rw [lookupForProd_none, hf, Option.eq_none_iff_forall_ne_some]
        exact and_congr_right fun _ => forall_congr' fun a => not_congr (rule_lookup ho _ _ _)
      cases hc : lookupForProd d q with
      | none => exact ⟨fun _ => ⟨q, .head _, hq.1 hc⟩, fun _ => rfl⟩
      | some r =>
        obtain ⟨o, d1⟩ := r
        obtain ⟨a1, a2, _⟩ := lookupForProd_some hk hc
        rw [Option.bind_some, Option.map_eq_none_iff, ih d1 (a1.trans hf) (by rw [a1, a2, bump_keys, hk])]
        constructor
        · rintro ⟨z, hz, h⟩
          exact ⟨z, .tail _ hz, h⟩
        · rintro ⟨z, hz, h⟩
          rcases List.mem_cons.1 hz with rfl | hz
          · rw [hq.2 h] at hc; exact nomatch hc
          · exact ⟨z, hz, h⟩
  exact key qs _ rfl (by rw [List.map_map]; rfl)

/-- **C102.**  What is reported as unused after any calls: the productions that have a rule and that no call was for, each once. -/
theorem c102_unused {ds : List (Decl A)} {d d' : Dfd Str (Cls A)} (hl : load ds = some d) {qs : List Query} {os : List (Option A)} (h : lookups d qs = some (os, d')) :
    (unusedKeys d').Nodup ∧ ∀ p, p ∈ unusedKeys d' ↔ (∃ c, Rule ds p c) ∧ ∀ q ∈ qs, q.prod ≠ p := by
  obtain ⟨ho, rfl⟩ := (load_iff ds d).1 hl
  obtain ⟨_, _, _, h4⟩ := lookups_inv qs (by rw [List.map_map]; rfl) h
  have hu : unusedKeys (⟨entries ds, (entries ds).map (fun e => (e.1, 0))⟩ : Dfd Str (Cls A)) = (entries ds).map Prod.fst := by
    unfold unusedKeys
    rw [List.filter_eq_self.2, List.map_map]
    · rfl
    · intro p hp
      obtain ⟨e, _, rfl⟩ := List.mem_map.1 hp
      rfl
  rw [hu] at h4
  rw [h4]
  refine ⟨List.Pairwise.filter _ (show ((entries ds).map Prod.fst).Nodup by rw [entries_keys]; exact (perm_flat ds).nodup_iff.2 ho), fun p => ?_⟩
  rw [List.mem_filter, decide_eq_true_iff]
  apply and_congr_left'
  rw [List.mem_map]
  constructor
  · rintro ⟨⟨k, c⟩, he, rfl⟩
    exact ⟨c, mem_entries.1 he⟩
  · rintro ⟨c, hc⟩
    exact ⟨(p, c), mem_entries.2 hc, rfl⟩

/-- **C102.**  The report says that there are none just if every production with a rule was asked for, and else has a line for each of the others. -/
theorem c102_report {ds : List (Decl A)} {d d' : Dfd Str (Cls A)} (hl : load ds = some d) {qs : List Query} {os : List (Option A)} (h : lookups d qs = some (os, d')) (name : Str) :
    ((∀ p c, Rule ds p c → ∃ q ∈ qs, q.prod = p) → report name d' = ["unused entries in ".toList ++ name ++ ":".toList, "    (none)".toList, []]) ∧
    ((∃ p c, Rule ds p c ∧ ∀ q ∈ qs, q.prod ≠ p) → ∃ ps : List Str, report name d' = ("unused entries in ".toList ++ name ++ ":".toList) :: (ps.map (fun p => "    ".toList ++ p) ++ [[]]) ∧
      ps.Nodup ∧ ∀ p, p ∈ ps ↔ (∃ c, Rule ds p c) ∧ ∀ q ∈ qs, q.prod ≠ p) := by
  obtain ⟨hn, hm⟩ := c102_unused hl h
  constructor
  · intro ha
    have : unusedKeys d' = [] := by
      apply List.eq_nil_iff_forall_not_mem.2
      intro p hp
      obtain ⟨⟨c, hc⟩, h2⟩ := (hm p).1 hp
      obtain ⟨q, hq, e⟩ := ha p c hc
      exact h2 q hq e
    rw [report, if_pos this]
    rfl
  · rintro ⟨p, c, hc, hp⟩
    refine ⟨unusedKeys d', ?_, hn, hm⟩
    rw [report, if_neg (fun e => by have := (hm p).2 ⟨⟨c, hc⟩, hp⟩; rw [e] at this; exact nomatch this)]
    rfl

/-! ## Examples -/

def cls0 : Cls Nat := fun a => if a = "s_expr".toList then some 1 else none
def cls1 : Cls Nat := fun a => if a = "s_tb".toList then some 2 else none
def prog0 : List (Decl Nat) := [⟨["a".toList, "b".toList], cls0⟩, ⟨["c".toList], cls1⟩]

example : (load prog0).isSome = true ∧ ((load prog0).map unusedKeys) = some ["b".toList, "a".toList, "c".toList] := by decide +kernel
example : (load (prog0 ++ [⟨["a".toList], cls1⟩])).isSome = false := by decide +kernel
/-- A call that finds the class but not the attribute is a use too. -/
example : ((load prog0).bind (fun d => lookups d [⟨"b".toList, "s_expr".toList, true⟩, ⟨"c".toList, "s_expr".toList, false⟩, ⟨"z".toList, "s_expr".toList, false⟩])).map (fun r => (r.1, unusedKeys r.2)) =
  some ([some 1, none, none], ["a".toList]) := by decide +kernel
example : ((load prog0).bind (fun d => lookups d [⟨"c".toList, "s_expr".toList, true⟩])).isNone = true := by decide +kernel
example : ((load prog0).bind (fun d => lookups d [⟨"b".toList, "s_expr".toList, true⟩])).map (fun r => report "t".toList r.2) =
  some ["unused entries in t:".toList, "    a".toList, "    c".toList, []] := by decide +kernel

end Verif.Lookups
