import Verif.Deps.LoopLemmas
/-!
# Lemmas about the operations that look runtimey, and about the lists of the report
-/
namespace Verif.Deps

/-- Nothing is embedded in an invocation. -/
def plainInv (i : Inv) : Bool := i.node.attr.names.isNone || i.node.emb.isNone

def looks (i : Inv) : Bool := looksRuntimey i.node.attr

mutual
theorem anyRuntimey_walk (early : Bool) : ∀ (t : ANode) (up : Bool), (early || (walk up t).all (fun e => okEmb e.2)) = true →
    (walk up t).all (fun e => plainInv e.2) = true → anyRuntimey early t = some ((walk up t).any (fun e => looks e.2))
  | .node a ks e, up, h1, h2 => by
    rw [walk, List.all_cons, List.all_append, Bool.and_eq_true, Bool.and_eq_true] at h2
    have h1' : (early || (okEmb ⟨.node a ks e, up || a.lhs == parenLhs⟩ && ((if a.names.isNone then walkEmb e else []).all (fun e => okEmb e.2) &&
        (walkAll (up || a.lhs == parenLhs) 1 ks).all (fun e => okEmb e.2)))) = true := by
      rw [walk, List.all_cons, List.all_append] at h1; exact h1
    rw [anyRuntimey, walk, List.any_cons, List.any_append]
    have hk := anyRuntimeyAll_walk early ks (up || a.lhs == parenLhs) 1 (by
      cases early with
      | true => rfl
      | false => simp only [Bool.false_or, Bool.and_eq_true] at h1' ⊢; exact h1'.2.2) h2.2.2
    have hl : looks ⟨.node a ks e, up || a.lhs == parenLhs⟩ = looksRuntimey a := rfl
    rw [hl]
    by_cases hr : looksRuntimey a = true
    · simp [hr]
    · have he : anyRuntimeyEmb early e = some ((if a.names.isNone then walkEmb e else []).any (fun e => looks e.2)) := by
        cases hn : a.names with
        | some ns =>
          have : e = none := by
            have := h2.1
            simpa [plainInv, ANode.attr, ANode.emb, hn] using this
          subst this
          rfl
        | none =>
          simp only [Option.isNone_none, if_true]
          refine anyRuntimeyEmb_walk early e ?_ ?_
          · cases early with
            | true => rfl
            | false =>
              simp only [Bool.false_or, Bool.and_eq_true] at h1'
              simpa [okEmb, ANode.attr, ANode.emb, hn] using h1'.1
          · simpa [hn] using h2.2.1
      simp only [hr, Bool.false_eq_true, if_false, he, hk, Option.bind_eq_bind, Option.bind_some, Bool.false_or]
theorem anyRuntimeyAll_walk (early : Bool) : ∀ (ts : List ANode) (up : Bool) (k : Nat), (early || (walkAll up k ts).all (fun e => okEmb e.2)) = true →
    (walkAll up k ts).all (fun e => plainInv e.2) = true → anyRuntimeyAll early ts = some ((walkAll up k ts).any (fun e => looks e.2))
  | [], up, k, _, _ => by simp [anyRuntimeyAll, walkAll]
  | t :: ts, up, k, h1, h2 => by
    rw [walkAll, List.all_append, List.all_map, Bool.and_eq_true] at h2
    rw [walkAll, List.all_append, List.all_map, Bool.or_eq_true, Bool.and_eq_true] at h1
    have i1 := anyRuntimey_walk early t up (by
      rw [Bool.or_eq_true]; exact h1.elim Or.inl (fun h => Or.inr h.1)) h2.1
    have i2 := anyRuntimeyAll_walk early ts up (k + 1) (by
      rw [Bool.or_eq_true]; exact h1.elim Or.inl (fun h => Or.inr h.2)) h2.2
    rw [anyRuntimeyAll, i1, i2, walkAll, List.any_append, List.any_map]
    simp only [Option.bind_eq_bind, Option.bind_some, Function.comp_def]
    cases (walk up t).any (fun e => looks e.2) <;> simp
theorem anyRuntimeyEmb_walk (early : Bool) : ∀ (e : Option ANode), (early || e.isNone) = true →
    (walkEmb e).all (fun x => plainInv x.2) = true → anyRuntimeyEmb early e = some ((walkEmb e).any (fun x => looks x.2))
  | none, _, _ => by simp [anyRuntimeyEmb, walkEmb]
  | some x, h1, h2 => by
    have he : early = true := by simpa using h1
    subst he
    rw [walkEmb, List.all_map] at h2
    rw [anyRuntimeyEmb, if_pos rfl, anyRuntimey_walk true x false rfl h2, walkEmb, List.any_map]
    rfl
end

theorem opRuntimey_walk (early : Bool) : ∀ (ds : List (Option ANode)), (early || ds.all (fun o => (treeWalk o).all (fun e => okEmb e.2))) = true →
    ds.all (fun o => (treeWalk o).all (fun e => plainInv e.2)) = true → opRuntimey early ds = some (ds.any (fun o => (treeWalk o).any (fun e => looks e.2)))
  | [], _, _ => rfl
  | none :: ds, h1, h2 => by
    rw [opRuntimey, opRuntimey_walk early ds (by simpa [treeWalk] using h1) (by simpa [treeWalk] using h2)]
    rfl
  | some t :: ds, h1, h2 => by
    rw [List.all_cons, Bool.and_eq_true] at h2
    rw [List.all_cons, Bool.or_eq_true, Bool.and_eq_true] at h1
    rw [opRuntimey, anyRuntimey_walk early t false (by rw [Bool.or_eq_true]; exact h1.elim Or.inl (fun h => Or.inr h.1)) h2.1,
      opRuntimey_walk early ds (by rw [Bool.or_eq_true]; exact h1.elim Or.inl (fun h => Or.inr h.2)) h2.2]
    rfl

theorem defns_any (a : Alg) (g : Inv → Bool) : (a.defns.flatMap (·.2)).any (fun o => (treeWalk o).any (fun e => g e.2)) = (algWalk a).any (fun e => g e.2.2) := by
  have h := fun (g : Inv → Bool) => show (a.defns.flatMap (·.2)).all (fun o => (treeWalk o).all (fun e => g e.2)) = (algWalk a).all (fun e => g e.2.2) by
    rw [algWalk, idx_all headWalk (fun x => g x.2), Alg.defns]
    induction a.heads with
    | nil => rfl
    | cons h hs ih =>
      rw [List.flatMap_cons, List.flatMap_append, List.all_append, ih, List.all_cons, headWalk_all]
      congr 1
      rw [List.flatMap_map]
      simp only
      induction h.defs with
      | nil => rfl
      | cons d ds ih => rw [List.flatMap_cons, List.all_append, ih, List.all_cons]
  have h' := h (fun i => !g i)
  rw [← Bool.not_inj_iff, List.not_any_eq_all_not, List.not_any_eq_all_not, ← h']
  congr 1
  funext o
  rw [List.not_any_eq_all_not]

theorem defns_all (a : Alg) (g : Inv → Bool) : (a.defns.flatMap (·.2)).all (fun o => (treeWalk o).all (fun e => g e.2)) = (algWalk a).all (fun e => g e.2.2) := by
  have h := defns_any a (fun i => !g i)
  rw [← Bool.not_inj_iff, List.not_all_eq_any_not, List.not_all_eq_any_not, ← h]
  congr 1
  funext o
  rw [List.not_all_eq_any_not]

/-- The algorithm looks runtimey itself. -/
def rtAlg (a : Alg) : Bool := (algWalk a).any (fun e => looks e.2.2)

theorem direct_eq : ∀ (as : List Alg), (∀ a ∈ as, okAlg a = true ∧ (algWalk a).all (fun e => plainInv e.2.2) = true) →
    direct as = some ((as.filter rtAlg).map (·.name))
  | [], _ => rfl
  | a :: as, h => by
    obtain ⟨h1, h2⟩ := h a (by simp)
    have h1' : (a.name == earlyErrors || (algWalk a).all (fun e => okEmb e.2.2)) = true := by
      unfold okAlg at h1; rw [Bool.and_eq_true] at h1; exact h1.1
    rw [direct, opRuntimey_walk _ _ (by rw [defns_all]; exact h1') (by rw [defns_all]; exact h2), direct_eq as (fun a ha => h a (by simp [ha])), defns_any]
    simp only [Option.bind_eq_bind, Option.bind_some]
    rw [show (algWalk a).any (fun e => looks e.2.2) = rtAlg a from rfl, List.filter_cons]
    cases rtAlg a <;> simp

/-! ### The propagation -/

/-- What is reached by going to callers. -/
inductive Closure (S : Spec) (callers : List (String × String)) (rt : List String) : String → Prop
  | base {o} : o ∈ rt → Closure S callers rt o
  | step {o c} : Closure S callers rt o → (o, c) ∈ callers → Declared S c → Closure S callers rt c

theorem foldl_addIf (S : Spec) (l : List String) : ∀ acc : List String, (∀ x, x ∈ l.foldl (fun acc c => if S.isOp c then add c acc else acc) acc ↔
    x ∈ acc ∨ x ∈ l ∧ Declared S x) := by
  induction l with
  | nil => intro acc; simp
  | cons y l ih =>
    intro acc x
    rw [List.foldl_cons, ih, List.mem_cons]
    by_cases hy : S.isOp y = true
    · rw [if_pos hy, mem_add]
      have := (isOp_iff S y).1 hy
      constructor
      · rintro ((h | h) | h)
        · exact Or.inl h
        · subst h; exact Or.inr ⟨Or.inl rfl, this⟩
        · exact Or.inr ⟨Or.inr h.1, h.2⟩
      · rintro (h | ⟨h | h, h'⟩)
        · exact Or.inl (Or.inl h)
        · exact Or.inl (Or.inr h)
        · exact Or.inr ⟨h, h'⟩
    · rw [if_neg hy]
      have : ¬ Declared S y := fun h => hy ((isOp_iff S y).2 h)
      constructor
      · rintro (h | h)
        · exact Or.inl h
        · exact Or.inr ⟨Or.inr h.1, h.2⟩
      · rintro (h | ⟨h | h, h'⟩)
        · exact Or.inl h
        · subst h; exact absurd h' this
        · exact Or.inr ⟨h, h'⟩

theorem mem_nextRt (S : Spec) (callers : List (String × String)) (rt : List String) (x : String) :
    x ∈ nextRt S callers rt ↔ x ∈ rt ∨ (∃ o ∈ rt, (o, x) ∈ callers) ∧ Declared S x := by
  rw [nextRt, foldl_addIf]
  refine or_congr Iff.rfl (and_congr ?_ Iff.rfl)
  simp only [List.mem_flatMap, List.mem_map, List.mem_filter, beq_iff_eq]
  constructor
  · rintro ⟨o, ho, ⟨p, q⟩, ⟨h1, h2⟩, h3⟩
    simp only at h2 h3; subst h2; subst h3
    exact ⟨p, ho, h1⟩
  · rintro ⟨o, ho, h⟩
    exact ⟨o, ho, (o, x), ⟨h, rfl⟩, rfl⟩

theorem sameSet_iff {a b : List String} : sameSet a b = true ↔ ∀ x, x ∈ a ↔ x ∈ b := by
  simp only [sameSet, Bool.and_eq_true, List.all_eq_true, List.contains_iff_mem]
  exact ⟨fun h x => ⟨h.1 x, h.2 x⟩, fun h => ⟨fun x => (h x).1, fun x => (h x).2⟩⟩

theorem countP_lt {l : List String} {p q : String → Bool} (h : ∀ x ∈ l, p x = true → q x = true) {y : String} (hy : y ∈ l) (h1 : p y = false) (h2 : q y = true) :
    l.countP p < l.countP q := by
  induction l with
  | nil => cases hy
  | cons x l ih =>
    have hle : l.countP p ≤ l.countP q := List.countP_mono_left (fun z hz => h z (by simp [hz]))
    rw [List.countP_cons, List.countP_cons]
    rcases List.mem_cons.1 hy with rfl | hy
    · simp [h1, h2]; omega
    · have := ih (fun z hz => h z (by simp [hz])) hy
      have hx := h x (by simp)
      cases hp : p x with
      | false => simp; split <;> omega
      | true => simp [hx hp]; omega

theorem spread_spec (S : Spec) (callers : List (String × String)) : ∀ (n : Nat) (rt : List String), (∀ o ∈ rt, Declared S o) →
    (S.ops.map (·.name)).countP (fun o => !rt.contains o) < n →
    ∃ r, spread S callers n rt = some r ∧ ∀ x, x ∈ r ↔ Closure S callers rt x
  | 0, _, _, h => absurd h (Nat.not_lt_zero _)
  | n + 1, rt, hd, h => by
    rw [spread]
    by_cases hs : sameSet (nextRt S callers rt) rt = true
    · rw [if_pos hs]
      refine ⟨rt, rfl, fun x => ⟨.base, fun hx => ?_⟩⟩
      rw [sameSet_iff] at hs
      induction hx with
      | base h => exact h
      | step _ h1 h2 ih => exact (hs _).1 ((mem_nextRt S callers rt _).2 (Or.inr ⟨⟨_, ih, h1⟩, h2⟩))
    · rw [if_neg hs]
      have hd' : ∀ o ∈ nextRt S callers rt, Declared S o := by
        intro o ho
        rcases (mem_nextRt S callers rt o).1 ho with h | h
        · exact hd o h
        · exact h.2
      have hex : ∃ y, y ∈ nextRt S callers rt ∧ y ∉ rt := by
        apply Classical.byContradiction
        intro hno
        apply hs
        rw [sameSet_iff]
        intro x
        exact ⟨fun hx => Classical.byContradiction (fun hn => hno ⟨x, hx, hn⟩), fun hx => (mem_nextRt S callers rt x).2 (Or.inl hx)⟩
      obtain ⟨y, hy1, hy2⟩ := hex
      have hlt : (S.ops.map (·.name)).countP (fun o => !(nextRt S callers rt).contains o) < (S.ops.map (·.name)).countP (fun o => !rt.contains o) := by
        refine countP_lt (y := y) ?_ ?_ (by simp [hy1]) (by simp [hy2])
        · intro x _ hx
          simp only [Bool.not_eq_true', List.contains_eq_mem, decide_eq_false_iff_not] at hx ⊢
          exact fun h' => hx ((mem_nextRt S callers rt x).2 (Or.inl h'))
        · obtain ⟨a, ha, rfl⟩ := hd' y hy1
          exact List.mem_map.2 ⟨a, ha, rfl⟩
      obtain ⟨r, h1, h2⟩ := spread_spec S callers n (nextRt S callers rt) hd' (by omega)
      refine ⟨r, h1, fun x => (h2 x).trans ⟨fun hx => ?_, fun hx => ?_⟩⟩
      · induction hx with
        | base h =>
          rcases (mem_nextRt S callers rt _).1 h with h | ⟨⟨o, ho, h⟩, h'⟩
          · exact .base h
          · exact .step (.base ho) h h'
        | step _ h1 h2 ih => exact .step ih h1 h2
      · induction hx with
        | base h => exact .base ((mem_nextRt S callers rt _).2 (Or.inl h))
        | step _ h1 h2 ih => exact .step ih h1 h2

/-! ### Strings -/

theorem begins_iff (p s : String) : p.toList.isPrefixOf s.toList = true ↔ Begins p s := by
  rw [List.isPrefixOf_iff_prefix]
  exact ⟨fun ⟨r, h⟩ => ⟨r, h.symm⟩, fun ⟨r, h⟩ => ⟨r, h.symm⟩⟩

theorem occursIn_iff (p : List Char) : ∀ s : List Char, occursIn p s = true ↔ ∃ a b, s = a ++ p ++ b
  | [] => by
    simp only [occursIn, List.isEmpty_iff]
    constructor
    · rintro rfl; exact ⟨[], [], rfl⟩
    · rintro ⟨a, b, h⟩
      simp at h; exact h.2.1
  | c :: s => by
    simp only [occursIn, Bool.or_eq_true, List.isPrefixOf_iff_prefix, occursIn_iff p s]
    constructor
    · rintro (⟨r, h⟩ | ⟨a, b, h⟩)
      · exact ⟨[], r, h.symm⟩
      · exact ⟨c :: a, b, by simp [h]⟩
    · rintro ⟨a, b, h⟩
      cases a with
      | nil => exact Or.inl ⟨b, h.symm⟩
      | cons x a =>
        simp only [List.cons_append, List.cons.injEq] at h
        exact Or.inr ⟨a, b, h.2⟩

theorem has_iff (p s : String) : occursIn p.toList s.toList = true ↔ Has p s := occursIn_iff _ _

theorem looks_iff (i : Inv) : looks i = true ↔ Runtimey i.node := by
  simp only [looks, looksRuntimey, Bool.or_eq_true, List.any_eq_true, has_iff, Runtimey]
  refine or_congr Iff.rfl ?_
  simp [textPhrases]

theorem isSS_iff (t : String) : isSS t = true ↔ SsTitle t := begins_iff _ _

theorem ss_not_rs (t : String) (h : SsTitle t) (h' : RsTitle t) : False := by
  obtain ⟨r, h⟩ := h
  obtain ⟨r', h'⟩ := h'
  rw [h] at h'
  have := congrArg List.head? h'
  simp at this

theorem isRS_iff (t : String) : isRS t = true ↔ RsTitle t := by
  rw [isRS, Bool.and_eq_true, begins_iff, Bool.not_eq_true', ← Bool.not_eq_true, isSS_iff]
  exact ⟨fun h => h.2, fun h => ⟨fun h' => ss_not_rs t h' h, h⟩⟩

theorem isUn_iff (t : String) : isUn t = true ↔ UnTitle t := by
  rw [isUn, Bool.and_eq_true, Bool.not_eq_true', Bool.not_eq_true', ← Bool.not_eq_true, ← Bool.not_eq_true, isSS_iff, isRS_iff]; rfl

theorem mem_labelled (S : Spec) (test : String → Bool) (T : String → Prop) (h : ∀ t, test t = true ↔ T t) (o : String) :
    o ∈ labelled test S.sections ↔ Labelled S T o := by
  rw [labelled, mem_toSet, List.mem_filterMap]
  constructor
  · rintro ⟨⟨t, ns⟩, hs, h1⟩
    cases ns with
    | nil => cases h1
    | cons n ns =>
      simp only at h1
      split at h1
      · rename_i ht
        cases h1
        exact ⟨_, hs, (h _).1 ht, ns, rfl⟩
      · cases h1
  · rintro ⟨⟨t, ns⟩, hs, h1, os, h2⟩
    simp only at h1 h2; subst h2
    exact ⟨_, hs, by simp [(h t).2 h1]⟩

theorem nodup_labelled (test : String → Bool) (sections : List (String × List String)) : (labelled test sections).Nodup := nodup_toSet _

theorem mem_inter {a b : List String} {x : String} : x ∈ inter a b ↔ x ∈ a ∧ x ∈ b := by simp [inter]
theorem mem_minus {a b : List String} {x : String} : x ∈ minus a b ↔ x ∈ a ∧ x ∉ b := by simp [minus]
theorem nodup_inter {a b : List String} (h : a.Nodup) : (inter a b).Nodup := h.filter _
theorem nodup_minus {a b : List String} (h : a.Nodup) : (minus a b).Nodup := h.filter _

/-! ### The searches meet no name twice -/

theorem reachOp_nodup (callees : String → Option (List String)) : ∀ (n : Nat) (st : Gram.OState String) (s : String) (st' : Gram.OState String),
    st.reached.Nodup ∧ st.unknown.Nodup → Gram.reachOp callees n st s = some st' → st'.reached.Nodup ∧ st'.unknown.Nodup
  | 0, _, _, _, _, h => by simp [Gram.reachOp] at h
  | n + 1, st, s, st', hn, h => by
    simp only [Gram.reachOp] at h
    split at h
    · cases h; exact hn
    · rename_i hu
      cases hc : callees s with
      | none =>
        simp only [hc] at h
        cases h
        exact ⟨hn.1, List.nodup_cons.2 ⟨hu, hn.2⟩⟩
      | some cs =>
        simp only [hc] at h
        split at h
        · cases h; exact hn
        · rename_i hr
          have key : ∀ (cs : List String) (st st' : Gram.OState String), st.reached.Nodup ∧ st.unknown.Nodup → Gram.eachOp (Gram.reachOp callees n) st cs = some st' →
              st'.reached.Nodup ∧ st'.unknown.Nodup := by
            intro cs
            induction cs with
            | nil => intro st st' h1 h2; cases h2; exact h1
            | cons c cs ih =>
              intro st st' h1 h2
              simp only [Gram.eachOp] at h2
              cases hx : Gram.reachOp callees n st c with
              | none => simp [hx] at h2
              | some st1 =>
                simp only [hx] at h2
                exact ih st1 st' (reachOp_nodup callees n st c st1 h1 hx) h2
          exact key cs { st with reached := s :: st.reached } _ ⟨List.nodup_cons.2 ⟨hr, hn.1⟩, hn.2⟩ h

theorem eachOp_nodup (callees : String → Option (List String)) (n : Nat) : ∀ (cs : List String) (st st' : Gram.OState String), st.reached.Nodup ∧ st.unknown.Nodup →
    Gram.eachOp (Gram.reachOp callees n) st cs = some st' → st'.reached.Nodup ∧ st'.unknown.Nodup
  | [], _, _, h1, h2 => by cases h2; exact h1
  | c :: cs, st, st', h1, h2 => by
    simp only [Gram.eachOp] at h2
    cases hx : Gram.reachOp callees n st c with
    | none => simp [hx] at h2
    | some st1 =>
      simp only [hx] at h2
      exact eachOp_nodup callees n cs st1 st' (reachOp_nodup callees n st c st1 h1 hx) h2

theorem ssReach_nodup (unknown : List String) (callees : String → Option (List String)) : ∀ (n : Nat) (st : List String) (s : String) (st' : List String),
    st.Nodup → ssReach unknown callees n st s = some st' → st'.Nodup
  | 0, _, _, _, _, h => by simp [ssReach] at h
  | n + 1, st, s, st', hn, h => by
    simp only [ssReach] at h
    split at h
    · cases h; exact hn
    · split at h
      · cases h; exact hn
      · rename_i hr
        cases hc : callees s with
        | none => simp [hc] at h
        | some cs =>
          simp only [hc] at h
          have key : ∀ (cs : List String) (st st' : List String), st.Nodup → eachSs (ssReach unknown callees n) st cs = some st' → st'.Nodup := by
            intro cs
            induction cs with
            | nil => intro st st' h1 h2; cases h2; exact h1
            | cons c cs ih =>
              intro st st' h1 h2
              simp only [eachSs] at h2
              cases hx : ssReach unknown callees n st c with
              | none => simp [hx] at h2
              | some st1 =>
                simp only [hx] at h2
                exact ih st1 st' (ssReach_nodup unknown callees n st c st1 h1 hx) h2
          exact key _ _ _ (List.nodup_cons.2 ⟨hr, hn⟩) h

theorem eachSs_nodup (unknown : List String) (callees : String → Option (List String)) (n : Nat) : ∀ (cs : List String) (st st' : List String), st.Nodup →
    eachSs (ssReach unknown callees n) st cs = some st' → st'.Nodup
  | [], _, _, h1, h2 => by cases h2; exact h1
  | c :: cs, st, st', h1, h2 => by
    simp only [eachSs] at h2
    cases hx : ssReach unknown callees n st c with
    | none => simp [hx] at h2
    | some st1 =>
      simp only [hx] at h2
      exact eachSs_nodup unknown callees n cs st1 st' (ssReach_nodup unknown callees n st c st1 h1 hx) h2

end Verif.Deps
