import Verif.Deps.ReportLemmas
/-!
# Lemmas about the uses of the invocations
-/
namespace Verif.Deps

/-! ### The lists of invocations -/

theorem flatMap_filter {α β : Type} (P : α → Bool) (f : α → List β) : ∀ (l : List α), (∀ x ∈ l, P x = false → f x = []) → (l.filter P).flatMap f = l.flatMap f
  | [], _ => rfl
  | x :: l, h => by
    have ih := flatMap_filter P f l (fun y hy => h y (by simp [hy]))
    rw [List.filter_cons]
    cases hp : P x with
    | true => simp [ih]
    | false => simp [ih, h x (by simp) hp]

theorem one_node (S : Spec) (o : String) (ho : Declared S o) (i : Inv) : ∀ (ns : List String),
    (((ns.map (fun n => (n, i))).filter (fun p => S.isOp p.1)).filter (fun p => p.1 == o)).map (·.2) = List.replicate (ns.count o) i
  | [] => rfl
  | n :: ns => by
    have ih := one_node S o ho i ns
    rw [List.map_cons, List.filter_cons, List.count_cons]
    by_cases h : n = o
    · subst h
      rw [if_pos ((isOp_iff S n).2 ho), List.filter_cons, if_pos (by simp), List.map_cons, ih, beq_self_eq_true, if_pos rfl, List.replicate_succ]
    · have : (n == o) = false := by simpa using h
      rw [this]
      cases S.isOp n
      · simpa using ih
      · simpa [this] using ih

theorem invs_list (S : Spec) (hS : Given S) (o : String) (ho : Declared S o) : IsInvList S o ((final S).invocations o) := by
  have hl := listing_idx (sortAlgs S.ops ++ sortAlgs S.bifs) 0 (fun a _ => listing_congr (listing_map (algWalk_listing a) (·.2)) (R' := InAlg a) (fun p y => by
    constructor
    · rintro ⟨x, ⟨h, _⟩, rfl⟩; exact h
    · intro h
      obtain ⟨s, hs⟩ := sect_of_inAlg h
      exact ⟨(s, y), ⟨h, hs⟩, rfl⟩))
  refine ⟨sortAlgs S.ops, sortAlgs S.bifs, (idx (fun a => (algWalk a).map (fun e => (e.1, e.2.2))) 0 (sortAlgs S.ops ++ sortAlgs S.bifs)).filter (fun e => 0 < times e.2.node o),
    perm_sortAlgs _, perm_sortAlgs _, sorted_sortAlgs _ hS.ops, sorted_sortAlgs _ hS.bifs, hl.1.filter _, ?_, ?_⟩
  · intro q i
    rw [List.mem_filter, hl.2]
    have ht : decide (0 < times i.node o) = true ↔ NodeCalls i.node o := by
      rw [decide_eq_true_eq, NodeCalls, times]
      cases i.node.attr.names with
      | none => simp
      | some ns => simp [List.count_pos_iff]
    simp only [ht, Nat.add_zero]
    constructor
    · rintro ⟨⟨k, a, p, h1, h2, h3⟩, h4⟩; exact ⟨k, a, p, h2, h1, h3, h4⟩
    · rintro ⟨k, a, p, h2, h1, h3, h4⟩; exact ⟨⟨k, a, p, h1, h2, h3⟩, h4⟩
  · rw [flatMap_filter _ _ _ (fun e _ he => by
      have : times e.2.node o = 0 := by simpa using he
      rw [this]; rfl)]
    rw [idx_flatMap (fun a => (algWalk a).map (fun e => (e.1, e.2.2))) (fun i => List.replicate (times i.node o) i)]
    have hi : (final S).invs = (sortAlgs S.ops ++ sortAlgs S.bifs).flatMap (fun a => ((callsOf a).map (·.2)).filter (fun p => S.isOp p.1)) := by
      simp [final, after, List.flatMap_append]
    rw [St.invocations, hi, List.filter_flatMap, List.map_flatMap]
    congr 1
    funext a
    rw [callsOf, List.map_flatMap, List.filter_flatMap, List.filter_flatMap, List.map_flatMap, List.flatMap_map]
    congr 1
    funext e
    have := one_node S o ho e.2.2 (e.2.2.node.attr.names.getD [])
    simp only [sectNamed, named, List.map_map, Function.comp_def] at this ⊢
    rw [this, times]
    cases e.2.2.node.attr.names <;> rfl

theorem places_unique {X : Type} {es fs : List (List Nat × X)} (h1 : es.Pairwise (fun a b => Before a.1 b.1)) (h3 : fs.Pairwise (fun a b => Before a.1 b.1))
    (hm : ∀ x, x ∈ es ↔ x ∈ fs) : es = fs := by
  induction es generalizing fs with
  | nil =>
    cases fs with
    | nil => rfl
    | cons y l' => exact absurd ((hm y).2 (by simp)) (by simp)
  | cons x l ih =>
    cases fs with
    | nil => exact absurd ((hm x).1 (by simp)) (by simp)
    | cons y l' =>
      rw [List.pairwise_cons] at h1 h3
      have hxy : x = y := by
        rcases List.mem_cons.1 ((hm x).1 (by simp)) with h | h
        · exact h
        · rcases List.mem_cons.1 ((hm y).2 (by simp)) with h' | h'
          · exact h'.symm
          · exact absurd (h1.1 y h') (before_asymm _ _ (h3.1 x h))
      subst hxy
      congr 1
      refine ih h1.2 h3.2 (fun z => ?_)
      constructor
      · intro hz
        rcases List.mem_cons.1 ((hm z).1 (List.mem_cons_of_mem _ hz)) with h | h
        · subst h; exact absurd (h1.1 z hz) (before_irrefl _)
        · exact h
      · intro hz
        rcases List.mem_cons.1 ((hm z).2 (List.mem_cons_of_mem _ hz)) with h | h
        · subst h; exact absurd (h3.1 z hz) (before_irrefl _)
        · exact h

theorem invList_unique {S : Spec} {o : String} {l l' : List Inv} (h : IsInvList S o l) (h' : IsInvList S o l') : l = l' := by
  obtain ⟨ops, bifs, pl, h1, h2, h3, h4, h5, h6, rfl⟩ := h
  obtain ⟨ops', bifs', pl', k1, k2, k3, k4, k5, k6, rfl⟩ := h'
  have e1 : ops = ops' := sortedAlgs_unique h3 k3 (fun x => h1.mem_iff.trans k1.mem_iff.symm)
  have e2 : bifs = bifs' := sortedAlgs_unique h4 k4 (fun x => h2.mem_iff.trans k2.mem_iff.symm)
  subst e1 e2
  rw [places_unique h5 k5 (fun x => (h6 x.1 x.2).trans (k6 x.1 x.2).symm)]

/-! ### Lists of results -/

theorem mem_checkThes {b : Bool} : ∀ {is : List Inv} {ms : List Msg}, checkThes b is = some ms → ∀ m, m ∈ ms ↔ ∃ i ∈ is, ∃ x, checkThe b i = some x ∧ m ∈ x
  | [], ms, h, m => by simp [checkThes] at h; subst h; simp
  | i :: is, ms, h, m => by
    simp only [checkThes, Option.bind_eq_bind, Option.bind_eq_some_iff, Option.some.injEq] at h
    obtain ⟨x, hx, y, hy, rfl⟩ := h
    have ih := mem_checkThes hy m
    rw [List.mem_append, ih]
    constructor
    · rintro (h | ⟨j, hj, h⟩)
      · exact ⟨i, by simp, x, hx, h⟩
      · exact ⟨j, by simp [hj], h⟩
    · rintro ⟨j, hj, z, hz, h⟩
      rcases List.mem_cons.1 hj with rfl | hj
      · rw [hx] at hz; cases hz; exact Or.inl h
      · exact Or.inr ⟨j, hj, z, hz, h⟩

theorem checkThes_ne {b : Bool} : ∀ (is : List Inv), checkThes b is ≠ none ↔ ∀ i ∈ is, checkThe b i ≠ none
  | [] => by simp [checkThes]
  | i :: is => by
    have ih := checkThes_ne (b := b) is
    rw [List.forall_mem_cons, ← ih, checkThes]
    cases checkThe b i <;> simp
    cases checkThes b is <;> simp

theorem mem_checkSdos {st : St} : ∀ {as : List Alg} {ms : List Msg}, checkSdos st as = some ms → ∀ m, m ∈ ms ↔ ∃ a ∈ as, ∃ x, checkSdo st a = some x ∧ m ∈ x
  | [], ms, h, m => by simp [checkSdos] at h; subst h; simp
  | i :: is, ms, h, m => by
    simp only [checkSdos, Option.bind_eq_bind, Option.bind_eq_some_iff, Option.some.injEq] at h
    obtain ⟨x, hx, y, hy, rfl⟩ := h
    have ih := mem_checkSdos hy m
    rw [List.mem_append, ih]
    constructor
    · rintro (h | ⟨j, hj, h⟩)
      · exact ⟨i, by simp, x, hx, h⟩
      · exact ⟨j, by simp [hj], h⟩
    · rintro ⟨j, hj, z, hz, h⟩
      rcases List.mem_cons.1 hj with rfl | hj
      · rw [hx] at hz; cases hz; exact Or.inl h
      · exact Or.inr ⟨j, hj, z, hz, h⟩

theorem checkSdos_ne {st : St} : ∀ (as : List Alg), checkSdos st as ≠ none ↔ ∀ a ∈ as, checkSdo st a ≠ none
  | [] => by simp [checkSdos]
  | i :: is => by
    have ih := checkSdos_ne (st := st) is
    rw [List.forall_mem_cons, ← ih, checkSdos]
    cases checkSdo st i <;> simp
    cases checkSdos st is <;> simp

/-! ### The word "the" -/

theorem startsWith_iff (p s : String) : startsWith p s = true ↔ Begins p s := by
  rw [startsWith, List.isPrefixOf_iff_prefix, Begins]
  exact ⟨fun ⟨r, h⟩ => ⟨r, h.symm⟩, fun ⟨r, h⟩ => ⟨r, h.symm⟩⟩

theorem isEither_iff (r : String) : isEither r = true ↔
    ∃ mid : List Char, mid ≠ [] ∧ '\n' ∉ mid ∧ r.toList = "either a normal completion containing ".toList ++ mid ++ " or an abrupt completion".toList := by
  unfold isEither
  generalize "either a normal completion containing ".toList = p
  generalize " or an abrupt completion".toList = q
  generalize r.toList = l
  simp only [Bool.and_eq_true, List.isPrefixOf_iff_prefix, List.isSuffixOf_iff_suffix, decide_eq_true_eq, List.all_eq_true, bne_iff_ne]
  constructor
  · rintro ⟨⟨⟨⟨a, rfl⟩, hb⟩, hlt⟩, hall⟩
    rw [List.length_append] at hlt
    obtain ⟨b, hb⟩ := hb
    have hq : ∃ mid, a = mid ++ q := by
      have h1 : q = (p ++ a).drop ((p ++ a).length - q.length) := by
        rw [← hb]; simp
      rw [List.drop_append, List.length_append, List.drop_eq_nil_of_le (by omega), List.nil_append] at h1
      exact ⟨a.take (p.length + a.length - q.length - p.length), by
        conv => lhs; rw [← List.take_append_drop (p.length + a.length - q.length - p.length) a]
        rw [← h1]⟩
    obtain ⟨mid, rfl⟩ := hq
    refine ⟨mid, ?_, ?_, by simp⟩
    · rintro rfl; simp at hlt
    · have : ((p ++ (mid ++ q)).drop p.length).take ((p ++ (mid ++ q)).length - p.length - q.length) = mid := by
        simp only [List.drop_left, List.length_append]
        rw [show p.length + (mid.length + q.length) - p.length - q.length = mid.length by omega]
        simp
      rw [this] at hall
      exact fun h => hall _ h rfl
  · rintro ⟨mid, h1, h2, rfl⟩
    have : ((p ++ mid ++ q).drop p.length).take ((p ++ mid ++ q).length - p.length - q.length) = mid := by
      rw [List.append_assoc]
      simp only [List.drop_left, List.length_append]
      rw [show p.length + (mid.length + q.length) - p.length - q.length = mid.length by omega]
      simp
    refine ⟨⟨⟨⟨mid ++ q, by simp⟩, ⟨p ++ mid, rfl⟩⟩, ?_⟩, ?_⟩
    · have : 0 < mid.length := List.length_pos_iff.2 h1
      simp only [List.length_append]; omega
    · rw [this]
      rintro x hx rfl
      exact h2 hx

theorem acceptsThe_iff (a : Alg) : (acceptsThe a ≠ none ↔ ∃ r, Returns a r) ∧ ∀ b, acceptsThe a = some b → (b = true ↔ ∃ r, Returns a r ∧ Accepts a r) := by
  have key : ∀ r, acceptsFor a r = true ↔ Accepts a r := by
    intro r
    have hun : r = "either a normal completion containing ~unused~ or an abrupt completion" → isEither r = true := by
      rintro rfl
      decide
    rw [isEither_iff] at hun
    rw [acceptsFor, Bool.not_eq_true', ← Bool.not_eq_true]
    simp only [Bool.or_eq_true, List.contains_cons, List.contains_nil, List.any_cons, List.any_nil, Bool.or_false, beq_iff_eq, startsWith_iff, isEither_iff, not_or]
    constructor
    · rintro ⟨⟨⟨⟨⟨h1, h2, h3⟩, h4, h5, h6, h7⟩, h8⟩, h9⟩, h10, h11, h12⟩
      exact ⟨⟨h1, h2, h10, h11, h12⟩, fun mid m1 m2 m3 => h9 ⟨mid, m1, m2, m3⟩, h4, h5, h6, h7, h8⟩
    · rintro ⟨⟨h1, h2, h10, h11, h12⟩, h9, h4, h5, h6, h7, h8⟩
      have h9' : ¬ ∃ mid : List Char, mid ≠ [] ∧ '\n' ∉ mid ∧ r.toList = "either a normal completion containing ".toList ++ mid ++ " or an abrupt completion".toList := fun ⟨mid, m1, m2, m3⟩ => h9 mid m1 m2 m3
      exact ⟨⟨⟨⟨⟨h1, h2, fun h => h9' (hun h)⟩, h4, h5, h6, h7⟩, h8⟩, h9'⟩, h10, h11, h12⟩
  unfold acceptsThe Returns
  cases a.heads with
  | nil => simp
  | cons h hs =>
    have hret : ∀ r, (∃ h' hs', h :: hs = h' :: hs' ∧ (h'.returns = some r ∨ h'.returns = none ∧ a.name = "MV" ∧ r = "a mathematical value")) ↔
        returnOf a h = some r := by
      intro r
      constructor
      · rintro ⟨h', hs', he, hr⟩
        cases he
        rcases hr with hr | ⟨hr, hn, rfl⟩
        · simp [returnOf, hr]
        · simp [returnOf, hr, hn]
      · intro hr
        refine ⟨h, hs, rfl, ?_⟩
        unfold returnOf at hr
        cases hret : h.returns with
        | some r' => simp [hret] at hr; exact Or.inl (by rw [hr])
        | none =>
          by_cases hn : a.name = "MV"
          · simp [hret, hn] at hr; exact Or.inr ⟨rfl, hn, hr.symm⟩
          · simp [hret, hn] at hr
    simp only [hret]
    cases returnOf a h with
    | none => simp
    | some r =>
      refine ⟨by simp, fun b hb => ?_⟩
      simp only [Option.map_some, Option.some.injEq] at hb
      rw [← hb, key]
      simp

theorem has_the (i : Inv) : occursIn "the {cap_word}".toList i.node.attr.rhs.toList = true ↔ HasThe i := occursIn_iff _ _

theorem mem_checkThe {a : Alg} {b : Bool} (hb : acceptsThe a = some b) {i : Inv} {x : List Msg} (h : checkThe b i = some x) (m : Msg) :
    m ∈ x ↔ (m = .noThe i.node ∧ HasThe i ∧ ¬ WantsThe a i) ∨ (m = .needsThe i.node ∧ ¬ HasThe i ∧ WantsThe a i) := by
  have hw : (b && !i.inParen) = true ↔ WantsThe a i := by
    rw [Bool.and_eq_true, (acceptsThe_iff a).2 b hb, WantsThe, Bool.not_eq_true']
  unfold checkThe at h
  split at h
  · cases h
  · simp only [Option.some.injEq] at h
    rw [← h, ← hw, ← has_the]
    cases (b && !i.inParen) <;> cases occursIn "the {cap_word}".toList i.node.attr.rhs.toList <;> simp

theorem mem_checkSdo {st : St} {a : Alg} {x : List Msg} (h : checkSdo st a = some x) (m : Msg) : m ∈ x ↔ BySyntax a ∧
    ((m = .noInvocations a.name ∧ st.invocations a.name = [] ∧ a.name ≠ "Early Errors") ∨
      ∃ i ∈ st.invocations a.name, (m = .noThe i.node ∧ HasThe i ∧ ¬ WantsThe a i) ∨ (m = .needsThe i.node ∧ ¬ HasThe i ∧ WantsThe a i)) := by
  unfold checkSdo at h
  split at h
  · rename_i hs
    have hs' : BySyntax a := (startsWith_iff _ _).1 hs
    split at h
    · rename_i he
      have he' := List.isEmpty_iff.1 he
      simp only [Option.some.injEq] at h
      rw [← h]
      rw [he']
      by_cases hn : a.name = earlyErrors
      · rw [if_pos hn]
        have h1 : a.name = "Early Errors" := hn
        constructor
        · intro hm; cases hm
        · rintro ⟨_, ⟨_, _, hne⟩ | ⟨_, hi, _⟩⟩
          · exact absurd h1 hne
          · cases hi
      · rw [if_neg hn]
        constructor
        · intro hm
          exact ⟨hs', Or.inl ⟨List.mem_singleton.1 hm, rfl, hn⟩⟩
        · rintro ⟨_, ⟨rfl, _, _⟩ | ⟨_, hi, _⟩⟩
          · exact List.mem_singleton.2 rfl
          · cases hi
    · rename_i he
      have he' : st.invocations a.name ≠ [] := fun hh => he (List.isEmpty_iff.2 hh)
      split at h
      · cases h
      · rename_i b hb
        rw [mem_checkThes h]
        constructor
        · rintro ⟨i, hi, y, hy, hm⟩
          exact ⟨hs', Or.inr ⟨i, hi, (mem_checkThe hb hy m).1 hm⟩⟩
        · rintro ⟨_, ⟨_, h1, _⟩ | ⟨i, hi, hm⟩⟩
          · exact absurd h1 he'
          · have hne := (checkThes_ne (b := b) (st.invocations a.name)).1 (by rw [h]; simp) i hi
            cases hy : checkThe b i with
            | none => exact absurd hy hne
            | some y => exact ⟨i, hi, y, hy, (mem_checkThe hb hy m).2 hm⟩
  · rename_i hs
    simp only [Option.some.injEq] at h
    rw [← h]
    simp only [List.not_mem_nil, false_iff]
    exact fun hh => hs ((startsWith_iff _ _).2 hh.1)

theorem mem_sdoNames {S : Spec} {st : St} {ms : List Msg} (h : checkSdoNames S st = some ms) (m : Msg) : m ∈ ms ↔ ∃ a ∈ S.ops, BySyntax a ∧
    ((m = .noInvocations a.name ∧ st.invocations a.name = [] ∧ a.name ≠ "Early Errors") ∨
      ∃ i ∈ st.invocations a.name, (m = .noThe i.node ∧ HasThe i ∧ ¬ WantsThe a i) ∨ (m = .needsThe i.node ∧ ¬ HasThe i ∧ WantsThe a i)) := by
  rw [mem_checkSdos h]
  constructor
  · rintro ⟨a, ha, x, hx, hm⟩
    exact ⟨a, mem_sortAlgs.1 ha, (mem_checkSdo hx m).1 hm⟩
  · rintro ⟨a, ha, hm⟩
    have hne := (checkSdos_ne (st := st) _).1 (by rw [checkSdoNames] at h; rw [h]; simp) a (mem_sortAlgs.2 ha)
    cases hx : checkSdo st a with
    | none => exact absurd hx hne
    | some x => exact ⟨a, mem_sortAlgs.2 ha, x, hx, (mem_checkSdo hx m).2 hm⟩

theorem sdoNames_ne (S : Spec) (st : St) : checkSdoNames S st ≠ none ↔ ∀ a ∈ S.ops, BySyntax a → st.invocations a.name ≠ [] →
    (∃ r, Returns a r) ∧ ∀ i ∈ st.invocations a.name, i.node.attr.lhs = "{NAMED_OPERATION_INVOCATION}" := by
  rw [checkSdoNames, checkSdos_ne]
  have hT : ∀ b i, checkThe b i ≠ none ↔ i.node.attr.lhs = "{NAMED_OPERATION_INVOCATION}" := by
    intro b i
    unfold checkThe
    by_cases h : i.node.attr.lhs = "{NAMED_OPERATION_INVOCATION}"
    · rw [if_neg (fun hh => hh h)]
      exact ⟨fun _ => h, fun _ => Option.some_ne_none _⟩
    · rw [if_pos h]
      exact ⟨fun hh => absurd rfl hh, fun hh => absurd hh h⟩
  have key : ∀ a, checkSdo st a ≠ none ↔ (BySyntax a → st.invocations a.name ≠ [] →
      (∃ r, Returns a r) ∧ ∀ i ∈ st.invocations a.name, i.node.attr.lhs = "{NAMED_OPERATION_INVOCATION}") := by
    intro a
    unfold checkSdo
    split
    · rename_i hs
      have hs' : BySyntax a := (startsWith_iff _ _).1 hs
      split
      · rename_i he
        simp [List.isEmpty_iff.1 he]
      · rename_i he
        have he' : st.invocations a.name ≠ [] := fun hh => he (List.isEmpty_iff.2 hh)
        rw [← (acceptsThe_iff a).1]
        cases acceptsThe a with
        | none => exact ⟨fun hh => absurd rfl hh, fun hh => absurd rfl (hh hs' he').1⟩
        | some b =>
          have h1 : (∀ i ∈ st.invocations a.name, checkThe b i ≠ none) ↔ ∀ i ∈ st.invocations a.name, i.node.attr.lhs = "{NAMED_OPERATION_INVOCATION}" :=
            ⟨fun hh i hi => (hT b i).1 (hh i hi), fun hh i hi => (hT b i).2 (hh i hi)⟩
          rw [← h1, ← checkThes_ne]
          exact ⟨fun hh _ _ => ⟨Option.some_ne_none _, hh⟩, fun hh => (hh hs' he').2⟩
    · rename_i hs
      simp only [ne_eq, reduceCtorEq, not_false_eq_true, true_iff]
      exact fun hh => absurd ((startsWith_iff _ _).2 hh) hs
  simp only [key]
  exact ⟨fun h a ha => h a (mem_sortAlgs.2 ha), fun h a ha => h a (mem_sortAlgs.1 ha)⟩

/-! ### Arguments -/

theorem exCount_iff : ∀ (t : ANode) (n : Nat), exCount t = some n ↔ Exes t n
  | .node a kids e, n => by
    constructor
    · intro h
      unfold exCount at h
      split at h
      · cases h
      · rename_i h1
        have h1' : a.lhs = "{EXLIST}" := Classical.not_not.1 h1
        split at h
        · rename_i h2
          split at h
          · cases h; exact .one h1' h2
          · cases h
        · split at h
          · rename_i h2
            split at h
            · rename_i l x
              rw [Option.map_eq_some_iff] at h
              obtain ⟨m, hm, rfl⟩ := h
              exact .more h1' h2 ((exCount_iff l m).1 hm)
            · cases h
          · cases h
    · intro h
      cases h with
      | one h1 h2 => simp [exCount, h1, h2]
      | more h1 h2 h3 =>
        have := (exCount_iff _ _).2 h3
        simp [exCount, h1, h2, this]
  termination_by t => t

theorem exOptCount_node (a : Attr) (kids : List ANode) (e : Option ANode) : exOptCount (.node a kids e) =
    if a.lhs = "{EXLIST_OPT}" then if a.rhs = "{EPSILON}" then some 0 else if a.rhs = "{EXLIST}" then (match kids with
      | [l] => exCount l
      | _ => none) else if a.rhs = "{var}" then (match kids with
      | _ :: _ => some 1
      | [] => none) else none else none := by
  unfold exOptCount
  by_cases h : a.lhs = "{EXLIST_OPT}"
  · rw [if_neg (show ¬ (ANode.node a kids e).attr.lhs ≠ "{EXLIST_OPT}" from fun hh => hh h), if_pos h]; rfl
  · rw [if_pos (show (ANode.node a kids e).attr.lhs ≠ "{EXLIST_OPT}" from h), if_neg h]

theorem exOptCount_iff (t : ANode) (n : Nat) : exOptCount t = some n ↔ Between t n := by
  obtain ⟨a, kids, e⟩ := t
  rw [exOptCount_node]
  constructor
  · intro h
    by_cases h1 : a.lhs = "{EXLIST_OPT}"
    · rw [if_pos h1] at h
      by_cases h2 : a.rhs = "{EPSILON}"
      · rw [if_pos h2] at h; cases h; exact .nothing h1 h2
      · rw [if_neg h2] at h
        by_cases h3 : a.rhs = "{EXLIST}"
        · rw [if_pos h3] at h
          match kids, h with
          | [l], h => exact .list h1 h3 ((exCount_iff _ _).1 h)
        · rw [if_neg h3] at h
          by_cases h4 : a.rhs = "{var}"
          · rw [if_pos h4] at h
            match kids, h with
            | _ :: _, h => cases h; exact .var h1 h4
          · rw [if_neg h4] at h; cases h
    · rw [if_neg h1] at h; cases h
  · intro h
    cases h with
    | nothing h1 h2 => rw [if_pos h1, if_pos h2]
    | list h1 h2 h3 => rw [if_pos h1, if_neg (by rw [h2]; decide), if_pos h2]; exact (exCount_iff _ _).2 h3
    | var h1 h2 => rw [if_pos h1, if_neg (by rw [h2]; decide), if_neg (by rw [h2]; decide), if_pos h2]

theorem argCount_node (op : String) (a : Attr) (kids : List ANode) (e : Option ANode) : argCount op (.node a kids e) =
    if a.lhs ++ " : " ++ a.rhs = "{PREFIX_PAREN} : {OPN_BEFORE_PAREN}({EXLIST_OPT})" then (match kids with
      | [_, x] => exOptCount x
      | _ => none)
    else if a.lhs ++ " : " ++ a.rhs = "{NAMED_OPERATION_INVOCATION} : {cap_word} of {LOCAL_REF}" then some 0
    else if a.lhs ++ " : " ++ a.rhs = "{NAMED_OPERATION_INVOCATION} : {cap_word} of {LOCAL_REF} {WITH_ARGS}" then (match kids with
      | [w, _, args] => if w.attr.text = op then some args.kids.length else none
      | _ => none)
    else none := rfl

theorem argCount_iff (op : String) (t : ANode) (n : Nat) : argCount op t = some n ↔ Args op t n := by
  obtain ⟨a, kids, e⟩ := t
  rw [argCount_node]
  constructor
  · intro h
    by_cases h1 : a.lhs ++ " : " ++ a.rhs = "{PREFIX_PAREN} : {OPN_BEFORE_PAREN}({EXLIST_OPT})"
    · rw [if_pos h1] at h
      match kids, h with
      | [_, x], h => exact .paren h1 ((exOptCount_iff _ _).1 h)
    · rw [if_neg h1] at h
      by_cases h2 : a.lhs ++ " : " ++ a.rhs = "{NAMED_OPERATION_INVOCATION} : {cap_word} of {LOCAL_REF}"
      · rw [if_pos h2] at h; cases h; exact .bare h2
      · rw [if_neg h2] at h
        by_cases h3 : a.lhs ++ " : " ++ a.rhs = "{NAMED_OPERATION_INVOCATION} : {cap_word} of {LOCAL_REF} {WITH_ARGS}"
        · rw [if_pos h3] at h
          match kids, h with
          | [w, r, x], h =>
            by_cases h4 : w.attr.text = op
            · simp only [if_pos h4] at h; cases h; exact .with_ h3 h4
            · simp only [if_neg h4] at h; cases h
        · rw [if_neg h3] at h; cases h
  · intro h
    cases h with
    | paren h1 h2 => rw [if_pos h1]; exact (exOptCount_iff _ _).2 h2
    | bare h1 => rw [if_neg (by rw [h1]; decide), if_pos h1]
    | with_ h1 h2 => rw [if_neg (by rw [h1]; decide), if_neg (by rw [h1]; decide), if_pos h1]; simp only [if_pos h2]

theorem supply_spec (op : String) (i : Nat) : ∀ (invs : List Inv), (supply op i invs ≠ none ↔ ∀ v ∈ invs, ∃ k, Args op v.node k) ∧
    ∀ y n, supply op i invs = some (y, n) → (n = 0 ↔ ∀ v ∈ invs, ∃ k, Args op v.node k ∧ i ≤ k) ∧ (y = 0 ↔ ∀ v ∈ invs, ∃ k, Args op v.node k ∧ k < i)
  | [] => by simp [supply]
  | v :: vs => by
    have ih := supply_spec op i vs
    simp only [List.forall_mem_cons, ← argCount_iff] at ih ⊢
    unfold supply
    cases hk : argCount op v.node with
    | none => simp
    | some k =>
      cases hs : supply op i vs with
      | none => simp [hs] at ih ⊢; exact ih
      | some p =>
        obtain ⟨y', n'⟩ := p
        simp only [hs, ne_eq, reduceCtorEq, not_false_eq_true, true_iff] at ih
        refine ⟨by simpa using ih.1, fun y n h => ?_⟩
        obtain ⟨h1, h2⟩ := ih.2 y' n' rfl
        simp only [Option.bind_eq_bind, Option.bind_some, Option.some.injEq] at h
        by_cases hi : i ≤ k
        · rw [if_pos hi] at h
          cases h
          refine ⟨by simp [h1, hi], ?_⟩
          simp only [Nat.add_eq_zero_iff, Nat.one_ne_zero, and_false, false_iff]
          rintro ⟨⟨k', hk', hlt⟩, _⟩
          cases hk'; omega
        · rw [if_neg hi] at h
          cases h
          refine ⟨?_, by simp only [h2, Option.some.injEq, exists_eq_left']; simp; omega⟩
          simp only [Nat.add_eq_zero_iff, Nat.one_ne_zero, and_false, false_iff]
          rintro ⟨⟨k', hk', hlt⟩, _⟩
          cases hk'; omega

/-- What is found for an optional parameter. -/
def Found (op : String) (invs : List Inv) (i : Nat) (p : Param) (m : Anomaly) : Prop :=
  p.punct = "[]" ∧ ((m = .noInvocations op i p.name ∧ invs = []) ∨
    (m = .allSupply op i p.name invs.length ∧ invs ≠ [] ∧ ∀ v ∈ invs, ∃ k, Args op v.node k ∧ i ≤ k) ∨
    (m = .noneSupplies op i p.name invs.length ∧ invs ≠ [] ∧ ∀ v ∈ invs, ∃ k, Args op v.node k ∧ k < i))

def ParamOk (op : String) (invs : List Inv) (p : Param) : Prop := p.punct = "" ∨ p.punct = "[]" ∧ ∀ v ∈ invs, ∃ k, Args op v.node k

theorem checkParam_spec (op : String) (invs : List Inv) (i : Nat) (p : Param) : (checkParam op invs i p ≠ none ↔ ParamOk op invs p) ∧
    ∀ x, checkParam op invs i p = some x → ∀ m, m ∈ x ↔ Found op invs i p m := by
  unfold checkParam ParamOk Found
  by_cases h1 : p.punct = ""
  · simp [h1]
  · rw [if_neg h1]
    by_cases h2 : p.punct = "[]"
    · rw [if_neg (by simp [h2])]
      by_cases h3 : invs = []
      · subst h3
        simp [h2]
      · have hi : invs.isEmpty = false := by simpa using h3
        rw [hi]
        have hs := supply_spec op i invs
        simp only [Bool.false_eq_true, if_false]
        cases hc : supply op i invs with
        | none =>
          simp only [hc, ne_eq, not_true_eq_false, false_iff] at hs
          simp only [ne_eq, not_true_eq_false, false_iff, reduceCtorEq, false_implies, implies_true, and_true]
          rintro (h | h)
          · exact h1 h
          · exact hs.1 h.2
        | some q =>
          obtain ⟨y, n⟩ := q
          simp only [hc, ne_eq, reduceCtorEq, not_false_eq_true, true_iff] at hs
          obtain ⟨e1, e2⟩ := hs.2 y n rfl
          refine ⟨by simpa [h2] using hs.1, fun x hx m => ?_⟩
          simp only [Option.some.injEq] at hx
          rw [← hx, ← e1, ← e2]
          simp only [h2, h3, List.mem_append]
          by_cases hn : n = 0 <;> by_cases hy : y = 0 <;> simp [hn, hy, h3]
    · simp [h1, h2]

theorem checkParams_spec (op : String) (invs : List Inv) : ∀ (ps : List Param) (i : Nat), (checkParams op invs i ps ≠ none ↔ ∀ p ∈ ps, ParamOk op invs p) ∧
    ∀ x, checkParams op invs i ps = some x → ∀ m, m ∈ x ↔ ∃ (j : Nat) (p : Param), ps[j]? = some p ∧ Found op invs (i + j) p m
  | [], i => by simp [checkParams]
  | p :: ps, i => by
    have ih := checkParams_spec op invs ps (i + 1)
    have hp := checkParam_spec op invs i p
    unfold checkParams
    rw [List.forall_mem_cons, ← hp.1, ← ih.1]
    cases hx : checkParam op invs i p with
    | none => simp
    | some x =>
      cases hy : checkParams op invs (i + 1) ps with
      | none => simp
      | some y =>
        refine ⟨by simp, fun z hz m => ?_⟩
        simp only [Option.bind_eq_bind, Option.bind_some, Option.some.injEq] at hz
        rw [← hz, List.mem_append, hp.2 x hx, ih.2 y hy]
        constructor
        · rintro (h | ⟨j, q, h1, h2⟩)
          · exact ⟨0, p, rfl, h⟩
          · exact ⟨j + 1, q, by simpa using h1, by rwa [show i + (j + 1) = i + 1 + j by omega]⟩
        · rintro ⟨j, q, h1, h2⟩
          cases j with
          | zero => simp at h1; subst h1; exact Or.inl h2
          | succ j => exact Or.inr ⟨j, q, by simpa using h1, by rwa [show i + 1 + j = i + (j + 1) by omega]⟩

theorem checkOptional_spec (st : St) : ∀ (as : List Alg), (checkOptional st as ≠ none ↔ ∀ a ∈ as, checkAlg st a ≠ none) ∧
    ∀ x, checkOptional st as = some x → ∀ m, m ∈ x ↔ ∃ a ∈ as, ∃ y, checkAlg st a = some y ∧ m ∈ y
  | [] => by simp [checkOptional]
  | a :: as => by
    have ih := checkOptional_spec st as
    unfold checkOptional
    rw [List.forall_mem_cons, ← ih.1]
    cases hx : checkAlg st a with
    | none => simp
    | some x =>
      cases hy : checkOptional st as with
      | none => simp
      | some y =>
        refine ⟨by simp, fun z hz m => ?_⟩
        simp only [Option.bind_eq_bind, Option.bind_some, Option.some.injEq] at hz
        rw [← hz, List.mem_append, ih.2 y hy]
        constructor
        · rintro (h | ⟨b, hb, h⟩)
          · exact ⟨a, by simp, x, hx, h⟩
          · exact ⟨b, by simp [hb], h⟩
        · rintro ⟨b, hb, w, hw, h⟩
          rcases List.mem_cons.1 hb with rfl | hb
          · rw [hx] at hw; cases hw; exact Or.inl h
          · exact Or.inr ⟨b, hb, w, hw, h⟩

theorem optional_ne (S : Spec) (st : St) : optionalParams S st ≠ none ↔ ∀ a ∈ S.ops, ∀ ps, a.params = some ps → ∀ p ∈ ps, ParamOk a.name (st.invocations a.name) p := by
  rw [optionalParams, (checkOptional_spec st _).1]
  have key : ∀ a, checkAlg st a ≠ none ↔ ∀ ps, a.params = some ps → ∀ p ∈ ps, ParamOk a.name (st.invocations a.name) p := by
    intro a
    unfold checkAlg
    cases a.params with
    | none => simp
    | some ps => simp [(checkParams_spec a.name (st.invocations a.name) ps 1).1.symm]
  simp only [key]
  exact ⟨fun h a ha => h a (mem_sortAlgs.2 ha), fun h a ha => h a (mem_sortAlgs.1 ha)⟩

theorem mem_optional {S : Spec} {st : St} {x : List Anomaly} (h : optionalParams S st = some x) (m : Anomaly) :
    m ∈ x ↔ ∃ a ∈ S.ops, ∃ ps, a.params = some ps ∧ ∃ (j : Nat) (p : Param), ps[j]? = some p ∧ Found a.name (st.invocations a.name) (1 + j) p m := by
  rw [optionalParams] at h
  rw [(checkOptional_spec st _).2 x h]
  constructor
  · rintro ⟨a, ha, y, hy, hm⟩
    refine ⟨a, mem_sortAlgs.1 ha, ?_⟩
    unfold checkAlg at hy
    split at hy
    · cases hy; cases hm
    · rename_i ps hps
      exact ⟨ps, hps, ((checkParams_spec _ _ ps 1).2 y hy m).1 hm⟩
  · rintro ⟨a, ha, ps, hps, hm⟩
    have hne := (checkOptional_spec st _).1.1 (by rw [h]; simp) a (mem_sortAlgs.2 ha)
    cases hy : checkAlg st a with
    | none => exact absurd hy hne
    | some y =>
      refine ⟨a, mem_sortAlgs.2 ha, y, hy, ?_⟩
      unfold checkAlg at hy
      rw [hps] at hy
      exact ((checkParams_spec _ _ ps 1).2 y hy m).2 hm

end Verif.Deps
