import Verif.Deps.UseLemmas
/-!
# C59: the report on dependencies between operations, and the checks of invocations
-/
namespace Verif.Deps

theorem analyze_final {S : Spec} {st : St} {out : List Part} (h : analyze S = some (st, out)) : (∀ a ∈ S.ops ++ S.bifs, okAlg a = true) ∧ st = final S ∧
    ∃ r ss d rt, Gram.reachAll (final S).calleesOf (S.ops.length + 1) (final S).allRoots = some r ∧
      eachSs (ssReach r.unknown (final S).calleesOf (S.ops.length + 1)) [] ssRoots = some ss ∧ direct (sortAlgs S.ops) = some d ∧
      spread S (final S).callers (S.ops.length + 1) d = some rt ∧ out = (final S).out ++ parts S (final S) r.reached r.unknown ss rt := by
  rw [analyze, firstLoop_eq] at h
  cases hok : (S.ops ++ S.bifs).all okAlg with
  | false => simp [hok] at h
  | true =>
    simp only [hok, if_true, Option.bind_eq_bind, Option.bind_some, Option.bind_eq_some_iff, Option.some.injEq, Prod.mk.injEq] at h
    obtain ⟨r, hr, ss, hss, d, hd, rt, hrt, rfl, rfl⟩ := h
    exact ⟨List.all_eq_true.1 hok, rfl, r, ss, d, rt, hr, hss, hd, hrt, rfl⟩

/-- The file is the report. -/
theorem c59_report {S : Spec} (hS : Given S) {st : St} {out : List Part} (h : analyze S = some (st, out)) : IsReport S out := by
  obtain ⟨hok, _, r, ss, d, rt, hr, hss, hd, hrt, rfl⟩ := analyze_final h
  obtain ⟨ss', h1, h2⟩ := ss_spec S hS hr
  rw [hss] at h1; cases h1
  obtain ⟨d', rt', h3, h4, h5⟩ := rt_spec S hS hok
  rw [hd] at h3; cases h3
  rw [hrt] at h4; cases h4
  exact isReport_parts S hS hr h2 (eachSs_nodup _ _ _ _ _ _ List.nodup_nil hss) h5

theorem algs_unique {l l' : List (Alg × List String)} (h1 : l.map (·.1) = l'.map (·.1)) (h2 : ∀ x ∈ l, SortedSet x.2 (Calls x.1)) (h3 : ∀ x ∈ l', SortedSet x.2 (Calls x.1)) : l = l' := by
  induction l generalizing l' with
  | nil =>
    cases l' with
    | nil => rfl
    | cons y l' => cases h1
  | cons x l ih =>
    cases l' with
    | nil => cases h1
    | cons y l' =>
      obtain ⟨a, cs⟩ := x
      obtain ⟨b, ds⟩ := y
      simp only [List.map_cons, List.cons.injEq] at h1
      obtain ⟨rfl, h1⟩ := h1
      have hc : cs = ds := sortedSet_unique (h2 (a, cs) (by simp)) (h3 (a, ds) (by simp))
      rw [ih h1 (fun x hx => h2 x (by simp [hx])) (fun x hx => h3 x (by simp [hx])), hc]

/-- There is only one report. -/
theorem c59_unique {S : Spec} {out out' : List Part} (h : IsReport S out) (h' : IsReport S out') : out = out' := by
  obtain ⟨algs, ops, bifs, u1, u2, u3, u4, u5, u6, u7, p1, p2, u8, u9, g1, g2, g3, g4, g5, g6, a1, a2, a3, a4, a5, a6, a7, a8, a9, a10, a11, rfl⟩ := h
  obtain ⟨algs', ops', bifs', v1, v2, v3, v4, v5, v6, v7, q1, q2, v8, v9, f1, f2, f3, f4, f5, f6, b1, b2, b3, b4, b5, b6, b7, b8, b9, b10, b11, rfl⟩ := h'
  have e1 : ops = ops' := sortedAlgs_unique g4 f4 (fun x => g2.mem_iff.trans f2.mem_iff.symm)
  have e2 : bifs = bifs' := sortedAlgs_unique g5 f5 (fun x => g3.mem_iff.trans f3.mem_iff.symm)
  subst e1 e2
  rw [algs_unique (g1.trans f1.symm) g6 f6, sortedSet_unique a1 b1, sortedSet_unique a2 b2, sortedSet_unique a3 b3, sortedSet_unique a4 b4, sortedSet_unique a5 b5,
    sortedSet_unique a6 b6, sortedSet_unique a7 b7, sortedPairs_unique a8 b8, sortedPairs_unique a9 b9, sortedSet_unique a10 b10, sortedSet_unique a11 b11]

/-- The report is written unless an algorithm is embedded outside of the early errors, or there is a definition of `HostLoadImportedModule`. -/
theorem c59_completes {S : Spec} (hS : Given S) : analyze S ≠ none ↔
    ∀ a ∈ S.ops ++ S.bifs, (a.name = "Early Errors" ∨ ¬ Embeds a) ∧ (a.name = "HostLoadImportedModule" → ∀ h ∈ a.heads, h.defs = []) := by
  have hg : (∀ a ∈ S.ops ++ S.bifs, (a.name = "Early Errors" ∨ ¬ Embeds a) ∧ (a.name = "HostLoadImportedModule" → ∀ h ∈ a.heads, h.defs = [])) ↔
      ∀ a ∈ S.ops ++ S.bifs, okAlg a = true := by
    refine forall_congr' (fun a => forall_congr' (fun ha => ?_))
    rw [okAlg_iff S hS a ha, List.flatMap_eq_nil_iff]
    rfl
  rw [hg]
  constructor
  · intro h
    cases hx : analyze S with
    | none => exact absurd hx h
    | some p => exact (analyze_final (st := p.1) (out := p.2) hx).1
  · intro h
    obtain ⟨r, hr⟩ := reach_some S hS
    obtain ⟨ss, hss, _⟩ := ss_spec S hS hr
    obtain ⟨d, rt, hd, hrt, _⟩ := rt_spec S hS h
    rw [analyze, firstLoop_eq, if_pos (List.all_eq_true.2 h)]
    simp [hr, hss, hd, hrt]

/-- The messages: one for an invocation of an operation without entry, and one for a call. -/
theorem c59_messages {S : Spec} (hS : Given S) {st : St} {out : List Part} (h : analyze S = some (st, out)) :
    (∀ o c s, .noEntryIn o c s ∈ st.msgs ↔ ∃ a ∈ S.ops ++ S.bifs, a.name = c ∧ ¬ Declared S o ∧
      ∃ (n : Nat) (hd : Head) (q : List Nat) (i : Inv), InAlg a (n :: q) i ∧ NodeCalls i.node o ∧ a.heads[n]? = some hd ∧ hd.sect = s) ∧
    (∀ o c, .noEntry o c ∈ st.msgs ↔ ∃ a ∈ S.ops ++ S.bifs, a.name = c ∧ Calls a o ∧ ¬ Declared S o) ∧
    ∀ m ∈ st.msgs, (∃ o c s, m = .noEntryIn o c s) ∨ ∃ o c, m = .noEntry o c := by
  obtain ⟨_, rfl, _⟩ := analyze_final h
  have hm : (final S).msgs = (sortAlgs S.ops ++ sortAlgs S.bifs).flatMap (algMsgs S) := by
    simp [final, after, List.flatMap_append]
  have hno : ∀ o, (!S.isOp o) = true ↔ ¬ Declared S o := by
    intro o
    rw [Bool.not_eq_true', ← Bool.not_eq_true, isOp_iff]
  have hmem : ∀ a, a ∈ sortAlgs S.ops ++ sortAlgs S.bifs ↔ a ∈ S.ops ++ S.bifs := by
    intro a; simp [mem_sortAlgs]
  rw [hm]
  refine ⟨fun o c s => ?_, fun o c => ?_, fun m hmm => ?_⟩
  · simp only [List.mem_flatMap, hmem, algMsgs, List.mem_append, List.mem_map, List.mem_filter, hno]
    constructor
    · rintro ⟨a, ha, ⟨⟨s', o', i⟩, ⟨h1, h2⟩, he⟩ | ⟨x, _, he⟩⟩
      · cases he
        obtain ⟨p, hp, ⟨n, q, hd, rfl, h3, h4⟩, h5⟩ := mem_callsOf.1 h1
        exact ⟨a, ha, rfl, h2, n, hd, q, i, hp, h5, h3, h4⟩
      · cases he
    · rintro ⟨a, ha, rfl, h2, n, hd, q, i, hp, h5, h3, rfl⟩
      exact ⟨a, ha, Or.inl ⟨(hd.sect, o, i), ⟨mem_callsOf.2 ⟨_, hp, ⟨n, q, hd, rfl, h3, rfl⟩, h5⟩, h2⟩, rfl⟩⟩
  · simp only [List.mem_flatMap, hmem, algMsgs, List.mem_append, List.mem_map, List.mem_filter, hno]
    constructor
    · rintro ⟨a, ha, ⟨_, _, he⟩ | ⟨x, ⟨h1, h2⟩, he⟩⟩
      · cases he
      · cases he
        exact ⟨a, ha, rfl, mem_calleeSet.1 ((hS.enum _).mem_iff.1 h1), h2⟩
    · rintro ⟨a, ha, rfl, h1, h2⟩
      exact ⟨a, ha, Or.inr ⟨o, ⟨(hS.enum _).mem_iff.2 (mem_calleeSet.2 h1), h2⟩, rfl⟩⟩
  · simp only [List.mem_flatMap, algMsgs, List.mem_append, List.mem_map] at hmm
    obtain ⟨a, _, ⟨x, _, rfl⟩ | ⟨x, _, rfl⟩⟩ := hmm
    · exact Or.inl ⟨_, _, _, rfl⟩
    · exact Or.inr ⟨_, _, rfl⟩

/-- An operation gets the list of its invocations. -/
theorem c59_invocations {S : Spec} (hS : Given S) {st : St} {out : List Part} (h : analyze S = some (st, out)) {o : String} (ho : Declared S o) :
    IsInvList S o (st.invocations o) ∧ ∀ l, IsInvList S o l → l = st.invocations o := by
  obtain ⟨_, rfl, _⟩ := analyze_final h
  have := invs_list S hS o ho
  exact ⟨this, fun l hl => invList_unique hl this⟩

/-- An invocation of an operation on syntax is reported exactly if it has "the" before the name and should not, or the other way round. -/
theorem c59_the {S : Spec} {st : St} {ms : List Msg} (h : checkSdoNames S st = some ms) :
    (∀ d, .noThe d ∈ ms ↔ ∃ a ∈ S.ops, BySyntax a ∧ ∃ i ∈ st.invocations a.name, i.node = d ∧ HasThe i ∧ ¬ WantsThe a i) ∧
    (∀ d, .needsThe d ∈ ms ↔ ∃ a ∈ S.ops, BySyntax a ∧ ∃ i ∈ st.invocations a.name, i.node = d ∧ ¬ HasThe i ∧ WantsThe a i) ∧
    (∀ o, .noInvocations o ∈ ms ↔ o ≠ "Early Errors" ∧ st.invocations o = [] ∧ ∃ a ∈ S.ops, a.name = o ∧ BySyntax a) ∧
    ∀ m ∈ ms, (∃ d, m = .noThe d) ∨ (∃ d, m = .needsThe d) ∨ ∃ o, m = .noInvocations o := by
  refine ⟨fun d => ?_, fun d => ?_, fun o => ?_, fun m hm => ?_⟩
  · rw [mem_sdoNames h]
    constructor
    · rintro ⟨a, ha, hb, ⟨he, _⟩ | ⟨i, hi, ⟨he, h1, h2⟩ | ⟨he, _⟩⟩⟩
      · cases he
      · cases he; exact ⟨a, ha, hb, i, hi, rfl, h1, h2⟩
      · cases he
    · rintro ⟨a, ha, hb, i, hi, rfl, h1, h2⟩
      exact ⟨a, ha, hb, Or.inr ⟨i, hi, Or.inl ⟨rfl, h1, h2⟩⟩⟩
  · rw [mem_sdoNames h]
    constructor
    · rintro ⟨a, ha, hb, ⟨he, _⟩ | ⟨i, hi, ⟨he, _⟩ | ⟨he, h1, h2⟩⟩⟩
      · cases he
      · cases he
      · cases he; exact ⟨a, ha, hb, i, hi, rfl, h1, h2⟩
    · rintro ⟨a, ha, hb, i, hi, rfl, h1, h2⟩
      exact ⟨a, ha, hb, Or.inr ⟨i, hi, Or.inr ⟨rfl, h1, h2⟩⟩⟩
  · rw [mem_sdoNames h]
    constructor
    · rintro ⟨a, ha, hb, ⟨he, h1, h2⟩ | ⟨i, hi, ⟨he, _⟩ | ⟨he, _⟩⟩⟩
      · cases he; exact ⟨h2, h1, a, ha, rfl, hb⟩
      · cases he
      · cases he
    · rintro ⟨h2, h1, a, ha, rfl, hb⟩
      exact ⟨a, ha, hb, Or.inl ⟨rfl, h1, h2⟩⟩
  · obtain ⟨a, _, _, ⟨he, _⟩ | ⟨i, _, ⟨he, _⟩ | ⟨he, _⟩⟩⟩ := (mem_sdoNames h m).1 hm
    · exact Or.inr (Or.inr ⟨_, he⟩)
    · exact Or.inl ⟨_, he⟩
    · exact Or.inr (Or.inl ⟨_, he⟩)

/-- When that check completes. -/
theorem c59_the_completes (S : Spec) (st : St) : checkSdoNames S st ≠ none ↔ ∀ a ∈ S.ops, BySyntax a → st.invocations a.name ≠ [] →
    (∃ r, Returns a r) ∧ ∀ i ∈ st.invocations a.name, i.node.attr.lhs = "{NAMED_OPERATION_INVOCATION}" := sdoNames_ne S st

/-- An optional parameter is reported exactly if the operation is never invoked, or all invocations supply an argument for it, or none does. -/
theorem c59_optional {S : Spec} {st : St} {ms : List Anomaly} (h : optionalParams S st = some ms) :
    (∀ o k x, .noInvocations o k x ∈ ms ↔ ∃ a ∈ S.ops, a.name = o ∧ OptParam a k x ∧ st.invocations o = []) ∧
    (∀ o k x n, .allSupply o k x n ∈ ms ↔ ∃ a ∈ S.ops, a.name = o ∧ OptParam a k x ∧ st.invocations o ≠ [] ∧ n = (st.invocations o).length ∧
      ∀ i ∈ st.invocations o, ∃ m, Args o i.node m ∧ k ≤ m) ∧
    (∀ o k x n, .noneSupplies o k x n ∈ ms ↔ ∃ a ∈ S.ops, a.name = o ∧ OptParam a k x ∧ st.invocations o ≠ [] ∧ n = (st.invocations o).length ∧
      ∀ i ∈ st.invocations o, ∃ m, Args o i.node m ∧ m < k) := by
  have hk : ∀ {k : Nat}, 0 < k → 1 + (k - 1) = k := by omega
  refine ⟨fun o k x => ?_, fun o k x n => ?_, fun o k x n => ?_⟩
  · rw [mem_optional h]
    constructor
    · rintro ⟨a, ha, ps, hps, j, p, hj, hp, ⟨he, h1⟩ | ⟨he, _⟩ | ⟨he, _⟩⟩
      · cases he
        exact ⟨a, ha, rfl, ⟨ps, p, hps, by omega, by rwa [show 1 + j - 1 = j by omega], rfl, hp⟩, h1⟩
      · cases he
      · cases he
    · rintro ⟨a, ha, rfl, ⟨ps, p, hps, h0, hj, rfl, hp⟩, h1⟩
      exact ⟨a, ha, ps, hps, k - 1, p, hj, hp, Or.inl ⟨by rw [hk h0], h1⟩⟩
  · rw [mem_optional h]
    constructor
    · rintro ⟨a, ha, ps, hps, j, p, hj, hp, ⟨he, _⟩ | ⟨he, h1, h2⟩ | ⟨he, _⟩⟩
      · cases he
      · cases he
        exact ⟨a, ha, rfl, ⟨ps, p, hps, by omega, by rwa [show 1 + j - 1 = j by omega], rfl, hp⟩, h1, rfl, h2⟩
      · cases he
    · rintro ⟨a, ha, rfl, ⟨ps, p, hps, h0, hj, rfl, hp⟩, h1, rfl, h2⟩
      exact ⟨a, ha, ps, hps, k - 1, p, hj, hp, Or.inr (Or.inl ⟨by rw [hk h0], h1, by rw [hk h0]; exact h2⟩)⟩
  · rw [mem_optional h]
    constructor
    · rintro ⟨a, ha, ps, hps, j, p, hj, hp, ⟨he, _⟩ | ⟨he, _⟩ | ⟨he, h1, h2⟩⟩
      · cases he
      · cases he
      · cases he
        exact ⟨a, ha, rfl, ⟨ps, p, hps, by omega, by rwa [show 1 + j - 1 = j by omega], rfl, hp⟩, h1, rfl, h2⟩
    · rintro ⟨a, ha, rfl, ⟨ps, p, hps, h0, hj, rfl, hp⟩, h1, rfl, h2⟩
      exact ⟨a, ha, ps, hps, k - 1, p, hj, hp, Or.inr (Or.inr ⟨by rw [hk h0], h1, by rw [hk h0]; exact h2⟩)⟩

/-- When that check completes. -/
theorem c59_optional_completes (S : Spec) (st : St) : optionalParams S st ≠ none ↔ ∀ a ∈ S.ops, ∀ ps, a.params = some ps → ∀ p ∈ ps,
    p.punct = "" ∨ p.punct = "[]" ∧ ∀ i ∈ st.invocations a.name, ∃ m, Args a.name i.node m := optional_ne S st

/-! ### Examples -/

/-- `SomeOp(x, ..)` with `n` arguments. -/
def exList : Nat → ANode
  | 0 => .node ⟨"{EXLIST}", "{EX}", "x", none⟩ [.node ⟨"{EX}", "x", "x", none⟩ [] none] none
  | n + 1 => .node ⟨"{EXLIST}", "{EXLIST}, {EX}", "x, x", none⟩ [exList n, .node ⟨"{EX}", "x", "x", none⟩ [] none] none

def exCall (o : String) : Nat → ANode
  | 0 => .node ⟨"{PREFIX_PAREN}", "{OPN_BEFORE_PAREN}({EXLIST_OPT})", o ++ "()", some [o]⟩
      [.node ⟨"{OPN_BEFORE_PAREN}", "{SIMPLE_OPERATION_NAME}", o, none⟩ [] none, .node ⟨"{EXLIST_OPT}", "{EPSILON}", "", none⟩ [] none] none
  | n + 1 => .node ⟨"{PREFIX_PAREN}", "{OPN_BEFORE_PAREN}({EXLIST_OPT})", o ++ "(x)", some [o]⟩
      [.node ⟨"{OPN_BEFORE_PAREN}", "{SIMPLE_OPERATION_NAME}", o, none⟩ [] none, .node ⟨"{EXLIST_OPT}", "{EXLIST}", "x", none⟩ [exList n] none] none

/-- `the BoundNames of x`, or without `the`. -/
def exOf (the : String) (o : String) : ANode :=
  .node ⟨"{NAMED_OPERATION_INVOCATION}", the ++ "{cap_word} of {PROD_REF}", the ++ o ++ " of x", some [o]⟩ [.node ⟨"{cap_word}", "x", o, none⟩ [] none] none

def exSeq (ks : List ANode) : ANode := .node ⟨"{COMMANDS}", "x", "x", none⟩ ks none
def exThrow : ANode := .node ⟨"{COMMAND}", "Throw a {ERROR_TYPE} exception.", "Throw a *TypeError* exception.", none⟩ [] none
def exIn (t : ANode) : ANode := .node ⟨"{PREFIX_PAREN}", "{OPN_BEFORE_PAREN}({EXLIST_OPT})", "", some ["IsIn"]⟩ [exSeq [t], .node ⟨"{EXLIST_OPT}", "{EPSILON}", "", none⟩ [] none] none

def exS : Spec where
  ops := [
    ⟨"ToObject", "op: singular", [⟨"7.1", some "x", [[some exThrow]]⟩], some [⟨"x", ""⟩, ⟨"hint", "[]"⟩, ⟨"z", "[]"⟩]⟩,
    ⟨"BoundNames", "op: discriminated by syntax: steps", [⟨"8.1", some "a List of Strings", [[none, some (exSeq [exOf "" "BoundNames", exIn (exOf "the " "BoundNames")])], [some (exOf "the " "BoundNames")]]⟩], none⟩,
    ⟨"Contains", "op: discriminated by syntax: steps", [⟨"8.2", some "a Boolean", []⟩], none⟩,
    ⟨"Evaluation", "op: singular", [⟨"9.1", none, [[some (exSeq [exCall "ToObject" 2, exCall "Missing" 1])]]⟩], none⟩,
    ⟨"IsIn", "op: singular", [⟨"9.2", none, [[some (exCall "ToObject" 2)]]⟩], some [⟨"y", "[]"⟩]⟩,
    ⟨"Early Errors", "op: early errors", [⟨"12.1", none, [[some (.node ⟨"{RULE}", "x", "x", none⟩ [] (some (exSeq [exOf "the " "BoundNames", exCall "Other" 0])))]]⟩], none⟩,
    ⟨"HostLoadImportedModule", "op: host-defined", [⟨"16.1", none, []⟩], some [⟨"state", "[]"⟩]⟩]
  bifs := [⟨"eval", "bif", [⟨"19.1", none, [[some (exCall "Evaluation" 0)]]⟩], none⟩]
  sections := [("Static Semantics: BoundNames", ["BoundNames"]), ("Runtime Semantics: Evaluation", ["Evaluation", "x"]), ("ToObject", ["ToObject"]), ("IsIn", ["IsIn"]),
    ("Static Semantics: IsIn", ["IsIn"]), ("no", [])]
  enum := List.reverse

/-- Whether nothing is embedded in an invocation can be checked on the places. -/
theorem given_of (S : Spec) (h1 : (S.ops.map (·.name)).Nodup) (h2 : (S.bifs.map (·.name)).Nodup) (h3 : ∀ l, (S.enum l).Perm l)
    (h4 : (S.ops ++ S.bifs).all (fun a => (algWalk a).all (fun e => plainInv e.2.2)) = true) : Given S := by
  refine ⟨h1, h2, h3, fun a ha p i hp hn => ?_⟩
  have := (all_walk_iff a plainInv).1 (List.all_eq_true.1 h4 a ha) p i hp
  simp only [plainInv, Bool.or_eq_true, Option.isNone_iff_eq_none] at this
  exact this.resolve_left hn

theorem exS_given : Given exS := given_of exS (by decide) (by decide) (fun l => List.reverse_perm l) (by decide +kernel)

def msgText : Msg → List String
  | .noEntryIn a b c => ["no entry", a, b, c]
  | .noEntry a b => ["no entry", a, b]
  | .noInvocations o => ["no invocations", o]
  | .noThe d => ["no the", d.attr.text]
  | .needsThe d => ["the", d.attr.text]

/-- A report with something in nearly every part. -/
example : (analyze exS).map (·.2) = some [
    .alg "BoundNames" "op: discriminated by syntax: steps" 2 ["BoundNames", "IsIn"],
    .alg "Contains" "op: discriminated by syntax: steps" 0 [],
    .alg "Early Errors" "op: early errors" 1 ["BoundNames", "Other"],
    .alg "Evaluation" "op: singular" 1 ["Missing", "ToObject"],
    .alg "HostLoadImportedModule" "op: host-defined" 0 ["FinishLoadingImportedModule"],
    .alg "IsIn" "op: singular" 1 ["ToObject"],
    .alg "ToObject" "op: singular" 1 [],
    .alg "eval" "bif" 1 ["Evaluation"],
    .names "operations referenced but not declared" ["Coherent Reads", "Data Races", "DetachArrayBuffer", "Evaluate", "HostEventSet", "InitializeHostDefinedRealm",
      "Link", "Missing", "Other", "ParseModule", "ParseScript", "ScriptEvaluation", "Tear Free Reads", "Valid Chosen Reads"],
    .names "operations declared but not reached" ["Contains", "HostLoadImportedModule"],
    .names "ops labelled both 'Static Semantics' and 'Runtime Semantics'" [],
    .names "ops labelled 'Static Semantics' and also unlabelled" ["IsIn"],
    .names "ops labelled 'Runtime Semantics' and also unlabelled" [],
    .names "ops labelled 'Static Semantics' but not reachable from SS starting points [probably okay]" [],
    .names "ops reachable from SS starting points but not labelled 'Static Semantics' [shouldn't happen?]" ["Early Errors", "ToObject"],
    .pairs "op labelled 'Static Semantics' calls one that isn't [shouldn't happen?]" [("IsIn", "ToObject")],
    .pairs "op not labelled 'Static Semantics' calls one that is [probably fine]" [("Early Errors", "BoundNames")],
    .names "ops labelled 'Static Semantics' but that look runtimey [shouldn't happen?]" ["BoundNames", "IsIn"],
    .names "ops that don't look runtimey, but aren't labelled 'Static Semantics' [okay, but should be relabelled?]" ["Contains", "HostLoadImportedModule"]] := by decide +kernel

/-- The messages, the words and the parameters there. -/
example : (analyze exS).map (fun p => p.1.msgs.map msgText) = some [["no entry", "Other", "Early Errors", "12.1"], ["no entry", "Other", "Early Errors"],
    ["no entry", "Missing", "Evaluation", "9.1"], ["no entry", "Missing", "Evaluation"], ["no entry", "FinishLoadingImportedModule", "HostLoadImportedModule"]] := by decide +kernel

example : ((analyze exS).bind (fun p => checkSdoNames exS p.1)).map (·.map msgText) =
    some [["the", "BoundNames of x"], ["no the", "the BoundNames of x"], ["no invocations", "Contains"]] := by decide +kernel

example : (analyze exS).bind (fun p => optionalParams exS p.1) = some [.noInvocations "HostLoadImportedModule" 1 "state", .noneSupplies "IsIn" 1 "y" 1,
    .allSupply "ToObject" 2 "hint" 2, .noneSupplies "ToObject" 3 "z" 2] := by decide +kernel

/-- An algorithm embedded elsewhere stops the program. -/
example : (analyze { exS with bifs := [⟨"eval", "bif", [⟨"19.1", none, [[some (.node ⟨"{RULE}", "x", "x", none⟩ [] (some exThrow))]]⟩], none⟩] }).isNone = true := by decide +kernel

/-- The list of operations referenced but not declared is not complete: it has only those that are reached. -/
theorem c59_unlisted_witness : ∃ S, Given S ∧ ∃ st out ns, analyze S = some (st, out) ∧ .names "operations referenced but not declared" ns ∈ out ∧
    ∃ a ∈ S.ops, ∃ o, Calls a o ∧ ¬ Declared S o ∧ o ∉ ns := by
  have h : ((analyze exS).map (fun p => decide (.names "operations referenced but not declared" ["Coherent Reads", "Data Races", "DetachArrayBuffer", "Evaluate",
      "HostEventSet", "InitializeHostDefinedRealm", "Link", "Missing", "Other", "ParseModule", "ParseScript", "ScriptEvaluation", "Tear Free Reads",
      "Valid Chosen Reads"] ∈ p.2))) = some true := by decide +kernel
  cases hx : analyze exS with
  | none => rw [hx] at h; cases h
  | some p =>
    rw [hx] at h
    simp only [Option.map_some, Option.some.injEq, decide_eq_true_eq] at h
    refine ⟨exS, exS_given, p.1, p.2, _, hx, h, ⟨"HostLoadImportedModule", "op: host-defined", [⟨"16.1", none, []⟩], some [⟨"state", "[]"⟩]⟩, by simp [exS],
      "FinishLoadingImportedModule", Or.inr ⟨rfl, rfl⟩, ?_, by decide⟩
    rw [← isOp_iff]
    decide

/-- An operation and a function with the same name: the operation is empty, the function calls an operation that looks like runtime semantics. -/
def exSame : Spec where
  ops := [⟨"Set", "op: singular", [⟨"7.3", none, []⟩], none⟩, ⟨"Throwing", "op: singular", [⟨"7.4", none, [[some exThrow]]⟩], none⟩]
  bifs := [⟨"Set", "bif", [⟨"24.2", none, [[some (exCall "Throwing" 0)]]⟩], none⟩]
  sections := [("Static Semantics: Set", ["Set"])]
  enum := id

/-- The operation is then reported although it calls nothing and says nothing. -/
theorem c59_same_name_witness : ∃ S, Given S ∧ ∃ st out ns, analyze S = some (st, out) ∧
    .names "ops labelled 'Static Semantics' but that look runtimey [shouldn't happen?]" ns ∈ out ∧
    ∃ a ∈ S.ops, a.name ∈ ns ∧ (∀ o, ¬ Calls a o) ∧ ∀ p i, ¬ InAlg a p i := by
  have h : ((analyze exSame).map (fun p => decide (.names "ops labelled 'Static Semantics' but that look runtimey [shouldn't happen?]" ["Set"] ∈ p.2))) = some true := by
    decide +kernel
  cases hx : analyze exSame with
  | none => rw [hx] at h; cases h
  | some p =>
    rw [hx] at h
    simp only [Option.map_some, Option.some.injEq, decide_eq_true_eq] at h
    have hn : ∀ p i, ¬ InAlg (⟨"Set", "op: singular", [⟨"7.3", none, []⟩], none⟩ : Alg) p i := by
      intro p i hp
      cases hp with
      | @mk n m k _ _ _ _ _ h1 h2 _ _ _ =>
        cases n with
        | zero => simp at h1; subst h1; simp at h2
        | succ n => simp at h1
    refine ⟨exSame, given_of exSame (by decide) (by decide) (fun l => List.Perm.refl l) (by decide +kernel), p.1, p.2, _, hx, h,
      ⟨"Set", "op: singular", [⟨"7.3", none, []⟩], none⟩, by simp [exSame], by simp, ?_, hn⟩
    rintro o (⟨p, i, hp, _⟩ | ⟨hc, _⟩)
    · exact hn p i hp
    · exact absurd hc (by decide)

end Verif.Deps
