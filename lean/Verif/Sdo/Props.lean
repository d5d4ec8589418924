import Verif.Sdo.TreeLemmas
/-!
# C47 and C48: coverage and dispatch of syntax-directed operations
-/
namespace Verif.Sdo
open Verif.Gram (Sym Item IKind)

variable {R : Type} {G : Name → NtDef} {defs : List (R × List Puk)} {exc : Name → List Char → Bool}
  {roots : List Name}

/-! ## C48 -/

/-- C48: an invocation executes a definition just if the node with that definition is the first on the chain with any, and it is
its only one. -/
theorem c48_dispatch (hn : ∀ d ∈ defs, d.2.Nodup) {t : Tree} (ht : OptOk t) (u : Tree) (d : R) :
    dispatch (coverageMap defs) t = .rule u d ↔
      ChainTo defs t u ∧ ∃ p, u.puk? = some p ∧ rulesFor defs p = [d] := by
  constructor
  · intro h
    obtain ⟨v, o, h1, h2⟩ := chain_stops (defs := defs) t
    have ⟨e, hv⟩ := dispatch_chain hn h1 ht
    rw [e, stop_dispatch hn h2 hv] at h
    cases h2 with
    | one hr => cases h; exact ⟨h1, _, rfl, hr⟩
    | leaf => cases h
    | many _ => cases h
    | zero _ _ => cases h
  · rintro ⟨h1, p, hp, hr⟩
    have ⟨e, hu⟩ := dispatch_chain hn h1 ht
    rw [e]
    cases u with
    | leaf => cases hp
    | node s r b cs => cases hp; exact stop_dispatch hn (.one hr) hu

/-- C48: an invocation finds the operation to be undefined ("SPEC BUG") just if no node on the chain has a definition and the chain
ends at a node that isn't an instance of a chain production, which is the node that the message is about. -/
theorem c48_undefined (hn : ∀ d ∈ defs, d.2.Nodup) {t : Tree} (ht : OptOk t) (u : Tree) :
    dispatch (coverageMap defs) t = .noRule u ↔
      ChainTo defs t u ∧ (∃ p, u.puk? = some p ∧ rulesFor defs p = []) ∧ ∀ v, ¬ OnlyBelow u v := by
  constructor
  · intro h
    obtain ⟨v, o, h1, h2⟩ := chain_stops (defs := defs) t
    have ⟨e, hv⟩ := dispatch_chain hn h1 ht
    rw [e, stop_dispatch hn h2 hv] at h
    cases h2 with
    | zero hr hb =>
      cases h
      refine ⟨h1, ⟨_, rfl, hr⟩, ?_⟩
      rintro w ⟨s, r, b, cs, he, hw⟩
      cases he
      exact hb w hw
    | leaf => cases h
    | many _ => cases h
    | one _ => cases h
  · rintro ⟨h1, ⟨p, hp, hr⟩, hb⟩
    have ⟨e, hu⟩ := dispatch_chain hn h1 ht
    rw [e]
    cases u with
    | leaf => cases hp
    | node s r b cs =>
      cases hp
      exact stop_dispatch hn (.zero hr (fun w hw => hb w ⟨_, _, _, _, rfl, hw⟩)) hu

/-- C48: an operation with a default definition never looks further than the node itself. -/
theorem c48_default (hn : ∀ d ∈ defs, d.2.Nodup) (t : Tree) (u : Tree) (d : R) :
    dispatchDefault (coverageMap defs) t = .rule u d ↔
      u = t ∧ ∃ p, t.puk? = some p ∧ (rulesFor defs p = [d] ∨
        rulesFor defs p = [] ∧ rulesFor defs ⟨"*default*".toList, [], []⟩ = [d]) := by
  cases t with
  | leaf => simp [dispatchDefault, Tree.puk?]
  | node s r b cs =>
    have hd : defaultPuk = ⟨"*default*".toList, [], []⟩ := by decide
    simp only [dispatchDefault, getRules_map defs hn, Tree.puk?, Option.some.injEq, hd]
    have ho : ∀ ds : List R, only (.node s r b cs) ds = .rule u d ↔ u = .node s r b cs ∧ ds = [d] := by
      intro ds
      match ds with
      | [] => simp [only]
      | [x] => simp [only, eq_comm]
      | _ :: _ :: _ => simp [only]
    match hr : rulesFor defs ⟨s, r, b⟩ with
    | x :: xs =>
      simp only [ho]
      constructor
      · rintro ⟨h1, h2⟩; exact ⟨h1, _, rfl, .inl (hr ▸ h2)⟩
      · rintro ⟨h1, p, rfl, h | ⟨h, _⟩⟩
        · exact ⟨h1, hr ▸ h⟩
        · rw [hr] at h; cases h
    | [] =>
      simp only [ho]
      constructor
      · rintro ⟨h1, h2⟩; exact ⟨h1, _, rfl, .inr ⟨hr, h2⟩⟩
      · rintro ⟨h1, p, rfl, h | ⟨_, h⟩⟩
        · rw [hr] at h; cases h
        · exact ⟨h1, h⟩

/-! ## C47 -/

/-- C47: what the report says, exactly. -/
theorem c47_report (hn : ∀ d ∈ defs, d.2.Nodup) {fuel : Nat} {msgs : List Msg}
    (h : analyze G defs exc roots fuel = .ok msgs) :
    (∀ p, .needs p ∈ msgs ↔ rulesFor defs p = [] ∧ exc p.lhs p.reduced = false ∧
      ∃ s ns, Needed G defs exc roots s ∧ KeyOf G s p ns ∧ ns.length ≠ 1) ∧
    (∀ p n, .multi p n ∈ msgs ↔ n = (rulesFor defs p).length ∧ 2 ≤ n ∧
      ∃ s ns, Needed G defs exc roots s ∧ KeyOf G s p ns) ∧
    (∀ p, .unused p ∈ msgs ↔ (∃ d ∈ defs, p ∈ d.2) ∧ ¬ ∃ s ns, Needed G defs exc roots s ∧ KeyOf G s p ns) := by
  unfold analyze at h
  cases hq : queueLoop G (coverageMap defs) exc fuel 0 ⟨roots, [], []⟩ with
  | error e => simp [hq] at h
  | ok st =>
    simp only [hq, Except.ok.injEq] at h
    subst h
    have ⟨hg, hd⟩ := queueLoop_final hn hq
    have hu : ∀ (x : Msg) (ps : List Puk), (∀ p, x ≠ .unused p) → x ∉ ps.map Msg.unused := by
      intro x ps hx hm
      obtain ⟨p, _, rfl⟩ := List.mem_map.mp hm
      exact hx p rfl
    refine ⟨?_, ?_, ?_⟩
    · intro p
      rw [List.mem_append, or_iff_left (hu _ _ (by simp))]
      constructor
      · intro hm
        have ⟨⟨a, b⟩, s, ns, c⟩ := hg.out _ hm
        exact ⟨a, b, s, ns, c⟩
      · rintro ⟨a, b, s, ns, c, d, e⟩
        exact ((hd s c).2 p ns d).needs ⟨a, b⟩ e
    · intro p n
      rw [List.mem_append, or_iff_left (hu _ _ (by simp))]
      constructor
      · intro hm; exact hg.out _ hm
      · rintro ⟨rfl, b, s, ns, c, d⟩
        exact ((hd s c).2 p ns d).multi b
    · intro p
      rw [List.mem_append]
      have : .unused p ∉ st.out := fun hm => hg.out _ hm
      rw [or_iff_right this, List.mem_map]
      constructor
      · rintro ⟨q, hq, he⟩
        cases he
        rw [List.mem_filter, mem_keys] at hq
        refine ⟨hq.1, ?_⟩
        rintro ⟨s, ns, a, b⟩
        have := ((hd s a).2 p ns b).used
        simp [this] at hq
      · rintro ⟨a, b⟩
        refine ⟨p, ?_, rfl⟩
        rw [List.mem_filter, mem_keys]
        refine ⟨a, ?_⟩
        simp only [Bool.not_eq_true', decide_eq_false_iff_not]
        exact fun hm => b (hg.used p hm)

/-- C47: the check completes for every grammar in which finitely many nonterminals are needed, if they are all known and their right-hand
sides have at most three optional symbols (and no `?` after something other than a nonterminal or a literal). -/
theorem c47_completes (hn : ∀ d ∈ defs, d.2.Nodup) (N : List Name) (hr : roots.Nodup)
    (hN : ∀ s, Needed G defs exc roots s → s ∈ N)
    (hok : ∀ s, Needed G defs exc roots s → G s ≠ .unknown ∧ ∀ rhss its, G s = .main rhss → its ∈ rhss →
      (∀ k t, Item.qm (.other k t) ∈ its → k = .BACKTICKED_THING ∨ k = .NAMED_CHAR) ∧
      its.countP (fun it => match it with | .qm _ => true | .plain _ => false) ≤ 3) :
    ∃ msgs, analyze G defs exc roots (N.length + 1) = .ok msgs := by
  have hok' : ∀ s, Needed G defs exc roots s → G s ≠ .unknown ∧ ∀ rhss its, G s = .main rhss → its ∈ rhss → RhsOk its :=
    fun s hs => ⟨(hok s hs).1, fun rhss its a b => rhsOk_of its ((hok s hs).2 rhss its a b).1 ((hok s hs).2 rhss its a b).2⟩
  obtain ⟨st, h⟩ := queueLoop_some hn hN hok' (N.length + 1) 0 ⟨roots, [], []⟩ (by omega) hr
    ⟨fun n hn => .root hn, by simp, by simp⟩ (by simp)
  exact ⟨_, by unfold analyze; rw [h]⟩

/-- C47: if the report has no complaint, then every invocation on a parse tree for one of the nonterminals finds just one definition, unless it
meets an exception. -/
theorem c47_sound (hG : Plain G) (hn : ∀ d ∈ defs, d.2.Nodup) {fuel : Nat} {msgs : List Msg}
    (h : analyze G defs exc roots fuel = .ok msgs) (h1 : ∀ p, .needs p ∉ msgs) (h2 : ∀ p n, .multi p n ∉ msgs)
    {s : Name} (hs : s ∈ roots) {t : Tree} (ht : Conf G s t)
    (he : ∀ u p, ChainTo defs t u → u.puk? = some p → exc p.lhs p.reduced = false) :
    ∃ u d, dispatch (coverageMap defs) t = .rule u d := by
  have ⟨r1, r2, _⟩ := c47_report hn h
  obtain ⟨u, o, hu, hst⟩ := chain_stops (defs := defs) t
  have ⟨e, huo⟩ := dispatch_chain hn hu (conf_optOk hG ht)
  rw [e]
  -- the end of the chain is a tree for a needed nonterminal
  have key : ∃ n, Needed G defs exc roots n ∧ Conf G n u := by
    have hs' : Needed G defs exc roots s := .root hs
    clear e huo hst h hs
    induction hu generalizing s with
    | here t => exact ⟨s, hs', ht⟩
    | @next t v w p hp hr hb _ ih =>
      have hex := he t p (.here t) hp
      have he' : ∀ u q, ChainTo defs v u → u.puk? = some q → exc q.lhs q.reduced = false :=
        fun u q hc hq => he u q (.next hp hr hb hc) hq
      obtain ⟨s', r, b, cs, rfl, hb⟩ := hb
      cases hp
      cases ht with
      | @node _ rhss its bits cs a1 a2 a3 =>
        obtain ⟨ns, i1, i2⟩ := kids_instance hG its b cs (fun k t => hG.optional _ _ _ k t a1 a2) a3
        rw [hb] at i2
        cases i2 with
        | @cons n _ ns' _ hc hnil =>
          cases hnil
          exact ih hc he' (.chain hs' ⟨rhss, its, a1, a2, rfl, rfl, i1⟩ hr hex)
  obtain ⟨n, hneed, hconf⟩ := key
  have hcu := he u
  cases hconf with
  | @node _ rhss its bits cs a1 a2 a3 =>
    obtain ⟨ns, i1, i2⟩ := kids_instance hG its bits cs (fun k t => hG.optional _ _ _ k t a1 a2) a3
    have hk : KeyOf G n ⟨n, label its, bits⟩ ns := ⟨rhss, its, a1, a2, rfl, rfl, i1⟩
    cases hst with
    | one hr => exact ⟨_, _, stop_dispatch hn (.one hr) huo⟩
    | many hr => exact absurd ((r2 _ _).mpr ⟨rfl, hr, n, ns, hneed, hk⟩) (h2 _ _)
    | zero hr hb =>
      refine absurd ((r1 _).mpr ⟨hr, hcu _ hu rfl, n, ns, hneed, hk, ?_⟩) (h1 _)
      intro hl
      match ns, hl, i2 with
      | [_], _, i2 =>
        generalize hbs : belows cs = bs at i2 hb
        cases i2 with
        | cons _ hnil => cases hnil; exact hb _ rfl

/-- C47: there are no false alarms.  If the report says that a key needs a rule, then there is a production with that key such that
every instance of it is met by the invocation on some parse tree for one of the nonterminals, and the operation is found to be undefined there. -/
theorem c47_no_false_alarm (hG : Plain G) (hn : ∀ d ∈ defs, d.2.Nodup) {fuel : Nat} {msgs : List Msg}
    (h : analyze G defs exc roots fuel = .ok msgs) {p : Puk} (hp : .needs p ∈ msgs) :
    ∃ rhss its, G p.lhs = .main rhss ∧ its ∈ rhss ∧ p.reduced = label its ∧
      ∀ cs, Kids G its p.bits cs → ∃ s t, s ∈ roots ∧ Conf G s t ∧
        dispatch (coverageMap defs) t = .noRule (.node p.lhs p.reduced p.bits cs) := by
  obtain ⟨hr, _, s, ns, hs, ⟨rhss, its, a1, a2, a3, a4, a5⟩, hl⟩ := ((c47_report hn h).1 p).mp hp
  subst a3
  refine ⟨rhss, its, a1, a2, a4, ?_⟩
  intro cs hk
  have hc : Conf G p.lhs (.node p.lhs p.reduced p.bits cs) := by rw [a4]; exact .node a1 a2 hk
  obtain ⟨s0, t, b1, b2, b3⟩ := needed_tree hG hs _ hc
  refine ⟨s0, t, b1, b2, ?_⟩
  have ⟨e, hu⟩ := dispatch_chain hn b3 (conf_optOk hG b2)
  rw [e]
  refine stop_dispatch hn (.zero hr ?_) hu
  intro u hb
  obtain ⟨ns', i1, i2⟩ := kids_instance hG its p.bits cs (fun k t => hG.optional _ _ _ k t a1 a2) hk
  have hlen : ∀ {l : List Name} {ts : List Tree}, All2 (Conf G) l ts → l.length = ts.length := by
    intro l ts h
    induction h with
    | nil => rfl
    | cons _ _ ih => simp [ih]
  have hdet : ∀ {its : List Item} {bits : List Char} {as bs : List Name}, InstanceNts its bits as →
      InstanceNts its bits bs → as = bs := by
    intro its bits as bs h
    induction h generalizing bs with
    | nil => intro k; cases k; rfl
    | terminal _ ih => intro k; cases k with | terminal k => exact ih k
    | nt _ ih => intro k; cases k with | nt k => rw [ih k]
    | absent _ ih => intro k; cases k with | absent k => exact ih k
    | presentNt _ ih => intro k; cases k with | presentNt k => rw [ih k]
    | presentTerminal _ ih => intro k; cases k with | presentTerminal k => exact ih k
  have := hlen i2
  rw [hdet i1 a5, hb] at this
  exact hl this

/-! ## Examples -/

/-- `S : A B?`, `A : B` and (`A` again) `( A )`, `B : x` -/
def exG : Name → NtDef := fun s =>
  if s = ['S'] then .main [[.plain (.gnt ['A'] []), .qm (.gnt ['B'] [])]]
  else if s = ['A'] then .main [[.plain (.gnt ['B'] [])],
    [.plain (.other .BACKTICKED_THING ['(']), .plain (.gnt ['A'] []), .plain (.other .BACKTICKED_THING [')'])]]
  else if s = ['B'] then .main [[.plain (.other .BACKTICKED_THING ['x'])]]
  else .unknown

/-- Definitions for `B : x` and for `S : A B` with the `B`. -/
def exDefs : List (Nat × List Puk) :=
  [(1, [⟨['B'], ['x'], []⟩]), (2, [⟨['S'], ['A', ' ', 'B', '?'], ['1']⟩])]

-- No complaint.
example : analyze exG exDefs (fun _ _ => false) [['S']] 5 = .ok [] := by rfl

-- Without the first definition, a rule is needed for `B : x`; a rule for `C` isn't used; there are two rules for `S : A B`.
example : analyze exG [(2, [⟨['S'], ['A', ' ', 'B', '?'], ['1']⟩]), (3, [⟨['C'], [], []⟩, ⟨['S'], ['A', ' ', 'B', '?'], ['1']⟩])]
    (fun _ _ => false) [['S']] 5 =
    .ok [.multi ⟨['S'], ['A', ' ', 'B', '?'], ['1']⟩ 2, .needs ⟨['B'], ['x'], []⟩, .unused ⟨['C'], [], []⟩] := by
  rfl

-- Without a definition for `S : A B`, it needs a rule with the optional symbol and chains without.
example : analyze exG [(1, [⟨['B'], ['x'], []⟩])] (fun _ _ => false) [['S']] 5 =
    .ok [.needs ⟨['S'], ['A', ' ', 'B', '?'], ['1']⟩] := by rfl

-- An exception isn't complained about, and isn't followed.
example : analyze exG [(1, [⟨['B'], ['x'], []⟩])] (fun s _ => s = ['S']) [['S']] 5 =
    .ok [.unused ⟨['B'], ['x'], []⟩] := by rfl

/-- `B : x` -/
def exB : Tree := .node ['B'] ['x'] [] [.leaf]

/-- `A : ( A )` over `A : B`, with `B : x` -/
def exA : Tree := .node ['A'] ['(', ' ', 'A', ' ', ')'] [] [.leaf, .node ['A'] ['B'] [] [exB], .leaf]

/-- `S : A B?` without the `B` -/
def exS : Tree := .node ['S'] ['A', ' ', 'B', '?'] ['0'] [exA, .node ['B', '?'] [] [] []]

/-- `S : A B?` with the `B` -/
def exS1 : Tree := .node ['S'] ['A', ' ', 'B', '?'] ['1'] [exA, .node ['B', '?'] ['B'] [] [exB]]

example : dispatch (coverageMap exDefs) exS = .rule exB 1 := by rfl
example : dispatch (coverageMap exDefs) exS1 = .rule exS1 2 := by rfl
example : dispatch (coverageMap [(2, [⟨['S'], ['A', ' ', 'B', '?'], ['1']⟩])]) exS = .noRule exB := by rfl
example : dispatch (coverageMap [(1, [⟨['B'], ['x'], []⟩])]) exS1 = .noRule exS1 := by rfl
example : dispatchDefault (coverageMap [(7, [⟨"*default*".toList, [], []⟩]), (1, [⟨['B'], ['x'], []⟩])]) exS = .rule exS 7 := by rfl
example : dispatchDefault (coverageMap [(7, [⟨"*default*".toList, [], []⟩]), (1, [⟨['B'], ['x'], []⟩])]) exB = .rule exB 1 := by rfl

theorem exG_plain : Plain exG := by
  have hm : ∀ s rhss, exG s = .main rhss → s = ['S'] ∨ s = ['A'] ∨ s = ['B'] := by
    intro s rhss h
    unfold exG at h
    split at h
    · exact .inl ‹_›
    · split at h
      · exact .inr (.inl ‹_›)
      · split at h
        · exact .inr (.inr ‹_›)
        · cases h
  refine ⟨?_, ?_⟩
  · intro s rhss h
    rcases hm s rhss h with rfl | rfl | rfl <;> decide
  · intro s rhss its k t h hi
    rcases hm s rhss h with rfl | rfl | rfl
    · cases h; simp only [List.mem_singleton] at hi; subst hi; simp
    · cases h
      simp only [List.mem_cons, List.not_mem_nil, or_false] at hi
      rcases hi with rfl | rfl <;> simp
    · cases h; simp only [List.mem_singleton] at hi; subst hi; simp

theorem exB_conf : Conf exG ['B'] exB :=
  .node (its := [.plain (.other .BACKTICKED_THING ['x'])]) rfl (by simp) (.terminals 1 .nil)

theorem exA_conf : Conf exG ['A'] exA :=
  .node (its := [.plain (.other .BACKTICKED_THING ['(']), .plain (.gnt ['A'] []), .plain (.other .BACKTICKED_THING [')'])])
    rfl (by simp) (.terminals 1 (.nt (.node (its := [.plain (.gnt ['B'] [])]) rfl (by simp) (.nt exB_conf .nil))
      (.terminals 1 .nil)))

theorem exS_conf : Conf exG ['S'] exS :=
  .node (its := [.plain (.gnt ['A'] []), .qm (.gnt ['B'] [])]) rfl (by simp) (.nt exA_conf (.absentNt .nil))

theorem exG_needed {exc : Name → List Char → Bool} {s : Name} (h : Needed exG exDefs exc [['S']] s) :
    s ∈ [['S'], ['A'], ['B']] := by
  have hk : ∀ s p ns, s ∈ [['S'], ['A'], ['B']] → KeyOf exG s p ns → ∀ n ∈ ns, n ∈ [['S'], ['A'], ['B']] := by
    rintro s p ns hs ⟨rhss, its, h1, h2, _, _, h3⟩
    have hi : ∀ {its : List Item} {bits : List Char} {ns : List Name}, InstanceNts its bits ns → ∀ n ∈ ns,
        ∃ ps, Item.plain (.gnt n ps) ∈ its ∨ Item.qm (.gnt n ps) ∈ its := by
      intro its bits ns h
      induction h with
      | nil => simp
      | terminal _ ih => intro n hn; obtain ⟨ps, h⟩ := ih n hn; exact ⟨ps, h.imp (by simp_all) (by simp_all)⟩
      | absent _ ih => intro n hn; obtain ⟨ps, h⟩ := ih n hn; exact ⟨ps, h.imp (by simp_all) (by simp_all)⟩
      | presentTerminal _ ih => intro n hn; obtain ⟨ps, h⟩ := ih n hn; exact ⟨ps, h.imp (by simp_all) (by simp_all)⟩
      | @nt m qs _ _ _ _ ih =>
        intro n hn
        rcases List.mem_cons.mp hn with rfl | hn
        · exact ⟨qs, .inl (by simp)⟩
        · obtain ⟨ps, h⟩ := ih n hn; exact ⟨ps, h.imp (fun x => by simp [x]) (fun x => by simp [x])⟩
      | @presentNt m qs _ _ _ _ ih =>
        intro n hn
        rcases List.mem_cons.mp hn with rfl | hn
        · exact ⟨qs, .inr (by simp)⟩
        · obtain ⟨ps, h⟩ := ih n hn; exact ⟨ps, h.imp (fun x => by simp [x]) (fun x => by simp [x])⟩
    intro n hn
    obtain ⟨ps, hm⟩ := hi h3 n hn
    simp only [List.mem_cons, List.not_mem_nil, or_false] at hs
    rcases hs with rfl | rfl | rfl
    · cases h1; simp only [List.mem_singleton] at h2; subst h2; simp at hm; rcases hm with hm | hm <;> simp [hm]
    · cases h1
      simp only [List.mem_cons, List.not_mem_nil, or_false] at h2
      rcases h2 with rfl | rfl <;> simp at hm <;> simp [hm]
    · cases h1; simp only [List.mem_singleton] at h2; subst h2; simp at hm
  induction h with
  | root h => simp only [List.mem_singleton] at h; simp [h]
  | chain _ h _ _ ih => exact hk _ _ _ ih h _ (by simp)

-- `c47_completes` applies to this grammar.
example : ∃ msgs, analyze exG exDefs (fun _ _ => false) [['S']] 4 = .ok msgs := by
  refine c47_completes (by decide) [['S'], ['A'], ['B']] (by decide) (fun s h => exG_needed h) ?_
  intro s hs
  have := exG_needed hs
  simp only [List.mem_cons, List.not_mem_nil, or_false] at this
  rcases this with rfl | rfl | rfl
  · refine ⟨by simp [exG], fun rhss its h1 h2 => ?_⟩
    cases h1; simp only [List.mem_singleton] at h2; subst h2; exact ⟨by simp, by decide⟩
  · refine ⟨by simp [exG], fun rhss its h1 h2 => ?_⟩
    cases h1; simp only [List.mem_cons, List.not_mem_nil, or_false] at h2
    rcases h2 with rfl | rfl <;> exact ⟨by simp, by decide⟩
  · refine ⟨by simp [exG], fun rhss its h1 h2 => ?_⟩
    cases h1; simp only [List.mem_singleton] at h2; subst h2; exact ⟨by simp, by decide⟩

-- `c47_sound` applies to this grammar and tree.
example : ∃ u d, dispatch (coverageMap exDefs) exS = .rule u d :=
  c47_sound (msgs := []) (roots := [['S']]) (exc := fun _ _ => false) (fuel := 5) exG_plain (by decide) (by rfl) (by simp) (by simp)
    (s := ['S']) (by simp) exS_conf (by simp)

-- `c47_no_false_alarm` applies when `B : x` lacks a rule.
example : ∃ s t, s ∈ [['S']] ∧ Conf exG s t ∧
    dispatch (coverageMap [(2, [⟨['S'], ['A', ' ', 'B', '?'], ['1']⟩])]) t = .noRule exB := by
  obtain ⟨rhss, its, h1, h2, _, h⟩ := c47_no_false_alarm (defs := [(2, [⟨['S'], ['A', ' ', 'B', '?'], ['1']⟩])])
    (msgs := [.needs ⟨['B'], ['x'], []⟩])
    (roots := [['S']]) (exc := fun _ _ => false) (fuel := 5) exG_plain (by decide) (by rfl) (p := ⟨['B'], ['x'], []⟩) (by simp)
  cases h1
  simp only [List.mem_singleton] at h2
  subst h2
  exact h [.leaf] (.terminals 1 .nil)

/-! ## Optional literals -/

/-- `S : B ,?` and `B : x` -/
def litG : Name → NtDef := fun s =>
  if s = ['S'] then .main [[.plain (.gnt ['B'] []), .qm (.other .BACKTICKED_THING [','])]]
  else if s = ['B'] then .main [[.plain (.other .BACKTICKED_THING ['x'])]]
  else .unknown

/-- `S : B ,?` with the comma -/
def litS : Tree := .node ['S'] ['B', ' ', ',', '?'] ['1'] [exB, .node [',', '?'] [','] [] [.leaf]]

/-- `c47_sound` needs the assumption that only nonterminals are optional: the check takes a production whose optional literal is present for a
chain production, but the parse node (es_parser.py:2041-2044) counts the literal as a nonterminal.  The report has no
complaint, and the operation is undefined on a tree of the grammar. -/
theorem c47_optional_literal_witness :
    analyze litG [(1, [⟨['B'], ['x'], []⟩])] (fun _ _ => false) [['S']] 5 = .ok [] ∧ Conf litG ['S'] litS ∧
    dispatch (coverageMap [(1, [⟨['B'], ['x'], []⟩])]) litS = .noRule litS := by
  refine ⟨by rfl, ?_, rfl⟩
  exact .node (its := [.plain (.gnt ['B'] []), .qm (.other .BACKTICKED_THING [','])]) rfl (by simp)
    (.nt (.node (its := [.plain (.other .BACKTICKED_THING ['x'])]) rfl (by simp) (.terminals 1 .nil)) (.presentTerminal .nil))

/-- With more than three optional symbols the check fails. -/
example : analyze (fun _ => .main [List.replicate 4 (.qm (.gnt ['B'] []))]) ([] : List (Nat × List Puk)) (fun _ _ => false) [['S']] 5 =
    .error .crash := by rfl

end Verif.Sdo
