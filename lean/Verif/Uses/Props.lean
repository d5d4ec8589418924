import Verif.Uses.ReportLemmas
import Verif.Uses.ReduceLemmas
import Verif.Uses.LayLemmas
import Verif.Defs.Props
/-!
# C56: the uses of productions are checked against the definitions
-/
namespace Verif.Uses
open Verif.Uses.Spec
open Verif.Defs (Str Prodn Rhs Arena Block Table process)
open Verif.Defs.Spec (IsArena Defined Counts FinalRhss Defines prodns)
open Verif.Gram (Item Sym IKind)

theorem mapM_none {α β : Type} (f : α → Option β) : ∀ l : List α, l.mapM f = none ↔ ∃ a ∈ l, f a = none
  | [] => by simp
  | a :: l => by
    rw [List.mapM_cons]
    cases ha : f a with
    | none => simp [ha]
    | some b =>
      cases hl : l.mapM f with
      | none =>
        have := (mapM_none f l).1 hl
        simp only [List.mem_cons, exists_eq_or_imp, ha]
        simpa using this
      | some bs =>
        have h : ¬∃ a ∈ l, f a = none := fun h => by rw [(mapM_none f l).2 h] at hl; cases hl
        simp only [List.mem_cons, exists_eq_or_imp, ha, reduceCtorEq, false_or]
        simpa using h

theorem mapM_at {α β : Type} (f : α → Option β) : ∀ (l : List α) (bs : List β), l.mapM f = some bs →
    bs.length = l.length ∧ ∀ (i : Nat) a, l[i]? = some a → ∃ b, bs[i]? = some b ∧ f a = some b
  | [], bs, h => by
    simp only [List.mapM_nil] at h
    cases h
    exact ⟨rfl, by simp⟩
  | a :: l, bs, h => by
    simp only [List.mapM_cons, Option.pure_def, Option.bind_eq_bind, Option.bind_eq_some_iff, Option.some.injEq] at h
    obtain ⟨b, hb, bs', hbs, rfl⟩ := h
    obtain ⟨h1, h2⟩ := mapM_at f l bs' hbs
    refine ⟨by simp [h1], ?_⟩
    intro i x hx
    cases i with
    | zero => simp only [List.getElem?_cons_zero, Option.some.injEq] at hx; subst hx; exact ⟨b, rfl, hb⟩
    | succ i => exact h2 i x hx

section
variable {doc : List Block} {ds : List Defs.Msg} {t : Table} (h : process doc = some (ds, t))
include h

theorem final_unique {i : Nat} {rs rs' : List Rhs} (h1 : FinalRhss doc i rs) (h2 : FinalRhss doc i rs') : rs = rs' := by
  have hi := (Defs.process_some doc ds t h).1
  obtain ⟨s, p, k1, k2⟩ := h1
  obtain ⟨s', p', k1', k2'⟩ := h2
  rw [k1] at k1'
  cases k1'
  rcases k2 with ⟨k3, k4⟩ | ⟨k3, j, q, k4, k5⟩
  · rcases k2' with ⟨_, k4'⟩ | ⟨k3', _⟩
    · rw [k4, k4']
    · exact absurd k3' k3
  · rcases k2' with ⟨k3', _⟩ | ⟨_, j', q', k4', k5'⟩
    · exact absurd k3 k3'
    · rw [k5, k5', (Defs.once_of_inv hi k4 k4').2]

theorem case_unique {el : Element} {p : Prodn} {c c' : Case} (h1 : IsCase doc el p c) (h2 : IsCase doc el p c') : c = c' := by
  have hi := (Defs.process_some doc ds t h).1
  obtain ⟨a, i, q, rs, uss, dss, k1, k2, k3, k4, k5, rfl⟩ := h1
  obtain ⟨a', i', q', rs', uss', dss', k1', k2', k3', k4', k5', rfl⟩ := h2
  rw [each_map rhs_iff] at k4 k5 k4' k5'
  subst k4; subst k5; subst k4'; subst k5'
  have ha : a = a' := ((Defs.arenaOf_iff ..).2 k1).symm.trans ((Defs.arenaOf_iff ..).2 k1')
  subst ha
  obtain ⟨e1, e2⟩ := Defs.counts_unique hi k2 k2'
  subst e1; subst e2
  rw [final_unique h k3 k3']

/-- What the table says of a nonterminal, in terms of the document. -/
theorem lookup_case (el : Element) (p : Prodn) :
    (¬Defined doc p.lhs.name ∧ t.lookup p.lhs.name = none) ∨
    (∃ info, t.lookup p.lhs.name = some info ∧ Defined doc p.lhs.name ∧ Defs.appropriate info (Defs.arenaOf el.sec) = none ∧
      ¬∃ i q, Counts doc (Defs.arenaOf el.sec) p.lhs.name i q) ∨
    ∃ info d c, t.lookup p.lhs.name = some info ∧ Defs.appropriate info (Defs.arenaOf el.sec) = some d ∧ IsCase doc el p c ∧
      c = { sec := el.sec, id := el.id, lhs := p.lhs.name, uColons := p.colons, dColons := info.colons, uParams := p.params,
            dParams := d.prod.params, uss := p.rhss.map itemsOf, dss := d.prod.rhss.map itemsOf } := by
  have hi := (Defs.process_some doc ds t h).1
  cases hl : t.lookup p.lhs.name with
  | none =>
    refine Or.inl ⟨fun hd => ?_, rfl⟩
    obtain ⟨info, h1⟩ := (Defs.defined_iff hi _).2 hd
    rw [hl] at h1; cases h1
  | some info =>
    cases ha : Defs.appropriate info (Defs.arenaOf el.sec) with
    | none =>
      exact Or.inr (Or.inl ⟨info, rfl, (Defs.defined_iff hi _).1 ⟨info, hl⟩, ha, (Defs.appropriate_none hi hl).1 ha⟩)
    | some d =>
      refine Or.inr (Or.inr ⟨info, d, _, rfl, ha, ?_, rfl⟩)
      obtain ⟨s, q, rs, h1, h2, h3, h4⟩ := Defs.appropriate_some hi hl ha
      refine ⟨_, d.docI, q, rs, _, _, (Defs.arenaOf_iff ..).1 rfl, h4, (Defs.finalRhss_iff h1 rs).1 h2, (each_map rhs_iff _ _).2 rfl, (each_map rhs_iff _ _).2 rfl, ?_⟩
      have hc : q.colons = info.colons := by
        rcases h4 with ⟨s', k1, k2, _⟩ | ⟨_, s', k1, k2, _⟩
        · exact hi.colons _ info hl _ _ _ k1 k2
        · exact hi.colons _ info hl _ _ _ k1 k2
      rw [hc]
      have hd : d.prod = { q with rhss := rs } := by rw [h3]; rfl
      rw [hd]
      rfl

theorem check_case (el : Element) (p : Prodn) :
    (checkUse t el p = none ↔ Stops doc el p) ∧
    ∀ rep, checkUse t el p = some rep →
      (¬Defined doc p.lhs.name → rep = ⟨[.undefinedLhs], [], none⟩) ∧
      (Defined doc p.lhs.name → ∃ c, IsCase doc el p c) ∧ ∀ c, IsCase doc el p c → c.Right rep := by
  have hi := (Defs.process_some doc ds t h).1
  have hdef : ∀ {c}, IsCase doc el p c → Defined doc p.lhs.name := by
    rintro c ⟨a, i, q, rs, _, _, _, hc, _⟩
    rcases hc with hc | ⟨_, hc⟩
    · exact ⟨i, a, q, hc⟩
    · exact ⟨i, _, q, hc⟩
  rcases lookup_case h el p with ⟨h1, h2⟩ | ⟨info, h1, h2, h3, h4⟩ | ⟨info, d, c, h1, h2, h3, h4⟩
  · have hu : checkUse t el p = some ⟨[.undefinedLhs], [], none⟩ := by unfold checkUse; rw [h2]
    rw [hu]
    refine ⟨?_, ?_⟩
    · simp only [reduceCtorEq, false_iff]
      intro hs
      cases hs with
      | elsewhere a _ hd => exact h1 hd
      | noId c hc => exact h1 (hdef hc)
      | odd c _ _ _ hc => exact h1 (hdef hc)
    · intro rep hr
      cases hr
      exact ⟨fun _ => rfl, fun hd => absurd hd h1, fun c hc => absurd (hdef hc) h1⟩
  · have hu : checkUse t el p = none := by unfold checkUse; simp only [h1, h3]
    rw [hu]
    refine ⟨?_, by simp⟩
    simp only [true_iff]
    exact .elsewhere _ ((Defs.arenaOf_iff ..).1 rfl) h2 h4
  · have hu : checkUse t el p = checkAgainst el p info.colons d.prod := by unfold checkUse; simp only [h1, h2]
    have hno : ¬∃ a, IsArena el.sec a ∧ ¬∃ i q, Counts doc a p.lhs.name i q := by
      rintro ⟨a, ha, hn⟩
      obtain ⟨a', i, q, rs, _, _, k1, k2, _⟩ := h3
      have : a = a' := ((Defs.arenaOf_iff ..).2 ha).symm.trans ((Defs.arenaOf_iff ..).2 k1)
      subst this
      exact hn ⟨i, q, k2⟩
    have hc1 := checkParams_none el.id p.params d.prod.params
    have hc2 := annsMsgs_none el.sec.title p.lhs.name (p.rhss.map itemsOf) 0
    rw [hu]
    unfold checkAgainst
    cases hp : checkParams el.id p.params d.prod.params with
    | none =>
      refine ⟨?_, by simp⟩
      simp only [true_iff]
      obtain ⟨k1, k2, k3⟩ := hc1.1 hp
      exact .noId c h3 (by rw [h4]; exact k1) (by rw [h4]; exact k2) k3
    | some r =>
      obtain ⟨s, ps⟩ := r
      cases ha : annsMsgs el.sec.title p.lhs.name 0 (p.rhss.map itemsOf) with
      | none =>
        refine ⟨?_, by simp⟩
        simp only [true_iff]
        obtain ⟨us, k1, x, k2, k, text, rfl, k3⟩ := hc2.1 ha
        exact .odd c us k text h3 (by rw [h4]; exact k1) k2 k3
      | some as =>
        obtain ⟨rep, r1, r2⟩ := right_of c s ps as (by rw [h4]; exact hp) (by rw [h4]; exact ha)
        have r1' : compare p.lhs.name s ((if p.colons ≠ info.colons then [.colons p.colons info.colons] else []) ++ ps ++ as)
            (p.rhss.map itemsOf) (d.prod.rhss.map itemsOf) = some rep := by rw [h4] at r1; exact r1
        simp only [r1']
        refine ⟨?_, ?_⟩
        · simp only [reduceCtorEq, false_iff]
          intro hs
          cases hs with
          | elsewhere a k1 _ k3 => exact hno ⟨a, k1, k3⟩
          | noId c' k1 k2 k3 k4 =>
            have := case_unique h k1 h3
            subst this
            rw [hc1.2 ⟨by rw [h4] at k2; exact k2, by rw [h4] at k3; exact k3, k4⟩] at hp
            cases hp
          | odd c' us k text k1 k2 k3 k4 =>
            have := case_unique h k1 h3
            subst this
            rw [hc2.2 ⟨us, by rw [h4] at k2; exact k2, _, k3, k, text, rfl, k4⟩] at ha
            cases ha
        · intro rep' hr
          cases hr
          refine ⟨fun hn => absurd (hdef h3) hn, fun _ => ⟨c, h3⟩, ?_⟩
          intro c' hc'
          rw [case_unique h hc' h3]
          exact r2

end

/-- When it stops: exactly if some production of some element can't be got through. -/
theorem c56_stops (doc : List Block) (ds : List Defs.Msg) (t : Table) (h : process doc = some (ds, t)) (els : List Element) :
    check t els = none ↔ ∃ el ∈ els, ∃ p ∈ el.prods, Stops doc el p := by
  unfold check
  rw [mapM_none]
  constructor
  · rintro ⟨el, h1, h2⟩
    unfold checkElement at h2
    obtain ⟨p, h3, h4⟩ := (mapM_none _ _).1 h2
    exact ⟨el, h1, p, h3, (check_case h el p).1.1 h4⟩
  · rintro ⟨el, h1, p, h3, h4⟩
    refine ⟨el, h1, ?_⟩
    unfold checkElement
    exact (mapM_none _ _).2 ⟨p, h3, (check_case h el p).1.2 h4⟩

/-- Otherwise there is a report for each production of each element.  If the nonterminal is not defined it says just that; else the production is compared with the one
that counts for its nonterminal there, and the messages, their order, the keys and the links are right. -/
theorem c56_report (doc : List Block) (ds : List Defs.Msg) (t : Table) (h : process doc = some (ds, t)) (els : List Element)
    (rss : List (List Report)) (hr : check t els = some rss) :
    rss.length = els.length ∧ ∀ (k : Nat) el, els[k]? = some el → ∃ rs, rss[k]? = some rs ∧ rs.length = el.prods.length ∧
      ∀ (i : Nat) p, el.prods[i]? = some p → ∃ rep, rs[i]? = some rep ∧
        (¬Defined doc p.lhs.name → rep = ⟨[.undefinedLhs], [], none⟩) ∧
        (Defined doc p.lhs.name → ∃ c, IsCase doc el p c ∧ c.Right rep) := by
  obtain ⟨h1, h2⟩ := mapM_at _ _ _ hr
  refine ⟨h1, ?_⟩
  intro k el hk
  obtain ⟨rs, h3, h4⟩ := h2 k el hk
  obtain ⟨h5, h6⟩ := mapM_at _ _ _ h4
  refine ⟨rs, h3, h5, ?_⟩
  intro i p hp
  obtain ⟨rep, h7, h8⟩ := h6 i p hp
  obtain ⟨k1, k2, k3⟩ := (check_case h el p).2 rep h8
  refine ⟨rep, h7, k1, ?_⟩
  intro hd
  obtain ⟨c, hc⟩ := k2 hd
  exact ⟨c, hc, k3 c hc⟩

/-- There is only one production that a use is compared with. -/
theorem c56_one_case (doc : List Block) (ds : List Defs.Msg) (t : Table) (h : process doc = some (ds, t)) (el : Element) (p : Prodn) (c c' : Case)
    (h1 : IsCase doc el p c) (h2 : IsCase doc el p c') : c = c' := case_unique h h1 h2

/-- The matches are uses in the sense of C27; all uses are found if no symbol occurs twice in the definition. -/
theorem c56_match (us ds : List Item) :
    (∀ st, Match us ds st → Gram.Use us ds (st.filterMap treatment)) ∧
    (Gram.Distinct ds → ∀ os, Gram.Use us ds os → ∃ st, Match us ds st ∧ st.filterMap treatment = os) :=
  ⟨fun _ h => match_use h, fun hd _ h => use_match hd h⟩

/-- The middle part of a key tells right-hand sides apart, up to annotations and arguments. -/
theorem c56_reduced (a b : List Item) (ha : Words (core a)) (hb : Words (core b)) : reduce a = reduce b ↔ core a = core b :=
  reduce_core a b ha hb

theorem meets_mem {us ds : List Item} {i : Nat} {u d : Item} (h : Meets us ds i u d) : u ∈ us := by
  induction h with
  | here => exact List.mem_cons_self ..
  | keep _ _ ih => exact List.mem_cons_of_mem _ ih
  | skip _ _ _ ih => exact ih

theorem match_mem {us ds : List Item} {st : List Step} (h : Match us ds st) : ∀ u d, Step.kept u d ∈ st → u ∈ us := by
  induction h with
  | done => simp
  | keep _ _ ih =>
    intro x y hx
    rcases List.mem_cons.1 hx with hx | hx
    · cases hx; exact List.mem_cons_self ..
    · exact List.mem_cons_of_mem _ (ih x y hx)
  | skip _ _ _ ih =>
    intro x y hx
    rcases List.mem_cons.1 hx with hx | hx
    · cases hx
    · exact ih x y hx
  | rest _ _ ih =>
    intro x y hx
    rcases List.mem_cons.1 hx with hx | hx
    · cases hx
    · exact ih x y hx

/-- No false alarms: nothing is reported on a use with the right colons and without parameters, arguments and annotations, each of whose right-hand sides matches exactly
one of the definition, in the order of the definition. -/
theorem c56_quiet (c : Case) (rep : Report) (hr : c.Right rep) (h1 : c.uColons = c.dColons) (h2 : c.uParams = [])
    (h3 : ∀ us ∈ c.uss, ∀ x ∈ us, (∃ n, x.sym = .gnt n []) ∨ ∃ k text, x.sym = .other k text ∧ (k = .BACKTICKED_THING ∨ k = .NAMED_CHAR ∨ k = .BUT_NOT))
    (f : Nat → Nat) (h4 : ∀ r r', r < r' → r' < c.uss.length → f r < f r') (h5 : ∀ r, r < c.uss.length → ∀ j, c.Hit r j ↔ j = f r) :
    rep.msgs = [] := by
  have hnone : ∀ m, ¬c.Due m := by
    intro m hm
    have hlt : ∀ {r j}, c.Hit r j → r < c.uss.length := fun h => (hit_lt h).1
    have hj : ∀ {r j}, c.Hit r j → j = f r := fun {r j} h => (h5 r (hlt h) j).1 h
    cases hm with
    | colons h => exact h h1
    | params h => exact h h2
    | unusualParams h => exact h h2
    | paramsNone h => exact h h2
    | annotation r i us k text k1 k2 k3 k4 =>
      rcases h3 us (List.mem_of_getElem? k1) _ (List.mem_of_getElem? k2) with ⟨n, hx⟩ | ⟨k', t', hx, hk⟩
      · cases hx
      · cases hx
        rcases k3 with rfl | rfl | rfl | rfl | rfl <;> simp at hk
    | args r i us ds u d n up dp k1 k2 k3 k4 k5 k6 k7 k8 k9 =>
      rcases h3 us (List.mem_of_getElem? k1) _ (meets_mem k3) with ⟨n, hx⟩ | ⟨k', t', hx, hk⟩
      · rw [k5] at hx; cases hx; exact k7 rfl
      · rw [k5] at hx; cases hx
    | argsNone r i us ds u d n up k1 k2 k3 k4 k5 k6 k7 =>
      rcases h3 us (List.mem_of_getElem? k1) _ (meets_mem k3) with ⟨n, hx⟩ | ⟨k', t', hx, hk⟩
      · rw [k5] at hx; cases hx; exact k7 rfl
      · rw [k5] at hx; cases hx
    | argsMixed us ds st k1 k2 k3 k4 k5 =>
      apply k5
      unfold Case.intact
      rw [if_neg (fun h => h.2 h2), List.nil_append, List.filterMap_eq_nil_iff]
      intro s hs
      cases s with
      | left d => rfl
      | kept u d =>
        rcases h3 us k1 u (match_mem k3 u d hs) with ⟨n, hx⟩ | ⟨k', t', hx, hk⟩
        · cases hd : d.sym <;> simp [keptArgs, hx, hd]
        · simp [keptArgs, hx]
    | annsMixed us ds st k1 k2 k3 k4 k5 =>
      apply k5
      rw [List.filterMap_eq_nil_iff]
      intro s hs
      cases s with
      | left d => rfl
      | kept u d =>
        rcases h3 us k1 u (match_mem k3 u d hs) with ⟨n, hx⟩ | ⟨k', t', hx, hk⟩
        · simp [keptText, hx]
        · rcases hk with rfl | rfl | rfl <;> simp [keptText, hx]
    | noMatch r k1 k2 => exact k2 (f r) ((h5 r k1 (f r)).2 rfl)
    | manyMatch r js k1 k2 k3 =>
      match js, k1, k2, k3 with
      | a :: b :: js, k1, k2, _ =>
        have e1 := hj ((k2 a).1 (List.mem_cons_self ..))
        have e2 := hj ((k2 b).1 (List.mem_cons_of_mem _ (List.mem_cons_self ..)))
        have := (List.pairwise_cons.1 k1).1 b (List.mem_cons_self ..)
        omega
    | outOfOrder ms r r' j j' k1 k2 k3 k4 k5 k6 =>
      have e1 := hj k3
      have e2 := hj k4
      have := h4 r r' k5 (hlt k4)
      omega
    | same j rs k1 k2 k3 =>
      match rs, k1, k2, k3 with
      | a :: b :: rs, k1, k2, _ =>
        have e0 := (k2 b).1 (List.mem_cons_of_mem _ (List.mem_cons_self ..))
        have e1 := hj ((k2 a).1 (List.mem_cons_self ..))
        have e2 := hj e0
        have := (List.pairwise_cons.1 k1).1 b (List.mem_cons_self ..)
        have := h4 a b this (hlt e0)
        omega
  cases hm : rep.msgs with
  | nil => rfl
  | cons m ms => exact absurd ((hr.msgs m).1 (by rw [hm]; exact List.mem_cons_self ..)) (hnone m)

/-! ## Cases -/

open Verif.Defs (clause nt arg tok ln)

/-- `Stmt[Yield] :` with `if` `Expr[?Yield]` `else`?, `Expr[?Yield]` `;`, and a guarded `yield` `[no LineTerminator here]` `Expr[+Yield]`. -/
def stmt : Prodn := ⟨100, true, nt 100 "Stmt" [arg 101 .bare "Yield"], 1,
  [ln [tok "`if`", .plain (.gnt (nt 110 "Expr" [arg 111 .query "Yield"])), .qm (.other .backticked "`else`".toList [])],
   ln [.plain (.gnt (nt 120 "Expr" [arg 121 .query "Yield"])), tok "`;`"],
   ln [tok "`yield`", .plain (.other .nlth "[no LineTerminator here]".toList []), .plain (.gnt (nt 130 "Expr" [arg 131 .plus "Yield"]))]
     [arg 129 .plus "Yield"]]⟩

def expr : Prodn := ⟨200, true, nt 200 "Expr" [arg 201 .bare "Yield"], 1, [ln [tok "`x`"]]⟩

def defDoc : List Block := [⟨true, clause "Statements" "14.1", true, [stmt, expr]⟩]

def use (name : String) (args : List Verif.Defs.Param) (rs : List Rhs) : Prodn := ⟨900, true, nt 900 name args, 1, rs⟩
def el (ps : List Prodn) (id : Option Str := some "sec-x".toList) : Element := ⟨clause "Evaluation" "14.2", id, ps⟩
def plainNt (name : String) (args : List Verif.Defs.Param := []) : Defs.Item := .plain (.gnt (nt 910 name args))

/-- What is reported for one production in one element. -/
def run (p : Prodn) (id : Option Str := some "sec-x".toList) : Option Report :=
  match process defDoc with
  | none => none
  | some (_, t) => match check t [el [p] id] with
    | some [[r]] => some r
    | _ => none

/-- A usual production: arguments and annotations are left out, and `else` can be there or not. -/
example : run (use "Stmt" [] [.bare [tok "`if`", plainNt "Expr", .qm (.other .backticked "`else`".toList [])]]) =
    some ⟨[], [("Stmt".toList, "`if` Expr `else`?".toList, "0".toList), ("Stmt".toList, "`if` Expr `else`?".toList, "1".toList)], some [some 0]⟩ := by
  decide +kernel

/-- Without `else`, and the third. -/
example : run (use "Stmt" [] [ln [tok "`if`", plainNt "Expr"], ln [tok "`yield`", plainNt "Expr"]]) =
    some ⟨[], [("Stmt".toList, "`if` Expr `else`?".toList, "0".toList), ("Stmt".toList, "`yield` Expr".toList, [])], some [some 0, some 2]⟩ := by
  decide +kernel

/-- Out of order, twice the same, none, the colons, parameters and arguments, an annotation. -/
example : (run { use "Stmt" [arg 1 .bare "In"] [ln [plainNt "Expr" [arg 2 .query "Yield"], tok "`;`"], ln [tok "`if`", plainNt "Expr"], ln [tok "`y`"],
      ln [tok "`if`", plainNt "Expr" [arg 2 .plus "Yield"]], ln [tok "`yield`", .plain (.other .nlth "[no LineTerminator here]".toList []), plainNt "Expr"]] with
      colons := 2 }).map (fun r => (r.msgs, r.found)) =
    some ([.colons 2 1, .params ["In".toList] ["Yield".toList], .annotation 4 1, .argsMixed ["Expr".toList] ["Stmt".toList],
      .args 3 1 ["+Yield".toList] ["?Yield".toList], .argsMixed ["Expr".toList] ["Stmt".toList],
      .annsMixed ["[+Yield]".toList] ["[no LineTerminator here]".toList],
      .noMatch 2, .outOfOrder [2, 1, 1, 3], .same [2, 4] 1], some [some 1, some 0, none, some 0, some 2]) := by decide +kernel

/-- Parameters that are repeated, in a section without `id` and one that may do it; an undefined nonterminal. -/
example : (run (use "Expr" [arg 1 .bare "Yield"] [.bare [tok "`x`"]])).map Report.msgs = some [.unusualParams ["Yield".toList]] := by decide +kernel
example : run (use "Expr" [arg 1 .bare "Yield"] [.bare [tok "`x`"]]) none = none := by decide +kernel
example : (run (use "Expr" [arg 1 .bare "Yield"] [.bare [tok "`x`"]]) (some "sec-primary-expression".toList)).map Report.msgs = some [] := by
  decide +kernel
example : run (use "Nope" [] [.bare [tok "`x`"]]) = some ⟨[.undefinedLhs], [], none⟩ := by decide +kernel

example : Words (core (itemsOf (ln [tok "`if`", plainNt "Expr", .qm (.other .backticked "`else`".toList [])]))) := by
  unfold Words
  decide +kernel

/-- A right-hand side that matches two: they differ in the guard only. -/
example : (process [⟨true, clause "X" "1", true, [⟨1, true, nt 1 "Ab" [arg 2 .bare "Y"], 1, [ln [tok "`a`"] [arg 3 .plus "Y"], ln [tok "`a`"] [arg 3 .tilde "Y"]]⟩]⟩]).bind
    (fun r => (check r.2 [el [use "Ab" [] [.bare [tok "`a`"]]]]).map (·.flatten.map (fun r => (r.msgs, r.found)))) =
    some [([.manyMatch 0 2], some [some 0])] := by decide +kernel

/-- A message that is given too early (emu_grammars.py:1314 admits it): a production that repeats its definition exactly is reported, because an earlier right-hand side
starts with the same nonterminal, with other arguments. -/
theorem c56_early_witness : ∃ doc ds t e p, process doc = some (ds, t) ∧ (∃ q, p.rhss = q.rhss ∧ p.lhs = q.lhs ∧ p.colons = q.colons ∧ q ∈ (prodns doc).map (·.2)) ∧
    ds = [] ∧ (check t [⟨e, none, [p]⟩]).map (·.map (·.map Report.found)) = some [[some [some 0, some 1]]] ∧
    ∃ m ∈ ((check t [⟨e, none, [p]⟩]).getD []).flatten.flatMap Report.msgs, m = .args 1 0 ["~Y".toList] ["+Y".toList] := by
  refine ⟨[⟨true, clause "X" "1", true, [⟨1, true, nt 1 "Ab" [], 1,
      [ln [.plain (.gnt (nt 5 "Cd" [arg 6 .plus "Y"])), tok "`a`"], ln [.plain (.gnt (nt 5 "Cd" [arg 6 .tilde "Y"])), tok "`b`"]]⟩,
      ⟨9, true, nt 9 "Cd" [arg 10 .bare "Y"], 1, [ln [tok "`c`"]]⟩]⟩], _, _, clause "Z" "2",
    ⟨1, true, nt 1 "Ab" [], 1,
      [ln [.plain (.gnt (nt 5 "Cd" [arg 6 .plus "Y"])), tok "`a`"], ln [.plain (.gnt (nt 5 "Cd" [arg 6 .tilde "Y"])), tok "`b`"]]⟩, rfl,
    ⟨_, rfl, rfl, rfl, List.mem_cons_self ..⟩, by decide +kernel, by decide +kernel, _, ?_, rfl⟩
  decide +kernel

/-- A use that repeats a description of characters stops the program. -/
theorem c56_characters_witness : ∃ doc ds t e p, process doc = some (ds, t) ∧ (∃ q ∈ (prodns doc).map (·.2), p.rhss = q.rhss ∧ p.lhs = q.lhs) ∧
    check t [⟨e, none, [p]⟩] = none :=
  ⟨[⟨true, clause "Source Text" "11.1", true, [⟨1, true, nt 1 "SourceCharacter" [], 2, [.line [] (.unicode "&gt; any Unicode code point".toList) []]⟩]⟩], _, _,
    clause "Z" "2", ⟨1, true, nt 1 "SourceCharacter" [], 2, [.line [] (.unicode "&gt; any Unicode code point".toList) []]⟩, rfl,
    ⟨_, List.mem_cons_self .., rfl, rfl⟩, by decide +kernel⟩

end Verif.Uses
