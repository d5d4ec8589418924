import Verif.Algs.CheckLemmas
/-!
# C62: the registry of algorithms
-/
namespace Verif.Algs
open Deps (Begins startsWith startsWith_iff)
open Style (Pairs mapM_pairs pairs_congr)

/-! ### Order -/

theorem perm_insertAlg (a : String × Alg) : ∀ as : List (String × Alg), (insertAlg a as).Perm (a :: as)
  | [] => .refl _
  | b :: bs => by
    rw [insertAlg]
    split
    · exact .refl _
    · exact ((perm_insertAlg a bs).cons b).trans (.swap a b bs)

theorem perm_sortAlgs : ∀ as : List (String × Alg), (sortAlgs as).Perm as
  | [] => .refl _
  | a :: as => (perm_insertAlg a (sortAlgs as)).trans ((perm_sortAlgs as).cons a)

theorem sorted_insertAlg (a : String × Alg) : ∀ as : List (String × Alg), as.Pairwise (fun a b => a.1 ≤ b.1) → (insertAlg a as).Pairwise (fun a b => a.1 ≤ b.1)
  | [], _ => by simp [insertAlg]
  | b :: bs, h => by
    rw [List.pairwise_cons] at h
    rw [insertAlg]
    split
    · rename_i hab
      refine List.pairwise_cons.2 ⟨fun c hc => ?_, List.pairwise_cons.2 h⟩
      rcases List.mem_cons.1 hc with rfl | hc
      · exact hab
      · exact String.le_trans hab (h.1 c hc)
    · rename_i hab
      refine List.pairwise_cons.2 ⟨fun c hc => ?_, sorted_insertAlg a bs h.2⟩
      rcases List.mem_cons.1 ((perm_insertAlg a bs).mem_iff.1 hc) with rfl | hc
      · exact (String.le_total ..).resolve_left hab
      · exact h.1 c hc

theorem byName_sort (as : List (String × Alg)) : ByName as (sortAlgs as) := by
  refine ⟨perm_sortAlgs as, ?_⟩
  induction as with
  | nil => exact .nil
  | cons a as ih => exact sorted_insertAlg a _ ih

theorem byName_unique {ms : List Mention} {as xs ys : List (String × Alg)} (ht : Table ms as) (hx : ByName as xs) (hy : ByName as ys) : xs = ys := by
  have hp : xs.Perm ys := hx.1.trans hy.1.symm
  refine hp.eq_of_pairwise (le := fun a b => a.1 ≤ b.1) (fun a b ha hb h1 h2 => ?_) hx.2 hy.2
  obtain ⟨n, a⟩ := a
  obtain ⟨n', a'⟩ := b
  have hname : n = n' := String.le_antisymm h1 h2
  subst hname
  rw [table_unique ht (hx.1.mem_iff.1 ha) (hy.1.mem_iff.1 hb)]

/-! ### Replacements -/

theorem replaced_front {p n s o : List Char} (h : Replaced p n s o) (hn : n ≠ []) : ∀ q : List Char, (∀ c ∈ q, c ∉ n) → q <+: o → q <+: s := by
  induction h with
  | nil => exact fun q _ hq => hq
  | @hit s o _ ih =>
    intro q hq hp
    cases q with
    | nil => exact List.nil_prefix
    | cons c q =>
      cases n with
      | nil => exact absurd rfl hn
      | cons d n =>
        obtain ⟨r, hr⟩ := hp
        simp only [List.cons_append, List.cons.injEq] at hr
        exact absurd (show c ∈ d :: n by rw [hr.1]; exact List.mem_cons_self ..) (hq c (List.mem_cons_self ..))
  | @miss c s o _ _ ih =>
    intro q hq hp
    cases q with
    | nil => exact List.nil_prefix
    | cons d q =>
      rw [List.cons_prefix_cons] at hp ⊢
      exact ⟨hp.1, ih q (fun x hx => hq x (List.mem_cons_of_mem _ hx)) hp.2⟩

theorem replaced_none {p n s o : List Char} (h : Replaced p n s o) (hn : n ≠ []) (hp : p ≠ []) (hd : ∀ c ∈ p, c ∉ n) : ¬ p <:+: o := by
  induction h with
  | nil => intro h; exact hp (List.infix_nil.1 h)
  | @hit s o _ ih =>
    rintro ⟨a, b, hab⟩
    rw [List.append_assoc, List.append_eq_append_iff] at hab
    rcases hab with ⟨r, hr, h2⟩ | ⟨r, hr, h2⟩
    · cases r with
      | nil =>
        rw [List.nil_append] at h2
        exact ih ⟨[], b, by simpa using h2⟩
      | cons x r =>
        cases p with
        | nil => exact hp rfl
        | cons c p =>
          simp only [List.cons_append, List.cons.injEq] at h2
          exact hd c (List.mem_cons_self ..) (by rw [hr, h2.1]; simp)
    · exact ih ⟨r, b, by rw [List.append_assoc]; exact h2.symm⟩
  | @miss c s o hm hr ih =>
    rintro ⟨a, b, hab⟩
    cases a with
    | nil =>
      cases p with
      | nil => exact hp rfl
      | cons d p =>
        simp only [List.nil_append, List.cons_append, List.cons.injEq] at hab
        refine hm ?_
        rw [hab.1, List.cons_prefix_cons]
        exact ⟨rfl, replaced_front hr hn p (fun x hx => hd x (List.mem_cons_of_mem _ hx)) ⟨b, hab.2⟩⟩
    | cons d a =>
      simp only [List.cons_append, List.cons.injEq] at hab
      exact ih ⟨a, b, hab.2⟩

theorem replaced_keeps {p n s o q : List Char} (h : Replaced p n s o) (hn : n ≠ []) (hq : q ≠ []) (hd : ∀ c ∈ q, c ∉ n) : q <:+: o → q <:+: s := by
  induction h with
  | nil => exact id
  | @hit s o _ ih =>
    rintro ⟨a, b, hab⟩
    rw [List.append_assoc, List.append_eq_append_iff] at hab
    have key : q <:+: o := by
      rcases hab with ⟨r, hr, h2⟩ | ⟨r, hr, h2⟩
      · cases r with
        | nil =>
          rw [List.nil_append] at h2
          exact ⟨[], b, by simpa using h2⟩
        | cons x r =>
          cases q with
          | nil => exact absurd rfl hq
          | cons c q =>
            simp only [List.cons_append, List.cons.injEq] at h2
            exact absurd (show c ∈ n by rw [hr, h2.1]; simp) (hd c (List.mem_cons_self ..))
      · exact ⟨r, b, by rw [List.append_assoc]; exact h2.symm⟩
    obtain ⟨x, y, hxy⟩ := ih key
    exact ⟨p ++ x, y, by rw [← hxy]; simp⟩
  | @miss c s o hm hr ih =>
    rintro ⟨a, b, hab⟩
    cases a with
    | nil =>
      have : q <+: c :: o := ⟨b, by simpa using hab⟩
      have := replaced_front (.miss hm hr) hn q hd this
      exact this.isInfix
    | cons d a =>
      simp only [List.cons_append, List.cons.injEq] at hab
      obtain ⟨x, y, hxy⟩ := ih ⟨a, b, hab.2⟩
      exact ⟨c :: x, y, by rw [← hxy]; simp⟩

/-! ### The theorems -/

/-- C62: what becomes of a header. -/
theorem c62_header (r : Raw) (h : Header) : finish r = some h ↔ Finished r h := finish_iff r h

/-- C62: no placeholder is left in a description. -/
theorem c62_no_marks (r : Raw) (h : Header) (hf : finish r = some h) : ¬ "!OP".toList <:+: h.description.toList ∧ ¬ "!FUNC".toList <:+: h.description.toList := by
  obtain ⟨ps, _, _, _, _, ⟨a, b, c, e, _, _, _, h1, h2⟩, _⟩ := (finish_iff r h).1 hf
  refine ⟨fun g => ?_, replaced_none h2 (by decide) (by decide) (by decide)⟩
  exact replaced_none h1 (by decide) (by decide) (by decide) (replaced_keeps h2 (by decide) (by decide) (by decide) g)

/-- C62: the registry has what was entered. -/
theorem c62_registry (evs : List Event) (reg : Reg) (h : run evs = some reg) :
    ∃ ms bs os, Pairs Mentions evs ms ∧ Parted ms bs os ∧ Table bs reg.bifs ∧ Table os reg.ops := by
  obtain ⟨ms, h1, h2⟩ := (run_from evs _ _).1 h
  rw [put_all] at h2
  refine ⟨ms, _, _, h1, parted_filter ms, ?_, ?_⟩
  · cases ho : (ms.filter (fun m => !isBif m)).foldlM enter [] with
    | none => rw [ho] at h2; cases h2
    | some o =>
      cases hb : (ms.filter isBif).foldlM enter [] with
      | none => rw [ho, hb] at h2; cases h2
      | some b =>
        rw [ho, hb] at h2; cases h2
        exact (enter_all _ [] [] table_nil (fun m hm => (by cases hm))).1 b hb
  · cases ho : (ms.filter (fun m => !isBif m)).foldlM enter [] with
    | none => rw [ho] at h2; cases h2
    | some o =>
      cases hb : (ms.filter isBif).foldlM enter [] with
      | none => rw [ho, hb] at h2; cases h2
      | some b =>
        rw [ho, hb] at h2; cases h2
        exact (enter_all _ [] [] table_nil (fun m hm => (by cases hm))).1 o ho

/-- C62: the program stops exactly at headers that are not in order, and at contradictions. -/
theorem c62_stops (evs : List Event) : run evs = none ↔ ¬ ∃ ms, Pairs Mentions evs ms ∧ Agree ms := by
  have nil1 : Agree1 [] := fun m hm => (by cases hm)
  constructor
  · rintro h ⟨ms, h1, h2⟩
    have h2 := (agree_iff ms).1 h2
    cases hp : ms.foldlM put ⟨[], []⟩ with
    | some reg => rw [run, (run_from evs _ reg).2 ⟨ms, h1, hp⟩] at h; cases h
    | none =>
      rw [put_all] at hp
      cases ho : (ms.filter (fun m => !isBif m)).foldlM enter [] with
      | none => exact ((enter_all _ [] [] table_nil nil1).2.1 ho) (by simpa using h2.2)
      | some o =>
        cases hb : (ms.filter isBif).foldlM enter [] with
        | none => exact ((enter_all _ [] [] table_nil nil1).2.1 hb) (by simpa using h2.1)
        | some b => rw [ho, hb] at hp; cases hp
  · intro h
    cases hr : run evs with
    | none => rfl
    | some reg =>
      obtain ⟨ms, h1, h2⟩ := (run_from evs _ _).1 hr
      refine absurd ⟨ms, h1, (agree_iff ms).2 ⟨?_, ?_⟩⟩ h
      · refine Classical.byContradiction fun g => ?_
        rw [put_all, (enter_all (ms.filter isBif) [] [] table_nil nil1).2.2 (by simpa using g)] at h2
        revert h2
        cases List.foldlM enter [] (ms.filter (fun m => !isBif m)) <;> exact fun h2 => (by cases h2)
      · refine Classical.byContradiction fun g => ?_
        rw [put_all, (enter_all (ms.filter (fun m => !isBif m)) [] [] table_nil nil1).2.2 (by simpa using g)] at h2
        cases h2

/-- C62: the headers of an entry have its name and species. -/
theorem c62_fit (evs : List Event) (reg : Reg) (h : run evs = some reg) (n : String) (a : Alg) (ha : (n, a) ∈ reg.ops ++ reg.bifs) :
    ∀ x ∈ a.headers, x.name = n ∧ x.species = a.species := by
  obtain ⟨ms, bs, os, h1, h2, h3, h4⟩ := c62_registry evs reg h
  have fit : ∀ m ∈ ms, ∀ x, m.header = some x → x.name = m.name ∧ x.species = m.species := by
    clear h h2 h3 h4 ha
    induction h1 with
    | nil => intro m hm; cases hm
    | cons g _ ih =>
      intro m hm x hx
      rcases List.mem_cons.1 hm with rfl | hm
      · cases g with
        | plain => cases hx
        | header => cases hx; exact ⟨rfl, rfl⟩
      · exact ih m hm x hx
  have one : ∀ {l : List Mention} {t : List (String × Alg)}, l.Sublist ms → Table l t → (n, a) ∈ t → ∀ x ∈ a.headers, x.name = n ∧ x.species = a.species := by
    intro l t hl ht ha x hx
    rw [ht.headers n a ha, List.mem_filterMap] at hx
    obtain ⟨m, hm, he⟩ := hx
    split at he
    · rename_i hn
      obtain ⟨e1, e2⟩ := fit m (hl.mem hm) x he
      exact ⟨e1.trans hn, e2.trans (ht.species n a ha m hm hn)⟩
    · cases he
  rcases List.mem_append.1 ha with ha | ha
  · exact one h2.ops.1 h4 ha
  · exact one h2.bifs.1 h3 ha

/-- C62: the report on the consistency of the registry. -/
theorem c62_check (evs : List Event) (reg : Reg) (h : run evs = some reg) (ms : List Msg) :
    check reg = some ms ↔ ∃ so sb mss, ByName reg.ops so ∧ ByName reg.bifs sb ∧ Pairs Report (so ++ sb) mss ∧ ms = mss.flatten := by
  obtain ⟨_, bs, os, _, _, h3, h4⟩ := c62_registry evs reg h
  have hp : ∀ ts mss, Pairs (fun t m => checkAlg t = some m) ts mss ↔ Pairs Report ts mss := fun ts mss => pairs_congr (fun t _ m => checkAlg_iff t m)
  simp only [check, Option.map_eq_some_iff, mapM_pairs, hp]
  constructor
  · rintro ⟨mss, g, rfl⟩
    exact ⟨_, _, mss, byName_sort _, byName_sort _, g, rfl⟩
  · rintro ⟨so, sb, mss, g1, g2, g3, rfl⟩
    obtain rfl := byName_unique h4 g1 (byName_sort _)
    obtain rfl := byName_unique h3 g2 (byName_sort _)
    exact ⟨mss, g3, rfl⟩

/-- C62: one report. -/
theorem c62_unique {e : String × Alg} {ms ms' : List Msg} (h : Report e ms) (h' : Report e ms') : ms = ms' := by
  rw [← checkAlg_iff] at h h'
  rw [h] at h'; exact Option.some_inj.1 h'

/-! ### Cases -/

def exSect (p g : String) : Sect := ⟨"9.1.1.1.1", "HasBinding ( _N_ )", [p, g, "Executable Code"]⟩
def exParam : Param := ⟨"_N_", "", "a String"⟩
def exRaw (p g phrase : String) (ps : List Param) : Raw := ⟨"op: discriminated by type: env rec", "HasBinding", some phrase, some ps, true, ["!OP determines it.", "It calls !OP and !FUNC."], exSect p g⟩
def exBif : Raw := ⟨"bif: function", "<dfn id=\"x\">Set</dfn>", none, some [⟨"_value_", "", "unknown"⟩, ⟨"_rest_", "...", "unknown"⟩, exParam], false, ["This operation x"], exSect "A" "B"⟩

example : (finish exBif).map (fun h => (h.name, h.params.map (·.nature), h.description)) =
    some ("Set", ["an ECMAScript language value", "a List of ECMAScript language values", "a String"], "x") := by decide +kernel
example : (finish (exRaw "A" "B" "c" [exParam])).map (·.description) = some "determines it. It calls This operation and This function." := by decide +kernel
example : (finish { exBif with name := "<dfn>Set</dfn>" }) = none := by decide +kernel
example : (finish { exBif with name := "<dfn id=\"x\">Set</dfn> " }) = none := by decide +kernel
example : (finish { exBif with params := none }) = none := by decide +kernel
example : (finish { exBif with params := some [⟨"_a_", "...", "unknown"⟩, ⟨"_b_", "...", "unknown"⟩] }) = none := by decide +kernel

def exEvs : List Event :=
  [.header exBif, .ensure "op: singular" "Set", .header (exRaw "Object Environment Records" "X" "an Object Environment Record _envRecord_" [exParam]), .ensure "op: singular" "abs",
   .header (exRaw "Declarative Environment Records" "X" "a Global Environment Record _envRecord_" []), .ensure "op: singular" "Set"]

example : (run exEvs).map (fun r => (r.ops.map (fun e => (e.1, e.2.headers.length)), r.bifs.map (fun e => (e.1, e.2.headers.length)))) =
    some ([("Set", 0), ("HasBinding", 2), ("abs", 0)], [("Set", 1)]) := by decide +kernel
example : run (exEvs ++ [.ensure "shorthand" "abs"]) = none := by decide +kernel
example : run (exEvs ++ [.ensure "bif: function" "abs"]) ≠ none := by decide +kernel

def exShown (evs : List Event) : Option (List (String × String)) := (run evs).bind (fun r => (check r).map (List.map (fun m => match m with
  | .forPhrase h e => (h.sect.num, e)
  | .paramCount h n k => (n, String.ofList (List.replicate h.params.length 'x' ++ '/' :: List.replicate k 'x'))
  | .noReturnInFirst h => (h.name, "first")
  | .returnInLater h => (h.name, "later")
  | .noReturn h n => (h.name ++ n, "none"))))

example : exShown exEvs = some [("9.1.1.1.1", "a Declarative Environment Record _envRecord_"), ("HasBinding", "/x")] := by decide +kernel

/-- The same for-phrase twice, other names of parameters, an unknown section, or an unknown species stop the program. -/
example : exShown (exEvs ++ [.header (exRaw "Global Environment Records" "X" "a Global Environment Record _envRecord_" [])]) = none := by decide +kernel
example : exShown (exEvs ++ [.header (exRaw "Global Environment Records" "X" "c" [⟨"_M_", "", "a String"⟩])]) = none := by decide +kernel
example : exShown (exEvs ++ [.header (exRaw "X" "X" "c" [])]) = none := by decide +kernel
example : exShown [.ensure "op: odd" "x"] = none := by decide +kernel
example : exShown [.header (exRaw "Implementation of Module Record Abstract Methods" "Cyclic Module Records" "a Cyclic Module Record _module_" [])] = some [] := by decide +kernel

def exSteps (ret : Bool) (s : String := "op: discriminated by syntax: steps") : Event := .header ⟨s, "Evaluation", none, some [], ret, [], exSect "A" "B"⟩
example : exShown [exSteps true, exSteps false, exSteps false] = some [] := by decide +kernel
example : exShown [exSteps false, exSteps false, exSteps true] = some [("Evaluation", "first"), ("Evaluation", "later")] := by decide +kernel
example : exShown [exSteps false] = some [("EvaluationEvaluation", "none")] := by decide +kernel
example : exShown [exSteps false "op: singular", exSteps true "op: singular"] = some [("EvaluationEvaluation", "none")] := by decide +kernel
example : exShown [exSteps true "bif: function"] = none := by decide +kernel
example : exShown [exSteps true "op: discriminated by syntax: early error"] = none := by decide +kernel
example : exShown [exSteps false "op: discriminated by syntax: early error"] = some [] := by decide +kernel

end Verif.Algs
