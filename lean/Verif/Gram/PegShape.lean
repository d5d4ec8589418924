import Verif.Gram.PegMeta
/-! # The shape of the trees of the metagrammar, and its odd lines -/
namespace Verif.Gram
open MGoal

section Inversion
variable {N : Type} {W : PegEnv N} {hi : Nat} {g : N} {p q : Nat} {i j : Int} {rs : List (Option (GNode N))}

theorem term_inv {rk : RKind} (hg : ruleOf W g = some (.term rk)) (h : Parses W hi (.goal g) p i (some (q, j, rs))) :
    rk = .node ∧ rs = [some (.mk p q (.goal g) [])] ∨ rk = .blank ∧ rs = [none] := by
  cases h with
  | matched h1 _ _ _ h2 =>
    rw [hg] at h1; cases h1
    rcases h2 with ⟨h2, rfl⟩ | ⟨h2, rfl⟩
    · exact Or.inl ⟨h2, rfl⟩
    · exact Or.inr ⟨h2, rfl⟩
  | choose h1 => rw [hg] at h1; cases h1
  | seqNode h1 => rw [hg] at h1; cases h1
  | seqUp h1 => rw [hg] at h1; cases h1
  | omitted h1 => rw [hg] at h1; cases h1
  | optNode h1 => rw [hg] at h1; cases h1
  | optUp h1 => rw [hg] at h1; cases h1
  | optBlank h1 => rw [hg] at h1; cases h1
  | delimited h1 => rw [hg] at h1; cases h1

theorem alt_inv {rk : RKind} {args : List N} (hg : ruleOf W g = some (.alt rk args))
    (h : Parses W hi (.goal g) p i (some (q, j, rs))) : Parses W hi (.choice args) p i (some (q, j, rs)) := by
  cases h with
  | matched h1 => rw [hg] at h1; cases h1
  | choose h1 h2 => rw [hg] at h1; cases h1; exact h2
  | seqNode h1 => rw [hg] at h1; cases h1
  | seqUp h1 => rw [hg] at h1; cases h1
  | omitted h1 => rw [hg] at h1; cases h1
  | optNode h1 => rw [hg] at h1; cases h1
  | optUp h1 => rw [hg] at h1; cases h1
  | optBlank h1 => rw [hg] at h1; cases h1
  | delimited h1 => rw [hg] at h1; cases h1

theorem choice_inv : ∀ {gs : List N}, Parses W hi (.choice gs) p i (some (q, j, rs)) →
    ∃ a ∈ gs, Parses W hi (.goal a) p i (some (q, j, rs))
  | [], h => by cases h
  | a :: as, h => by
    cases h with
    | first h => exact ⟨a, List.mem_cons_self .., h⟩
    | next _ h =>
      obtain ⟨b, hb, h'⟩ := choice_inv h
      exact ⟨b, List.mem_cons_of_mem _ hb, h'⟩

theorem seq_inv {rk : RKind} {args : List N} (hg : ruleOf W g = some (.seq rk args))
    (h : Parses W hi (.goal g) p i (some (q, j, rs))) :
    ∃ rs', Parses W hi (.row args) p i (some (q, j, rs')) ∧
      (rk = .node ∧ rs = [some (.mk p q (.goal g) ((present rs').map some))] ∨
       rk = .up ∧ ∃ c, present rs' = [c] ∧ rs = [some c]) := by
  cases h with
  | matched h1 => rw [hg] at h1; cases h1
  | choose h1 h2 => rw [hg] at h1; cases h1
  | seqNode h1 h2 => rw [hg] at h1; cases h1; exact ⟨_, h2, Or.inl ⟨rfl, rfl⟩⟩
  | seqUp h1 h2 h3 => rw [hg] at h1; cases h1; exact ⟨_, h2, Or.inr ⟨rfl, _, h3, rfl⟩⟩
  | omitted h1 => rw [hg] at h1; cases h1
  | optNode h1 => rw [hg] at h1; cases h1
  | optUp h1 => rw [hg] at h1; cases h1
  | optBlank h1 => rw [hg] at h1; cases h1
  | delimited h1 => rw [hg] at h1; cases h1

theorem opt_inv {rk : RKind} {args : List N} (hg : ruleOf W g = some (.opt rk args))
    (h : Parses W hi (.goal g) p i (some (q, j, rs))) :
    (rk = .node ∧ rs = [some (.mk p p (.goal g) [])] ∨ rk = .up ∧ rs = [some (.mk p p .omitted [])] ∨
      rk = .blank ∧ rs = [none]) ∨
    ∃ rs', Parses W hi (.row args) p i (some (q, j, rs')) ∧
      (rk = .node ∧ rs = [some (.mk p q (.goal g) ((present rs').map some))] ∨
       rk = .up ∧ (∃ c, present rs' = [c] ∧ rs = [some c]) ∨ rk = .blank ∧ rs = [none]) := by
  cases h with
  | matched h1 => rw [hg] at h1; cases h1
  | choose h1 h2 => rw [hg] at h1; cases h1
  | seqNode h1 h2 => rw [hg] at h1; cases h1
  | seqUp h1 h2 h3 => rw [hg] at h1; cases h1
  | omitted h1 h2 h3 =>
    rw [hg] at h1; cases h1; left
    rcases h3 with ⟨a, b⟩ | ⟨a, b⟩ | ⟨a, b⟩ <;> rw [a, b] <;> simp
  | optNode h1 h2 => rw [hg] at h1; cases h1; right; exact ⟨_, h2, Or.inl ⟨rfl, rfl⟩⟩
  | optUp h1 h2 h3 => rw [hg] at h1; cases h1; right; exact ⟨_, h2, Or.inr (Or.inl ⟨rfl, _, h3, rfl⟩)⟩
  | optBlank h1 h2 => rw [hg] at h1; cases h1; right; exact ⟨_, h2, Or.inr (Or.inr ⟨rfl, rfl⟩)⟩
  | delimited h1 => rw [hg] at h1; cases h1

theorem plus_inv {e s : N} {l r : Option N} (hg : ruleOf W g = some (.plus e s l r))
    (h : Parses W hi (.goal g) p i (some (q, j, rs))) :
    ∃ p' i' q' j' rs', Parses W hi (.list e s) p' i' (some (q', j', rs')) ∧ rs = [some (.mk p q (.goal g) rs')] := by
  cases h with
  | matched h1 => rw [hg] at h1; cases h1
  | choose h1 h2 => rw [hg] at h1; cases h1
  | seqNode h1 h2 => rw [hg] at h1; cases h1
  | seqUp h1 h2 h3 => rw [hg] at h1; cases h1
  | omitted h1 h2 h3 => rw [hg] at h1; cases h1
  | optNode h1 h2 => rw [hg] at h1; cases h1
  | optUp h1 h2 h3 => rw [hg] at h1; cases h1
  | optBlank h1 h2 => rw [hg] at h1; cases h1
  | delimited h1 _ h2 => rw [hg] at h1; cases h1; exact ⟨_, _, _, _, _, h2, rfl⟩

theorem row_inv {gs : List N} (h : Parses W hi (.row (g :: gs)) p i (some (q, j, rs))) :
    ∃ p' i' r rs', Parses W hi (.goal g) p i (some (p', i', r)) ∧
      Parses W hi (.row gs) p' i' (some (q, j, rs')) ∧ rs = r ++ rs' := by
  cases h with
  | growRow h1 h2 => exact ⟨_, _, _, _, h1, h2, rfl⟩

theorem row_nil_inv (h : Parses W hi (.row []) p i (some (q, j, rs))) : rs = [] := by cases h; rfl

/-- All results of a list come from its element. -/
theorem list_all {e s : N} {P : Option (GNode N) → Prop}
    (hP : ∀ p i q j rs, Parses W hi (.goal e) p i (some (q, j, rs)) → ∀ c ∈ rs, P c) {x : Expr N} {out : Found N}
    (h : Parses W hi x p i out) : x = .list e s ∨ x = .rest e s → ∀ q j rs, out = some (q, j, rs) → ∀ c ∈ rs, P c := by
  induction h with
  | elements h1 h2 _ ih =>
    intro hx q j rs he c hc
    rcases hx with hx | hx <;> cases hx
    cases he
    rcases List.mem_append.mp hc with hc | hc
    · exact hP _ _ _ _ _ h1 c hc
    · exact ih (Or.inr rfl) _ _ _ rfl c hc
  | noSeparator => intro _ q j rs he c hc; cases he; cases hc
  | loneSeparator => intro _ q j rs he c hc; cases he; cases hc
  | another _ h2 _ _ _ ih =>
    intro hx q j rs he c hc
    rcases hx with hx | hx <;> cases hx
    cases he
    rcases List.mem_append.mp hc with hc | hc
    · exact hP _ _ _ _ _ h2 c hc
    · exact ih (Or.inr rfl) _ _ _ rfl c hc
  | notOne => intro _ q j rs he; cases he
  | _ => intro hx; rcases hx with hx | hx <;> cases hx

end Inversion

variable {rx : MGoal → Nat → Option Nat} {hi : Nat} {p q : Nat} {i j : Int} {rs : List (Option (GNode MGoal))}

theorem params_shape (h : Parses (metaEnv rx) hi (.goal OPTIONAL_PARAMS) p i (some (q, j, rs))) :
    ∃ ps pe pk kids, rs = [some (.mk ps pe pk kids)] ∧ (pk = .omitted ∨ pk = .goal PARAMS) := by
  rcases opt_inv (rk := .up) (args := [PARAMS]) rfl h with h | ⟨rs', h1, h2⟩
  · rcases h with ⟨h, _⟩ | ⟨_, h⟩ | ⟨h, _⟩
    · cases h
    · exact ⟨_, _, _, _, h, Or.inl rfl⟩
    · cases h
  · rcases h2 with ⟨h2, _⟩ | ⟨_, c, h2, h3⟩ | ⟨h2, _⟩
    · cases h2
    · obtain ⟨p', i', r, rs'', k1, k2, k3⟩ := row_inv h1
      have := row_nil_inv k2
      subst this
      obtain ⟨_, _, _, _, es, _, k4⟩ := plus_inv (g := PARAMS) rfl k1
      subst k3 k4
      injection h2 with h2
      subst h2
      exact ⟨_, _, _, _, h3, Or.inr rfl⟩
    · cases h2

theorem gnt_shape (h : Parses (metaEnv rx) hi (.goal GNT) p i (some (q, j, rs))) :
    ∃ gs ge nt ps pe pk pkids, rs = [some (.mk gs ge (.goal GNT) [some nt, some (.mk ps pe pk pkids)])] ∧
      (pk = .omitted ∨ pk = .goal PARAMS) := by
  obtain ⟨rs', h1, h2⟩ := seq_inv (rk := .node) (args := [NT, OPTIONAL_PARAMS]) rfl h
  obtain ⟨p1, i1, r1, rs1, k1, k2, e1⟩ := row_inv h1
  obtain ⟨p2, i2, r2, rs2, k3, k4, e2⟩ := row_inv k2
  have := row_nil_inv k4
  subst this
  obtain ⟨ps, pe, pk, kids, e3, hk⟩ := params_shape k3
  rcases term_inv (rk := .node) rfl k1 with ⟨_, e4⟩ | ⟨e4, _⟩
  · rcases h2 with ⟨_, h2⟩ | ⟨h2, _⟩
    · subst e1 e2 e3 e4
      exact ⟨_, _, _, _, _, _, _, h2, hk⟩
    · cases h2
  · cases e4

theorem tame_none : Tame (metaEnv (fun _ _ => none)) metaRank metaConsumes metaYields ([] : List Char).length :=
  meta_tame (isWord := fun _ => false) (text := []) (by intro g p e h; cases h)

/-- Each goal gives exactly one result, and it is known whether it is a node. -/
theorem meta_one {x : Expr MGoal} {out : Found MGoal} (h : Parses (metaEnv rx) hi x p i out) :
    ∀ q j rs, out = some (q, j, rs) →
      (∀ g, x = .goal g → ∃ r, rs = [r] ∧ r.isSome = metaYields g) ∧
      (∀ gs, x = .choice gs → ∃ g ∈ gs, ∃ r, rs = [r] ∧ r.isSome = metaYields g) := by
  induction h with
  | matched hg _ _ _ ho =>
    intro q j rs he
    cases he
    refine ⟨fun g hx => ?_, nofun⟩
    cases hx
    rcases (tame_none.term _ _ hg).1 with ⟨a, b⟩ | ⟨a, b⟩ <;> rcases ho with ⟨c, d⟩ | ⟨c, d⟩
    · exact ⟨_, rfl, by rw [d, b]; rfl⟩
    · rw [a] at c; cases c
    · rw [a] at c; cases c
    · exact ⟨_, rfl, by rw [d, b]; rfl⟩
  | choose hg _ ih =>
    intro q j rs he
    refine ⟨fun g hx => ?_, nofun⟩
    cases hx
    obtain ⟨a, ha, r, e1, e2⟩ := (ih q j rs he).2 _ rfl
    exact ⟨r, e1, by rw [e2]; exact (tame_none.alt _ _ _ hg).2.1 a ha⟩
  | first _ ih =>
    intro q j rs he
    refine ⟨nofun, fun gs hx => ?_⟩
    cases hx
    obtain ⟨r, e1, e2⟩ := (ih q j rs he).1 _ rfl
    exact ⟨_, List.mem_cons_self .., r, e1, e2⟩
  | next _ _ _ ih =>
    intro q j rs he
    refine ⟨nofun, fun gs hx => ?_⟩
    cases hx
    obtain ⟨a, ha, r, e1, e2⟩ := (ih q j rs he).2 _ rfl
    exact ⟨a, List.mem_cons_of_mem _ ha, r, e1, e2⟩
  | seqNode hg =>
    intro q j rs he
    cases he
    refine ⟨fun g hx => ?_, nofun⟩
    cases hx
    exact ⟨_, rfl, (tame_none.seq _ _ _ hg).1.symm⟩
  | seqUp hg =>
    intro q j rs he
    cases he
    refine ⟨fun g hx => ?_, nofun⟩
    cases hx
    exact ⟨_, rfl, (tame_none.seq _ _ _ hg).1.symm⟩
  | omitted hg _ ho =>
    intro q j rs he
    cases he
    refine ⟨fun g hx => ?_, nofun⟩
    cases hx
    rcases (tame_none.opt _ _ _ hg).2 with ⟨a, b⟩ | ⟨a, b, _⟩ | ⟨a, b⟩ <;> rcases ho with ⟨c, d⟩ | ⟨c, d⟩ | ⟨c, d⟩ <;>
      first
      | (rw [a] at c; cases c; done)
      | exact ⟨_, rfl, by rw [d, b]; rfl⟩
  | optNode hg =>
    intro q j rs he
    cases he
    refine ⟨fun g hx => ?_, nofun⟩
    cases hx
    rcases (tame_none.opt _ _ _ hg).2 with ⟨a, b⟩ | ⟨a, _⟩ | ⟨a, _⟩
    · exact ⟨_, rfl, b.symm⟩
    · cases a
    · cases a
  | optUp hg =>
    intro q j rs he
    cases he
    refine ⟨fun g hx => ?_, nofun⟩
    cases hx
    rcases (tame_none.opt _ _ _ hg).2 with ⟨a, _⟩ | ⟨_, b, _⟩ | ⟨a, _⟩
    · cases a
    · exact ⟨_, rfl, b.symm⟩
    · cases a
  | optBlank hg =>
    intro q j rs he
    cases he
    refine ⟨fun g hx => ?_, nofun⟩
    cases hx
    rcases (tame_none.opt _ _ _ hg).2 with ⟨a, _⟩ | ⟨a, _⟩ | ⟨_, b⟩
    · cases a
    · cases a
    · exact ⟨_, rfl, b.symm⟩
  | delimited hg =>
    intro q j rs he
    cases he
    refine ⟨fun g hx => ?_, nofun⟩
    cases hx
    exact ⟨_, rfl, (tame_none.plus _ _ _ _ _ hg).1.symm⟩
  | _ => intro q j rs he; first | (cases he; done) | exact ⟨nofun, nofun⟩

theorem node_of {g : MGoal} (hy : metaYields g = true) (h : Parses (metaEnv rx) hi (.goal g) p i (some (q, j, rs))) :
    ∃ c, rs = [some c] := by
  obtain ⟨r, e1, e2⟩ := (meta_one h q j rs rfl).1 g rfl
  rw [hy] at e2
  cases r with
  | none => cases e2
  | some c => exact ⟨c, e1⟩

theorem blank_of {g : MGoal} (hy : metaYields g = false) (h : Parses (metaEnv rx) hi (.goal g) p i (some (q, j, rs))) :
    rs = [none] := by
  obtain ⟨r, e1, e2⟩ := (meta_one h q j rs rfl).1 g rfl
  rw [hy] at e2
  cases r with
  | none => exact e1
  | some c => cases e2

theorem colons_shape (h : Parses (metaEnv rx) hi (.goal COLONS) p i (some (q, j, rs))) :
    ∃ cs ce, rs = [some (.mk cs ce (.goal COLONS) [])] := by
  rcases term_inv (rk := .node) rfl h with ⟨_, e4⟩ | ⟨e4, _⟩
  · exact ⟨_, _, e4⟩
  · cases e4

theorem oneline_shape (h : Parses (metaEnv rx) hi (.goal ONELINE_PRODUCTION) p i (some (q, j, rs))) :
    ∃ c, rs = [c] ∧ IsProduction c ∧ ∃ s e kids, c = some (.mk s e (.goal ONELINE_PRODUCTION) kids) := by
  obtain ⟨rs', h1, h2⟩ := seq_inv (rk := .node) (args := [GNT, pat [' '], COLONS, pat [' '], ONELINE_R]) rfl h
  obtain ⟨p1, i1, r1, rs1, k1, h1, e1⟩ := row_inv h1
  obtain ⟨p2, i2, r2, rs2, k2, h1, e2⟩ := row_inv h1
  obtain ⟨p3, i3, r3, rs3, k3, h1, e3⟩ := row_inv h1
  obtain ⟨p4, i4, r4, rs4, k4, h1, e4⟩ := row_inv h1
  obtain ⟨p5, i5, r5, rs5, k5, h1, e5⟩ := row_inv h1
  have e6 := row_nil_inv h1
  obtain ⟨gs, ge, nt, ps, pe, pk, pkids, f1, hk⟩ := gnt_shape k1
  have f2 := blank_of rfl k2
  obtain ⟨cs, ce, f3⟩ := colons_shape k3
  have f4 := blank_of rfl k4
  obtain ⟨r, f5⟩ := node_of rfl k5
  subst e6 f1 f2 f3 f4 f5 e5 e4 e3 e2 e1
  rcases h2 with ⟨_, h2⟩ | ⟨h2, _⟩
  · exact ⟨_, h2, ⟨_, _, _, _, _, _, _, _, _, _, _, _, _, rfl, Or.inr rfl, hk⟩, _, _, _, rfl⟩
  · cases h2

theorem multiline_shape (h : Parses (metaEnv rx) hi (.goal MULTILINE_PRODUCTION) p i (some (q, j, rs))) :
    ∃ c, rs = [c] ∧ IsProduction c := by
  obtain ⟨rs', h1, h2⟩ := seq_inv (rk := .node)
    (args := [OPTIONAL_COMMENT_LINE, NLAI, GNT, pat [' '], COLONS, MULTILINE_R]) rfl h
  obtain ⟨p1, i1, r1, rs1, k1, h1, e1⟩ := row_inv h1
  obtain ⟨p2, i2, r2, rs2, k2, h1, e2⟩ := row_inv h1
  obtain ⟨p3, i3, r3, rs3, k3, h1, e3⟩ := row_inv h1
  obtain ⟨p4, i4, r4, rs4, k4, h1, e4⟩ := row_inv h1
  obtain ⟨p5, i5, r5, rs5, k5, h1, e5⟩ := row_inv h1
  obtain ⟨p6, i6, r6, rs6, k6, h1, e6⟩ := row_inv h1
  have e7 := row_nil_inv h1
  have f1 := blank_of rfl k1
  have f2 := blank_of rfl k2
  obtain ⟨gs, ge, nt, ps, pe, pk, pkids, f3, hk⟩ := gnt_shape k3
  have f4 := blank_of rfl k4
  obtain ⟨cs, ce, f5⟩ := colons_shape k5
  obtain ⟨r, f6⟩ := node_of rfl k6
  subst e7 f1 f2 f3 f4 f5 f6 e6 e5 e4 e3 e2 e1
  rcases h2 with ⟨_, h2⟩ | ⟨h2, _⟩
  · exact ⟨_, h2, ⟨_, _, _, _, _, _, _, _, _, _, _, _, _, rfl, Or.inl rfl, hk⟩⟩
  · cases h2

theorem block_shape (h : Parses (metaEnv rx) hi (.goal BLOCK_PRODUCTION) p i (some (q, j, rs))) :
    ∃ c, rs = [c] ∧ IsProduction c := by
  obtain ⟨a, ha, h'⟩ := choice_inv (alt_inv (rk := .up) (args := [MULTILINE_PRODUCTION, U_ONELINE_PRODUCTION]) rfl h)
  simp only [List.mem_cons, List.not_mem_nil, or_false] at ha
  rcases ha with rfl | rfl
  · exact multiline_shape h'
  · obtain ⟨rs', h1, h2⟩ := seq_inv (rk := .up) (args := [NLAI, ONELINE_PRODUCTION]) rfl h'
    obtain ⟨p1, i1, r1, rs1, k1, h1, e1⟩ := row_inv h1
    obtain ⟨p2, i2, r2, rs2, k2, h1, e2⟩ := row_inv h1
    have e3 := row_nil_inv h1
    have f1 := blank_of rfl k1
    obtain ⟨c, f2, hc, _⟩ := oneline_shape k2
    subst e3 f1 f2 e2 e1
    rcases h2 with ⟨h2, _⟩ | ⟨_, c', h3, h4⟩
    · cases h2
    · refine ⟨_, h4, ?_⟩
      obtain ⟨s, e, k, gs, ge, nt, ps, pe, pk, pkids, cs, ce, r, hc, hc'⟩ := hc
      subst hc
      injection h3 with h3
      subst h3
      exact ⟨s, e, k, gs, ge, nt, ps, pe, pk, pkids, cs, ce, r, rfl, hc'⟩

theorem content1_shape (h : Parses (metaEnv rx) hi (.goal EMU_GRAMMAR_CONTENT_1) p i (some (q, j, rs))) :
    ∃ s e kids, rs = [some (.mk s e (.goal ONELINE_PRODUCTION) kids)] ∧
      IsProduction (some (.mk s e (.goal ONELINE_PRODUCTION) kids)) := by
  obtain ⟨rs', h1, h2⟩ := seq_inv (rk := .up) (args := [ONELINE_PRODUCTION, EOI]) rfl h
  obtain ⟨p1, i1, r1, rs1, k1, h1, e1⟩ := row_inv h1
  obtain ⟨p2, i2, r2, rs2, k2, h1, e2⟩ := row_inv h1
  have e3 := row_nil_inv h1
  have f2 := blank_of rfl k2
  obtain ⟨c, f1, hc, s, e, kids, hk⟩ := oneline_shape k1
  subst e3 f1 f2 e2 e1 hk
  rcases h2 with ⟨h2, _⟩ | ⟨_, c', h3, h4⟩
  · cases h2
  · injection h3 with h3
    subst h3
    exact ⟨s, e, kids, h4, hc⟩

theorem content2_shape (h : Parses (metaEnv rx) hi (.goal EMU_GRAMMAR_CONTENT_2) p i (some (q, j, rs))) :
    ∃ s e kids, rs = [some (.mk s e (.goal BLOCK_PRODUCTIONS) kids)] ∧ ∀ c ∈ kids, IsProduction c := by
  obtain ⟨rs', h1, h2⟩ := seq_inv (rk := .up) (args := [INDENT, BLOCK_PRODUCTIONS, OUTDENT, NLAI, EOI]) rfl h
  obtain ⟨p1, i1, r1, rs1, k1, h1, e1⟩ := row_inv h1
  obtain ⟨p2, i2, r2, rs2, k2, h1, e2⟩ := row_inv h1
  obtain ⟨p3, i3, r3, rs3, k3, h1, e3⟩ := row_inv h1
  obtain ⟨p4, i4, r4, rs4, k4, h1, e4⟩ := row_inv h1
  obtain ⟨p5, i5, r5, rs5, k5, h1, e5⟩ := row_inv h1
  have e6 := row_nil_inv h1
  have f1 := blank_of rfl k1
  have f3 := blank_of rfl k3
  have f4 := blank_of rfl k4
  have f5 := blank_of rfl k5
  obtain ⟨_, _, _, _, es, hl, f2⟩ := plus_inv (g := BLOCK_PRODUCTIONS) rfl k2
  have hall := list_all (P := IsProduction) (e := BLOCK_PRODUCTION) (s := pat ['\\', 'n']) (by
    intro p i q j rs hb c hc
    obtain ⟨c', e, hp⟩ := block_shape hb
    subst e
    rw [List.mem_singleton] at hc
    rw [hc]; exact hp) hl (Or.inl rfl) _ _ _ rfl
  subst e6 f1 f2 f3 f4 f5 e5 e4 e3 e2 e1
  rcases h2 with ⟨h2, _⟩ | ⟨_, c', h3, h4⟩
  · cases h2
  · injection h3 with h3
    subst h3
    exact ⟨_, _, es, h4, hall⟩

/-- At the end of the input there is nothing left. -/
theorem eoi_end {p q q' : Nat} {i j j' : Int} {rs rs' : List (Option (GNode MGoal))}
    (hrow : Parses (metaEnv rx) hi (.row []) q j (some (q', j', rs')))
    (h : Parses (metaEnv rx) hi (.goal EOI) p i (some (q, j, rs))) : hi ≤ q' := by
  cases hrow
  cases h with
  | matched h1 _ _ hl _ => exact hl.2
  | choose h1 => cases h1
  | seqNode h1 => cases h1
  | seqUp h1 => cases h1
  | omitted h1 => cases h1
  | optNode h1 => cases h1
  | optUp h1 => cases h1
  | optBlank h1 => cases h1
  | delimited h1 => cases h1

/-! ## Odd lines -/

theorem takeWhile_spec {ok : Char → Bool} : ∀ (s : List Char),
    (∀ (k : Nat), k < (s.takeWhile ok).length → ∃ c, s[k]? = some c ∧ ok c = true) ∧
    ∀ c, s[(s.takeWhile ok).length]? = some c → ok c = false
  | [] => ⟨fun k h => by simp at h, fun c h => by simp at h⟩
  | a :: s => by
    obtain ⟨h1, h2⟩ := takeWhile_spec (ok := ok) s
    by_cases ha : ok a = true
    · rw [List.takeWhile_cons_of_pos ha]
      refine ⟨fun k hk => ?_, fun c hc => ?_⟩
      · cases k with
        | zero => exact ⟨a, rfl, ha⟩
        | succ k =>
          rw [List.getElem?_cons_succ]
          exact h1 k (by rw [List.length_cons] at hk; omega)
      · rw [List.length_cons, List.getElem?_cons_succ] at hc
        exact h2 c hc
    · rw [List.takeWhile_cons_of_neg ha]
      refine ⟨fun k hk => by simp at hk, fun c hc => ?_⟩
      simp at hc
      subst hc
      simpa using ha

theorem oddLine_text {isWord : Char → Bool} {text : List Char} {lo : Nat}
    (h : OddLine (metaEnv (matchText isWord text)) lo) : OddIndentation text lo := by
  obtain ⟨g, p, e, hp, hx, hne⟩ := h
  have hg : g = NLAI ∧ ((e : Int) - p - 1) % 2 ≠ 0 := by
    by_cases h1 : (metaEnv (matchText isWord text)).role g = .nlai
    · refine ⟨?_, fun h2 => hne fun _ => h2⟩
      cases g <;> first | rfl | cases h1
    · exact absurd (fun h2 => absurd h2 h1) hne
  obtain ⟨rfl, hodd⟩ := hg
  obtain ⟨n, hn, rfl⟩ := matchText_some hx
  rw [metaPattern, Pat.plus, Pat.size, Pat.size] at hn
  split at hn
  · cases hn
  · next k hk =>
    split at hk
    · next hpre =>
      injection hk with hk
      subst hk
      cases hd : text.drop p with
      | nil => rw [hd] at hpre; cases hpre
      | cons c rest =>
        rw [hd] at hpre hn
        have hc : c = '\n' := by
          simp [List.isPrefixOf] at hpre
          exact hpre.symm
        subst hc
        simp only [List.length_singleton, List.drop_succ_cons, List.drop_zero] at hn
        rw [Pat.size] at hn
        split at hn
        · cases hn
        · next m hm =>
          injection hn with hn
          have hat : ∀ (k : Nat), text[p + k]? = ('\n' :: rest)[k]? := by
            intro k; rw [← hd, List.getElem?_drop]
          split at hm
          · cases hm
          · next m1 hm1 =>
            cases rest with
            | nil => cases hm1
            | cons b rest' =>
              rw [Pat.size] at hm1
              split at hm1
              · next hb =>
                injection hm1 with hm1
                subst hm1
                rw [Pat.size] at hm
                injection hm with hm
                obtain ⟨t1, t2⟩ := takeWhile_spec (ok := (· == ' ')) rest'
                have hb' : b = ' ' := by simpa using hb
                refine ⟨p, 1 + (rest'.takeWhile (· == ' ')).length, hp, ?_, ?_, ?_, ?_⟩
                · simp at hm; omega
                · rw [← Nat.add_zero p, hat]; rfl
                · intro j hj
                  rw [Nat.add_assoc, hat, Nat.add_comm 1 j, List.getElem?_cons_succ]
                  cases j with
                  | zero => rw [hb']; rfl
                  | succ j =>
                    obtain ⟨c, e1, e2⟩ := t1 j (by omega)
                    rw [List.getElem?_cons_succ, e1]
                    simp at e2
                    rw [e2]
                · intro hsp
                  rw [Nat.add_assoc, hat, Nat.add_comm 1, List.getElem?_cons_succ, Nat.add_comm 1,
                    List.getElem?_cons_succ] at hsp
                  have := t2 ' ' hsp
                  simp at this
              · cases hm1
    · cases hk

end Verif.Gram
