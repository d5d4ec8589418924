import Verif.Gram.PegComplete
/-! # Trees fit their texts, and tame grammars have an answer for every text -/
namespace Verif.Gram
variable {N : Type} {W : PegEnv N} {hi : Nat}

theorem Fits.le {a b : Nat} {rs : List (Option (GNode N))} (h : Fits a b rs) : a ≤ b := by
  induction h with
  | nil h => exact h
  | absent _ ih => exact ih
  | node h1 _ _ ih1 ih2 => omega

theorem Fits.lower {a a' b : Nat} {rs : List (Option (GNode N))} (h : Fits a b rs) (ha : a' ≤ a) : Fits a' b rs := by
  induction h with
  | nil h => exact .nil (by omega)
  | absent _ ih => exact .absent (ih ha)
  | node h1 h2 h3 _ _ => exact .node (by omega) h2 h3

theorem Fits.append {a b c : Nat} {rs rs' : List (Option (GNode N))} (h : Fits a b rs) (h' : Fits b c rs') :
    Fits a c (rs ++ rs') := by
  induction h with
  | nil h => exact h'.lower h
  | absent _ ih => exact .absent (ih h')
  | node h1 h2 _ _ ih => exact .node h1 h2 (ih h')

theorem Fits.extend {a b c : Nat} {rs : List (Option (GNode N))} (h : Fits a b rs) (h' : b ≤ c) : Fits a c rs := by
  have := h.append (.nil h')
  rwa [List.append_nil] at this

theorem Fits.present {a b : Nat} {rs : List (Option (GNode N))} (h : Fits a b rs) :
    Fits a b ((present rs).map some) := by
  induction h with
  | nil h => exact .nil h
  | absent _ ih => exact ih
  | node h1 h2 _ _ ih => exact .node h1 h2 ih

theorem Fits.one {a b : Nat} {rs : List (Option (GNode N))} (h : Fits a b rs) : Fits a b [some (.mk a b k rs)] :=
  .node (Nat.le_refl _) h (.nil (Nat.le_refl _))

/-- Results lie within the text that was matched. -/
theorem parses_fits (hx : ∀ g p e, W.rx g p = some e → p ≤ e) {x : Expr N} {p : Nat} {i : Int} {out : Found N}
    (h : Parses W hi x p i out) : ∀ q j rs, out = some (q, j, rs) → Fits p q rs := by
  induction h with
  | unmatched => intro _ _ _ e; cases e
  | misplaced => intro _ _ _ e; cases e
  | @matched g rk p i e i' r hg hr _ _ ho =>
    intro q j rs he
    injection he with he; injection he with e1 e2; injection e2 with e2 e3
    subst e1 e3
    have := hx _ _ _ hr
    rcases ho with ⟨_, rfl⟩ | ⟨_, rfl⟩
    · exact Fits.one (.nil this)
    · exact .absent (.nil this)
  | choose _ _ ih => exact ih
  | exhausted => intro _ _ _ e; cases e
  | noChoice => intro _ _ _ e; cases e
  | first _ ih => exact ih
  | next _ _ _ ih => exact ih
  | endRow =>
    intro q j rs he
    injection he with he; injection he with e1 e2; injection e2 with e2 e3
    subst e1 e3
    exact .nil (Nat.le_refl _)
  | cutRow => intro _ _ _ e; cases e
  | breakRow => intro _ _ _ e; cases e
  | growRow _ _ ih1 ih2 =>
    intro q j rs he
    injection he with he; injection he with e1 e2; injection e2 with e2 e3
    subst e1 e3
    exact (ih1 _ _ _ rfl).append (ih2 _ _ _ rfl)
  | seqFails => intro _ _ _ e; cases e
  | seqNode _ _ ih =>
    intro q j rs he
    injection he with he; injection he with e1 e2; injection e2 with e2 e3
    subst e1 e3
    exact (ih _ _ _ rfl).present.one
  | seqUp _ _ hc ih =>
    intro q j rs he
    injection he with he; injection he with e1 e2; injection e2 with e2 e3
    subst e1 e3
    have := (ih _ _ _ rfl).present
    rwa [hc] at this
  | omitted _ _ ho =>
    intro q j rs he
    injection he with he; injection he with e1 e2; injection e2 with e2 e3
    subst e1 e3
    rcases ho with ⟨_, rfl⟩ | ⟨_, rfl⟩ | ⟨_, rfl⟩
    · exact Fits.one (.nil (Nat.le_refl _))
    · exact Fits.one (.nil (Nat.le_refl _))
    · exact .absent (.nil (Nat.le_refl _))
  | optNode _ _ ih =>
    intro q j rs he
    injection he with he; injection he with e1 e2; injection e2 with e2 e3
    subst e1 e3
    exact (ih _ _ _ rfl).present.one
  | optUp _ _ hc ih =>
    intro q j rs he
    injection he with he; injection he with e1 e2; injection e2 with e2 e3
    subst e1 e3
    have := (ih _ _ _ rfl).present
    rwa [hc] at this
  | optBlank _ _ ih =>
    intro q j rs he
    injection he with he; injection he with e1 e2; injection e2 with e2 e3
    subst e1 e3
    exact .absent (.nil (ih _ _ _ rfl).le)
  | notOne => intro _ _ _ e; cases e
  | elements _ _ ih1 ih2 =>
    intro q j rs he
    injection he with he; injection he with e1 e2; injection e2 with e2 e3
    subst e1 e3
    exact (ih1 _ _ _ rfl).append (ih2 _ _ _ rfl)
  | noSeparator =>
    intro q j rs he
    injection he with he; injection he with e1 e2; injection e2 with e2 e3
    subst e1 e3
    exact .nil (Nat.le_refl _)
  | loneSeparator =>
    intro q j rs he
    injection he with he; injection he with e1 e2; injection e2 with e2 e3
    subst e1 e3
    exact .nil (Nat.le_refl _)
  | another _ _ _ ih1 ih2 ih3 =>
    intro q j rs he
    injection he with he; injection he with e1 e2; injection e2 with e2 e3
    subst e1 e3
    exact ((ih2 _ _ _ rfl).append (ih3 _ _ _ rfl)).lower (ih1 _ _ _ rfl).le
  | noDelim =>
    intro q j rs he
    injection he with he; injection he with e1 e2; injection e2 with e2 e3
    subst e1 e3
    exact .nil (Nat.le_refl _)
  | delim _ ih => exact ih
  | noLeft => intro _ _ _ e; cases e
  | noList => intro _ _ _ e; cases e
  | noRight => intro _ _ _ e; cases e
  | delimited _ _ _ _ ih1 ih2 ih3 =>
    intro q j rs he
    injection he with he; injection he with e1 e2; injection e2 with e2 e3
    subst e1 e3
    exact (((ih2 _ _ _ rfl).lower (ih1 _ _ _ rfl).le).extend (ih3 _ _ _ rfl).le).one

section Total
variable {rank : N → Nat} {consumes yields : N → Bool} {len : Nat}

/-- What is known of an answer for a goal. -/
structure Answer (W : PegEnv N) (hi : Nat) (consumes yields : N → Bool) (len : Nat) (g : N) (p : Nat) (i : Int)
    (out : Found N) : Prop where
  parses : Parses W hi (.goal g) p i out
  found : ∀ q j rs, out = some (q, j, rs) → p ≤ q ∧ q ≤ len ∧ (consumes g = true → p < q) ∧
    ∃ r, rs = [r] ∧ r.isSome = yields g

/-- Answers for all goals of some list, from any place. -/
def Answers (W : PegEnv N) (hi : Nat) (consumes yields : N → Bool) (len : Nat) (gs : List N) : Prop :=
  ∀ g ∈ gs, ∀ p i, p ≤ len → ∃ out, Answer W hi consumes yields len g p i out

theorem choice_total : ∀ (gs : List N), Answers W hi consumes yields len gs → ∀ p i, p ≤ len →
    Parses W hi (.choice gs) p i none ∨
    ∃ g ∈ gs, ∃ q j rs, Parses W hi (.choice gs) p i (some (q, j, rs)) ∧
      Answer W hi consumes yields len g p i (some (q, j, rs))
  | [], _, _, _, _ => Or.inl .noChoice
  | g :: gs, h, p, i, hp => by
    obtain ⟨out, ha⟩ := h g (List.mem_cons_self ..) p i hp
    cases out with
    | some x =>
      obtain ⟨q, j, rs⟩ := x
      exact Or.inr ⟨g, List.mem_cons_self .., q, j, rs, .first ha.parses, ha⟩
    | none =>
      rcases choice_total gs (fun a hm => h a (List.mem_cons_of_mem _ hm)) p i hp with h1 | ⟨g', hm, q, j, rs, h1, h2⟩
      · exact Or.inl (.next ha.parses h1)
      · exact Or.inr ⟨g', List.mem_cons_of_mem _ hm, q, j, rs, .next ha.parses h1, h2⟩

theorem row_total : ∀ (gs : List N), Answers W hi consumes yields len gs → ∀ p i, p ≤ len →
    Parses W hi (.row gs) p i none ∨
    ∃ q j rs, Parses W hi (.row gs) p i (some (q, j, rs)) ∧ p ≤ q ∧ q ≤ len ∧
      ((∃ g ∈ gs, consumes g = true) → p < q) ∧ (present rs).length = (gs.filter yields).length
  | [], _, p, i, hp => Or.inr ⟨p, i, [], .endRow, Nat.le_refl _, hp, by simp, rfl⟩
  | g :: gs, h, p, i, hp => by
    obtain ⟨out, ha⟩ := h g (List.mem_cons_self ..) p i hp
    cases out with
    | none => exact Or.inl (.cutRow ha.parses)
    | some x =>
      obtain ⟨q, j, rs⟩ := x
      obtain ⟨h1, h2, h3, r, h4, h5⟩ := ha.found q j rs rfl
      subst h4
      rcases row_total gs (fun a hm => h a (List.mem_cons_of_mem _ hm)) q j h2 with
        k1 | ⟨q', j', rs', k1, k2, k3, k4, k5⟩
      · exact Or.inl (.breakRow ha.parses k1)
      · refine Or.inr ⟨q', j', [r] ++ rs', .growRow ha.parses k1, by omega, k3, ?_, ?_⟩
        · rintro ⟨a, hm, hc⟩
          rcases List.mem_cons.mp hm with e | hm
          · subst e; have := h3 hc; omega
          · have := k4 ⟨a, hm, hc⟩; omega
        · rw [List.singleton_append, present_keep]
          cases r with
          | none =>
            rw [List.filter_cons_of_neg (by rw [← h5]; simp)]
            exact k5
          | some c =>
            rw [List.filter_cons_of_pos (by rw [← h5]; rfl)]
            simp [keep, k5]

theorem rest_total {e s : N} (he : consumes e = true) (h : Answers W hi consumes yields len [e, s]) :
    ∀ (k p : Nat) (i : Int), p ≤ len → len - p ≤ k →
      ∃ q j rs, Parses W hi (.rest e s) p i (some (q, j, rs)) ∧ p ≤ q ∧ q ≤ len
  | 0, p, i, hp, hk => by
    obtain ⟨out, ha⟩ := h s (by simp) p i hp
    cases out with
    | none => exact ⟨p, i, [], .noSeparator ha.parses, Nat.le_refl _, hp⟩
    | some x =>
      obtain ⟨q, j, rs⟩ := x
      obtain ⟨h1, h2, _⟩ := ha.found q j rs rfl
      obtain ⟨out', ha'⟩ := h e (by simp) q j h2
      cases out' with
      | none => exact ⟨p, i, [], .loneSeparator ha.parses ha'.parses, Nat.le_refl _, hp⟩
      | some x' =>
        obtain ⟨q', j', rs'⟩ := x'
        obtain ⟨h3, h4, h5, _⟩ := ha'.found q' j' rs' rfl
        have := h5 he
        omega
  | k + 1, p, i, hp, hk => by
    obtain ⟨out, ha⟩ := h s (by simp) p i hp
    cases out with
    | none => exact ⟨p, i, [], .noSeparator ha.parses, Nat.le_refl _, hp⟩
    | some x =>
      obtain ⟨q, j, rs⟩ := x
      obtain ⟨h1, h2, _⟩ := ha.found q j rs rfl
      obtain ⟨out', ha'⟩ := h e (by simp) q j h2
      cases out' with
      | none => exact ⟨p, i, [], .loneSeparator ha.parses ha'.parses, Nat.le_refl _, hp⟩
      | some x' =>
        obtain ⟨q', j', rs'⟩ := x'
        obtain ⟨h3, h4, h5, _⟩ := ha'.found q' j' rs' rfl
        have := h5 he
        obtain ⟨q'', j'', rs'', k1, k2, k3⟩ := rest_total he h k q' j' h4 (by omega)
        exact ⟨q'', j'', rs' ++ rs'', .another ha.parses ha'.parses k1, by omega, k3⟩

theorem list_total {e s : N} (he : consumes e = true) (h : Answers W hi consumes yields len [e, s])
    (p : Nat) (i : Int) (hp : p ≤ len) :
    Parses W hi (.list e s) p i none ∨
    ∃ q j rs, Parses W hi (.list e s) p i (some (q, j, rs)) ∧ p < q ∧ q ≤ len := by
  obtain ⟨out, ha⟩ := h e (by simp) p i hp
  cases out with
  | none => exact Or.inl (.notOne ha.parses)
  | some x =>
    obtain ⟨q, j, rs⟩ := x
    obtain ⟨h1, h2, h3, _⟩ := ha.found q j rs rfl
    have := h3 he
    obtain ⟨q', j', rs', k1, k2, k3⟩ := rest_total he h (len - q) q j h2 (by omega)
    exact Or.inr ⟨q', j', rs ++ rs', .elements ha.parses k1, by omega, k3⟩

theorem maybe_total {d : Option N} (h : Answers W hi consumes yields len d.toList) (p : Nat) (i : Int) (hp : p ≤ len) :
    Parses W hi (.maybe d) p i none ∨
    ∃ q j rs, Parses W hi (.maybe d) p i (some (q, j, rs)) ∧ p ≤ q ∧ q ≤ len := by
  cases d with
  | none => exact Or.inr ⟨p, i, [], .noDelim, Nat.le_refl _, hp⟩
  | some g =>
    obtain ⟨out, ha⟩ := h g (by simp) p i hp
    cases out with
    | none => exact Or.inl (.delim ha.parses)
    | some x =>
      obtain ⟨q, j, rs⟩ := x
      obtain ⟨h1, h2, _⟩ := ha.found q j rs rfl
      exact Or.inr ⟨q, j, rs, .delim ha.parses, h1, h2⟩

theorem length_one {l : List (GNode N)} (h : l.length = 1) : ∃ c, l = [c] := by
  cases l with
  | nil => cases h
  | cons a as =>
    cases as with
    | nil => exact ⟨a, rfl⟩
    | cons b bs => simp at h

/-- A tame grammar has an answer for every goal at every place. -/
theorem tame_total (hT : Tame W rank consumes yields len)
    (hE : ∀ g p e, W.rx g p = some e → EvenLine (W.role g) p e) : ∀ (k : Nat) (g : N), rank g < k →
    (ruleOf W g).isSome = true → ∀ p i, p ≤ len → ∃ out, Answer W hi consumes yields len g p i out
  | 0, _, h, _, _, _, _ => absurd h (Nat.not_lt_zero _)
  | k + 1, g, hk, hg', p, i, hp => by
    obtain ⟨rule, hg⟩ := Option.isSome_iff_exists.mp hg'
    have hans : ∀ (gs : List N), (∀ a ∈ gs, rank a < rank g ∧ (ruleOf W a).isSome = true) →
        Answers W hi consumes yields len gs := by
      intro gs h a ha p i hp
      exact tame_total hT hE k a (by have := (h a ha).1; omega) (h a ha).2 p i hp
    have hknown := hT.known g rule hg
    cases rule with
    | term rk =>
      obtain ⟨t1, t2⟩ := hT.term g rk hg
      cases hx : W.rx g p with
      | none => exact ⟨none, .unmatched hg hx, by intro _ _ _ e; cases e⟩
      | some e =>
        have hev := hE g p e hx
        obtain ⟨hle, hlen⟩ := hT.inside g p e hp hx
        by_cases hl : ∃ i', Layout (W.role g) p e hi i i'
        · obtain ⟨i', hl⟩ := hl
          have fin : ∀ r, ((rk = .node ∧ r = some (GNode.mk p e (.goal g) [])) ∨ (rk = .blank ∧ r = none)) →
              r.isSome = yields g → ∃ out, Answer W hi consumes yields len g p i out := by
            intro r hr hy
            refine ⟨some (e, i', [r]), .matched hg hx hev hl hr, ?_⟩
            intro q j rs he
            injection he with he; injection he with e1 e2; injection e2 with e2 e3
            subst e1 e3
            exact ⟨hle, hlen, fun hc => t2 hc p e hx, r, rfl, hy⟩
          rcases t1 with ⟨t1, t3⟩ | ⟨t1, t3⟩
          · exact fin _ (Or.inl ⟨t1, rfl⟩) (by rw [t3]; rfl)
          · exact fin _ (Or.inr ⟨t1, rfl⟩) (by rw [t3]; rfl)
        · exact ⟨none, .misplaced hg hx hev (fun i' h => hl ⟨i', h⟩), by intro _ _ _ e; cases e⟩
    | alt rk args =>
      obtain ⟨t1, t2, t3⟩ := hT.alt g rk args hg
      subst t1
      rcases choice_total args (hans args hknown) p i hp with h1 | ⟨a, ha, q, j, rs, h1, h2⟩
      · exact ⟨none, .choose hg h1, by intro _ _ _ e; cases e⟩
      · refine ⟨some (q, j, rs), .choose hg h1, ?_⟩
        intro q' j' rs' he
        obtain ⟨k1, k2, k3, r, k4, k5⟩ := h2.found q' j' rs' he
        exact ⟨k1, k2, fun hc => k3 (t3 hc a ha), r, k4, by rw [k5, t2 a ha]⟩
    | seq rk args =>
      obtain ⟨t1, t2, t3⟩ := hT.seq g rk args hg
      rcases row_total args (hans args hknown) p i hp with h1 | ⟨q, j, rs, h1, h2, h3, h4, h5⟩
      · exact ⟨none, .seqFails hg h1, by intro _ _ _ e; cases e⟩
      · have fin : ∀ c, Parses W hi (.goal g) p i (some (q, j, [some c])) →
            ∃ out, Answer W hi consumes yields len g p i out := by
          intro c hc
          refine ⟨_, hc, ?_⟩
          intro q' j' rs' he
          injection he with he; injection he with e1 e2; injection e2 with e2 e3
          subst e1 e3
          exact ⟨h2, h3, fun hc => h4 (t3 hc), _, rfl, by rw [t1]; rfl⟩
        rcases t2 with t2 | ⟨t2, t4⟩
        · subst t2; exact fin _ (.seqNode hg h1)
        · subst t2
          obtain ⟨c, hc⟩ := length_one (h5.trans t4)
          exact fin _ (.seqUp hg h1 hc)
    | opt rk args =>
      obtain ⟨t1, t2⟩ := hT.opt g rk args hg
      have fin : ∀ q j r, Parses W hi (.goal g) p i (some (q, j, [r])) → p ≤ q → q ≤ len → r.isSome = yields g →
          ∃ out, Answer W hi consumes yields len g p i out := by
        intro q j r hc h1 h2 h3
        refine ⟨_, hc, ?_⟩
        intro q' j' rs' he
        injection he with he; injection he with e1 e2; injection e2 with e2 e3
        subst e1 e3
        exact ⟨h1, h2, fun hc => (by rw [t1] at hc; cases hc), _, rfl, h3⟩
      rcases row_total args (hans args hknown) p i hp with h1 | ⟨q, j, rs, h1, h2, h3, h4, h5⟩
      · rcases t2 with ⟨t2, t4⟩ | ⟨t2, t4, _⟩ | ⟨t2, t4⟩
        · exact fin p i _ (.omitted hg h1 (Or.inl ⟨t2, rfl⟩)) (Nat.le_refl _) hp (by rw [t4]; rfl)
        · exact fin p i _ (.omitted hg h1 (Or.inr (Or.inl ⟨t2, rfl⟩))) (Nat.le_refl _) hp (by rw [t4]; rfl)
        · exact fin p i _ (.omitted hg h1 (Or.inr (Or.inr ⟨t2, rfl⟩))) (Nat.le_refl _) hp (by rw [t4]; rfl)
      · rcases t2 with ⟨t2, t4⟩ | ⟨t2, t4, t5⟩ | ⟨t2, t4⟩
        · subst t2; exact fin q j _ (.optNode hg h1) h2 h3 (by rw [t4]; rfl)
        · subst t2
          obtain ⟨c, hc⟩ := length_one (h5.trans t5)
          exact fin q j _ (.optUp hg h1 hc) h2 h3 (by rw [t4]; rfl)
        · subst t2; exact fin q j _ (.optBlank hg h1) h2 h3 (by rw [t4]; rfl)
    | plus e s l r =>
      obtain ⟨t1, t2⟩ := hT.plus g e s l r hg
      have hl := hans l.toList (fun a ha => hknown a (by simp [List.mem_append.mpr (Or.inl ha)]))
      have hr := hans r.toList (fun a ha => hknown a (by simp [List.mem_append.mpr (Or.inr ha)]))
      have hes := hans [e, s] (fun a ha => hknown a (by
        rcases List.mem_cons.mp ha with x | x
        · rw [x]; exact List.mem_cons_self ..
        · rw [List.mem_singleton] at x; rw [x]; exact List.mem_cons_of_mem _ (List.mem_cons_self ..)))
      rcases maybe_total hl p i hp with h1 | ⟨q, j, x, h1, h2, h3⟩
      · exact ⟨none, .noLeft hg h1, by intro _ _ _ e; cases e⟩
      · rcases list_total t2 hes q j h3 with h4 | ⟨q', j', rs, h4, h5, h6⟩
        · exact ⟨none, .noList hg h1 h4, by intro _ _ _ e; cases e⟩
        · rcases maybe_total hr q' j' h6 with h7 | ⟨q'', j'', y, h7, h8, h9⟩
          · exact ⟨none, .noRight hg h1 h4 h7, by intro _ _ _ e; cases e⟩
          · refine ⟨_, .delimited hg h1 h4 h7, ?_⟩
            intro a b c he
            injection he with he; injection he with e1 e2; injection e2 with e2 e3
            subst e1 e3
            exact ⟨by omega, h9, fun _ => by omega, _, rfl, by rw [t1]; rfl⟩

end Total

/-! ## Odd lines -/

/-- The same parser, but where odd lines do not match. -/
def evened (W : PegEnv N) : PegEnv N :=
  { W with rx := fun g p => match W.rx g p with
    | none => none
    | some e => if W.role g = .nlai ∧ ((e : Int) - p - 1) % 2 ≠ 0 then none else some e }

theorem evened_rx {W : PegEnv N} {g : N} {p e : Nat} (h : (evened W).rx g p = some e) :
    W.rx g p = some e ∧ EvenLine (W.role g) p e := by
  unfold evened at h
  dsimp only at h
  split at h
  · cases h
  · next e' he =>
    split at h
    · cases h
    · next hn =>
      injection h with h; subst h
      refine ⟨he, fun hr => ?_⟩
      by_cases hz : ((e' : Int) - p - 1) % 2 = 0
      · exact hz
      · exact absurd ⟨hr, hz⟩ hn

/-- An odd line at `lo` or later. -/
def OddLine (W : PegEnv N) (lo : Nat) : Prop := ∃ g p e, lo ≤ p ∧ W.rx g p = some e ∧ ¬ EvenLine (W.role g) p e

/-- `Sim`: the first gives the same answer as the second, or crashes because of an odd line. -/
def Sim (W : PegEnv N) (lo : Nat) {α : Type} (x y : Except PegErr α) : Prop :=
  x = y ∨ x = .error .crash ∧ OddLine W lo

theorem Sim.rfl {lo : Nat} {α : Type} {x : Except PegErr α} : Sim W lo x x := Or.inl (by first | rfl | trivial)

section Sim
variable {lo : Nat} {rec rec' : N → Nat → Int → Except PegErr (Out N)}

/-- The hypotheses on the recursive calls. -/
def SimRec (W : PegEnv N) (lo : Nat) (rec rec' : N → Nat → Int → Except PegErr (Out N)) : Prop :=
  (∀ g p i, lo ≤ p → Sim W lo (rec g p i) (rec' g p i)) ∧
  ∀ g p i q j r, rec' g p i = .ok (some (q, j, r)) → p ≤ q

theorem sim_alts (h : SimRec W lo rec rec') (rk : RKind) {p : Nat} {i : Int} (hp : lo ≤ p) :
    ∀ (as : List N), Sim W lo (tryAlts rec rk p i as) (tryAlts rec' rk p i as)
  | [] => .rfl
  | a :: as => by
    rcases h.1 a p i hp with e | ⟨e, ho⟩
    · rw [tryAlts, tryAlts, e]
      split
      · exact .rfl
      · exact sim_alts h rk hp as
      · exact .rfl
    · right
      rw [tryAlts, e]
      exact ⟨by first | rfl | trivial, ho⟩

theorem sim_row (h : SimRec W lo rec rec') : ∀ (as : List N) (p : Nat) (i : Int), lo ≤ p →
    Sim W lo (tryRow rec as p i) (tryRow rec' as p i) ∧
    ∀ q j cs, tryRow rec' as p i = .ok (.done q j cs) → p ≤ q
  | [], p, i, hp => ⟨.rfl, fun q j cs e => by
      rw [tryRow] at e
      injection e with e; injection e with e1; omega⟩
  | a :: as, p, i, hp => by
    have key : ∀ q j r, rec' a p i = .ok (some (q, j, r)) → lo ≤ q := fun q j r e => by
      have := h.2 a p i q j r e; omega
    refine ⟨?_, ?_⟩
    · rcases h.1 a p i hp with e | ⟨e, ho⟩
      · rw [tryRow, tryRow, e]
        cases hr : rec' a p i with
        | error x => exact .rfl
        | ok o =>
          cases o with
          | none => exact .rfl
          | some t =>
            obtain ⟨q, j, r⟩ := t
            dsimp only
            rcases (sim_row h as q j (key q j r hr)).1 with e' | ⟨e', ho⟩
            · rw [e']; exact .rfl
            · rw [e']; exact Or.inr ⟨by first | rfl | trivial, ho⟩
      · right
        rw [tryRow, e]
        exact ⟨by first | rfl | trivial, ho⟩
    · intro q' j' cs e
      rw [tryRow] at e
      cases hr : rec' a p i with
      | error x => rw [hr] at e; cases e
      | ok o =>
        rw [hr] at e
        cases o with
        | none => cases e
        | some t =>
          obtain ⟨q, j, r⟩ := t
          dsimp only at e
          have h2 := (sim_row h as q j (key q j r hr)).2
          have h3 := h.2 a p i q j r hr
          split at e
          · cases e
          · cases e
          · next q'' j'' cs' hd =>
            injection e with e; injection e with e1 e2 e3
            have := h2 q'' j'' cs' hd
            omega

theorem sim_list (h : SimRec W lo rec rec') (element separator : N) :
    ∀ (m latest p : Nat) (i : Int) (es : List (Option (GNode N))), lo ≤ p → lo ≤ latest →
      Sim W lo (tryList rec element separator m latest p i es) (tryList rec' element separator m latest p i es) ∧
      ∀ q j cs, tryList rec' element separator m latest p i es = .ok (some (q, j, cs)) → lo ≤ q
  | 0, _, _, _, _, _, _ => ⟨.rfl, fun q j cs e => by rw [tryList] at e; cases e⟩
  | m + 1, latest, p, i, es, hp, hl => by
    have k1 : ∀ g p i q j r, lo ≤ p → rec' g p i = .ok (some (q, j, r)) → lo ≤ q := fun g p i q j r hp e => by
      have := h.2 g p i q j r e; omega
    refine ⟨?_, ?_⟩
    · rcases h.1 element p i hp with e | ⟨e, ho⟩
      · rw [tryList.eq_def rec, tryList.eq_def rec']
        dsimp only
        rw [e]
        cases hr : rec' element p i with
        | error x => exact .rfl
        | ok o =>
          cases o with
          | none => exact .rfl
          | some t =>
            obtain ⟨q, j, r⟩ := t
            dsimp only
            have hq := k1 _ _ _ _ _ _ hp hr
            rcases h.1 separator q j hq with e' | ⟨e', ho⟩
            · rw [e']
              cases hr' : rec' separator q j with
              | error x => exact .rfl
              | ok o' =>
                cases o' with
                | none => exact .rfl
                | some t' =>
                  obtain ⟨q', j', r'⟩ := t'
                  exact (sim_list h element separator m q q' j' _ (k1 _ _ _ _ _ _ hq hr') hq).1
            · rw [e']; exact Or.inr ⟨by first | rfl | trivial, ho⟩
      · right
        rw [tryList.eq_def]
        dsimp only
        rw [e]
        exact ⟨by first | rfl | trivial, ho⟩
    · intro q' j' cs e
      rw [tryList.eq_def] at e
      dsimp only at e
      cases hr : rec' element p i with
      | error x => rw [hr] at e; cases e
      | ok o =>
        rw [hr] at e
        cases o with
        | none =>
          dsimp only at e
          split at e
          · cases e
          · injection e with e; injection e with e; injection e with e1 e2
            omega
        | some t =>
          obtain ⟨q, j, r⟩ := t
          dsimp only at e
          have hq := k1 _ _ _ _ _ _ hp hr
          cases hr' : rec' separator q j with
          | error x => rw [hr'] at e; cases e
          | ok o' =>
            rw [hr'] at e
            cases o' with
            | none =>
              injection e with e; injection e with e; injection e with e1 e2
              omega
            | some t' =>
              obtain ⟨q'', j'', r'⟩ := t'
              exact (sim_list h element separator m q q'' j'' _ (k1 _ _ _ _ _ _ hq hr') hq).2 q' j' cs e

theorem sim_delim (h : SimRec W lo rec rec') (d : Option N) (p : Nat) (i : Int) (hp : lo ≤ p) :
    Sim W lo (tryDelim rec d p i) (tryDelim rec' d p i) ∧
    ∀ q j, tryDelim rec' d p i = .ok (some (q, j)) → lo ≤ q := by
  cases d with
  | none =>
    refine ⟨.rfl, fun q j e => ?_⟩
    rw [tryDelim] at e
    injection e with e; injection e with e; injection e with e1 e2; omega
  | some g =>
    refine ⟨?_, fun q j e => ?_⟩
    · rcases h.1 g p i hp with e | ⟨e, ho⟩
      · rw [tryDelim, tryDelim, e]; exact .rfl
      · right
        rw [tryDelim, e]
        exact ⟨by first | rfl | trivial, ho⟩
    · rw [tryDelim] at e
      cases hr : rec' g p i with
      | error x => rw [hr] at e; cases e
      | ok o =>
        rw [hr] at e
        cases o with
        | none => cases e
        | some t =>
          obtain ⟨q', j', r⟩ := t
          have := h.2 _ _ _ _ _ _ hr
          injection e with e; injection e with e; injection e with e1 e2; omega

theorem sim_plus (h : SimRec W lo rec rec') (m : Nat) (g e s : N) (l r : Option N) (p : Nat) (i : Int) (hp : lo ≤ p) :
    Sim W lo (tryPlus rec m g e s l r p i) (tryPlus rec' m g e s l r p i) := by
  rw [tryPlus, tryPlus]
  rcases (sim_delim h l p i hp).1 with e1 | ⟨e1, ho⟩
  · rw [e1]
    cases hd : tryDelim rec' l p i with
    | error x => exact .rfl
    | ok o =>
      cases o with
      | none => exact .rfl
      | some t =>
        obtain ⟨q, j⟩ := t
        dsimp only
        have hq := (sim_delim h l p i hp).2 q j hd
        rcases (sim_list h e s m q q j [] hq hq).1 with e2 | ⟨e2, ho⟩
        · rw [e2]
          cases hl : tryList rec' e s m q q j [] with
          | error x => exact .rfl
          | ok o' =>
            cases o' with
            | none => exact .rfl
            | some t' =>
              obtain ⟨q', j', es⟩ := t'
              dsimp only
              have hq' := (sim_list h e s m q q j [] hq hq).2 q' j' es hl
              rcases (sim_delim h r q' j' hq').1 with e3 | ⟨e3, ho⟩
              · rw [e3]; exact .rfl
              · rw [e3]; exact Or.inr ⟨by first | rfl | trivial, ho⟩
        · rw [e2]; exact Or.inr ⟨by first | rfl | trivial, ho⟩
  · rw [e1]; exact Or.inr ⟨by first | rfl | trivial, ho⟩

theorem sim_term (rk : RKind) (g : N) (p : Nat) (i : Int) (hp : lo ≤ p) :
    Sim W lo (tryTerm W hi rk g p i) (tryTerm (evened W) hi rk g p i) := by
  rw [tryTerm, tryTerm]
  cases hx : W.rx g p with
  | none =>
    have : (evened W).rx g p = none := by unfold evened; dsimp only; rw [hx]
    rw [this]; exact .rfl
  | some e =>
    by_cases hc : W.role g = .nlai ∧ ((e : Int) - p - 1) % 2 ≠ 0
    · right
      refine ⟨?_, g, p, e, hp, hx, fun h => hc.2 (h hc.1)⟩
      dsimp only
      rw [layout.eq_def, hc.1]
      dsimp only
      rw [if_neg hc.2]
    · have : (evened W).rx g p = some e := by
        unfold evened; dsimp only; rw [hx]; dsimp only; rw [if_neg hc]
      rw [this]; exact .rfl

end Sim

/-- Goals keep their rules. -/
theorem ruleOf_evened (g : N) : ruleOf (evened W) g = ruleOf W g := rfl

theorem sim_attempt {lo : Nat} (hm : ∀ n g p i q j r, attempt (evened W) hi n g p i = .ok (some (q, j, r)) → p ≤ q) :
    ∀ (n : Nat) (g : N) (p : Nat) (i : Int), lo ≤ p →
      Sim W lo (attempt W hi n g p i) (attempt (evened W) hi n g p i)
  | 0, _, _, _, _ => .rfl
  | n + 1, g, p, i, hp => by
    have hrec : SimRec W lo (attempt W hi n) (attempt (evened W) hi n) :=
      ⟨fun g p i hp => sim_attempt hm n g p i hp, hm n⟩
    rw [attempt, attempt, ruleOf_evened]
    cases ruleOf W g with
    | none => exact .rfl
    | some rule =>
      cases rule with
      | alt rk args => exact sim_alts hrec rk hp args
      | seq rk args =>
        dsimp only
        rw [trySeq, trySeq]
        rcases (sim_row hrec args p i hp).1 with e | ⟨e, ho⟩
        · rw [e]; exact .rfl
        · rw [e]; exact Or.inr ⟨by first | rfl | trivial, ho⟩
      | opt rk args =>
        dsimp only
        rw [tryOpt, tryOpt]
        rcases (sim_row hrec args p i hp).1 with e | ⟨e, ho⟩
        · rw [e]; exact .rfl
        · rw [e]; exact Or.inr ⟨by first | rfl | trivial, ho⟩
      | plus e s l r => exact sim_plus hrec n g e s l r p i hp
      | term rk => exact sim_term rk g p i hp

end Verif.Gram
