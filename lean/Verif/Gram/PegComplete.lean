import Verif.Gram.PegLemmas
/-! # Whatever the parsing expression grammar says, the parser finds -/
namespace Verif.Gram
variable {N : Type} {W : PegEnv N} {hi : Nat} {effect : N → Int}

/-- The part of the list loop after an element. -/
def afterElement (rec : N → Nat → Int → Except PegErr (Out N)) (e s : N) (m p : Nat) (i : Int)
    (acc : List (Option (GNode N))) : Except PegErr (Option (Nat × Int × List (Option (GNode N)))) :=
  match rec s p i with
  | .error x => .error x
  | .ok none => .ok (some (p, i, acc))
  | .ok (some (p'', i'', _)) => tryList rec e s m p p'' i'' acc

/-- What the parser does for each thing that can be looked for. -/
def Claim (W : PegEnv N) (hi : Nat) (effect : N → Int) (x : Expr N) (p : Nat) (i : Int) (out : Found N) : Prop :=
  match x with
  | .goal g => ∃ n0 o, wrap o = out ∧ ∀ n, n0 ≤ n → attempt W hi n g p i = .ok o
  | .choice gs => ∃ n0 o, wrap o = out ∧ ∀ n, n0 ≤ n → ∀ rk, (rk = .up ∨ out = none) →
      tryAlts (attempt W hi n) rk p i gs = .ok o
  | .row gs => match out with
    | none => ∃ n0 j, ((∀ a ∈ gs, effect a = 0) → j = i) ∧ ∀ n, n0 ≤ n → tryRow (attempt W hi n) gs p i = .ok (.failed j)
    | some (p', i', rs) => ∃ n0, ∀ n, n0 ≤ n → tryRow (attempt W hi n) gs p i = .ok (.done p' i' (present rs))
  | .list e s => effect s = 0 → ∃ n0, ∀ n, n0 ≤ n → ∀ m, n0 ≤ m → ∀ latest,
      tryList (attempt W hi n) e s m latest p i [] = .ok out
  | .rest e s => effect s = 0 → ∃ p' i' rs, out = some (p', i', rs) ∧ ∃ n0, ∀ n, n0 ≤ n → ∀ m, n0 ≤ m →
      ∀ acc, acc ≠ [] → afterElement (attempt W hi n) e s m p i acc = .ok (some (p', i', acc ++ rs))
  | .maybe d => ∃ n0, ∀ n, n0 ≤ n → tryDelim (attempt W hi n) d p i = .ok (out.map (fun x => (x.1, x.2.1)))

theorem wrap_eq_none {o : Out N} (h : wrap o = none) : o = none := by
  cases o
  · rfl
  · cases h

theorem wrap_eq_some {o : Out N} {p : Nat} {i : Int} {rs : List (Option (GNode N))}
    (h : wrap o = some (p, i, rs)) : ∃ r, o = some (p, i, r) ∧ rs = [r] := by
  cases o with
  | none => cases h
  | some x =>
    obtain ⟨a, b, c⟩ := x
    rw [wrap_some] at h
    injection h with h; injection h with h1 h2; injection h2 with h2 h3
    subst h1 h2 h3
    exact ⟨c, rfl, rfl⟩

/-- A goal whose attempt unfolds. -/
theorem claim_goal {g : N} {p : Nat} {i : Int} {o : Out N} {out : Found N} (hw : wrap o = out) (n0 : Nat)
    (h : ∀ n, n0 ≤ n → attempt W hi (n + 1) g p i = .ok o) : Claim W hi effect (.goal g) p i out := by
  refine ⟨n0 + 1, o, hw, fun n hn => ?_⟩
  cases n with
  | zero => omega
  | succ n => exact h n (by omega)

theorem parses_claim (hB : Balanced W effect) {x : Expr N} {p : Nat} {i : Int} {out : Found N}
    (h : Parses W hi x p i out) : Claim W hi effect x p i out := by
  induction h with
  | @unmatched g rk p i hg hx =>
    refine claim_goal wrap_none 0 fun n _ => ?_
    rw [attempt, hg]
    dsimp only
    rw [tryTerm, hx]
  | @misplaced g rk p i e hg hx he hl =>
    refine claim_goal wrap_none 0 fun n _ => ?_
    rw [attempt, hg]
    dsimp only
    rw [tryTerm, hx]
    dsimp only
    rw [(layout_of he).2 hl]
  | @matched g rk p i e i' r hg hx he hl hr =>
    refine claim_goal (o := some (e, i', r)) rfl 0 fun n _ => ?_
    rw [attempt, hg]
    dsimp only
    rw [tryTerm, hx]
    dsimp only
    rw [(layout_of he).1 i' hl]
    rcases hr with ⟨rfl, rfl⟩ | ⟨rfl, rfl⟩ <;> rfl
  | @choose g args p i out hg _ ih =>
    obtain ⟨n0, o, hw, h⟩ := ih
    refine claim_goal hw n0 fun n hn => ?_
    rw [attempt, hg]
    exact h n hn .up (Or.inl rfl)
  | @exhausted g rk args p i hg _ ih =>
    obtain ⟨n0, o, hw, h⟩ := ih
    refine claim_goal hw n0 fun n hn => ?_
    rw [attempt, hg]
    exact h n hn rk (Or.inr rfl)
  | noChoice => exact ⟨0, none, rfl, fun _ _ _ _ => rfl⟩
  | @first g gs p i r _ ih =>
    obtain ⟨n0, o, hw, h⟩ := ih
    obtain ⟨p', i', rs⟩ := r
    obtain ⟨r, ho, _⟩ := wrap_eq_some hw
    subst ho
    refine ⟨n0, _, hw, fun n hn rk hk => ?_⟩
    rw [tryAlts, h n hn]
    rcases hk with hk | hk
    · exact if_pos hk
    · cases hk
  | @next g gs p i out _ _ ih1 ih2 =>
    obtain ⟨n1, o1, hw1, h1⟩ := ih1
    obtain ⟨n2, o2, hw2, h2⟩ := ih2
    rw [wrap_eq_none hw1] at h1
    refine ⟨max n1 n2, o2, hw2, fun n hn rk hk => ?_⟩
    rw [tryAlts, h1 n (by omega)]
    exact h2 n (by omega) rk hk
  | endRow => exact ⟨0, fun _ _ => rfl⟩
  | @cutRow g gs p i _ ih =>
    obtain ⟨n0, o, hw, h⟩ := ih
    rw [wrap_eq_none hw] at h
    refine ⟨n0, i, fun _ => rfl, fun n hn => ?_⟩
    rw [tryRow, h n hn]
  | @breakRow g gs p i p' i' r _ _ ih1 ih2 =>
    obtain ⟨n1, o1, hw1, h1⟩ := ih1
    obtain ⟨n2, j, hj, h2⟩ := ih2
    obtain ⟨x, ho, _⟩ := wrap_eq_some hw1
    subst ho
    refine ⟨max n1 n2, j, fun h0 => ?_, fun n hn => ?_⟩
    · have e1 := hj (fun a ha => h0 a (List.mem_cons_of_mem _ ha))
      have e2 := (attempt_sound hB n1 g p i _ (h1 n1 (Nat.le_refl _))).2 p' i' x rfl
      have e3 := h0 g (List.mem_cons_self ..)
      omega
    · rw [tryRow, h1 n (by omega)]
      dsimp only
      rw [h2 n (by omega)]
  | @growRow g gs p i p' i' r p'' i'' rs _ _ ih1 ih2 =>
    obtain ⟨n1, o1, hw1, h1⟩ := ih1
    obtain ⟨n2, h2⟩ := ih2
    obtain ⟨x, ho, hr⟩ := wrap_eq_some hw1
    subst ho hr
    refine ⟨max n1 n2, fun n hn => ?_⟩
    rw [tryRow, h1 n (by omega)]
    dsimp only
    rw [h2 n (by omega), List.singleton_append, present_keep]
  | @seqFails g rk args p i hg _ ih =>
    obtain ⟨n0, j, _, h⟩ := ih
    refine claim_goal wrap_none n0 fun n hn => ?_
    rw [attempt, hg]
    dsimp only
    rw [trySeq, h n hn]
  | @seqNode g args p i p' i' rs hg _ ih =>
    obtain ⟨n0, h⟩ := ih
    refine claim_goal (o := some (p', i', some (.mk p p' (.goal g) ((present rs).map some)))) rfl n0 fun n hn => ?_
    rw [attempt, hg]
    dsimp only
    rw [trySeq, h n hn]
    rfl
  | @seqUp g args p i p' i' rs c hg _ hc ih =>
    obtain ⟨n0, h⟩ := ih
    refine claim_goal (o := some (p', i', some c)) rfl n0 fun n hn => ?_
    rw [attempt, hg]
    dsimp only
    rw [trySeq, h n hn, hc]
    rfl
  | @omitted g rk args p i r hg _ hr ih =>
    obtain ⟨n0, j, hj, h⟩ := ih
    have hj' := hj (hB.opt g rk args hg).2
    subst hj'
    refine claim_goal (o := some (p, j, r)) rfl n0 fun n hn => ?_
    rw [attempt, hg]
    dsimp only
    rw [tryOpt, h n hn]
    rcases hr with ⟨rfl, rfl⟩ | ⟨rfl, rfl⟩ | ⟨rfl, rfl⟩ <;> rfl
  | @optNode g args p i p' i' rs hg _ ih =>
    obtain ⟨n0, h⟩ := ih
    refine claim_goal (o := some (p', i', some (.mk p p' (.goal g) ((present rs).map some)))) rfl n0 fun n hn => ?_
    rw [attempt, hg]
    dsimp only
    rw [tryOpt, h n hn]
    rfl
  | @optUp g args p i p' i' rs c hg _ hc ih =>
    obtain ⟨n0, h⟩ := ih
    refine claim_goal (o := some (p', i', some c)) rfl n0 fun n hn => ?_
    rw [attempt, hg]
    dsimp only
    rw [tryOpt, h n hn, hc]
    rfl
  | @optBlank g args p i p' i' rs hg _ ih =>
    obtain ⟨n0, h⟩ := ih
    refine claim_goal (o := some (p', i', none)) rfl n0 fun n hn => ?_
    rw [attempt, hg]
    dsimp only
    rw [tryOpt, h n hn]
    rfl
  | @notOne e s p i _ ih =>
    obtain ⟨n0, o, hw, h⟩ := ih
    rw [wrap_eq_none hw] at h
    intro _
    refine ⟨n0 + 1, fun n hn m hm latest => ?_⟩
    cases m with
    | zero => omega
    | succ m => rw [tryList, h n (by omega)]
  | @elements e s p i p' i' r p'' i'' rs _ _ ih1 ih2 =>
    intro hs
    obtain ⟨n1, o1, hw1, h1⟩ := ih1
    obtain ⟨q, j, rs', e1, n2, h2⟩ := ih2 hs
    injection e1 with e1; injection e1 with e2 e3; injection e3 with e3 e4
    subst e2 e3 e4
    obtain ⟨x, ho, hr⟩ := wrap_eq_some hw1
    subst ho hr
    refine ⟨max n1 n2 + 1, fun n hn m hm latest => ?_⟩
    cases m with
    | zero => omega
    | succ m =>
      rw [tryList, h1 n (by omega)]
      have := h2 n (by omega) m (by omega) ([] ++ [x]) (by simp)
      rw [afterElement.eq_def] at this
      exact this
  | @noSeparator e s p i _ ih =>
    intro _
    obtain ⟨n0, o, hw, h⟩ := ih
    rw [wrap_eq_none hw] at h
    refine ⟨p, i, [], rfl, n0, fun n hn m _ acc _ => ?_⟩
    rw [afterElement, h n hn, List.append_nil]
  | @loneSeparator e s p i p' i' r _ _ ih1 ih2 =>
    intro hs
    obtain ⟨n1, o1, hw1, h1⟩ := ih1
    obtain ⟨n2, o2, hw2, h2⟩ := ih2
    obtain ⟨x, ho, _⟩ := wrap_eq_some hw1
    subst ho
    rw [wrap_eq_none hw2] at h2
    have e2 := (attempt_sound hB n1 s p i _ (h1 n1 (Nat.le_refl _))).2 p' i' x rfl
    rw [hs, Int.add_zero] at e2
    subst e2
    refine ⟨p, i', [], rfl, max n1 n2 + 1, fun n hn m hm acc hacc => ?_⟩
    rw [afterElement, h1 n (by omega)]
    dsimp only
    cases m with
    | zero => omega
    | succ m =>
      rw [tryList.eq_def]
      dsimp only
      rw [h2 n (by omega)]
      cases acc with
      | nil => exact absurd rfl hacc
      | cons a as => simp
  | @another e s p i p' i' r p'' i'' r' q j rs _ _ _ ih1 ih2 ih3 =>
    intro hs
    obtain ⟨n1, o1, hw1, h1⟩ := ih1
    obtain ⟨n2, o2, hw2, h2⟩ := ih2
    obtain ⟨q', j', rs', e1, n3, h3⟩ := ih3 hs
    injection e1 with e1; injection e1 with e2 e3; injection e3 with e3 e4
    subst e2 e3 e4
    obtain ⟨x, ho, _⟩ := wrap_eq_some hw1
    subst ho
    obtain ⟨y, ho, hr⟩ := wrap_eq_some hw2
    subst ho hr
    refine ⟨q, j, y :: rs, rfl, max n1 (max n2 n3) + 1, fun n hn m hm acc hacc => ?_⟩
    rw [afterElement, h1 n (by omega)]
    dsimp only
    cases m with
    | zero => omega
    | succ m =>
      rw [tryList.eq_def]
      dsimp only
      rw [h2 n (by omega)]
      have := h3 n (by omega) m (by omega) (acc ++ [y]) (by simp)
      rw [afterElement.eq_def, List.append_assoc, List.singleton_append] at this
      exact this
  | noDelim => exact ⟨0, fun _ _ => rfl⟩
  | @delim g p i out _ ih =>
    obtain ⟨n0, o, hw, h⟩ := ih
    refine ⟨n0, fun n hn => ?_⟩
    rw [tryDelim, h n hn]
    subst hw
    cases o <;> rfl
  | @noLeft g e s l r p i hg _ ih =>
    obtain ⟨n0, h⟩ := ih
    refine claim_goal wrap_none n0 fun n hn => ?_
    rw [attempt, hg]
    dsimp only
    rw [tryPlus, h n hn]
    rfl
  | @noList g e s l r p i p' i' x hg _ _ ih1 ih2 =>
    obtain ⟨n1, h1⟩ := ih1
    obtain ⟨n2, h2⟩ := ih2 (hB.plus g e s l r hg).2.1
    refine claim_goal wrap_none (max n1 n2) fun n hn => ?_
    rw [attempt, hg]
    dsimp only
    rw [tryPlus, h1 n (by omega)]
    dsimp only [Option.map_some]
    rw [h2 n (by omega) n (by omega)]
  | @noRight g e s l r p i p' i' x p'' i'' rs hg _ _ _ ih1 ih2 ih3 =>
    obtain ⟨n1, h1⟩ := ih1
    obtain ⟨n2, h2⟩ := ih2 (hB.plus g e s l r hg).2.1
    obtain ⟨n3, h3⟩ := ih3
    refine claim_goal wrap_none (max n1 (max n2 n3)) fun n hn => ?_
    rw [attempt, hg]
    dsimp only
    rw [tryPlus, h1 n (by omega)]
    dsimp only [Option.map_some]
    rw [h2 n (by omega) n (by omega)]
    dsimp only
    rw [h3 n (by omega)]
    rfl
  | @delimited g e s l r p i p' i' x p'' i'' rs q j y hg _ _ _ ih1 ih2 ih3 =>
    obtain ⟨n1, h1⟩ := ih1
    obtain ⟨n2, h2⟩ := ih2 (hB.plus g e s l r hg).2.1
    obtain ⟨n3, h3⟩ := ih3
    refine claim_goal (o := some (q, j, some (.mk p q (.goal g) rs))) rfl (max n1 (max n2 n3)) fun n hn => ?_
    rw [attempt, hg]
    dsimp only
    rw [tryPlus, h1 n (by omega)]
    dsimp only [Option.map_some]
    rw [h2 n (by omega) n (by omega)]
    dsimp only
    rw [h3 n (by omega)]
    rfl

/-- The parsing expression grammar gives one answer only. -/
theorem parses_unique (hB : Balanced W effect) {g : N} {p : Nat} {i : Int} {out out' : Found N}
    (h : Parses W hi (.goal g) p i out) (h' : Parses W hi (.goal g) p i out') : out = out' := by
  obtain ⟨n1, o1, hw1, h1⟩ := parses_claim hB h
  obtain ⟨n2, o2, hw2, h2⟩ := parses_claim hB h'
  have := (h1 (max n1 n2) (by omega)).symm.trans (h2 (max n1 n2) (by omega))
  injection this with this
  rw [← hw1, ← hw2, this]

end Verif.Gram
