import Verif.Gram.PegSpec
/-! # The parser for `emu-grammar` elements follows the parsing expression grammar -/
namespace Verif.Gram
variable {N : Type}

/-- The answer of the parser as something found. -/
def wrap (o : Out N) : Found N := o.map (fun x => (x.1, x.2.1, [x.2.2]))

theorem wrap_some {p : Nat} {i : Int} {r : Option (GNode N)} :
    wrap (some (p, i, r)) = some (p, i, [r]) := rfl

theorem wrap_none : wrap (none : Out N) = none := rfl

theorem present_keep (r : Option (GNode N)) (rs : List (Option (GNode N))) :
    present (r :: rs) = keep r (present rs) := by
  cases r <;> rfl

/-- What is known of the answers of recursive calls. -/
def RecSound (W : PegEnv N) (hi : Nat) (effect : N → Int) (rec : N → Nat → Int → Except PegErr (Out N)) : Prop :=
  ∀ g p i out, rec g p i = .ok out → Parses W hi (.goal g) p i (wrap out) ∧
    ∀ p' i' r, out = some (p', i', r) → i' = i + effect g

theorem layout_spec (role : Role) (p e hi : Nat) (i : Int) :
    (∀ i', layout role p e i hi = .ok (some i') → Layout role p e hi i i' ∧ EvenLine role p e) ∧
    (layout role p e i hi = .ok none → (∀ i', ¬ Layout role p e hi i i') ∧ EvenLine role p e) := by
  cases role
  case nlai =>
    dsimp only [layout, Layout, EvenLine]
    refine ⟨fun i' h => ?_, fun h => ?_⟩
    · split at h
      · split at h
        · injection h with h; injection h with h
          exact ⟨⟨h.symm, by omega⟩, fun _ => by assumption⟩
        · cases h
      · cases h
    · split at h
      · split at h
        · cases h
        · exact ⟨fun i' hh => by omega, fun _ => by assumption⟩
      · cases h
  case eoi =>
    dsimp only [layout, Layout, EvenLine]
    refine ⟨fun i' h => ?_, fun h => ?_⟩
    · split at h
      · cases h
      · injection h with h; injection h with h
        exact ⟨⟨h.symm, by omega⟩, fun h => by cases h⟩
    · split at h
      · exact ⟨fun i' hh => by omega, fun h => by cases h⟩
      · cases h
  all_goals
    dsimp only [layout, Layout, EvenLine]
    refine ⟨fun i' h => ?_, fun h => ?_⟩
    · injection h with h; injection h with h
      exact ⟨h.symm, fun h => by cases h⟩
    · cases h

theorem layout_effect {role : Role} {p e hi : Nat} {i i' : Int} (h : Layout role p e hi i i') :
    i' = i + role.effect := by
  cases role <;> dsimp only [Layout, Role.effect] at h ⊢ <;> omega

theorem layout_of {role : Role} {p e hi : Nat} {i : Int} (he : EvenLine role p e) :
    (∀ i', Layout role p e hi i i' → layout role p e i hi = .ok (some i')) ∧
    ((∀ i', ¬ Layout role p e hi i i') → layout role p e i hi = .ok none) := by
  cases role
  case nlai =>
    have he' := he rfl
    dsimp only [layout, Layout]
    refine ⟨fun i' h => ?_, fun h => ?_⟩
    · rw [if_pos he', if_pos (by omega), h.1]
    · rw [if_pos he', if_neg]
      intro h'
      exact h i ⟨rfl, by omega⟩
  case eoi =>
    dsimp only [layout, Layout]
    refine ⟨fun i' h => ?_, fun h => ?_⟩
    · rw [if_neg (by omega), h.1]
    · rw [if_pos]
      rcases Nat.lt_or_ge e hi with h' | h'
      · exact h'
      · exact absurd ⟨rfl, h'⟩ (h i)
  all_goals
    dsimp only [layout, Layout]
    exact ⟨fun i' h => by rw [h], fun h => absurd rfl (h _)⟩

section Sound
variable {W : PegEnv N} {hi : Nat} {effect : N → Int} {rec : N → Nat → Int → Except PegErr (Out N)}

theorem tryAlts_sound (hr : RecSound W hi effect rec) {rk : RKind} {p : Nat} {i : Int} :
    ∀ (args : List N) (out : Out N), tryAlts rec rk p i args = .ok out →
      Parses W hi (.choice args) p i (wrap out) ∧ (out ≠ none → rk = .up) ∧
      ∀ p' i' r, out = some (p', i', r) → ∃ a ∈ args, i' = i + effect a
  | [], out, h => by
    injection h with h
    subst h
    exact ⟨.noChoice, fun h => absurd rfl h, by intro _ _ _ h; cases h⟩
  | a :: as, out, h => by
    rw [tryAlts] at h
    cases ha : rec a p i with
    | error x => rw [ha] at h; cases h
    | ok o =>
      rw [ha] at h
      obtain ⟨h1, h2⟩ := hr a p i o ha
      cases o with
      | none =>
        obtain ⟨i1, i2, i3⟩ := tryAlts_sound hr as out h
        refine ⟨.next h1 i1, i2, fun p' i' r e => ?_⟩
        obtain ⟨b, hb, e'⟩ := i3 p' i' r e
        exact ⟨b, List.mem_cons_of_mem _ hb, e'⟩
      | some r =>
        dsimp only at h
        split at h
        · rename_i hk
          injection h with h
          subst h
          exact ⟨.first h1, fun _ => hk, fun p' i' r' e => ⟨a, List.mem_cons_self .., h2 p' i' r' e⟩⟩
        · cases h

theorem tryRow_sound (hr : RecSound W hi effect rec) :
    ∀ (args : List N) (p : Nat) (i : Int) (out : RowOut N), tryRow rec args p i = .ok out →
      match out with
      | .failed i' => Parses W hi (.row args) p i none ∧ ((∀ a ∈ args, effect a = 0) → i' = i)
      | .done p' i' cs => ∃ rs, present rs = cs ∧ Parses W hi (.row args) p i (some (p', i', rs)) ∧
          i' = i + (args.map effect).sum
  | [], p, i, out, h => by
    injection h with h
    subst h
    exact ⟨[], rfl, .endRow, by simp⟩
  | a :: as, p, i, out, h => by
    rw [tryRow] at h
    cases ha : rec a p i with
    | error x => rw [ha] at h; cases h
    | ok o =>
      rw [ha] at h
      obtain ⟨h1, h2⟩ := hr a p i o ha
      cases o with
      | none =>
        injection h with h
        subst h
        exact ⟨.cutRow h1, fun _ => rfl⟩
      | some r =>
        obtain ⟨p', i', child⟩ := r
        dsimp only at h
        have hi' := h2 p' i' child rfl
        cases hrow : tryRow rec as p' i' with
        | error x => rw [hrow] at h; cases h
        | ok o' =>
          rw [hrow] at h
          have ih := tryRow_sound hr as p' i' o' hrow
          cases o' with
          | failed i'' =>
            injection h with h
            subst h
            refine ⟨.breakRow h1 ih.1, fun h0 => ?_⟩
            have := ih.2 (fun b hb => h0 b (List.mem_cons_of_mem _ hb))
            have := h0 a (List.mem_cons_self ..)
            omega
          | done p'' i'' cs =>
            injection h with h
            subst h
            obtain ⟨rs, e1, e2, e3⟩ := ih
            refine ⟨child :: rs, by rw [present_keep, e1], ?_, ?_⟩
            · exact .growRow (r := [child]) h1 e2
            · rw [List.map_cons, List.sum_cons]; omega

theorem tryList_rest (hr : RecSound W hi effect rec) {e s : N} (he : effect e = 0) (hs : effect s = 0) :
    ∀ (m latest p : Nat) (i : Int) (acc : List (Option (GNode N))) (x : List (Option (GNode N)))
      (out : Option (Nat × Int × List (Option (GNode N)))),
      acc ≠ [] → Parses W hi (.goal s) latest i (some (p, i, x)) →
      tryList rec e s m latest p i acc = .ok out →
      ∃ p' rs, out = some (p', i, acc ++ rs) ∧ Parses W hi (.rest e s) latest i (some (p', i, rs))
  | 0, _, _, _, _, _, _, _, _, h => by cases h
  | m + 1, latest, p, i, acc, x, out, hacc, hsep, h => by
    rw [tryList.eq_def] at h
    dsimp only at h
    cases hel : rec e p i with
    | error x => rw [hel] at h; cases h
    | ok o =>
      rw [hel] at h
      obtain ⟨h1, h2⟩ := hr e p i o hel
      cases o with
      | none =>
        cases acc with
        | nil => exact absurd rfl hacc
        | cons a as =>
          injection h with h
          subst h
          exact ⟨latest, [], by rw [List.append_nil], .loneSeparator hsep h1⟩
      | some r =>
        obtain ⟨p', i', el⟩ := r
        have hi' := h2 p' i' el rfl
        rw [he, Int.add_zero] at hi'
        subst hi'
        dsimp only at h
        cases hse : rec s p' i' with
        | error x => rw [hse] at h; cases h
        | ok o' =>
          rw [hse] at h
          obtain ⟨h3, h4⟩ := hr s p' i' o' hse
          cases o' with
          | none =>
            injection h with h
            subst h
            exact ⟨p', [el], rfl, .another (r' := [el]) hsep h1 (.noSeparator h3)⟩
          | some r' =>
            obtain ⟨p'', i'', y⟩ := r'
            have hi'' := h4 p'' i'' y rfl
            rw [hs, Int.add_zero] at hi''
            subst hi''
            dsimp only at h
            obtain ⟨q, rs, k1, k2⟩ := tryList_rest hr he hs m p' p'' i'' (acc ++ [el]) [y] out (by simp) h3 h
            exact ⟨q, el :: rs, by rw [k1]; simp, .another (r' := [el]) hsep h1 k2⟩

theorem tryList_sound (hr : RecSound W hi effect rec) {e s : N} (he : effect e = 0) (hs : effect s = 0)
    {m latest p : Nat} {i : Int} {out : Option (Nat × Int × List (Option (GNode N)))}
    (h : tryList rec e s m latest p i [] = .ok out) :
    Parses W hi (.list e s) p i out ∧ ∀ p' i' rs, out = some (p', i', rs) → i' = i := by
  cases m with
  | zero => cases h
  | succ m =>
    rw [tryList] at h
    cases hel : rec e p i with
    | error x => rw [hel] at h; cases h
    | ok o =>
      rw [hel] at h
      obtain ⟨h1, h2⟩ := hr e p i o hel
      cases o with
      | none =>
        injection h with h
        subst h
        exact ⟨.notOne h1, by intro _ _ _ h; cases h⟩
      | some r =>
        obtain ⟨p', i', el⟩ := r
        have hi' := h2 p' i' el rfl
        rw [he, Int.add_zero] at hi'
        subst hi'
        dsimp only at h
        cases hse : rec s p' i' with
        | error x => rw [hse] at h; cases h
        | ok o' =>
          rw [hse] at h
          obtain ⟨h3, h4⟩ := hr s p' i' o' hse
          cases o' with
          | none =>
            injection h with h
            subst h
            refine ⟨.elements (r := [el]) (rs := []) h1 (.noSeparator h3), ?_⟩
            intro a b c e; injection e with e; injection e with e1 e2; injection e2 with e2 e3; exact e2.symm
          | some r' =>
            obtain ⟨p'', i'', y⟩ := r'
            have hi'' := h4 p'' i'' y rfl
            rw [hs, Int.add_zero] at hi''
            subst hi''
            dsimp only at h
            obtain ⟨q, rs, k1, k2⟩ := tryList_rest hr he hs m p' p'' i'' ([] ++ [el]) [y] out (by simp) h3 h
            subst k1
            refine ⟨.elements (r := [el]) h1 k2, ?_⟩
            intro a b c e; injection e with e; injection e with e1 e2; injection e2 with e2 e3; exact e2.symm

theorem tryDelim_sound (hr : RecSound W hi effect rec) {d : Option N} {p : Nat} {i : Int} {out : Option (Nat × Int)}
    (h : tryDelim rec d p i = .ok out) :
    match out with
    | none => Parses W hi (.maybe d) p i none
    | some (p', i') => (∃ x, Parses W hi (.maybe d) p i (some (p', i', x))) ∧ i' = i + (d.toList.map effect).sum := by
  rw [tryDelim.eq_def] at h
  cases d with
  | none =>
    injection h with h
    subst h
    exact ⟨⟨[], .noDelim⟩, by simp⟩
  | some d =>
    dsimp only at h
    cases hd : rec d p i with
    | error x => rw [hd] at h; cases h
    | ok o =>
      rw [hd] at h
      obtain ⟨h1, h2⟩ := hr d p i o hd
      cases o with
      | none => injection h with h; subst h; exact .delim h1
      | some r =>
        obtain ⟨p', i', y⟩ := r
        injection h with h
        subst h
        exact ⟨⟨_, .delim h1⟩, by simpa using h2 p' i' y rfl⟩

end Sound

/-- The parser's answers are those of the parsing expression grammar. -/
theorem attempt_sound {W : PegEnv N} {hi : Nat} {effect : N → Int} (hB : Balanced W effect) :
    ∀ (n : Nat), RecSound W hi effect (attempt W hi n)
  | 0 => by intro g p i out h; cases h
  | n + 1 => by
    have hr := attempt_sound (hi := hi) hB n
    intro g p i out h
    rw [attempt] at h
    cases hg : ruleOf W g with
    | none => rw [hg] at h; cases h
    | some rule =>
      rw [hg] at h
      cases rule with
      | alt rk args =>
        obtain ⟨h1, h2, h3⟩ := tryAlts_sound hr args out h
        refine ⟨?_, fun p' i' r e => ?_⟩
        · cases out with
          | none => exact .exhausted hg h1
          | some r =>
            have := h2 (by simp)
            subst this
            exact .choose hg h1
        · obtain ⟨a, ha, e'⟩ := h3 p' i' r e
          rw [e', hB.alt g rk args hg a ha]
      | seq rk args =>
        dsimp only at h
        rw [trySeq] at h
        cases hrow : tryRow (attempt W hi n) args p i with
        | error x => rw [hrow] at h; cases h
        | ok o =>
          rw [hrow] at h
          have hs := tryRow_sound hr args p i o hrow
          cases o with
          | failed j =>
            injection h with h
            subst h
            exact ⟨.seqFails hg hs.1, by intro _ _ _ h; cases h⟩
          | done p' i' cs =>
            dsimp only at h
            obtain ⟨rs, e1, e2, e3⟩ := hs
            cases hn : seqNode rk g p p' cs with
            | none => rw [hn] at h; cases h
            | some r =>
              rw [hn] at h
              injection h with h
              subst h
              refine ⟨?_, ?_⟩
              · subst e1
                rw [wrap_some]
                cases rk with
                | node =>
                  dsimp only [seqNode] at hn
                  injection hn with hn
                  subst hn
                  exact .seqNode hg e2
                | up =>
                  rw [seqNode.eq_def] at hn
                  split at hn
                  · cases ‹RKind.up = RKind.node›
                  · rename_i c hc
                    injection hn with hn
                    subst hn
                    exact .seqUp hg e2 hc
                  · cases hn
                | blank => simp [seqNode] at hn
              · intro a b c e
                injection e with e; injection e with e4 e5; injection e5 with e5 e6
                rw [← e5, e3, hB.seq g rk args hg]
      | opt rk args =>
        dsimp only at h
        rw [tryOpt] at h
        obtain ⟨hB1, hB2⟩ := hB.opt g rk args hg
        have hsum : ∀ (l : List N), (∀ a ∈ l, effect a = 0) → (l.map effect).sum = 0 := by
          intro l
          induction l with
          | nil => intro _; rfl
          | cons a as ih =>
            intro hl
            rw [List.map_cons, List.sum_cons, hl a (List.mem_cons_self ..),
              ih (fun b hb => hl b (List.mem_cons_of_mem _ hb))]
            rfl
        cases hrow : tryRow (attempt W hi n) args p i with
        | error x => rw [hrow] at h; cases h
        | ok o =>
          rw [hrow] at h
          have hs := tryRow_sound hr args p i o hrow
          cases o with
          | failed j =>
            injection h with h
            subst h
            have hj := hs.2 hB2
            subst hj
            refine ⟨?_, ?_⟩
            · refine .omitted hg hs.1 ?_
              cases rk
              · exact Or.inl ⟨rfl, rfl⟩
              · exact Or.inr (Or.inl ⟨rfl, rfl⟩)
              · exact Or.inr (Or.inr ⟨rfl, rfl⟩)
            · intro a b c e
              injection e with e; injection e with e4 e5; injection e5 with e5 e6
              rw [← e5, hB1, Int.add_zero]
          | done p' i' cs =>
            dsimp only at h
            obtain ⟨rs, e1, e2, e3⟩ := hs
            cases hn : optNode rk g p p' cs with
            | none => rw [hn] at h; cases h
            | some r =>
              rw [hn] at h
              injection h with h
              subst h
              refine ⟨?_, ?_⟩
              · subst e1
                rw [wrap_some]
                cases rk with
                | node =>
                  dsimp only [optNode] at hn
                  injection hn with hn
                  subst hn
                  exact .optNode hg e2
                | up =>
                  rw [optNode.eq_def] at hn
                  split at hn
                  · cases ‹RKind.up = RKind.node›
                  · rename_i c hc
                    injection hn with hn
                    subst hn
                    exact .optUp hg e2 hc
                  · cases ‹RKind.up = RKind.blank›
                  · cases hn
                | blank =>
                  simp only [optNode, Option.some.injEq] at hn
                  subst hn
                  exact .optBlank hg e2
              · intro a b c e
                injection e with e; injection e with e4 e5; injection e5 with e5 e6
                rw [← e5, e3, hsum args hB2, hB1]
      | plus e s l r =>
        dsimp only at h
        rw [tryPlus] at h
        obtain ⟨hBe, hBs, hBd⟩ := hB.plus g e s l r hg
        cases hl : tryDelim (attempt W hi n) l p i with
        | error x => rw [hl] at h; cases h
        | ok o =>
          rw [hl] at h
          have h1 := tryDelim_sound hr hl
          cases o with
          | none =>
            injection h with h
            subst h
            exact ⟨.noLeft hg h1, by intro _ _ _ h; cases h⟩
          | some q =>
            obtain ⟨p', i'⟩ := q
            obtain ⟨⟨x, h1⟩, h1'⟩ := h1
            dsimp only at h
            cases hli : tryList (attempt W hi n) e s n p' p' i' [] with
            | error x => rw [hli] at h; cases h
            | ok o =>
              rw [hli] at h
              obtain ⟨h2, h2'⟩ := tryList_sound hr hBe hBs hli
              cases o with
              | none =>
                injection h with h
                subst h
                exact ⟨.noList hg h1 h2, by intro _ _ _ h; cases h⟩
              | some q =>
                obtain ⟨p'', i'', els⟩ := q
                have h2'' := h2' p'' i'' els rfl
                dsimp only at h
                cases hri : tryDelim (attempt W hi n) r p'' i'' with
                | error x => rw [hri] at h; cases h
                | ok o =>
                  rw [hri] at h
                  have h3 := tryDelim_sound hr hri
                  cases o with
                  | none =>
                    injection h with h
                    subst h
                    exact ⟨.noRight hg h1 h2 h3, by intro _ _ _ h; cases h⟩
                  | some q =>
                    obtain ⟨p''', i'''⟩ := q
                    obtain ⟨⟨y, h3⟩, h3'⟩ := h3
                    injection h with h
                    subst h
                    refine ⟨.delimited hg h1 h2 h3, ?_⟩
                    intro a b c e
                    injection e with e; injection e with e4 e5; injection e5 with e5 e6
                    rw [List.map_append, List.sum_append] at hBd
                    omega
      | term rk =>
        dsimp only at h
        rw [tryTerm] at h
        cases hx : W.rx g p with
        | none =>
          rw [hx] at h
          injection h with h
          subst h
          exact ⟨.unmatched hg hx, by intro _ _ _ h; cases h⟩
        | some e =>
          rw [hx] at h
          dsimp only at h
          obtain ⟨k1, k2⟩ := layout_spec (W.role g) p e hi i
          cases hlay : layout (W.role g) p e i hi with
          | error x => rw [hlay] at h; cases h
          | ok o =>
            rw [hlay] at h
            cases o with
            | none =>
              injection h with h
              subst h
              exact ⟨.misplaced hg hx (k2 hlay).2 (k2 hlay).1, by intro _ _ _ h; cases h⟩
            | some i' =>
              obtain ⟨k3, k4⟩ := k1 i' hlay
              have heff := layout_effect k3
              have heff' := hB.term g rk hg
              cases rk with
              | node =>
                injection h with h
                subst h
                refine ⟨.matched hg hx k4 k3 (Or.inl ⟨rfl, rfl⟩), ?_⟩
                intro a b c e
                injection e with e; injection e with e4 e5; injection e5 with e5 e6
                rw [← e5, heff, heff']
              | blank =>
                injection h with h
                subst h
                refine ⟨.matched hg hx k4 k3 (Or.inr ⟨rfl, rfl⟩), ?_⟩
                intro a b c e
                injection e with e; injection e with e4 e5; injection e5 with e5 e6
                rw [← e5, heff, heff']
              | up => cases h

end Verif.Gram
