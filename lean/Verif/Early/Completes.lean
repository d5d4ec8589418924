import Verif.Early.Once
/-!
# C37: when the traversal completes
-/
namespace Verif.Early

section
variable {P E : Type}

variable {L : Lang P E}

/-- All large enough amounts of fuel give the same, good result. -/
def Conv (L : Lang P E) (f : Nat → Option (St P E)) (sv : Option (List E)) : Prop :=
  ∃ n s', (∀ m, n ≤ m → f m = some s') ∧ s'.errs.isSome = true ∧ s'.saved = sv ∧ Parsed L s'.covered

theorem parsed_append {c : List (Nat × Option (Tree P))} (h : Parsed L c) (i : Nat) (nt : String) : Parsed L (c ++ [(i, L.parse i nt)]) := by
  intro j u hj
  rw [lookup_append] at hj
  cases hc : lookup c j with
  | some a => rw [hc] at hj; exact h j u (hc.trans hj)
  | none =>
    rw [hc] at hj
    simp only [lookup] at hj
    by_cases hij : i = j
    · subst hij
      rw [if_pos rfl] at hj
      exact ⟨nt, by simpa using hj⟩
    · rw [if_neg hij] at hj; cases hj

/-- What the calls inside rules need to do. -/
def GetConv (L : Lang P E) (nest : Tree P → Prop) (sv : Option (List E)) (get : Nat → Tree P → St P E → Option (List E × St P E)) : Prop :=
  ∀ t s, nest t → t.sym? = some "Pattern" → s.errs.isSome = true → s.saved = sv → Parsed L s.covered →
    ∃ n es s', (∀ m, n ≤ m → get m t s = some (es, s')) ∧ s'.errs.isSome = true ∧ s'.saved = sv ∧ Parsed L s'.covered

theorem runProg_conv {nest : Tree P → Prop} {sv get} (hg : GetConv L nest sv get) : ∀ (p : Prog P E) (s : St P E), Allowed L nest p →
    s.errs.isSome = true → s.saved = sv → Parsed L s.covered → Conv L (fun m => runProg L (get m) p s) sv
  | .done, s, _, h1, h2, h3 => ⟨0, s, fun _ _ => rfl, h1, h2, h3⟩
  | .report e k, s, ha, h1, h2, h3 => by
    obtain ⟨l, hl⟩ := Option.isSome_iff_exists.1 h1
    have := runProg_conv hg k { s with errs := some (l ++ [e]) } ha rfl h2 h3
    simpa only [runProg, report, hl] using this
  | .cover i nt k, s, ha, h1, h2, h3 => by
    obtain ⟨ha1, ha2⟩ := ha
    cases hc : lookup s.covered i with
    | some a => simpa only [runProg, coverOf, hc] using runProg_conv hg (k a) s (ha2 a) h1 h2 h3
    | none =>
      have hpp := parsed_append h3 i nt
      cases hp : L.parse i nt with
      | none =>
        rw [hp] at hpp
        simpa only [runProg, coverOf, hc, hp] using runProg_conv hg (k none) { s with covered := s.covered ++ [(i, none)] } (ha2 _) h1 h2 hpp
      | some u =>
        rw [hp] at hpp
        simpa only [runProg, coverOf, hc, hp, if_pos (ha1 u hp)] using
          runProg_conv hg (k (some u)) { s with covered := s.covered ++ [(i, some u)] } (ha2 _) h1 h2 hpp
  | .nested t k, s, ha, h1, h2, h3 => by
    obtain ⟨hp, hn, hk⟩ := ha
    obtain ⟨n, es, s1, g0, g1, g2, g3⟩ := hg t s hn hp h1 h2 h3
    obtain ⟨n', s2, c0, c⟩ := runProg_conv hg (k es) s1 (hk es) g1 g2 g3
    refine ⟨max n n', s2, fun m hm => ?_, c⟩
    simp only [runProg, g0 m (by omega)]
    exact c0 m (by omega)

theorem applyAll_conv {nest : Tree P → Prop} {sv get} (hg : GetConv L nest sv get) (t : Tree P) : ∀ (rs : List (Tree P → Prog P E)) (s : St P E),
    (∀ r ∈ rs, Allowed L nest (r t)) → s.errs.isSome = true → s.saved = sv → Parsed L s.covered → Conv L (fun m => applyAll L (get m) t rs s) sv
  | [], s, _, h1, h2, h3 => ⟨0, s, fun _ _ => rfl, h1, h2, h3⟩
  | r :: rs, s, ha, h1, h2, h3 => by
    obtain ⟨n, s1, a0, a1, a2, a3⟩ := runProg_conv hg (r t) s (ha r (by simp)) h1 h2 h3
    obtain ⟨n', s2, c0, c⟩ := applyAll_conv hg t rs s1 (fun r hr => ha r (by simp [hr])) a1 a2 a3
    refine ⟨max n n', s2, fun m hm => ?_, c⟩
    have := a0 m (by omega)
    simp only at this
    simp only [applyAll, this]
    exact c0 m (by omega)

theorem travAll_conv {sv : Option (List E)} {trav : Nat → Tree P → St P E → Option (St P E)} : ∀ (ts : List (Tree P)) (s : St P E),
    (∀ t ∈ ts, ∀ s : St P E, s.errs.isSome = true → s.saved = sv → Parsed L s.covered → Conv L (fun m => trav m t s) sv) →
    s.errs.isSome = true → s.saved = sv → Parsed L s.covered → Conv L (fun m => travAll (trav m) ts s) sv
  | [], s, _, h1, h2, h3 => ⟨0, s, fun _ _ => rfl, h1, h2, h3⟩
  | t :: ts, s, ha, h1, h2, h3 => by
    obtain ⟨n, s1, a0, a1, a2, a3⟩ := ha t (by simp) s h1 h2 h3
    obtain ⟨n', s2, c0, c⟩ := travAll_conv ts s1 (fun t ht => ha t (by simp [ht])) a1 a2 a3
    refine ⟨max n n', s2, fun m hm => ?_, c⟩
    have := a0 m (by omega)
    simp only at this
    simp only [travAll, this]
    exact c0 m (by omega)

theorem traverse_conv {nest : Tree P → Prop} {sv : Option (List E)} (hg : GetConv L nest sv (fun m => getErrors (traverse L m))) {t : Tree P} (ht : Finite L nest t) :
    ∀ s : St P E, s.errs.isSome = true → s.saved = sv → Parsed L s.covered → Conv L (fun m => traverse L m t s) sv := by
  induction ht with
  | leaf =>
    intro s h1 h2 h3
    refine ⟨1, s, fun m hm => ?_, h1, h2, h3⟩
    obtain ⟨k, rfl⟩ : ∃ k, m = k + 1 := ⟨m - 1, by omega⟩
    rfl
  | @node i sy p ts _ _ ha ih1 ih2 =>
    intro s h1 h2 h3
    cases hc : lookup s.covered i with
    | some a =>
      cases a with
      | none =>
        refine ⟨1, s, fun m hm => ?_, h1, h2, h3⟩
        obtain ⟨k, rfl⟩ : ∃ k, m = k + 1 := ⟨m - 1, by omega⟩
        simp only [traverse, hc]
      | some u =>
        obtain ⟨nt, hp⟩ := h3 i u hc
        obtain ⟨n, s', c0, c⟩ := ih2 nt u hp s h1 h2 h3
        refine ⟨n + 1, s', fun m hm => ?_, c⟩
        obtain ⟨k, rfl⟩ : ∃ k, m = k + 1 := ⟨m - 1, by omega⟩
        simp only [traverse, hc]
        exact c0 k (by omega)
    | none =>
      have hr : ∀ r ∈ (L.rules p).getD [], Allowed L nest (r (.node i sy p ts)) := by
        intro r hr
        apply ha
        simp only [progs]
        cases hp : L.rules p with
        | none => simp [hp] at hr
        | some rs => simp only [hp, Option.getD_some] at hr; exact List.mem_map.2 ⟨r, hr, rfl⟩
      obtain ⟨n, s1, a0, a1, a2, a3⟩ := applyAll_conv hg (.node i sy p ts) ((L.rules p).getD []) { s with visited := s.visited ++ [i] } hr h1 h2 h3
      obtain ⟨n', s2, c0, c⟩ := travAll_conv (trav := fun m => traverse L m) ts s1 ih1 a1 a2 a3
      refine ⟨max n n' + 1, s2, fun m hm => ?_, c⟩
      obtain ⟨k, rfl⟩ : ∃ k, m = k + 1 := ⟨m - 1, by omega⟩
      have h := a0 k (by omega)
      simp only at h
      simp only [traverse, hc, h]
      exact c0 k (by omega)

theorem getConv_none (sv : Option (List E)) (get : Nat → Tree P → St P E → Option (List E × St P E)) : GetConv L (fun _ => False) sv get :=
  fun _ _ h => h.elim

theorem getConv_flat : GetConv L (Finite L fun _ => False) none (fun m => getErrors (traverse L m)) := by
  intro t s hn hp h1 h2 h3
  obtain ⟨l, hl⟩ := Option.isSome_iff_exists.1 h1
  obtain ⟨n, s1, a0, a1, a2, a3⟩ := traverse_conv (getConv_none (some l) _) hn { s with saved := some l, errs := some [] } rfl rfl h3
  obtain ⟨es, he⟩ := Option.isSome_iff_exists.1 a1
  refine ⟨n, es, { s1 with errs := some l, saved := none }, fun m hm => ?_, rfl, rfl, a3⟩
  have h := a0 m hm
  simp only at h
  simp [getErrors, hl, hp, h2, h, he, a2]

end
end Verif.Early
