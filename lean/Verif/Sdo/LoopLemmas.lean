import Verif.Sdo.Lemmas
/-!
# Lemmas: the queue of the coverage check
-/
namespace Verif.Sdo
open Verif.Gram (Sym Item IKind)

variable {R : Type} (G : Name → NtDef) (defs : List (R × List Puk)) (exc : Name → List Char → Bool)
  (roots : List Name)

/-- `p` lacks a rule and isn't excepted. -/
def Open (p : Puk) : Prop := rulesFor defs p = [] ∧ exc p.lhs p.reduced = false

/-- What a line of the report says. -/
def Just : Msg → Prop
  | .multi p n => n = (rulesFor defs p).length ∧ 2 ≤ n ∧ ∃ s ns, Needed G defs exc roots s ∧ KeyOf G s p ns
  | .needs p => Open defs exc p ∧ ∃ s ns, Needed G defs exc roots s ∧ KeyOf G s p ns ∧ ns.length ≠ 1
  | .unused _ => False

/-- All that is in the state is justified. -/
structure Good (st : St) : Prop where
  queue : ∀ n ∈ st.queue, Needed G defs exc roots n
  used : ∀ p ∈ st.used, ∃ s ns, Needed G defs exc roots s ∧ KeyOf G s p ns
  out : ∀ x ∈ st.out, Just G defs exc roots x

/-- `st'` has all that `st` has. -/
structure Grows (st st' : St) : Prop where
  queue : st.queue <+: st'.queue
  used : ∀ p ∈ st.used, p ∈ st'.used
  out : ∀ x ∈ st.out, x ∈ st'.out
  nodup : st.queue.Nodup → st'.queue.Nodup

theorem Grows.refl (st : St) : Grows st st := ⟨List.prefix_rfl, fun _ h => h, fun _ h => h, id⟩

theorem Grows.trans {a b c : St} (h : Grows a b) (k : Grows b c) : Grows a c :=
  ⟨h.queue.trans k.queue, fun p x => k.used p (h.used p x), fun p x => k.out p (h.out p x), k.nodup ∘ h.nodup⟩

/-- The instance with key `p` and nonterminals `ns` has been dealt with. -/
structure Dealt (st : St) (p : Puk) (ns : List Name) : Prop where
  used : p ∈ st.used
  multi : 2 ≤ (rulesFor defs p).length → .multi p (rulesFor defs p).length ∈ st.out
  chain : Open defs exc p → ∀ n, ns = [n] → n ∈ st.queue
  needs : Open defs exc p → ns.length ≠ 1 → .needs p ∈ st.out

variable {G defs exc roots}

theorem Dealt.mono {st st' : St} {p ns} (h : Dealt defs exc st p ns) (g : Grows st st') : Dealt defs exc st' p ns :=
  ⟨g.used _ h.used, fun x => g.out _ (h.multi x), fun o n x => g.queue.subset (h.chain o n x),
    fun o x => g.out _ (h.needs o x)⟩

theorem Dealt.perm {st : St} {p ns ns'} (h : Dealt defs exc st p ns) (g : ns.Perm ns') : Dealt defs exc st p ns' := by
  refine ⟨h.used, h.multi, fun o n x => ?_, fun o x => h.needs o (by rw [g.length_eq]; exact x)⟩
  subst x
  exact h.chain o n (List.perm_singleton.mp g)

theorem ensure_prefix (q : List Name) (n : Name) : q <+: ensure q n := by
  unfold ensure; split
  · exact List.prefix_rfl
  · exact List.prefix_append ..

theorem mem_ensure {q : List Name} {n x : Name} : x ∈ ensure q n ↔ x ∈ q ∨ x = n := by
  unfold ensure; split
  · constructor
    · exact .inl
    · rintro (h | rfl) <;> assumption
  · simp

theorem ensure_nodup {q : List Name} {n : Name} (h : q.Nodup) : (ensure q n).Nodup := by
  unfold ensure; split
  · exact h
  · rename_i hn
    rw [List.nodup_append]
    refine ⟨h, by simp, ?_⟩
    intro a ha b hb he
    simp only [List.mem_singleton] at hb
    subst hb; subst he
    exact hn ha

theorem oneCombo_grows (m : List (Puk × List R)) (lhs red gnts st combo) :
    Grows st (oneCombo m exc lhs red gnts st combo) := by
  unfold oneCombo
  dsimp only
  split
  · exact ⟨List.prefix_rfl, fun p h => by simp [h], fun _ h => h, id⟩
  · exact ⟨List.prefix_rfl, fun p h => by simp [h], fun _ h => by simp [h], id⟩
  · split
    · exact ⟨List.prefix_rfl, fun p h => by simp [h], fun _ h => h, id⟩
    · split
      · exact ⟨ensure_prefix .., fun p h => by simp [h], fun _ h => h, ensure_nodup⟩
      · exact ⟨List.prefix_rfl, fun p h => by simp [h], fun _ h => by simp [h], id⟩

theorem oneCombo_dealt (hn : ∀ d ∈ defs, d.2.Nodup) (lhs red gnts st combo) :
    Dealt defs exc (oneCombo (coverageMap defs) exc lhs red gnts st combo) ⟨lhs, red, comboBits combo⟩
      (gnts ++ requiredNts combo) := by
  unfold oneCombo
  dsimp only
  rw [getRules_map defs hn]
  split
  · rename_i d h
    exact ⟨by simp, by simp [h], by simp [Open, h], by simp [Open, h]⟩
  · rename_i d d' rest h
    exact ⟨by simp, by simp [h], by simp [Open, h], by simp [Open, h]⟩
  · rename_i h
    split
    · rename_i he
      exact ⟨by simp, by simp [h], by simp [Open, he], by simp [Open, he]⟩
    · split
      · rename_i n hg
        refine ⟨by simp, by simp [h], ?_, ?_⟩
        · intro _ k hk
          rw [hg, List.cons.injEq] at hk
          exact mem_ensure.mpr (.inr hk.1.symm)
        · intro _ hk
          rw [hg] at hk
          simp at hk
      · rename_i hg
        refine ⟨by simp, by simp [h], fun _ k hk => absurd hk (hg k), by simp⟩

theorem oneCombo_good (hn : ∀ d ∈ defs, d.2.Nodup) {lhs red gnts st combo ns}
    (hl : Needed G defs exc roots lhs) (hk : KeyOf G lhs ⟨lhs, red, comboBits combo⟩ ns)
    (hp : ns.Perm (gnts ++ requiredNts combo)) (h : Good G defs exc roots st) :
    Good G defs exc roots (oneCombo (coverageMap defs) exc lhs red gnts st combo) := by
  have hu : ∀ p ∈ (⟨lhs, red, comboBits combo⟩ : Puk) :: st.used, ∃ s ns, Needed G defs exc roots s ∧ KeyOf G s p ns := by
    intro p hp
    rcases List.mem_cons.mp hp with rfl | hp
    · exact ⟨lhs, ns, hl, hk⟩
    · exact h.used p hp
  unfold oneCombo
  dsimp only
  rw [getRules_map defs hn]
  split
  · exact ⟨h.queue, hu, h.out⟩
  · rename_i d d' rest hr
    refine ⟨h.queue, hu, ?_⟩
    intro x hx
    rcases List.mem_append.mp hx with hx | hx
    · exact h.out x hx
    · rw [List.mem_singleton] at hx
      subst hx
      exact ⟨by simp [hr], by omega, lhs, ns, hl, hk⟩
  · rename_i hr
    split
    · exact ⟨h.queue, hu, h.out⟩
    · rename_i he
      have he : exc lhs red = false := by simpa using he
      split
      · rename_i n hg
        refine ⟨?_, hu, h.out⟩
        intro x hx
        rcases mem_ensure.mp hx with hx | rfl
        · exact h.queue x hx
        · rw [hg] at hp
          have := List.perm_singleton.mp hp
          subst this
          exact .chain hl hk hr he
      · rename_i hg
        refine ⟨h.queue, hu, ?_⟩
        intro x hx
        rcases List.mem_append.mp hx with hx | hx
        · exact h.out x hx
        · rw [List.mem_singleton] at hx
          subst hx
          refine ⟨⟨hr, he⟩, lhs, ns, hl, hk, ?_⟩
          rw [hp.length_eq]
          intro hlen
          match hgs : gnts ++ requiredNts combo, hlen with
          | [n], _ => exact hg n hgs

theorem foldl_combos (hn : ∀ d ∈ defs, d.2.Nodup) {lhs red gnts} {its : List Item}
    (hl : Needed G defs exc roots lhs) {rhss} (hG : G lhs = .main rhss) (hi : its ∈ rhss) (hr : red = label its)
    (hg : gnts = plainNts its) :
    ∀ (combos : List (List (Sym × Bool))) (st : St), (∀ c ∈ combos, c.map (·.1) = rsqs its) →
      let st' := combos.foldl (oneCombo (coverageMap defs) exc lhs red gnts) st
      Grows st st' ∧ (Good G defs exc roots st → Good G defs exc roots st') ∧
      ∀ c ∈ combos, Dealt defs exc st' ⟨lhs, red, comboBits c⟩ (gnts ++ requiredNts c) := by
  intro combos
  induction combos with
  | nil => intro st _; exact ⟨.refl _, id, by simp⟩
  | cons c cs ih =>
    intro st hc
    have ⟨h1, h2, h3⟩ := ih (oneCombo (coverageMap defs) exc lhs red gnts st c) (fun x hx => hc x (by simp [hx]))
    refine ⟨(oneCombo_grows ..).trans h1, ?_, ?_⟩
    · intro hgood
      apply h2
      obtain ⟨ns, hi1, hi2⟩ := combo_instance its c (hc c (by simp))
      exact oneCombo_good hn hl ⟨rhss, its, hG, hi, rfl, hr, hi1⟩ (hg ▸ hi2) hgood
    · intro x hx
      rcases List.mem_cons.mp hx with rfl | hx
      · exact (oneCombo_dealt hn ..).mono h1
      · exact h3 x hx

theorem eachRhs_ok (hn : ∀ d ∈ defs, d.2.Nodup) {lhs} (hl : Needed G defs exc roots lhs) {all}
    (hG : G lhs = .main all) : ∀ (rhss : List (List Item)) (st st' : St), (∀ its ∈ rhss, its ∈ all) →
      eachRhs (coverageMap defs) exc lhs st rhss = some st' →
      Grows st st' ∧ (Good G defs exc roots st → Good G defs exc roots st') ∧
      ∀ its ∈ rhss, ∀ bits ns, InstanceNts its bits ns → Dealt defs exc st' ⟨lhs, label its, bits⟩ ns := by
  intro rhss
  induction rhss with
  | nil =>
    intro st st' _ h
    simp only [eachRhs, Option.some.injEq] at h
    subst h
    exact ⟨.refl _, id, by simp⟩
  | cons its rhss ih =>
    intro st st' hs h
    rw [eachRhs] at h
    cases h1 : oneRhs (coverageMap defs) exc lhs st its with
    | none => simp [h1] at h
    | some st1 =>
      simp only [h1] at h
      have ⟨g1, g2, g3⟩ := ih st1 st' (fun x hx => hs x (by simp [hx])) h
      unfold oneRhs at h1
      cases hr : reduceRhs its with
      | none => simp [hr] at h1
      | some red =>
        cases hc : optCombos (rsqs its) with
        | none => simp [hr, hc] at h1
        | some combos =>
          simp only [hr, hc, Option.some.injEq] at h1
          have hred := reduceRhs_eq hr
          have ⟨k1, k2, k3⟩ := foldl_combos (gnts := plainNts its) hn hl hG (hs its (by simp)) hred rfl combos st
            (fun c hcm => (mem_optCombos hc c).mp hcm)
          rw [h1] at k1 k2 k3
          refine ⟨k1.trans g1, g2 ∘ k2, ?_⟩
          intro its' hits' bits ns hins
          rcases List.mem_cons.mp hits' with rfl | hits'
          · obtain ⟨c, c1, c2, c3⟩ := instance_combo hins
            have := (k3 c ((mem_optCombos hc c).mpr c1)).mono g1
            rw [c2, hred] at this
            exact this.perm c3.symm
          · exact g3 its' hits' bits ns hins

theorem queueLoop_ok (hn : ∀ d ∈ defs, d.2.Nodup) : ∀ (k i : Nat) (st st' : St),
    queueLoop G (coverageMap defs) exc k i st = .ok st' → Good G defs exc roots st →
      Grows st st' ∧ Good G defs exc roots st' ∧
      ∀ (j : Nat) s, i ≤ j → st'.queue[j]? = some s → ∀ p ns, KeyOf G s p ns → Dealt defs exc st' p ns := by
  intro k
  induction k with
  | zero => intro i st st' h; simp [queueLoop] at h
  | succ k ih =>
    intro i st st' h hg
    rw [queueLoop] at h
    cases hq : st.queue[i]? with
    | none =>
      simp only [hq, Except.ok.injEq] at h
      subst h
      refine ⟨.refl _, hg, ?_⟩
      intro j s hj hs
      have h1 := List.getElem?_eq_none_iff.mp hq
      have : st.queue.length ≤ j := by omega
      rw [List.getElem?_eq_none this] at hs
      cases hs
    | some lhs =>
      simp only [hq] at h
      have hl : Needed G defs exc roots lhs := hg.queue _ (List.mem_of_getElem? hq)
      cases hG : G lhs with
      | unknown => simp [hG] at h
      | noMain =>
        simp only [hG] at h
        have ⟨h1, h2, h3⟩ := ih _ _ _ h hg
        refine ⟨h1, h2, ?_⟩
        intro j s hj hs p ns hk
        rcases Nat.eq_or_lt_of_le hj with rfl | hj
        · have : st'.queue[i]? = some lhs := by
            obtain ⟨t, ht⟩ := h1.queue
            rw [← ht, List.getElem?_append_left (List.getElem?_eq_some_iff.mp hq).1, hq]
          rw [this, Option.some.injEq] at hs
          subst hs
          obtain ⟨rhss, its, hG', _⟩ := hk
          rw [hG] at hG'
          cases hG'
        · exact h3 j s hj hs p ns hk
      | main rhss =>
        simp only [hG] at h
        cases he : eachRhs (coverageMap defs) exc lhs st rhss with
        | none => simp [he] at h
        | some st1 =>
          simp only [he] at h
          have ⟨e1, e2, e3⟩ := eachRhs_ok hn hl hG rhss st st1 (fun _ h => h) he
          have ⟨h1, h2, h3⟩ := ih _ _ _ h (e2 hg)
          refine ⟨e1.trans h1, h2, ?_⟩
          intro j s hj hs p ns hk
          rcases Nat.eq_or_lt_of_le hj with rfl | hj
          · have : st'.queue[i]? = some lhs := by
              obtain ⟨t, ht⟩ := (e1.trans h1).queue
              rw [← ht, List.getElem?_append_left (List.getElem?_eq_some_iff.mp hq).1, hq]
            rw [this, Option.some.injEq] at hs
            subst hs
            obtain ⟨rhss', its, hG', hi, hp, hr, hins⟩ := hk
            rw [hG] at hG'
            cases hG'
            have := (e3 its hi p.bits ns hins).mono h1
            rw [← hr, ← hp] at this
            exact this
          · exact h3 j s hj hs p ns hk

/-- At the end, the queue holds the needed nonterminals and all of their instances have been dealt with. -/
theorem queueLoop_final (hn : ∀ d ∈ defs, d.2.Nodup) {k : Nat} {st' : St}
    (h : queueLoop G (coverageMap defs) exc k 0 ⟨roots, [], []⟩ = .ok st') :
    Good G defs exc roots st' ∧ ∀ s, Needed G defs exc roots s → s ∈ st'.queue ∧
      ∀ p ns, KeyOf G s p ns → Dealt defs exc st' p ns := by
  have hg : Good G defs exc roots ⟨roots, [], []⟩ := ⟨fun n hn => .root hn, by simp, by simp⟩
  have ⟨h1, h2, h3⟩ := queueLoop_ok hn k 0 _ _ h hg
  refine ⟨h2, ?_⟩
  have hd : ∀ s, s ∈ st'.queue → ∀ p ns, KeyOf G s p ns → Dealt defs exc st' p ns := by
    intro s hs
    obtain ⟨j, hj⟩ := List.getElem?_of_mem hs
    exact h3 j s (Nat.zero_le _) hj
  intro s hs
  suffices s ∈ st'.queue from ⟨this, hd s this⟩
  induction hs with
  | root hr => exact h1.queue.subset hr
  | chain _ hk hr he ih => exact (hd _ ih _ _ hk).chain ⟨hr, he⟩ _ rfl

/-! ## Enough fuel, and no crash -/

/-- No assertion fails for a right-hand side. -/
def RhsOk (its : List Item) : Prop := (∃ r, reduceRhs its = some r) ∧ (rsqs its).length ≤ 3

theorem rhsOk_of (its : List Item)
    (h1 : ∀ k t, Item.qm (.other k t) ∈ its → k = .BACKTICKED_THING ∨ k = .NAMED_CHAR)
    (h2 : its.countP (fun it => match it with | .qm _ => true | .plain _ => false) ≤ 3) : RhsOk its := by
  have hp : ∃ ps, pieces its = some ps := by
    clear h2
    induction its with
    | nil => exact ⟨[], rfl⟩
    | cons it its ih =>
      obtain ⟨qs, hq⟩ := ih (fun k t hm => h1 k t (by simp [hm]))
      have : ∃ ps, piece it = some ps := by
        match it with
        | .plain (.gnt n _) => exact ⟨_, rfl⟩
        | .plain (.other k t) => cases k <;> exact ⟨_, rfl⟩
        | .qm (.gnt n _) => exact ⟨_, rfl⟩
        | .qm (.other k t) =>
          rcases h1 k t (by simp) with rfl | rfl <;> exact ⟨_, rfl⟩
      obtain ⟨ps, hp⟩ := this
      exact ⟨ps ++ qs, by simp [pieces, hp, hq]⟩
  have hl : (rsqs its).length = its.countP (fun it => match it with | .qm _ => true | .plain _ => false) := by
    clear h1 h2 hp
    induction its with
    | nil => rfl
    | cons it its ih => cases it <;> simp [rsqs, ih]
  obtain ⟨ps, hp⟩ := hp
  exact ⟨⟨_, by unfold reduceRhs; rw [hp]⟩, by omega⟩

theorem optCombos_some {l : List Sym} (h : l.length ≤ 3) : ∃ cs, optCombos l = some cs := by
  match l, h with
  | [], _ => exact ⟨_, rfl⟩
  | [_], _ => exact ⟨_, rfl⟩
  | [_, _], _ => exact ⟨_, rfl⟩
  | [_, _, _], _ => exact ⟨_, rfl⟩

theorem eachRhs_some (m : List (Puk × List R)) (lhs : Name) : ∀ (rhss : List (List Item)) (st : St),
    (∀ its ∈ rhss, RhsOk its) → ∃ st', eachRhs m exc lhs st rhss = some st' := by
  intro rhss
  induction rhss with
  | nil => intro st _; exact ⟨st, rfl⟩
  | cons its rhss ih =>
    intro st h
    obtain ⟨⟨r, hr⟩, hl⟩ := h its (by simp)
    obtain ⟨cs, hc⟩ := optCombos_some hl
    obtain ⟨st', h'⟩ := ih (cs.foldl (oneCombo m exc lhs r (plainNts its)) st) (fun x hx => h x (by simp [hx]))
    exact ⟨st', by simp only [eachRhs, oneRhs, hr, hc]; exact h'⟩

theorem queueLoop_some (hn : ∀ d ∈ defs, d.2.Nodup) {N : List Name}
    (hN : ∀ s, Needed G defs exc roots s → s ∈ N)
    (hok : ∀ s, Needed G defs exc roots s → G s ≠ .unknown ∧ ∀ rhss its, G s = .main rhss → its ∈ rhss → RhsOk its) :
    ∀ (k i : Nat) (st : St), N.length < k + i → st.queue.Nodup → Good G defs exc roots st →
      i ≤ st.queue.length → ∃ st', queueLoop G (coverageMap defs) exc k i st = .ok st' := by
  intro k
  induction k with
  | zero =>
    intro i st hk hnd hg hi
    have := nodup_length_le hnd (fun s hs => hN s (hg.queue s hs))
    omega
  | succ k ih =>
    intro i st hk hnd hg hi
    rw [queueLoop]
    cases hq : st.queue[i]? with
    | none => exact ⟨st, rfl⟩
    | some lhs =>
      have hlt := (List.getElem?_eq_some_iff.mp hq).1
      have hl : Needed G defs exc roots lhs := hg.queue _ (List.mem_of_getElem? hq)
      have ⟨hu, hrs⟩ := hok lhs hl
      simp only
      cases hG : G lhs with
      | unknown => exact absurd hG hu
      | noMain => exact ih (i + 1) st (by omega) hnd hg (by omega)
      | main rhss =>
        obtain ⟨st1, he⟩ := eachRhs_some (exc := exc) (coverageMap defs) lhs rhss st (fun its hi => hrs rhss its hG hi)
        simp only [he]
        have ⟨e1, e2, _⟩ := eachRhs_ok hn hl hG rhss st st1 (fun _ h => h) he
        have := e1.queue.length_le
        exact ih (i + 1) st1 (by omega) (e1.nodup hnd) (e2 hg) (by omega)

end Verif.Sdo
