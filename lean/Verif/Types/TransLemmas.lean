import Verif.Types.SubLemmas
/-! # The subtype test is reflexive and transitive -/
namespace Verif.Types

variable {cfg : Cfg}

theorem sub_unfold (A B : Ty) : sub cfg A B = subWith A B (fun bs => match A with
    | .union ms => relAll cfg ms bs
    | a => anyOpt (rel cfg a).1 bs) := by
  cases A with
  | tbd => simp [sub, rel]
  | _ => rfl

theorem rel_self {a : Ty} : (rel cfg a).1 a ≠ some false := by
  cases a <;> simp [rel, memberWith]

theorem sub_refl {A : Ty} (h : .tbd ∉ members A) : sub cfg A A = some true := by
  rw [sub_unfold]
  unfold subWith
  split
  · rfl
  · rw [if_neg (by simp [h]), if_pos (List.Subset.refl _)]

/-- Related as members. -/
def MemRel (cfg : Cfg) (a b : Ty) : Prop := a = b ∨ (rel cfg a).1 b = some true

theorem sub_true {A B : Ty} (h : sub cfg A B = some true) : B = .hier Top ∨
    (.tbd ∉ members A ∧ .tbd ∉ members B ∧ ∀ a ∈ members A, ∃ b ∈ members B, MemRel cfg a b) := by
  rw [sub_unfold] at h
  unfold subWith at h
  split at h
  · exact .inl ‹_›
  · right
    split at h
    · cases h
    · rename_i hn
      have hn : .tbd ∉ members A ∧ .tbd ∉ members B := not_or.1 hn
      refine ⟨hn.1, hn.2, ?_⟩
      split at h
      · rename_i hs
        intro a ha
        exact ⟨a, hs ha, .inl rfl⟩
      · intro a ha
        cases A with
        | union ms =>
          obtain ⟨b, hb, h⟩ := relAll_true h a ha
          exact ⟨b, hb, .inr h⟩
        | _ =>
          simp only [members, List.mem_singleton] at ha
          subst ha
          obtain ⟨b, hb, h⟩ := anyOpt_true h
          exact ⟨b, hb, .inr h⟩

theorem sub_ne_false {A B : Ty} (h1 : .tbd ∉ members A) (h2 : .tbd ∉ members B)
    (h : ∀ a ∈ members A, ∃ b ∈ members B, (rel cfg a).1 b ≠ some false) : sub cfg A B ≠ some false := by
  rw [sub_unfold]
  unfold subWith
  split
  · simp
  · rw [if_neg (by simp [h1, h2])]
    split
    · simp
    · cases A with
      | union ms =>
        apply relAll_ne_false
        intro m hm
        obtain ⟨b, hb, hne⟩ := h m hm
        exact anyOpt_ne_false hb hne
      | _ =>
        obtain ⟨b, hb, hne⟩ := h _ (List.mem_singleton.2 rfl)
        exact anyOpt_ne_false hb hne

theorem anc_root {t : Tree} {b} (h : b ∈ names t) : Anc t t.name b := .here h

theorem hierSub_trans (hc : CfgOk cfg) {a b c} (h1 : hierSub cfg.tree a b = some true) (h2 : hierSub cfg.tree b c = some true) :
    hierSub cfg.tree a c = some true := by
  rw [hierSub_iff hc.nodup] at *
  rcases h1 with rfl | h1
  · exact h2
  · rcases h2 with rfl | h2
    · exact .inr h1
    · exact .inr (h2.trans hc.nodup h1)

theorem hierSub_top (hc : CfgOk cfg) {c} (h : hierSub cfg.tree Top c = some true) : c = Top := by
  rcases (hierSub_iff hc.nodup).1 h with rfl | h
  · rfl
  · have h2 := anc_root h.mem_left
    rw [hc.root] at h2
    exact (h2.antisymm hc.nodup h).symm

theorem namedSub_trans (hc : CfgOk cfg) {a b c} (h1 : namedSub cfg.tree a b = some true) (h2 : hierSub cfg.tree b c = some true) :
    namedSub cfg.tree a c = some true := by
  unfold namedSub at *
  split
  · rfl
  · rename_i hc'
    split at h1
    · rename_i e
      subst e
      exact absurd (hierSub_top hc h2) hc'
    · exact hierSub_trans hc h1 h2

theorem rel_top (hc : CfgOk cfg) (a : Ty) : (rel cfg a).1 (.hier Top) ≠ some false := by
  cases a with
  | tbd => simp [rel]
  | union ms => simp [rel]
  | hier n =>
    simp only [rel, memberWith]
    split
    · simp
    · unfold hierSub
      split
      · simp
      · rename_i hne
        split
        · rename_i pa pb hpa hpb
          have hanc := anc_root (path_mem hpa)
          rw [hc.root] at hanc
          obtain ⟨q, r, h1, rfl, h3⟩ := path_prefix hc.nodup hpa hanc
          rw [hpb] at h1
          injection h1 with h1
          subst h1
          have := h3 hne
          have hr : 0 < r.length := List.length_pos_iff.2 this
          rw [if_neg (by simp; omega)]
          simp
        · simp
  | list t => simp [rel, memberWith, namedSub]
  | record s fs => simp [rel, memberWith, namedSub]
  | proc ps r => simp [rel, memberWith, namedSub]

theorem top_sub (hc : CfgOk cfg) {C : Ty} (h : sub cfg (.hier Top) C = some true) :
    C = .hier Top ∨ (.tbd ∉ members C ∧ .hier Top ∈ members C) := by
  rcases sub_true h with h | ⟨_, h2, h⟩
  · exact .inl h
  · right
    refine ⟨h2, ?_⟩
    obtain ⟨b, hb, h⟩ := h (.hier Top) (by simp [members])
    rcases h with rfl | h
    · exact hb
    · simp only [rel] at h
      unfold memberWith at h
      split at h
      · cases h
      · cases h
      · split at h
        · rename_i e; rw [e]; exact hb
        · dsimp only at h
          split at h
          · rw [hierSub_top hc h] at hb; exact hb
          · cases h

theorem recordSub_trans (hc : CfgOk cfg) {s s' s'' : String} {fs fs' fs'' : List (String × Ty)}
    (ih : ∀ p ∈ fs, ∀ B C, sub cfg p.2 B = some true → sub cfg B C = some true → sub cfg p.2 C ≠ some false)
    (h1 : recordSub cfg s (relF cfg fs) s' fs' = some true) (h2 : recordSub cfg s' (relF cfg fs') s'' fs'' = some true) :
    recordSub cfg s (relF cfg fs) s'' fs'' ≠ some false := by
  unfold recordSub at h1
  split at h1
  · rename_i e
    obtain ⟨rfl, rfl⟩ := e
    split at h1
    · rename_i hk
      unfold recordSub at h2
      split at h2
      · rename_i e2
        obtain ⟨_, rfl⟩ := e2
        split at h2
        · rename_i hk2
          unfold recordSub
          rw [if_pos ⟨rfl, rfl⟩]
          split
          · intro hf
            obtain ⟨q, hq, hf⟩ := allOpt_false hf
            obtain ⟨p, hp, rfl⟩ := relF_mem.1 hq
            simp only at hf
            rw [allOpt_true] at h1 h2
            have g1 := h1 _ hq
            simp only at g1
            cases hl : fs'.lookup p.1 with
            | none => rw [hl] at g1; cases g1
            | some bt =>
              rw [hl] at g1
              have g2 := h2 _ (relF_mem.2 ⟨(p.1, bt), lookup_mem hl, rfl⟩)
              simp only at g2
              cases hl2 : fs''.lookup p.1 with
              | none => rw [hl2] at g2; cases g2
              | some ct =>
                rw [hl2] at g2 hf
                exact ih p hp bt ct g1 g2 hf
          · simp
        · cases h2
      · rename_i hn
        rw [if_pos (.inl rfl)] at h2
        cases h2
    · cases h1
  · rename_i h0
    split at h1
    · cases h1
    · rename_i hs
      have hs := not_or.1 hs
      split at h1
      · rename_i ia ib hia hib
        split at h1
        · rename_i hsup
          unfold recordSub at h2
          rw [if_neg (fun h => hs.2 h.1)] at h2
          split at h2
          · cases h2
          · rename_i hs2
            have hs2 := not_or.1 hs2
            split at h2
            · rename_i ib' ic hib' hic
              rw [hib] at hib'
              injection hib' with hib'
              subst hib'
              split at h2
              · rename_i hsup2
                unfold recordSub
                rw [if_neg (fun h => hs.1 h.1), if_neg (by simp [hs.1, hs2.2]), hia, hic]
                simp only
                rw [if_pos (hc.supers _ _ _ hsup hsup2)]
                intro hf
                obtain ⟨q, hq, hf⟩ := allOpt_false hf
                rw [allOpt_true] at h1 h2
                have g2 := h2 q hq
                rw [relF_lookup] at g2 hf
                cases hl : fs'.lookup q.1 with
                | none => rw [hl] at g2; cases g2
                | some bt =>
                  rw [hl] at g2
                  have g1 := h1 _ (lookup_mem hl)
                  rw [relF_lookup] at g1
                  simp only at g1
                  cases hl2 : fs.lookup q.1 with
                  | none => rw [hl2] at g1; cases g1
                  | some t =>
                    rw [hl2] at g1 hf
                    exact ih _ (lookup_mem hl2) bt q.2 g1 g2 hf
              · cases h2
            · cases h2
        · cases h1
      · cases h1

theorem hier_right {m : String} {C : Ty} (h : (rel cfg (.hier m)).1 C = some true) :
    ∃ k, C = .hier k ∧ hierSub cfg.tree m k = some true := by
  simp only [rel] at h
  unfold memberWith at h
  split at h
  · cases h
  · cases h
  · split at h
    · rename_i e; exact ⟨m, e.symm, by simp [hierSub]⟩
    · dsimp only at h
      split at h
      · exact ⟨_, rfl, h⟩
      · cases h

theorem sub_trans_of_mem (hc : CfgOk cfg) {A : Ty} (hA : .tbd ∉ members A)
    (hm : ∀ a ∈ members A, ∀ b c, (rel cfg a).1 b = some true → (rel cfg b).1 c = some true → (rel cfg a).1 c ≠ some false)
    {B C : Ty} (h1 : sub cfg A B = some true) (h2 : sub cfg B C = some true) : sub cfg A C ≠ some false := by
  rcases sub_true h2 with rfl | ⟨_, hC, h2'⟩
  · rw [sub_unfold]; simp [subWith]
  rcases sub_true h1 with rfl | ⟨_, hB, h1'⟩
  · rcases top_sub hc h2 with rfl | ⟨_, ht⟩
    · rw [sub_unfold]; simp [subWith]
    · exact sub_ne_false hA hC (fun a ha => ⟨_, ht, rel_top hc a⟩)
  · refine sub_ne_false hA hC (fun a ha => ?_)
    obtain ⟨b, hb, hab⟩ := h1' a ha
    obtain ⟨c, hcm, hbc⟩ := h2' b hb
    refine ⟨c, hcm, ?_⟩
    rcases hab with rfl | hab
    · rcases hbc with rfl | hbc
      · exact rel_self
      · rw [hbc]; simp
    · rcases hbc with rfl | hbc
      · rw [hab]; simp
      · exact hm a ha b c hab hbc

theorem tbdFree_members {A : Ty} (h : TBDFree A) : .tbd ∉ members A := by
  intro hm
  exact (Deep.mem h hm).self rfl

theorem rel_trans (hc : CfgOk cfg) (A : Ty) : TBDFree A →
    (∀ B C, (rel cfg A).1 B = some true → (rel cfg B).1 C = some true → (rel cfg A).1 C ≠ some false) ∧
    (∀ B C, sub cfg A B = some true → sub cfg B C = some true → sub cfg A C ≠ some false) := by
  induction A using Ty.ind with
  | tbd => intro h; exact absurd rfl h.self
  | hier n =>
    intro hA
    have hm : ∀ B C, (rel cfg (.hier n)).1 B = some true → (rel cfg B).1 C = some true → (rel cfg (.hier n)).1 C ≠ some false := by
      intro B C h1 h2
      obtain ⟨m, rfl, g1⟩ := hier_right h1
      obtain ⟨k, rfl, g2⟩ := hier_right h2
      have := hierSub_trans hc g1 g2
      simp only [rel, memberWith]
      split
      · simp
      · rw [this]; simp
    exact ⟨hm, fun B C h1 h2 => sub_trans_of_mem hc (tbdFree_members hA) (by
      intro a ha; simp [members] at ha; subst ha; exact hm) h1 h2⟩
  | list t ih =>
    intro hA
    have hm : ∀ B C, (rel cfg (.list t)).1 B = some true → (rel cfg B).1 C = some true → (rel cfg (.list t)).1 C ≠ some false := by
      intro B C h1 h2
      by_cases hAB : Ty.list t = B
      · subst hAB; rw [h2]; simp
      by_cases hBC : B = C
      · subst hBC; rw [h1]; simp
      simp only [rel] at h1
      unfold memberWith at h1
      split at h1
      · cases h1
      · cases h1
      · rw [if_neg hAB] at h1
        dsimp only at h1
        split at h1
        · rename_i u
          simp only [rel] at h2 ⊢
          unfold memberWith at h2 ⊢
          split at h2
          · cases h2
          · cases h2
          · rw [if_neg hBC] at h2
            dsimp only at h2
            split at h2
            · simp only
              split
              · simp
              · exact (ih hA.2).2 _ _ h1 h2
            · simp only
              split
              · simp
              · rw [h2]; simp
            · cases h2
            · cases h2
        · obtain ⟨k, rfl, g2⟩ := hier_right h2
          have := namedSub_trans hc h1 g2
          simp only [rel, memberWith]
          split
          · simp
          · rw [this]; simp
        · cases h1
        · cases h1
    exact ⟨hm, fun B C h1 h2 => sub_trans_of_mem hc (tbdFree_members hA) (by
      intro a ha; simp [members] at ha; subst ha; exact hm) h1 h2⟩
  | record s fs ih =>
    intro hA
    have hm : ∀ B C, (rel cfg (.record s fs)).1 B = some true → (rel cfg B).1 C = some true → (rel cfg (.record s fs)).1 C ≠ some false := by
      intro B C h1 h2
      by_cases hAB : Ty.record s fs = B
      · subst hAB; rw [h2]; simp
      by_cases hBC : B = C
      · subst hBC; rw [h1]; simp
      simp only [rel] at h1
      unfold memberWith at h1
      split at h1
      · cases h1
      · cases h1
      · rw [if_neg hAB] at h1
        dsimp only at h1
        split at h1
        · rename_i s' fs'
          simp only [rel] at h2 ⊢
          unfold memberWith at h2 ⊢
          split at h2
          · cases h2
          · cases h2
          · rw [if_neg hBC] at h2
            dsimp only at h2
            split at h2
            · simp only
              split
              · simp
              · exact recordSub_trans hc (fun p hp => (ih p hp (deepF_iff.1 hA.2 p hp)).2) h1 h2
            · simp only
              split
              · simp
              · rw [h2]; simp
            · cases h2
            · cases h2
            · cases h2
        · obtain ⟨k, rfl, g2⟩ := hier_right h2
          have := namedSub_trans hc h1 g2
          simp only [rel, memberWith]
          split
          · simp
          · rw [this]; simp
        · cases h1
        · cases h1
        · cases h1
    exact ⟨hm, fun B C h1 h2 => sub_trans_of_mem hc (tbdFree_members hA) (by
      intro a ha; simp [members] at ha; subst ha; exact hm) h1 h2⟩
  | proc ps r ih =>
    intro hA
    have hm : ∀ B C, (rel cfg (.proc ps r)).1 B = some true → (rel cfg B).1 C = some true → (rel cfg (.proc ps r)).1 C ≠ some false := by
      intro B C h1 h2
      by_cases hAB : Ty.proc ps r = B
      · subst hAB; rw [h2]; simp
      by_cases hBC : B = C
      · subst hBC; rw [h1]; simp
      simp only [rel] at h1
      unfold memberWith at h1
      split at h1
      · cases h1
      · cases h1
      · rw [if_neg hAB] at h1
        dsimp only at h1
        split at h1
        · rename_i ps' r'
          split at h1
          · rename_i hl
            simp only [rel] at h2 ⊢
            unfold memberWith at h2 ⊢
            split at h2
            · cases h2
            · cases h2
            · rw [if_neg hBC] at h2
              dsimp only at h2
              split at h2
              · split at h2
                · rename_i hl2
                  simp only
                  split
                  · simp
                  · rw [if_pos (hl.trans hl2)]
                    exact (ih hA.2).2 _ _ h1 h2
                · cases h2
              · simp only
                split
                · simp
                · rw [h2]; simp
              · cases h2
              · cases h2
              · cases h2
          · cases h1
        · obtain ⟨k, rfl, g2⟩ := hier_right h2
          have := namedSub_trans hc h1 g2
          simp only [rel, memberWith]
          split
          · simp
          · rw [this]; simp
        · cases h1
        · cases h1
        · cases h1
    exact ⟨hm, fun B C h1 h2 => sub_trans_of_mem hc (tbdFree_members hA) (by
      intro a ha; simp [members] at ha; subst ha; exact hm) h1 h2⟩
  | union ms ih =>
    intro hA
    refine ⟨fun B C h => by simp [rel] at h, fun B C h1 h2 => sub_trans_of_mem hc (tbdFree_members hA) ?_ h1 h2⟩
    intro a ha
    exact (ih a ha (deepL_iff.1 hA.2 a ha)).1

end Verif.Types
