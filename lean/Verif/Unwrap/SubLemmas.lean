import Verif.Unwrap.Spec
import Verif.Env.TypeLemmas
import Verif.Calls.TypeLemmas
/-! # Subtypes among types of Completion Records -/
namespace Verif.Unwrap
open Verif.Types Verif.Env Verif.Calls

variable {cfg : Cfg} {ord : List Ty → List Ty}

theorem subWith_gen {A B : Ty} {g : List Ty → Option Bool} (h1 : B ≠ .hier Top) (h2 : .tbd ∉ members A) (h3 : .tbd ∉ members B) :
    subWith A B g = if members A ⊆ members B then some true else g (members B) := by
  unfold subWith
  rw [if_neg h1, if_neg (fun h => h.elim h2 h3)]

theorem any_one {f : Ty → Option Bool} (b : Ty) : anyOpt f [b] = f b := by
  rw [anyOpt]
  split
  · rename_i h; rw [h]; rfl
  · rfl

theorem sub_rec (s s' : String) (fs fs' : Fields) : sub cfg (.record s fs) (.record s' fs') =
    if Ty.record s fs = .record s' fs' then some true else recordSub cfg s (relF cfg fs) s' fs' := by
  have h : sub cfg (.record s fs) (.record s' fs') = subWith (.record s fs) (.record s' fs') (anyOpt (rel cfg (.record s fs)).1) := rfl
  rw [h, subWith_gen (by simp) (by simp [members]) (by simp [members])]
  by_cases e : Ty.record s fs = .record s' fs'
  · rw [if_pos e, if_pos (by rw [e]; exact fun _ h => h)]
  · rw [if_neg e, if_neg (fun h => e (by simpa [members] using h (show Ty.record s fs ∈ members (.record s fs) from List.mem_singleton.2 rfl)))]
    have h2 : members (.record s' fs') = [.record s' fs'] := rfl
    have h3 : (rel cfg (.record s fs)).1 (.record s' fs') = if Ty.record s fs = .record s' fs' then some true else recordSub cfg s (relF cfg fs) s' fs' := rfl
    rw [h2, any_one, h3, if_neg e]

theorem recordSub_comp (hr : Ready cfg) (fa : List (String × (Ty → Option Bool))) (fb : Fields) : recordSub cfg CRN fa CRN fb =
    allOpt (fun (p : String × Ty) => match fa.lookup p.1 with
          | none => some false
          | some rel => rel p.2) fb := by
  obtain ⟨i, h1, h2⟩ := hr.schema
  have h1' : cfg.schema CRN = some i := h1
  unfold recordSub
  rw [if_neg (by decide), if_neg (by decide), h1']
  simp only [if_pos h2]
  rfl

theorem leaf_anc (hc : CfgOk cfg) {a b : String} (hl : IsLeaf cfg.tree a) (h : Anc cfg.tree a b) : a = b := by
  refine Classical.byContradiction (fun hne => ?_)
  obtain ⟨c, hcc⟩ := exists_child hc.nodup h hne
  exact hl c hcc

theorem sub_kind (hr : Ready cfg) {k k' : String} (hk : k ∈ kinds) (hk' : k' ∈ kinds) :
    (rel cfg (.hier k)).2 (.hier k') = some (decide (k = k')) := by
  have h := sub_hier hr.ok (hr.kinds k hk).1 (B := .hier k') (flat_hier (hr.kinds k' hk').1)
  unfold sub at h
  simp only [members, List.mem_singleton] at h
  rcases h with ⟨h, b, e, ha⟩ | ⟨h, hn⟩
  · injection e with e; subst e
    rw [h, leaf_anc hr.ok (hr.kinds _ hk').2 ha]; simp
  · rw [h, decide_eq_false]
    rintro rfl
    exact hn k rfl (Anc.refl (hr.kinds k hk).1)

theorem comp_isComp {k : String} (hk : k ∈ kinds) (u : Option Ty) : IsComp (comp k u) := .inr ⟨k, hk, u, rfl⟩

theorem comp_ne_any (k : String) (u : Option Ty) : comp k u ≠ anyCompletion := by
  cases u <;> simp [comp, anyCompletion]

theorem comp_inj {k k' : String} {u u' : Option Ty} (h : comp k u = comp k' u') : k = k' ∧ u = u' := by
  cases u <;> cases u' <;> simp [comp] at h ⊢ <;> exact h

theorem isComp_record {m : Ty} (h : IsComp m) : ∃ fs, m = .record CRN fs := by
  rcases h with rfl | ⟨k, _, u, rfl⟩
  · exact ⟨_, rfl⟩
  · cases u <;> exact ⟨_, rfl⟩

theorem sub_any (hr : Ready cfg) {m : Ty} (h : IsComp m) : sub cfg m TCR = some true := by
  obtain ⟨fs, rfl⟩ := isComp_record h
  rw [TCR, sub_rec]
  split
  · rfl
  · rw [recordSub_comp hr]; rfl

theorem sub_comp (hr : Ready cfg) {k k' : String} (hk : k ∈ kinds) (hk' : k' ∈ kinds) (u : Option Ty) :
    sub cfg (comp k u) (completionType k') = some (decide (k = k')) := by
  have hrel : ∀ fs : Fields, fs.lookup "[[Type]]" = some (.hier k) → (relF cfg fs).lookup "[[Type]]" = some (rel cfg (.hier k)).2 := by
    intro fs
    induction fs with
    | nil => intro h; simp at h
    | cons p fs ih =>
      obtain ⟨n, t⟩ := p
      intro h
      rw [relF, List.lookup_cons]
      rw [List.lookup_cons] at h
      split
      · rename_i e; rw [e] at h; injection h with h; rw [h]
      · rename_i e; rw [e] at h; exact ih h
  have key : ∀ fs : Fields, fs.lookup "[[Type]]" = some (.hier k) →
      sub cfg (.record CRN fs) (completionType k') = some (decide (k = k')) := by
    intro fs hfs
    rw [completionType, sub_rec]
    split
    · rename_i e
      injection e with _ e
      subst e
      simp at hfs
      rw [hfs]; simp
    · rw [recordSub_comp hr]
      simp only [allOpt, hrel fs hfs]
      rw [sub_kind hr hk hk']
      by_cases e : k = k' <;> simp [e]
  cases u with
  | none => exact key _ (by simp)
  | some u => exact key _ (by simp)

theorem any_not_sub (hr : Ready cfg) (k : String) : sub cfg TCR (completionType k) = some false := by
  rw [TCR, completionType, sub_rec, if_neg (by simp), recordSub_comp hr]
  rfl

theorem not_sub_comp (hr : Ready cfg) {k k' : String} (hk : k ∈ kinds) (hk' : k' ∈ kinds) (u : Ty) :
    sub cfg (completionType k) (comp k' (some u)) = some false := by
  rw [completionType, comp, sub_rec, if_neg (by simp)]
  have := recordSub_comp hr (relF cfg [("[[Type]]", .hier k)]) [("[[Type]]", .hier k'), ("[[Value]]", u)]
  rw [CRN] at this ⊢
  rw [this]
  simp only [allOpt, relF, List.lookup, beq_self_eq_true]
  rw [sub_kind hr hk hk']
  have e : ("[[Value]]" == "[[Type]]") = false := by decide
  simp only [e]
  by_cases e : k = k' <;> simp [e]

theorem hier_not_sub {n : String} {fs : Fields} : sub cfg (.hier n) (.record CRN fs) = some false := by
  have h : sub cfg (.hier n) (.record CRN fs) = subWith (.hier n) (.record CRN fs) (anyOpt (rel cfg (.hier n)).1) := rfl
  rw [h, subWith_gen (by simp) (by simp [members]) (by simp [members]), if_neg (by simp [members])]
  have h2 : members (.record CRN fs) = [.record CRN fs] := rfl
  rw [h2, any_one]
  have h3 : (rel cfg (.hier n)).1 (.record CRN fs) = if Ty.hier n = .record CRN fs then some true else some false := rfl
  rw [h3, if_neg (by simp)]

theorem any_sub_hier (hr : Ready cfg) {n : String} (hn : n ∈ names cfg.tree) (hnr : ¬ Anc cfg.tree n "Record") (fs : Fields) :
    sub cfg (.record CRN fs) (.hier n) = some false := by
  have htop : n ≠ Top := by
    rintro rfl
    refine hnr ?_
    rw [← hr.ok.root]
    exact .here hr.record
  have h : sub cfg (.record CRN fs) (.hier n) = subWith (.record CRN fs) (.hier n) (anyOpt (rel cfg (.record CRN fs)).1) := rfl
  rw [h, subWith_gen (by simpa using htop) (by simp [members]) (by simp [members]), if_neg (by simp [members])]
  have h2 : members (.hier n) = [.hier n] := rfl
  rw [h2, any_one]
  have h3 : (rel cfg (.record CRN fs)).1 (.hier n) = if Ty.record CRN fs = .hier n then some true else namedSub cfg.tree RecordN n := rfl
  rw [h3, if_neg (by simp)]
  have h1 : namedSub cfg.tree RecordN n = hierSub cfg.tree RecordN n := by unfold namedSub; rw [if_neg htop]
  rw [h1]
  rcases hier_member hr.ok (a := RecordN) hr.record hn with h | ⟨h, _⟩
  · exact absurd (hier_member_true hr.ok hr.record h) hnr
  · have h4 : (rel cfg (.hier RecordN)).1 (.hier n) = if Ty.hier RecordN = .hier n then some true else hierSub cfg.tree RecordN n := rfl
    rw [h4] at h
    split at h
    · cases h
    · exact h

end Verif.Unwrap
