import Verif.Calls.TypeLemmas
/-! # The subtype test is exact on unions of names -/
namespace Verif.Calls
open Verif.Types Verif.Env

variable {cfg : Cfg} {ord : List Ty → List Ty}

theorem leaf_under (hc : CfgOk cfg) {n : String} (hn : n ∈ names cfg.tree) : ∃ l, Anc cfg.tree n l ∧ IsLeaf cfg.tree l := by
  let I : Interp := { V := Unit, named := fun _ _ => True, tbd := fun _ => False, elems := fun _ => none, schemaOf := fun _ => none, field := fun _ _ => none, procs := fun _ _ _ => False }
  obtain ⟨l, h1, h2, _⟩ := exists_leaf (I := I) (fun p v _ ⟨c, hcc⟩ => ⟨c, hcc, trivial⟩) hc hn (v := ()) trivial
  exact ⟨l, h1, h2⟩

theorem child_toward {t : Tree} : (names t).Nodup → ∀ {a b}, Anc t a b → a ≠ b → ∃ c, ChildOf t a c ∧ Anc t c b := by
  induction t using Tree.ind with
  | h n cs ih =>
    intro hnd a b h hne
    rcases anc_node.1 h with ⟨rfl, hb⟩ | ⟨c, hcc, h⟩
    · rcases mem_names.1 hb with rfl | ⟨c, hcc, hb⟩
      · exact absurd rfl hne
      · exact ⟨c.name, .here hcc, .deeper hcc (.here hb)⟩
    · obtain ⟨d, h1, h2⟩ := ih c hcc (nodup_child (nodup_node hnd).2 c hcc) h hne
      exact ⟨d, .deeper hcc h1, .deeper hcc h2⟩

theorem children_apart {t : Tree} : (names t).Nodup → ∀ {p c d l}, ChildOf t p c → ChildOf t p d → Anc t c l → Anc t d l → c = d := by
  induction t using Tree.ind with
  | h n cs ih =>
    intro hnd p c d l h1 h2 h3 h4
    have hnl := nodup_node hnd
    rcases childOf_node.1 h1 with ⟨rfl, c1, hc1, rfl⟩ | ⟨c1, hc1, h1'⟩ <;> rcases childOf_node.1 h2 with ⟨e, d1, hd1, rfl⟩ | ⟨d1, hd1, h2'⟩
    · have e1 := ((anc_from_child hnd hc1 (name_mem c1)).1 h3).mem_right
      have e2 := ((anc_from_child hnd hd1 (name_mem d1)).1 h4).mem_right
      rw [same_child hnl.2 c1 hc1 d1 hd1 l e1 e2]
    · exact absurd (mem_namesL.2 ⟨d1, hd1, h2'.mem_left⟩) hnl.1
    · subst e
      exact absurd (mem_namesL.2 ⟨c1, hc1, h1'.mem_left⟩) hnl.1
    · have e := same_child hnl.2 c1 hc1 d1 hd1 p h1'.mem_left h2'.mem_left
      subst e
      exact ih c1 hc1 (nodup_child hnl.2 c1 hc1) h1' h2' ((anc_from_child hnd hc1 h1'.mem_right).1 h3) ((anc_from_child hnd hc1 h2'.mem_right).1 h4)

/-- If all leaves under `n` are under `m`, then `n` is. -/
theorem full_single (hc : CfgOk cfg) (hoc : NoOnlyChild cfg) {m n : String} (hn : n ∈ names cfg.tree)
    (h : ∀ l, Anc cfg.tree n l → IsLeaf cfg.tree l → Anc cfg.tree m l) : Anc cfg.tree m n := by
  obtain ⟨l, h1, h2⟩ := leaf_under hc hn
  rcases Anc.linear hc.nodup (h l h1 h2) h1 with h3 | h3
  · exact h3
  · by_cases e : n = m
    · subst e; exact h3
    · obtain ⟨c, hcc, hcm⟩ := child_toward hc.nodup h3 e
      obtain ⟨d, hdc, hd⟩ := hoc n c hcc
      obtain ⟨l', h4, h5⟩ := leaf_under hc hd.mem_right
      have h6 := h l' (hd.anc.trans hc.nodup h4) h5
      exact absurd (children_apart hc.nodup hd hcc h4 (hcm.trans hc.nodup h6)) hdc

/-- A name whose leaves are all in a union of names is below a member of the union. -/
theorem union_covers (hc : CfgOk cfg) (ho : SetOrder ord) (hoc : NoOnlyChild cfg) {ns : List String} (hl : "List" ∉ ns)
    {T : Ty} (hT : unionOf cfg ord (ns.map .hier) = some T) {n : String} (hn : n ∈ names cfg.tree) (hf : Full cfg.tree ns n) :
    ∃ m, .hier m ∈ members T ∧ Anc cfg.tree m n := by
  by_cases hd : ∃ a ∈ ns, ∃ b ∈ ns, a ≠ b
  · obtain ⟨a, ha, b, hb, hab⟩ := hd
    obtain ⟨S, e, _, h2, _⟩ := c17_canonical hc ho hl ha hb hab
    rw [hT] at e
    injection e with e; subst e
    obtain ⟨m, hm, hmf⟩ := exists_maxFull ns cfg.tree hc.nodup n hn hf
    exact ⟨m, (h2 m hm.mem_left).2 hmf, hm⟩
  · obtain ⟨l, h1, h2⟩ := leaf_under hc hn
    obtain ⟨a, ha, hal⟩ := hf l h1 h2
    have hall : ∀ b ∈ ns, b = a := fun b hb => Classical.byContradiction (fun hne => hd ⟨b, hb, a, ha, hne⟩)
    have hTa : T = .hier a := by
      have : unionStep cfg ord (unionOf cfg ord) (ns.map .hier) = some (.hier a) := by
        unfold unionStep
        have hord : ord (ns.map .hier) = [.hier a] := by
          have hnd := (ho (ns.map .hier)).1
          have hmem := (ho (ns.map .hier)).2
          have hall' : ∀ x ∈ ord (ns.map .hier), x = .hier a := by
            intro x hx
            obtain ⟨k, hk, rfl⟩ := List.mem_map.1 ((hmem x).1 hx)
            rw [hall k hk]
          have hin := (hmem (.hier a)).2 (List.mem_map.2 ⟨a, ha, rfl⟩)
          match hl : ord (ns.map .hier), hnd, hall', hin with
          | [], _, _, hin => cases hin
          | [x], _, hall', _ => rw [hall' x (by simp)]
          | x :: y :: _, hnd, hall', _ =>
            rw [hall' x (by simp), hall' y (by simp)] at hnd
            simp at hnd
        cases hns : ns with
        | nil => rw [hns] at ha; cases ha
        | cons b bs =>
          rw [hns] at hord
          rw [List.map_cons] at hord ⊢
          dsimp only
          rw [hord]
      rw [unionOf_eq ho, this] at hT
      injection hT with hT
      exact hT.symm
    subst hTa
    refine ⟨a, by simp [members], full_single hc hoc hn (fun l h1 h2 => ?_)⟩
    obtain ⟨b, hb, hbl⟩ := hf l h1 h2
    exact hall b hb ▸ hbl

/-- The subtype test between types given by names has an answer. -/
theorem sub_total (hc : CfgOk cfg) {A B : Ty} (hA : Flat cfg A) (hB : Flat cfg B) : sub cfg A B = some true ∨ sub cfg A B = some false := by
  rw [sub_unfold]
  unfold subWith
  split
  · exact .inl rfl
  · split
    · exact .inr rfl
    · split
      · exact .inl rfl
      · have hany : ∀ a, (∃ n ∈ names cfg.tree, a = .hier n) → anyOpt (rel cfg a).1 (members B) = some true ∨ anyOpt (rel cfg a).1 (members B) = some false := by
          rintro a ⟨n, hn, rfl⟩
          rcases anyOpt_hier hc hn hB with ⟨h, _⟩ | ⟨h, _⟩
          · exact .inl h
          · exact .inr h
        cases A with
        | union ms =>
          have : ∀ {ms' : List Ty}, (∀ m ∈ ms', m ∈ ms) → relAll cfg ms' (members B) = some true ∨ relAll cfg ms' (members B) = some false := by
            intro ms'
            induction ms' with
            | nil => intro _; exact .inl rfl
            | cons m ms' ih =>
              intro hsub
              rw [relAll]
              rcases hany m (hA m (hsub m (by simp))) with h | h
              · rw [h]; exact ih (fun x hx => hsub x (by simp [hx]))
              · rw [h]; exact .inr rfl
          exact this (fun m hm => hm)
        | hier n => exact hany _ (hA _ (by simp [members]))
        | tbd => obtain ⟨n, _, e⟩ := hA .tbd (by simp [members]); cases e
        | list t => obtain ⟨n, _, e⟩ := hA (.list t) (by simp [members]); cases e
        | record s fs => obtain ⟨n, _, e⟩ := hA (.record s fs) (by simp [members]); cases e
        | proc ps r => obtain ⟨n, _, e⟩ := hA (.proc ps r) (by simp [members]); cases e

/-- It says yes when every name of the first is below a name of the second. -/
theorem sub_of_anc (hc : CfgOk cfg) {A B : Ty} (hA : Flat cfg A) (hB : Flat cfg B)
    (h : ∀ n, .hier n ∈ members A → ∃ m, .hier m ∈ members B ∧ Anc cfg.tree m n) : sub cfg A B = some true := by
  refine c14_complete_named hc hA hB (fun I hr v hv => ?_)
  rw [den_members] at hv ⊢
  obtain ⟨a, ha, hv⟩ := hv
  obtain ⟨n, _, rfl⟩ := hA a ha
  obtain ⟨m, hm, hmn⟩ := h n ha
  exact ⟨_, hm, hr.anc hmn v hv⟩

/-- All values of a name are values of a union of names just when its leaves are among theirs. -/
theorem full_of_den (hc : CfgOk cfg) {I : Interp} (hr : Respects cfg I) (hd : SiblingsDisjoint cfg I) (hi : LeavesInhabited cfg I) {ns : List String}
    (hns : ∀ n ∈ ns, n ∈ names cfg.tree) {n : String} (h : ∀ v, I.named n v → ∃ m ∈ ns, I.named m v) : Full cfg.tree ns n := by
  intro l hl hleaf
  obtain ⟨v, hv⟩ := hi l hl.mem_right hleaf
  obtain ⟨m, hm, hmv⟩ := h v (hr.anc hl v hv)
  refine ⟨m, hm, Classical.byContradiction (fun hno => ?_)⟩
  refine incomparable_disjoint hc hr hd (hns m hm) hl.mem_right hno (fun hlm => ?_) hmv hv
  by_cases e : l = m
  · subst e; exact hno hlm
  · obtain ⟨c, hcc⟩ := exists_child hc.nodup hlm e
    exact hleaf c hcc

end Verif.Calls
