import Verif.Env.Spec
import Verif.Types.Props
/-!
# Types given by names are closed under unions and splits
-/
namespace Verif.Env
open Verif.Types

variable {cfg : Cfg} {ord : List Ty → List Ty}

theorem flat_T0 : Flat cfg T0 := by intro m hm; simp [T0, members] at hm

theorem flat_hier {n : String} (h : n ∈ names cfg.tree) : Flat cfg (.hier n) := by
  intro m hm
  simp only [members, List.mem_singleton] at hm
  exact ⟨n, h, hm⟩

theorem not_flat_tbd : ¬ Flat cfg .tbd := by
  intro h
  obtain ⟨n, _, e⟩ := h .tbd (by simp [members])
  cases e

theorem unionHier_names (hc : CfgOk cfg) {ns : List String} (h : ∀ n ∈ ns, n ∈ names cfg.tree) :
    ∀ n ∈ unionHier cfg.tree ns, n ∈ names cfg.tree := by
  intro n hn
  unfold unionHier at hn
  split at hn
  · exact h n hn
  · refine Classical.byContradiction (fun hno => ?_)
    exact hno (h n (((hrec_ok cfg.tree hc.nodup ns).1 n hno).1 hn))

theorem members_flat {ts : List Ty} (h : ∀ t ∈ ts, Flat cfg t) : (ts.flatMap members).flatMap members = ts.flatMap members := by
  have : ∀ l : List Ty, (∀ m ∈ l, ∃ n, m = .hier n) → l.flatMap members = l := by
    intro l
    induction l with
    | nil => intro _; rfl
    | cons a l ih =>
      intro hl
      obtain ⟨n, rfl⟩ := hl a (by simp)
      rw [List.flatMap_cons, ih (fun m hm => hl m (by simp [hm]))]
      simp [members]
  apply this
  intro m hm
  obtain ⟨t, ht, hm⟩ := List.mem_flatMap.1 hm
  obtain ⟨n, _, e⟩ := h t ht m hm
  exact ⟨n, e⟩

theorem unionGeneral_flat {rec} {ts : List Ty} (h : ∀ t ∈ ts, Flat cfg t) :
    unionGeneral cfg ord rec ts = unionGeneral cfg ord rec (ts.flatMap members) := by
  unfold unionGeneral
  rw [members_flat h]

theorem flat_of_union (hc : CfgOk cfg) (ho : SetOrder ord) {rec} {ts : List Ty} (hne : ts ≠ []) (hne0 : ∀ t ∈ ts, t ≠ T0)
    (h : ∀ t ∈ ts, Flat cfg t) : ∃ T, unionGeneral cfg ord rec ts = some T ∧ Flat cfg T := by
  have hm : ∀ m ∈ ts.flatMap members, ∃ n ∈ names cfg.tree, m = .hier n := by
    intro m hm
    obtain ⟨t, ht, hm⟩ := List.mem_flatMap.1 hm
    exact h t ht m hm
  rw [unionGeneral_flat h]
  have hne' : ts.flatMap members ≠ [] := by
    cases ts with
    | nil => exact absurd rfl hne
    | cons t ts =>
      have h0 := hne0 t (by simp)
      intro e
      rw [List.flatMap_cons] at e
      have e := (List.append_eq_nil_iff.1 e).1
      cases t <;> simp [members, T0] at e h0
      exact h0 e
  obtain ⟨T, ns, hT, hns, _, hmem⟩ := unionGeneral_hier hc ho (rec := rec) hne' (fun m hm' => by
    obtain ⟨n, _, e⟩ := hm m hm'; exact ⟨n, e⟩)
  refine ⟨T, hT, ?_⟩
  intro m hmT
  rcases (hmem m).1 hmT with ⟨rfl, hl⟩ | ⟨n, hn, rfl⟩
  · exact hm _ hl
  · refine ⟨n, unionHier_names hc ?_ n hn, rfl⟩
    intro k hk
    obtain ⟨n', hn', e⟩ := hm _ ((hns k).1 hk).1
    injection e with e
    exact e ▸ hn'

/-- Unions of types given by names: always defined, given by names, and with exactly the values of the parts. -/
theorem union_flat (hc : CfgOk cfg) (ho : SetOrder ord) {ts : List Ty} (h : ∀ t ∈ ts, Flat cfg t) :
    ∃ T, unionOf cfg ord ts = some T ∧ Flat cfg T ∧
      ∀ I : Interp, Respects cfg I → Exhaustive cfg I → ∀ v : I.V, den cfg I T v ↔ ∃ t ∈ ts, den cfg I t v := by
  have hT : ∃ T, unionOf cfg ord ts = some T ∧ Flat cfg T := by
    rw [unionOf_eq ho]
    have hno : ∀ t ∈ ts, t ≠ .tbd := by
      rintro t ht rfl
      exact not_flat_tbd (h _ ht)
    unfold unionStep
    split
    · exact ⟨_, rfl, flat_T0⟩
    · rename_i hne
      split
      · rename_i t e
        refine ⟨_, rfl, h t (((ho ts).2 t).1 (by rw [e]; simp))⟩
      · rename_i hns
        have hm : ∀ x, x ∈ (ord ts).filter (· ≠ T0) ↔ x ∈ ts ∧ x ≠ T0 := by
          intro x; rw [List.mem_filter, (ho ts).2]; simp
        split
        · rename_i t e
          refine ⟨_, rfl, h t ((hm t).1 (by rw [e]; simp)).1⟩
        · have hm' : ∀ x, x ∈ ((ord ts).filter (· ≠ T0)).filter (· ≠ .tbd) ↔ x ∈ ts ∧ x ≠ T0 := by
            intro x
            rw [List.mem_filter, hm]
            constructor
            · exact And.left
            · intro hx; exact ⟨hx, by simpa using hno x hx.1⟩
          split
          · rename_i t e
            refine ⟨_, rfl, h t ((hm' t).1 (by rw [e]; simp)).1⟩
          · refine flat_of_union hc ho ?_ (fun t ht => ((hm' t).1 ht).2) (fun t ht => h t ((hm' t).1 ht).1)
            intro e
            -- all are `T0`, and then there is just one
            have hall : ∀ x ∈ ts, x = T0 := by
              intro x hx
              refine Classical.byContradiction (fun hx0 => ?_)
              have := (hm' x).2 ⟨hx, hx0⟩
              rw [e] at this
              cases this
            have hnd := (ho ts).1
            have hmem := (ho ts).2
            match hord : ord ts with
            | [] =>
              cases ts with
              | nil => exact hne rfl
              | cons a l =>
                have := (hmem a).2 (by simp)
                rw [hord] at this; cases this
            | [t] => exact hns t hord
            | a :: b :: l =>
              rw [hord] at hnd hmem
              have ha := hall a ((hmem a).1 (by simp))
              have hb := hall b ((hmem b).1 (by simp))
              rw [ha, hb] at hnd
              simp at hnd
  obtain ⟨T, hT, hf⟩ := hT
  refine ⟨T, hT, hf, fun I hr hx v => ?_⟩
  have hP : Inner (Flat cfg) := {
    list := fun t h => by obtain ⟨n, _, e⟩ := h (.list t) (by simp [members]); cases e
    record := fun s fs h => by obtain ⟨n, _, e⟩ := h (.record s fs) (by simp [members]); cases e
    member := fun t h m hm => by
      obtain ⟨n, hn, rfl⟩ := h m hm
      exact flat_hier hn }
  constructor
  · exact fun hv => unionF_lower hc hr hx ho hP (fun t h => by obtain ⟨n, _, e⟩ := h (.list t) (by simp [members]); cases e)
      (fun fs h => by obtain ⟨n, _, e⟩ := h (.record CRN fs) (by simp [members]); cases e) _ ts T h hT v hv
  · exact fun hv => unionF_upper hc hr ho hP (fun t h => by rintro rfl; exact not_flat_tbd h)
      (.inr (fun t h => by obtain ⟨n, _, e⟩ := h (.list t) (by simp [members]); cases e)) _ ts T h hT v hv

/-- The result of a split of types given by names is given by names. -/
theorem split_flat (hc : CfgOk cfg) (hleaf : IsLeaf cfg.tree "List") (ho : SetOrder ord) {A B : Ty} (hA : Flat cfg A) (hB : Flat cfg B) :
    ∃ i o, splitBy cfg ord A B = some (i, o) ∧ Flat cfg i ∧ Flat cfg o ∧
      ∀ I : Interp, Respects cfg I → Exhaustive cfg I → SiblingsDisjoint cfg I → ∀ v : I.V,
        (den cfg I i v ↔ den cfg I A v ∧ den cfg I B v) ∧ (den cfg I o v ↔ den cfg I A v ∧ ¬ den cfg I B v) := by
  obtain ⟨i, o, h, hd⟩ := splitBy_ok hc hleaf ho hA hB
  suffices hf : Flat cfg i ∧ Flat cfg o from ⟨i, o, h, hf.1, hf.2, hd⟩
  unfold splitBy at h
  split at h
  · injection h with h; injection h with h1 h2
    subst h1 h2
    exact ⟨hA, flat_T0⟩
  · obtain ⟨as, e, has⟩ := named_map (cfg := cfg) hA
    obtain ⟨r, hr, hok⟩ := splitRec_ok (ord := ord) hc hleaf hB ((names cfg.tree).length + 1) as (members B) (by
        intro a ha
        obtain ⟨p, hp⟩ := Option.isSome_iff_exists.1 (path_isSome cfg.tree a (has a ha))
        have := path_pos hp
        exact ⟨p, hp, by omega⟩) (fun b hb => hb) (fun a _ b hb _ => hb) (by omega)
    rw [e, hr] at h
    obtain ⟨ri, ro⟩ := r
    dsimp only at h
    have h1 : ∀ t ∈ ri, Flat cfg t := fun t ht => by obtain ⟨n, hn, e⟩ := hok.namedIn t ht; exact e ▸ flat_hier hn
    have h2 : ∀ t ∈ ro, Flat cfg t := fun t ht => by obtain ⟨n, hn, e⟩ := hok.namedOut t ht; exact e ▸ flat_hier hn
    obtain ⟨i', hi', hfi, _⟩ := union_flat hc ho h1
    obtain ⟨o', ho', hfo, _⟩ := union_flat hc ho h2
    rw [hi', ho'] at h
    injection h with h; injection h with h1 h2
    subst h1 h2
    exact ⟨hfi, hfo⟩

theorem den_flat_congr {I J : Interp} (hV : I.V = J.V) (hn : ∀ n v, I.named n v ↔ J.named n (hV ▸ v)) {t : Ty} (h : Flat cfg t) (v : I.V) :
    den cfg I t v ↔ den cfg J t (hV ▸ v) := by
  rw [den_members, den_members (A := t)]
  constructor
  · rintro ⟨m, hm, hv⟩
    obtain ⟨n, _, rfl⟩ := h m hm
    exact ⟨_, hm, (hn n v).1 hv⟩
  · rintro ⟨m, hm, hv⟩
    obtain ⟨n, _, rfl⟩ := h m hm
    exact ⟨_, hm, (hn n v).2 hv⟩

/-- The subtype test between types given by names is right. -/
theorem sub_flat (hc : CfgOk cfg) {I : Interp} (hr : Respects cfg I) {A B : Ty} (hA : Flat cfg A) (hB : Flat cfg B)
    (h : sub cfg A B = some true) (v : I.V) (hv : den cfg I A v) : den cfg I B v := by
  let J : Interp := { I with procs := fun _ _ _ => False }
  have hJ : Respects cfg J := ⟨hr.top, hr.child, hr.list, hr.record, fun _ _ _ h => h.elim⟩
  have hf : FieldsOk B := by
    unfold FieldsOk
    cases B with
    | hier n => simp [Deep]
    | tbd => simp [Deep]
    | list t => obtain ⟨n, _, e⟩ := hB (.list t) (by simp [members]); cases e
    | record s fs => obtain ⟨n, _, e⟩ := hB (.record s fs) (by simp [members]); cases e
    | proc ps r => obtain ⟨n, _, e⟩ := hB (.proc ps r) (by simp [members]); cases e
    | union ms =>
      have : ∀ l : List Ty, (∀ m ∈ l, ∃ n, m = .hier n) → DeepL (fun t => match t with
          | .record _ fs => (fs.map (·.1)).Nodup
          | _ => True) l := by
        intro l
        induction l with
        | nil => intro _; trivial
        | cons a l ih =>
          intro hl
          obtain ⟨n, rfl⟩ := hl a (by simp)
          exact ⟨by simp [Deep], ih (fun m hm => hl m (by simp [hm]))⟩
      refine ⟨trivial, this ms (fun m hm => ?_)⟩
      obtain ⟨n, _, e⟩ := hB m (by simpa [members] using hm)
      exact ⟨n, e⟩
  have := c14_sound (I := J) hc hJ (fun _ _ _ _ _ _ _ h => h.elim) hf h v
  rw [← den_flat_congr (I := I) (J := J) rfl (fun _ _ => Iff.rfl) hA, ← den_flat_congr (I := I) (J := J) rfl (fun _ _ => Iff.rfl) hB] at this
  exact this hv

theorem tyEq_iff {A B : Ty} : tyEq A B = true ↔ ∀ m, m ∈ members A ↔ m ∈ members B := by
  unfold tyEq
  rw [decide_eq_true_iff]
  exact ⟨fun h m => ⟨fun x => h.1 x, fun x => h.2 x⟩, fun h => ⟨fun m => (h m).1, fun m => (h m).2⟩⟩

theorem tyEq_den {A B : Ty} (h : tyEq A B = true) {I : Interp} (v : I.V) : den cfg I A v ↔ den cfg I B v := by
  rw [tyEq_iff] at h
  rw [den_members, den_members (A := B)]
  exact ⟨fun ⟨m, hm, hv⟩ => ⟨m, (h m).1 hm, hv⟩, fun ⟨m, hm, hv⟩ => ⟨m, (h m).2 hm, hv⟩⟩

theorem tyEq_flat {A B : Ty} (h : tyEq A B = true) (hA : Flat cfg A) : Flat cfg B :=
  fun m hm => hA m ((tyEq_iff.1 h m).2 hm)

theorem tyEq_refl {A : Ty} : tyEq A A = true := tyEq_iff.2 (fun _ => Iff.rfl)

theorem tyEq_T0 {A : Ty} (h : tyEq A T0 = true) {I : Interp} {v : I.V} : ¬ den cfg I A v := by
  rw [tyEq_den h]; exact den_T0

theorem flat_not_tbd {A : Ty} (h : Flat cfg A) : tyEq A .tbd = false := by
  cases ht : tyEq A .tbd with
  | false => rfl
  | true => exact absurd (tyEq_flat ht h) not_flat_tbd

end Verif.Env
