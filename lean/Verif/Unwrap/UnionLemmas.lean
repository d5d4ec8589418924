import Verif.Unwrap.SubLemmas
import Verif.Types.Props
/-! # Unions of types of Completion Records of different kinds -/
namespace Verif.Unwrap
open Verif.Types Verif.Env Verif.Calls

variable {cfg : Cfg} {ord : List Ty → List Ty}

/-- The fields of `comp k u`. -/
def flds (p : String × Option Ty) : Fields := match p.2 with
  | none => [("[[Type]]", .hier p.1)]
  | some u => [("[[Type]]", .hier p.1), ("[[Value]]", u)]

theorem comp_flds (p : String × Option Ty) : comp p.1 p.2 = .record CRN (flds p) := by
  obtain ⟨k, u⟩ := p
  cases u <;> rfl

theorem keys_same : ∀ (xs : List Fields) (s : String), xs ≠ [] → keysInOrder (xs.map (fun _ => s)) = [s] := by
  intro xs s
  induction xs with
  | nil => intro h; exact absurd rfl h
  | cons x xs ih =>
    intro _
    rw [List.map_cons, keysInOrder]
    cases xs with
    | nil => rfl
    | cons y ys => rw [ih (by simp)]; simp

theorem keys_nodup : ∀ (ks : List String), ks.Nodup → keysInOrder ks = ks := by
  intro ks
  induction ks with
  | nil => intro _; rfl
  | cons k ks ih =>
    intro h
    rw [List.nodup_cons] at h
    rw [keysInOrder, ih h.2, List.filter_eq_self.2]
    intro x hx
    simp only [ne_eq, decide_not, Bool.not_eq_true', decide_eq_false_iff_not]
    rintro rfl
    exact h.1 hx

theorem crLoop_comps (ps : List (String × Option Ty)) : crLoop (ps.map flds) = some (some (ps.map (fun p => (p.1, flds p)))) := by
  induction ps with
  | nil => rfl
  | cons p ps ih =>
    obtain ⟨k, u⟩ := p
    have h : crSplit (flds (k, u)) = some [(k, flds (k, u))] := by cases u <;> rfl
    rw [List.map_cons]
    cases u with
    | none =>
      show (match crSplit (flds (k, none)) with
        | none => none
        | some xs => match crLoop (ps.map flds) with
          | none => none
          | some none => some none
          | some (some ys) => some (some (xs ++ ys))) = _
      rw [h, ih]; rfl
    | some w =>
      show (match crSplit (flds (k, some w)) with
        | none => none
        | some xs => match crLoop (ps.map flds) with
          | none => none
          | some none => some none
          | some (some ys) => some (some (xs ++ ys))) = _
      rw [h, ih]; rfl

theorem filter_key : ∀ {ps : List (String × Option Ty)}, (ps.map (·.1)).Nodup → ∀ {p}, p ∈ ps →
    (ps.map (fun p => (p.1, flds p))).filter (fun x => decide (x.1 = p.1)) = [(p.1, flds p)] := by
  intro ps
  induction ps with
  | nil => intro _ p hp; simp at hp
  | cons q ps ih =>
    intro h p hp
    rw [List.map_cons, List.nodup_cons] at h
    rw [List.map_cons, List.filter_cons]
    rcases List.mem_cons.1 hp with rfl | hp
    · rw [if_pos (by simp)]
      congr 1
      rw [List.filter_eq_nil_iff]
      intro x hx
      obtain ⟨r, hr, rfl⟩ := List.mem_map.1 hx
      simp only [decide_eq_true_eq]
      intro e
      exact h.1 (List.mem_map.2 ⟨r, hr, e⟩)
    · rw [if_neg, ih h.2 hp]
      simp only [decide_eq_true_eq]
      intro e
      exact h.1 (List.mem_map.2 ⟨p, hp, e.symm⟩)

theorem mapM_all {α β} {f : α → Option β} {g : α → β} : ∀ {l : List α}, (∀ a ∈ l, f a = some (g a)) → l.mapM f = some (l.map g) := by
  intro l
  induction l with
  | nil => intro _; rfl
  | cons a l ih =>
    intro h
    rw [List.mapM_cons, h a (by simp), ih (fun x hx => h x (by simp [hx]))]
    rfl

theorem unionCR_comps {rec} {ps : List (String × Option Ty)} (hn : (ps.map (·.1)).Nodup) :
    unionCR rec (ps.map flds) = some (ps.map (fun p => comp p.1 p.2)) := by
  unfold unionCR
  rw [crLoop_comps]
  simp only [List.map_map]
  have h1 : (Prod.fst ∘ fun p : String × Option Ty => (p.1, flds p)) = Prod.fst := rfl
  rw [h1, keys_nodup _ hn]
  rw [List.mapM_map]
  refine mapM_all (g := fun p : String × Option Ty => comp p.1 p.2) ?_
  intro p hp
  show crGroup rec p.1 _ = _
  rw [filter_key hn hp, comp_flds]
  rfl

theorem as_pairs {l : List Ty} (h : ∀ m ∈ l, ∃ k u, m = comp k u) : ∃ ps : List (String × Option Ty), l = ps.map (fun p => comp p.1 p.2) := by
  induction l with
  | nil => exact ⟨[], rfl⟩
  | cons m l ih =>
    obtain ⟨ps, hps⟩ := ih (fun x hx => h x (by simp [hx]))
    obtain ⟨k, u, rfl⟩ := h m (by simp)
    exact ⟨(k, u) :: ps, by rw [hps]; rfl⟩

/-- At most one of each kind, and nothing beside any Completion Record. -/
structure Distinct (ts : List Ty) : Prop where
  each : ∀ m ∈ ts, IsComp m
  one : ∀ k u u', comp k u ∈ ts → comp k u' ∈ ts → u = u'
  all : anyCompletion ∈ ts → ∀ k u, comp k u ∉ ts

theorem Distinct.congr {ts ts' : List Ty} (h : Distinct ts) (he : ∀ m, m ∈ ts' → m ∈ ts) : Distinct ts' where
  each := fun m hm => h.each m (he m hm)
  one := fun k u u' h1 h2 => h.one k u u' (he _ h1) (he _ h2)
  all := fun h1 k u h2 => h.all (he _ h1) k u (he _ h2)

theorem Distinct.pairs {ts : List Ty} (h : Distinct ts) (hn : ts.Nodup) (h2 : 2 ≤ ts.length) :
    ∃ ps : List (String × Option Ty), ts = ps.map (fun p => comp p.1 p.2) ∧ (ps.map (·.1)).Nodup := by
  have hno : anyCompletion ∉ ts := by
    intro ha
    have hall : ∀ m ∈ ts, m = anyCompletion := by
      intro m hm
      rcases h.each m hm with e | ⟨k, _, u, rfl⟩
      · exact e
      · exact absurd hm (h.all ha k u)
    have := Verif.Calls.nodup_one hn (fun x hx y hy => (hall x hx).trans (hall y hy).symm)
    omega
  obtain ⟨ps, hps⟩ := as_pairs (l := ts) (fun m hm => by
    rcases h.each m hm with rfl | ⟨k, _, u, e⟩
    · exact absurd hm hno
    · exact ⟨k, u, e⟩)
  refine ⟨ps, hps, ?_⟩
  subst hps
  have h1 := h.one
  clear h h2 hno
  induction ps with
  | nil => simp
  | cons p ps ih =>
    rw [List.map_cons, List.nodup_cons] at hn ⊢
    refine ⟨?_, ih hn.2 (fun k u u' a b => h1 k u u' (by simp [a]) (by simp [b]))⟩
    intro hm
    obtain ⟨q, hq, e⟩ := List.mem_map.1 hm
    obtain ⟨k, u⟩ := p
    obtain ⟨k', u'⟩ := q
    have e : k' = k := e
    subst e
    have hq' : comp k' u' ∈ ps.map (fun p => comp p.1 p.2) := List.mem_map.2 ⟨(k', u'), hq, rfl⟩
    have := h1 k' u u' (by simp) (List.mem_cons_of_mem _ hq')
    subst this
    exact hn.1 hq'

theorem two_of {l : List Ty} (hn : l.Nodup) {a b : Ty} (ha : a ∈ l) (hb : b ∈ l) (hab : a ≠ b) : 2 ≤ l.length := by
  match l, ha, hb with
  | [x], ha, hb =>
    rw [List.mem_singleton] at ha hb
    exact absurd (ha.trans hb.symm) hab
  | _ :: _ :: _, _, _ => simp

theorem unionGeneral_comps (ho : SetOrder ord) {rec} {ts : List Ty} (h : Distinct (ts.flatMap members)) {a b : Ty}
    (ha : a ∈ ts.flatMap members) (hb : b ∈ ts.flatMap members) (hab : a ≠ b) :
    ∃ T, unionGeneral cfg ord rec ts = some T ∧ ∀ m, m ∈ members T ↔ m ∈ ts.flatMap members := by
  unfold unionGeneral
  revert h ha hb
  generalize ts.flatMap members = ts
  intro h ha hb
  have hno : ∀ m ∈ ts, isUnion m = false ∧ m ≠ .tbd ∧ isListy m = false ∧ isProc m = false ∧ hierOf? m = none := by
    intro m hm
    obtain ⟨fs, rfl⟩ := isComp_record (h.each m hm)
    exact ⟨rfl, by simp, rfl, rfl, rfl⟩
  have hord := ho ts
  have hfil : (ord ts).filter (· ≠ .tbd) = ord ts := by
    rw [List.filter_eq_self]
    intro m hm
    simpa using (hno m ((hord.2 m).1 hm)).2.1
  have hlen : 2 ≤ (ord ts).length := two_of hord.1 ((hord.2 a).2 ha) ((hord.2 b).2 hb) hab
  obtain ⟨ps, hps, hk⟩ := (h.congr (fun m hm => (hord.2 m).1 hm)).pairs hord.1 hlen
  have hl : (ord ts).filter isListy = [] := by
    rw [List.filter_eq_nil_iff]; intro m hm; rw [(hno m ((hord.2 m).1 hm)).2.2.1]; simp
  have hp : (ord ts).filter isProc = [] := by
    rw [List.filter_eq_nil_iff]; intro m hm; rw [(hno m ((hord.2 m).1 hm)).2.2.2.1]; simp
  have hh : (ord ts).filterMap hierOf? = [] := by
    rw [List.filterMap_eq_nil_iff]; intro m hm; exact (hno m ((hord.2 m).1 hm)).2.2.2.2
  have hrec : (ord ts).filterMap recordOf? = ps.map (fun p => (CRN, flds p)) := by
    rw [hps]
    clear hps hk
    induction ps with
    | nil => rfl
    | cons p ps ih =>
      rw [List.map_cons, List.map_cons, comp_flds, List.filterMap_cons]
      simp only [recordOf?]
      rw [ih]
  have hplen : 2 ≤ ps.length := by rw [hps] at hlen; simpa using hlen
  have hur : unionRecord rec (ps.map (fun p => (CRN, flds p))) = some (ps.map (fun p => comp p.1 p.2)) := by
    unfold unionRecord
    rw [if_neg (by rw [List.length_map]; omega)]
    have e1 : (ps.map (fun p => (CRN, flds p))).map (·.1) = (ps.map flds).map (fun _ => CRN) := by simp [List.map_map]
    rw [e1, keys_same _ _ (by intro e; rw [List.map_eq_nil_iff] at e; rw [e] at hplen; simp at hplen)]
    have e2 : ((ps.map (fun p => (CRN, flds p))).filter (fun r => decide (r.1 = CRN))).map (·.2) = ps.map flds := by
      rw [List.filter_eq_self.2]
      · simp [List.map_map]
      · intro x hx
        obtain ⟨q, _, rfl⟩ := List.mem_map.1 hx
        simp
    rw [List.mapM_cons, e2]
    have e3 : recordGroup rec CRN (ps.map flds) = unionCR rec (ps.map flds) := by
      unfold recordGroup
      split
      · rename_i e
        have := congrArg List.length e
        simp at this
        omega
      · rw [if_neg (by decide), if_pos rfl]
    rw [e3, unionCR_comps hk]
    simp
  dsimp only
  rw [if_neg, hfil, if_neg, hl, hp, hh, hrec, hur]
  · have : unionList rec [] = some [] := rfl
    rw [this]
    have : unionProc [] = some [] := rfl
    rw [this]
    have : unionHier cfg.tree [] = [] := rfl
    rw [this]
    simp only [List.nil_append, List.append_nil, List.map_nil]
    rw [← hps]
    unfold mkUnion
    have ho2 := ho (ord ts)
    split
    · rename_i e; rw [e] at hlen; simp at hlen
    · rename_i e; rw [e] at hlen; simp at hlen
    · refine ⟨_, rfl, fun m => ?_⟩
      rw [members, ho2.2, hord.2]
  · intro e; rw [e] at hlen; simp at hlen
  · simp only [List.any_eq_true, not_exists, not_and]
    intro m hm
    rw [(hno m hm).1]; simp

/-- The same record type, more than once. -/
theorem unionGeneral_one (ho : SetOrder ord) {rec} {ts : List Ty} {fs : Fields} (hne : ts.flatMap members ≠ []) (h : ∀ m ∈ ts.flatMap members, m = .record CRN fs) :
    unionGeneral cfg ord rec ts = some (.record CRN fs) := by
  unfold unionGeneral
  revert h hne
  generalize ts.flatMap members = ts
  intro hne h
  have hord := ho ts
  have hl : ord ts = [.record CRN fs] := by
    have hm : ∀ x ∈ ord ts, x = .record CRN fs := fun x hx => h x ((hord.2 x).1 hx)
    obtain ⟨y, hy⟩ := List.exists_mem_of_ne_nil _ hne
    have hy := (hord.2 y).2 hy
    have hnd := hord.1
    match hl : ord ts, hm, hy, hnd with
    | [x], hm, _, _ => rw [hm x (by simp)]
    | x :: z :: l, hm, _, hnd =>
      rw [hm x (by simp), hm z (by simp)] at hnd
      simp at hnd
  dsimp only
  rw [hl, if_neg]
  · rfl
  · simp only [List.any_eq_true, not_exists, not_and]
    intro m hm
    rw [h m hm]; simp [isUnion]

theorem hflat : ∀ l : List Ty, (∀ m ∈ l, IsComp m) → l.flatMap members = l := by
  intro l
  induction l with
  | nil => intro _; rfl
  | cons a l ih =>
    intro hl
    obtain ⟨fs, e⟩ := isComp_record (hl a (by simp))
    rw [List.flatMap_cons, ih (fun x hx => hl x (by simp [hx])), e]; rfl

theorem union_comps (ho : SetOrder ord) {ts : List Ty} (h : Distinct ts) :
    ∃ T, unionOf cfg ord ts = some T ∧ (∀ m, m ∈ members T ↔ m ∈ ts) ∧ ∀ m, m ∈ ts → (∀ x ∈ ts, x = m) → T = m := by
  rw [unionOf_eq ho]
  have hno : ∀ m ∈ ts, m ≠ T0 ∧ m ≠ .tbd := by
    intro m hm
    obtain ⟨fs, rfl⟩ := isComp_record (h.each m hm)
    exact ⟨by simp [T0], by simp⟩
  cases ts with
  | nil => exact ⟨T0, rfl, by simp [T0, members], by simp⟩
  | cons t0 ts0 =>
    revert h hno
    generalize hts : t0 :: ts0 = ts
    intro h hno
    have hord := ho ts
    have hne : ord ts ≠ [] := by
      intro e
      have := (hord.2 t0).2 (by rw [← hts]; simp)
      rw [e] at this; simp at this
    have hf1 : (ord ts).filter (· ≠ T0) = ord ts := by
      rw [List.filter_eq_self]; intro m hm; simpa using (hno m ((hord.2 m).1 hm)).1
    have hf2 : (ord ts).filter (· ≠ .tbd) = ord ts := by
      rw [List.filter_eq_self]; intro m hm; simpa using (hno m ((hord.2 m).1 hm)).2
    have hstep : unionStep cfg ord (unionOf cfg ord) ts = match ord ts with
        | [t] => some t
        | ts1 => match ts1.filter (· ≠ T0) with
          | [t] => some t
          | ts2 => match ts2.filter (· ≠ .tbd) with
            | [t] => some t
            | ts3 => unionGeneral cfg ord (unionOf cfg ord) ts3 := by
      subst hts; rfl
    rw [hstep]
    match hl : ord ts, hne with
    | [t], _ =>
      have hmem : ∀ m, m ∈ ts ↔ m = t := by
        intro m; rw [← hord.2, hl, List.mem_singleton]
      have ht : t ∈ ts := (hmem t).2 rfl
      obtain ⟨fs, e⟩ := isComp_record (h.each t ht)
      refine ⟨t, rfl, fun m => ?_, fun m hm ha => (hmem m).1 hm ▸ rfl⟩
      rw [hmem, e]; simp [members]
    | a :: b :: l, _ =>
      rw [hl] at hf1 hf2
      simp only [hf1, hf2]
      have hd : Distinct (a :: b :: l) := h.congr (fun m hm => by rw [← hl] at hm; exact (hord.2 m).1 hm)
      obtain ⟨T, hT, hm⟩ := unionGeneral_comps (cfg := cfg) (rec := unionOf cfg ord) ho (ts := a :: b :: l) (by rw [hflat _ hd.each]; exact hd)
        (a := a) (b := b) (by rw [hflat _ hd.each]; simp) (by rw [hflat _ hd.each]; simp) (by
          have := hord.1; rw [hl] at this; simp at this; exact this.1.1)
      rw [hflat _ hd.each] at hm
      refine ⟨T, hT, fun m => by rw [hm, ← hl, hord.2], ?_⟩
      intro m hm' hall
      have hnd := hord.1
      rw [hl] at hnd
      have ha := hall a ((hord.2 a).1 (by rw [hl]; simp))
      have hb := hall b ((hord.2 b).1 (by rw [hl]; simp))
      rw [ha, hb] at hnd
      simp at hnd

/-- The union of a type of Completion Records with one of a kind. -/
theorem or_comp (ho : SetOrder ord) {A B : Ty} {k : String} (hk : B = completionType k) (hd : Distinct (members A ++ [B])) (hne : members A ≠ []) :
    ∃ T, orTy cfg ord A B = some T ∧ ∀ m, m ∈ members T ↔ m ∈ members A ∨ m = B := by
  have hmB : members B = [B] := by rw [hk]; rfl
  by_cases hAB : A = B
  · subst hAB
    refine ⟨A, by rw [orTy, if_pos rfl], fun m => ?_⟩
    rw [hmB, List.mem_singleton, or_self]
  have hAm : members A = [A] ∨ ∃ ms, A = .union ms ∧ ms ≠ [] := by
    cases A with
    | union ms => exact .inr ⟨ms, rfl, hne⟩
    | _ => exact .inl rfl
  have hA0 : A ≠ T0 := by rintro rfl; exact hne rfl
  have hAt : A ≠ .tbd := by
    rintro rfl
    obtain ⟨fs, e⟩ := isComp_record (hd.each .tbd (by simp [members]))
    cases e
  have hB0 : B ≠ T0 := by rw [hk]; simp [completionType, T0]
  have hBt : B ≠ .tbd := by rw [hk]; simp [completionType]
  unfold orTy
  rw [if_neg hAB, unionOf_eq ho]
  have hord := ho [A, B]
  have hmem : ∀ x, x ∈ ord [A, B] ↔ x = A ∨ x = B := by intro x; rw [hord.2]; simp
  have hf1 : (ord [A, B]).filter (· ≠ T0) = ord [A, B] := by
    rw [List.filter_eq_self]; intro m hm
    rcases (hmem m).1 hm with rfl | rfl
    · simpa using hA0
    · simpa using hB0
  have hf2 : (ord [A, B]).filter (· ≠ .tbd) = ord [A, B] := by
    rw [List.filter_eq_self]; intro m hm
    rcases (hmem m).1 hm with rfl | rfl
    · simpa using hAt
    · simpa using hBt
  have hstep : unionStep cfg ord (unionOf cfg ord) [A, B] = match ord [A, B] with
      | [t] => some t
      | ts1 => match ts1.filter (· ≠ T0) with
        | [t] => some t
        | ts2 => match ts2.filter (· ≠ .tbd) with
          | [t] => some t
          | ts3 => unionGeneral cfg ord (unionOf cfg ord) ts3 := rfl
  rw [hstep]
  have hlen := two_of hord.1 ((hmem A).2 (.inl rfl)) ((hmem B).2 (.inr rfl)) hAB
  have hfm : ∀ m, m ∈ (ord [A, B]).flatMap members ↔ m ∈ members A ∨ m = B := by
    intro m
    rw [List.mem_flatMap]
    constructor
    · rintro ⟨x, hx, hm⟩
      rcases (hmem x).1 hx with rfl | rfl
      · exact .inl hm
      · rw [hmB, List.mem_singleton] at hm; exact .inr hm
    · rintro (hm | rfl)
      · exact ⟨A, (hmem A).2 (.inl rfl), hm⟩
      · exact ⟨m, (hmem m).2 (.inr rfl), by rw [hmB]; simp⟩
  match hl : ord [A, B], hlen with
  | a :: b :: l, _ =>
    rw [hl] at hf1 hf2 hfm
    simp only [hf1, hf2]
    by_cases hall : ∀ x ∈ members A, x = B
    · obtain ⟨x, hx⟩ := List.exists_mem_of_ne_nil _ hne
      have hg := unionGeneral_one (cfg := cfg) (ord := ord) (rec := unionOf cfg ord) ho (ts := a :: b :: l) (fs := [("[[Type]]", .hier k)])
        (by intro e; have := (hfm x).2 (.inl hx); rw [e] at this; cases this)
        (fun m hm => by
          rcases (hfm m).1 hm with hm | hm
          · rw [hall m hm, hk]; rfl
          · rw [hm, hk]; rfl)
      refine ⟨_, hg, fun m => ?_⟩
      have hBB : B = .record CRN [("[[Type]]", .hier k)] := hk
      rw [← hBB, hmB, List.mem_singleton]
      exact ⟨.inr, fun h => h.elim (hall m) id⟩
    · have hall' : ∃ x, x ∈ members A ∧ x ≠ B := Classical.byContradiction (fun hh => hall (fun x hx => Classical.byContradiction (fun e => hh ⟨x, hx, e⟩)))
      obtain ⟨x, hx, hxB⟩ := hall'
      obtain ⟨T, hT, hm⟩ := unionGeneral_comps (cfg := cfg) (rec := unionOf cfg ord) ho (ts := a :: b :: l)
        (hd.congr (fun m hm => by simpa using (hfm m).1 hm)) ((hfm x).2 (.inl hx)) ((hfm B).2 (.inr rfl)) hxB
      exact ⟨T, hT, fun m => by rw [hm, hfm]⟩

/-- The abrupt completions. -/
theorem abrupt_ok (ho : SetOrder ord) : ∃ T, abruptTy cfg ord = some T ∧ ∀ m, m ∈ members T ↔ ∃ k ∈ abruptNs, m = completionType k := by
  have hcomp : ∀ k, completionType k = comp k none := fun _ => rfl
  have hinj : ∀ k k', completionType k = completionType k' → k = k' := fun k k' h => (comp_inj (u := none) (u' := none) h).1
  have hd : ∀ (ks : List String), (∀ k ∈ ks, k ∈ kinds) → ∀ ms : List Ty, (∀ m ∈ ms, ∃ k ∈ ks, m = completionType k) → Distinct ms := by
    intro ks hks ms hms
    constructor
    · intro m hm
      obtain ⟨k, hk, rfl⟩ := hms m hm
      exact .inr ⟨k, hks k hk, none, rfl⟩
    · intro k u u' h1 h2
      obtain ⟨k1, _, e1⟩ := hms _ h1
      obtain ⟨k2, _, e2⟩ := hms _ h2
      exact (comp_inj (u' := none) e1).2.trans (comp_inj (u' := none) e2).2.symm
    · intro h k u _
      obtain ⟨k1, _, e1⟩ := hms _ h
      exact comp_ne_any k1 none e1.symm
  obtain ⟨A, hA, mA⟩ := or_comp (cfg := cfg) (ord := ord) ho (A := completionType "tilde_continue_") (B := completionType "tilde_break_") rfl
    (hd kinds (fun _ h => h) _ (by
      intro m hm
      simp only [members, completionType, List.mem_append, List.mem_singleton] at hm
      rcases hm with rfl | rfl
      · exact ⟨"tilde_continue_", by simp [kinds, abruptNs], rfl⟩
      · exact ⟨"tilde_break_", by simp [kinds, abruptNs], rfl⟩)) (by simp [members, completionType])
  have mA' : ∀ m, m ∈ members A ↔ m = completionType "tilde_continue_" ∨ m = completionType "tilde_break_" := by
    intro m; rw [mA]; simp [members, completionType]
  obtain ⟨B, hB, mB⟩ := or_comp (cfg := cfg) (ord := ord) ho (A := A) (B := completionType "tilde_return_") rfl
    (hd kinds (fun _ h => h) _ (by
      intro m hm
      rw [List.mem_append, List.mem_singleton, mA'] at hm
      rcases hm with (rfl | rfl) | rfl
      · exact ⟨"tilde_continue_", by simp [kinds, abruptNs], rfl⟩
      · exact ⟨"tilde_break_", by simp [kinds, abruptNs], rfl⟩
      · exact ⟨"tilde_return_", by simp [kinds, abruptNs], rfl⟩))
    (by intro e; have := (mA' _).2 (.inl rfl); rw [e] at this; simp at this)
  obtain ⟨D, hD, mD⟩ := or_comp (cfg := cfg) (ord := ord) ho (A := B) (B := completionType "tilde_throw_") rfl
    (hd kinds (fun _ h => h) _ (by
      intro m hm
      rw [List.mem_append, List.mem_singleton, mB, mA'] at hm
      rcases hm with ((rfl | rfl) | rfl) | rfl
      · exact ⟨"tilde_continue_", by simp [kinds, abruptNs], rfl⟩
      · exact ⟨"tilde_break_", by simp [kinds, abruptNs], rfl⟩
      · exact ⟨"tilde_return_", by simp [kinds, abruptNs], rfl⟩
      · exact ⟨"tilde_throw_", by simp [kinds, abruptNs], rfl⟩))
    (by intro e; have := (mB _).2 (.inr rfl); rw [e] at this; simp at this)
  refine ⟨D, ?_, fun m => ?_⟩
  · unfold abruptTy
    rw [hA]; dsimp only
    rw [hB]; exact hD
  · rw [mD, mB, mA']
    simp only [abruptNs, List.mem_cons, List.not_mem_nil, or_false]
    constructor
    · rintro (((rfl | rfl) | rfl) | rfl)
      · exact ⟨_, .inr (.inl rfl), rfl⟩
      · exact ⟨_, .inl rfl, rfl⟩
      · exact ⟨_, .inr (.inr (.inl rfl)), rfl⟩
      · exact ⟨_, .inr (.inr (.inr rfl)), rfl⟩
    · rintro ⟨k, rfl | rfl | rfl | rfl, rfl⟩
      · exact .inl (.inl (.inr rfl))
      · exact .inl (.inl (.inl rfl))
      · exact .inl (.inr rfl)
      · exact .inr rfl

/-- A union of named types has members, if there is at least one. -/
theorem union_nonempty (hc : CfgOk cfg) (ho : SetOrder ord) {ts : List Ty} {T : Ty} (h : unionOf cfg ord ts = some T) (hne : ts ≠ [])
    (hu : ∀ t ∈ ts, ∃ n ∈ names cfg.tree, t = .hier n) : members T ≠ [] := by
  have hr : Respects cfg (freeI cfg) := {
    top := fun v => by rw [← hc.root]; exact .here v.2
    child := fun p c hpc v hv => hpc.anc.trans hc.nodup hv
    list := fun v l h => by cases h
    record := fun v s h => by cases h
    proc := fun ps r v h => h.elim }
  obtain ⟨t, ht⟩ := List.exists_mem_of_ne_nil _ hne
  obtain ⟨n, hn, e⟩ := hu t ht
  have := c16_contains hc hr ho (ts := ts) (by
      intro t ht
      obtain ⟨n, _, rfl⟩ := hu t ht
      simp [TBDFree, Deep]) (.inr (by
      intro t ht
      obtain ⟨n, _, rfl⟩ := hu t ht
      simp [NoListOf, Deep])) h ht (v := ⟨n, hn⟩) (by rw [e]; exact Anc.refl hn)
  obtain ⟨m, hm, _⟩ := den_members.1 this
  intro e
  rw [e] at hm
  cases hm

end Verif.Unwrap
