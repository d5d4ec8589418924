import Verif.Graph.Spec
/-! # The invariant of the path-based strong component search -/
set_option linter.unusedSectionVars false
namespace Verif.Graph
variable {V : Type} [DecidableEq V]

section
variable (verts : List V) (succ : V → List V)

/-- The arc relation given by `succ`. -/
abbrev Arc (succ : V → List V) (a b : V) : Prop := b ∈ succ a

/-- The invariant. `segs` (ghost) splits `S` into the stretches delimited by `P`; `E` (ghost)
is the set of arcs scanned so far. -/
structure Inv (st : St V) (segs : List (List V)) (E : V → V → Prop) : Prop where
  hS : st.S = segs.flatten
  hP : st.P.map some = segs.map List.getLast?
  desc : st.S.Pairwise (fun a b => ∃ m n, st.pre a = some m ∧ st.pre b = some n ∧ n < m)
  bound : ∀ x m, st.pre x = some m → m < st.C
  vis : ∀ x, st.pre x ≠ none ↔ x ∈ st.S ∨ x ∈ st.clusters.flatten
  disj : ∀ x ∈ st.S, x ∉ st.clusters.flatten
  cnodup : st.clusters.flatten.Nodup
  cne : ∀ c ∈ st.clusters, c ≠ []
  hcl : ∀ x i, st.cl x = some i ↔ ∃ c, st.clusters[i]? = some c ∧ x ∈ c
  sub : ∀ x, st.pre x ≠ none → x ∈ verts
  strong : ∀ s ∈ segs, ∀ x ∈ s, ∀ y ∈ s, Star (Arc succ) x y
  chain : segs.Pairwise (fun above below => ∀ x ∈ below, ∀ y ∈ above, Star (Arc succ) x y)
  back : segs.Pairwise (fun above below => ∀ x ∈ above, ∀ w ∈ below, ¬ E x w)
  evis : ∀ x w, E x w → st.pre x ≠ none ∧ st.pre w ≠ none
  cstrong : ∀ c ∈ st.clusters, ∀ x ∈ c, ∀ y ∈ c, Star (Arc succ) x y
  cclosed : ∀ (i : Nat) c, st.clusters[i]? = some c → ∀ x ∈ c, ∀ w ∈ succ x,
    ∃ j d, j ≤ i ∧ st.clusters[j]? = some d ∧ w ∈ d

/-- How the stretches evolve while a call is running: the top ones may be merged, with new
vertices on top. -/
def Grow (segs segs' : List (List V)) : Prop :=
  ∃ Y k, k < segs.length ∧ segs' = (Y ++ (segs.take (k + 1)).flatten) :: segs.drop (k + 1)

theorem Grow.refl {t : List V} {ts} : Grow (t :: ts) (t :: ts) := ⟨[], 0, by simp, by simp⟩

theorem Grow.trans {a b c : List (List V)} (h1 : Grow a b) (h2 : Grow b c) : Grow a c := by
  obtain ⟨Y, k, hk, rfl⟩ := h1
  obtain ⟨Z, l, hl, rfl⟩ := h2
  refine ⟨Z ++ Y, k + l, ?_, ?_⟩
  · simp at hl; omega
  · simp only [List.take_succ_cons, List.flatten_cons, List.drop_succ_cons, List.drop_drop]
    have : k + l + 1 = (k + 1) + l := by omega
    rw [this, List.take_add (i := k + 1), List.flatten_append]
    simp only [List.append_assoc]

theorem Grow.mem_top {v : V} {t : List V} {ts segs'} (h : Grow (t :: ts) segs') (hv : v ∈ t) :
    ∃ t' ts', segs' = t' :: ts' ∧ v ∈ t' := by
  obtain ⟨Y, k, hk, rfl⟩ := h
  exact ⟨_, _, rfl, by simp [hv]⟩

variable {verts succ}

theorem Inv.nodupS {st : St V} {segs E} (h : Inv verts succ st segs E) : st.S.Nodup := by
  refine h.desc.imp ?_
  rintro a b ⟨m, n, h1, h2, h3⟩ rfl
  rw [h1] at h2; injection h2 with h2; omega

theorem Inv.ne {st : St V} {segs E} (h : Inv verts succ st segs E) : ∀ s ∈ segs, s ≠ [] := by
  rintro s hs rfl
  have : (none : Option V) ∈ segs.map List.getLast? := List.mem_map.2 ⟨_, hs, rfl⟩
  rw [← h.hP] at this
  simp at this

/-- Extending the ghost set of scanned arcs. -/
theorem Inv.addE {st : St V} {segs E} (h : Inv verts succ st segs E) (E' : V → V → Prop)
    (hv : ∀ x w, E' x w → ¬ E x w → st.pre x ≠ none ∧ st.pre w ≠ none ∧
      (w ∈ st.S → ∃ t ts, segs = t :: ts ∧ w ∈ t)) : Inv verts succ st segs E' := by
  refine { h with back := ?_, evis := ?_ }
  · have hb := h.back
    have hn := h.nodupS
    rw [h.hS] at hn
    have hd : segs.Pairwise (fun a b => ∀ x ∈ a, ∀ y ∈ b, x ≠ y) := by
      rw [List.Nodup, List.pairwise_flatten] at hn
      exact hn.2
    have key : ∀ A s B, segs = A ++ s :: B → ∀ x ∈ s, ∀ below ∈ B, ∀ w ∈ below, ¬ E' x w := by
      intro A s B he x hx below hbel w hw hE'
      by_cases hE : E x w
      · rw [he, List.pairwise_append] at hb
        have := hb.2.1
        rw [List.pairwise_cons] at this
        exact this.1 below hbel x hx w hw hE
      · obtain ⟨h1, h2, h3⟩ := hv x w hE' hE
        have hwS : w ∈ st.S := by
          rw [h.hS, he]
          simp only [List.flatten_append, List.flatten_cons, List.mem_append, List.mem_flatten]
          exact .inr (.inr ⟨below, hbel, hw⟩)
        obtain ⟨t, ts, ht, hwt⟩ := h3 hwS
        cases A with
        | nil =>
          rw [ht] at he hd
          simp at he
          rw [List.pairwise_cons] at hd
          exact hd.1 below (he.2 ▸ hbel) w hwt w hw rfl
        | cons a A' =>
          rw [ht] at he hd
          simp at he
          rw [List.pairwise_cons] at hd
          refine hd.1 below ?_ w hwt w hw rfl
          rw [he.2]; simp [hbel]
    clear hb hn hd hv h
    induction segs with
    | nil => exact List.Pairwise.nil
    | cons s B ih =>
      rw [List.pairwise_cons]
      refine ⟨fun below hb x hx w hw => key [] s B rfl x hx below hb w hw, ih ?_⟩
      intro A s' B' he x hx below hb w hw
      exact key (s :: A) s' B' (by rw [he]; rfl) x hx below hb w hw
  · intro x w hE'
    by_cases hE : E x w
    · exact h.evis x w hE
    · have := hv x w hE' hE; exact ⟨this.1, this.2.1⟩

theorem popTo_spec (pre : V → Option Nat) (w : V) (n : Nat) (hw : pre w = some n) :
    ∀ (A : List (List V)) (s : List V) (B : List (List V)) (P : List V),
    P.map some = (A ++ s :: B).map List.getLast? →
    (∀ a ∈ A, ∀ x ∈ a, ∃ m, pre x = some m ∧ n < m) →
    (∀ x, s.getLast? = some x → ∃ m, pre x = some m ∧ m ≤ n) →
    ∃ P', popTo pre w P = some P' ∧ P'.map some = (s :: B).map List.getLast? := by
  intro A
  induction A with
  | nil =>
    intro s B P hP _ hs
    cases P with
    | nil => simp at hP
    | cons p ps =>
      simp at hP
      obtain ⟨m, hm, hmn⟩ := hs p hP.1.symm
      refine ⟨p :: ps, ?_, by simp [hP]⟩
      simp only [popTo, hm, hw]
      rw [if_neg (by omega)]
  | cons a A ih =>
    intro s B P hP hA hs
    cases P with
    | nil => simp at hP
    | cons p ps =>
      simp only [List.cons_append, List.map_cons, List.cons.injEq] at hP
      have hpa : p ∈ a := List.mem_of_getLast? hP.1.symm
      obtain ⟨m, hm, hmn⟩ := hA a (by simp) p hpa
      obtain ⟨P', h1, h2⟩ := ih s B ps hP.2 (fun a' h => hA a' (by simp [h])) hs
      refine ⟨P', ?_, h2⟩
      simp only [popTo, hm, hw]
      rw [if_pos (by omega), h1]

theorem getLast?_append_ne (a b : List V) (h : b ≠ []) : (a ++ b).getLast? = b.getLast? := by
  rw [List.getLast?_append]
  cases hb : b.getLast? with
  | none => exact absurd (List.getLast?_eq_none_iff.1 hb) h
  | some x => rfl

theorem popScc_spec (v : V) : ∀ (Y r : List V), v ∉ Y → popScc v (Y ++ v :: r) = some (Y ++ [v], r) := by
  intro Y
  induction Y with
  | nil => intro r _; simp [popScc]
  | cons y Y ih =>
    intro r h
    simp only [List.mem_cons, not_or] at h
    simp only [List.cons_append, popScc]
    rw [if_neg (fun e => h.1 e.symm), ih r h.2]

/-- `st'` extends `st`: earlier preorder numbers are kept. -/
def Ext (st st' : St V) : Prop := ∀ x m, st.pre x = some m → st'.pre x = some m

theorem Ext.refl (st : St V) : Ext st st := fun _ _ h => h
theorem Ext.trans {a b c : St V} (h1 : Ext a b) (h2 : Ext b c) : Ext a c :=
  fun x m h => h2 x m (h1 x m h)
theorem Ext.vis {a b : St V} (h : Ext a b) {x : V} (hx : a.pre x ≠ none) : b.pre x ≠ none := by
  cases hp : a.pre x with
  | none => exact absurd hp hx
  | some m => rw [h x m hp]; simp

/-- Number of vertices not yet reached. -/
def unseen (verts : List V) (st : St V) : Nat := (verts.filter (fun x => (st.pre x).isNone)).length

theorem unseen_le {a b : St V} (h : Ext a b) : unseen verts b ≤ unseen verts a := by
  unfold unseen
  rw [← List.countP_eq_length_filter, ← List.countP_eq_length_filter]
  refine List.countP_mono_left (fun x _ hx => ?_)
  simp at hx ⊢
  cases hp : a.pre x with
  | none => rfl
  | some m => rw [h x m hp] at hx; cases hx

theorem unseen_lt {a b : St V} (h : Ext a b) {v : V} (hv : v ∈ verts) (h1 : a.pre v = none)
    (h2 : b.pre v ≠ none) : unseen verts b < unseen verts a := by
  unfold unseen
  rw [← List.countP_eq_length_filter, ← List.countP_eq_length_filter]
  refine countP_lt (v := v) (fun x _ hx => ?_) hv ?_ ?_
  · simp at hx ⊢
    cases hp : a.pre x with
    | none => rfl
    | some m => rw [h x m hp] at hx; cases hx
  · cases hb : b.pre v with
    | none => exact absurd hb h2
    | some _ => rfl
  · simp [h1]

/-- The arcs scanned by a call: those of the vertices it reached for the first time. -/
def Scanned (succ : V → List V) (E : V → V → Prop) (st st' : St V) (x w : V) : Prop :=
  E x w ∨ (st.pre x = none ∧ st'.pre x ≠ none ∧ w ∈ succ x)

/-- What a search from `v` guarantees. -/
def SearchOk (verts : List V) (succ : V → List V) (n : Nat) : Prop :=
  ∀ (v : V) (st : St V) segs E, Inv verts succ st segs E → v ∈ verts → st.pre v = none →
    (∀ x ∈ st.S, Star (Arc succ) x v) → unseen verts st ≤ n →
    ∃ st' segs', search verts succ n v st = some st' ∧
      Inv verts succ st' segs' (Scanned succ E st st') ∧ Ext st st' ∧ st'.pre v ≠ none ∧
      (segs = [] → segs' = []) ∧ (segs ≠ [] → Grow segs segs')


theorem Inv.shrinkE {st : St V} {segs E E'} (h : Inv verts succ st segs E)
    (hE : ∀ x w, E' x w → E x w) : Inv verts succ st segs E' :=
  h.addE E' (fun x w h1 h2 => absurd (hE x w h1) h2)

/-- Everything on `S` reaches every vertex of the top stretch. -/
theorem Inv.reach_top {st : St V} {t ts E} (h : Inv verts succ st (t :: ts) E) {v : V} (hv : v ∈ t) :
    ∀ x ∈ st.S, Star (Arc succ) x v := by
  intro x hx
  rw [h.hS, List.flatten_cons, List.mem_append] at hx
  rcases hx with hx | hx
  · exact h.strong t (by simp) x hx v hv
  · obtain ⟨s, hs, hxs⟩ := List.mem_flatten.1 hx
    have := h.chain
    rw [List.pairwise_cons] at this
    exact this.1 s hs x hxs v hv

/-- The state after steps 1 and 2 of `rec_search`. -/
def pushed (v : V) (st : St V) : St V :=
  ⟨fun x => if x = v then some st.C else st.pre x, st.cl, v :: st.S, v :: st.P, st.C + 1, st.clusters⟩

theorem Inv.push {st : St V} {segs E} (h : Inv verts succ st segs E) {v : V} (hv : v ∈ verts)
    (hn : st.pre v = none) (hr : ∀ x ∈ st.S, Star (Arc succ) x v) :
    Inv verts succ (pushed v st) ([v] :: segs) E := by
  have hvis : ∀ x, st.pre x ≠ none → x ≠ v := by rintro x hx rfl; exact hx hn
  have hE : ∀ w, ¬ E v w := fun w he => (h.evis v w he).1 hn
  have hE' : ∀ w, ¬ E w v := fun w he => (h.evis w v he).2 hn
  refine ⟨?_, ?_, ?_, ?_, ?_, ?_, h.cnodup, h.cne, h.hcl, ?_, ?_, ?_, ?_, ?_, h.cstrong, h.cclosed⟩
  · simp [pushed, h.hS]
  · simp [pushed, h.hP]
  · dsimp only [pushed]
    rw [List.pairwise_cons]
    constructor
    · intro b hb
      have hb' : st.pre b ≠ none := (h.vis b).2 (.inl hb)
      cases hp : st.pre b with
      | none => exact absurd hp hb'
      | some n =>
        exact ⟨st.C, n, by simp, by simp [hvis b hb', hp], h.bound b n hp⟩
    · refine List.Pairwise.imp_of_mem ?_ h.desc
      rintro a b ha hb ⟨m, n, h1, h2, h3⟩
      refine ⟨m, n, ?_, ?_, h3⟩
      · show (if a = v then _ else _) = _; rw [if_neg (hvis a ((h.vis a).2 (.inl ha))), h1]
      · show (if b = v then _ else _) = _; rw [if_neg (hvis b ((h.vis b).2 (.inl hb))), h2]
  · intro x m hx
    dsimp only [pushed] at hx ⊢
    split at hx
    · injection hx with hx; omega
    · have := h.bound x m hx; omega
  · intro x
    dsimp only [pushed]
    by_cases hx : x = v
    · simp [hx]
    · simp [hx, h.vis x]
  · intro x hx hc
    dsimp only [pushed] at hx hc
    rcases List.mem_cons.1 hx with rfl | hx
    · exact (h.vis x).2 (.inr hc) hn
    · exact h.disj x hx hc
  · intro x hx
    dsimp only [pushed] at hx
    by_cases hxv : x = v
    · rw [hxv]; exact hv
    · rw [if_neg hxv] at hx; exact h.sub x hx
  · intro s hs x hx y hy
    rcases List.mem_cons.1 hs with rfl | hs
    · rw [List.mem_singleton.1 hx, List.mem_singleton.1 hy]; exact .refl _
    · exact h.strong s hs x hx y hy
  · rw [List.pairwise_cons]
    refine ⟨?_, h.chain⟩
    intro below hb x hx y hy
    rw [List.mem_singleton.1 hy]
    refine hr x ?_
    rw [h.hS]; exact List.mem_flatten.2 ⟨below, hb, hx⟩
  · rw [List.pairwise_cons]
    refine ⟨?_, h.back⟩
    intro below _ x hx w _
    rw [List.mem_singleton.1 hx]; exact hE w
  · intro x w he
    have := h.evis x w he
    dsimp only [pushed]
    rw [if_neg (hvis x this.1), if_neg (hvis w this.2)]
    exact this

theorem flatten_split {A B : List (List V)} {s : List V} :
    (A ++ s :: B).flatten = (A.flatten ++ s) ++ B.flatten := by simp

theorem Inv.merge {st : St V} {segs E} (h : Inv verts succ st segs E) {v w : V} (hvw : w ∈ succ v)
    {t ts} (ht : segs = t :: ts) (hv : v ∈ t) (hw : w ∈ st.S) :
    ∃ ps segs', popTo st.pre w st.P = some ps ∧ Inv verts succ { st with P := ps } segs' E ∧
      Grow segs segs' ∧ ∃ t' ts', segs' = t' :: ts' ∧ w ∈ t' := by
  have hwf := hw
  rw [h.hS] at hwf
  obtain ⟨s, hs, hws⟩ := List.mem_flatten.1 hwf
  obtain ⟨A, B, hAB⟩ := List.append_of_mem hs
  have hwv : st.pre w ≠ none := (h.vis w).2 (.inl hw)
  obtain ⟨n, hn⟩ : ∃ n, st.pre w = some n := by
    cases hp : st.pre w with
    | none => exact absurd hp hwv
    | some n => exact ⟨n, rfl⟩
  have hd := h.desc
  rw [h.hS, hAB, flatten_split] at hd
  have hd1 := (List.pairwise_append.1 hd).1
  have hd2 := (List.pairwise_append.1 hd1).2.2
  have hds := (List.pairwise_append.1 hd1).2.1
  obtain ⟨ps, h1, h2⟩ := popTo_spec st.pre w n hn A s B st.P (by rw [h.hP, hAB])
    (by
      intro a ha x hx
      obtain ⟨m, n', e1, e2, e3⟩ := hd2 x (List.mem_flatten.2 ⟨a, ha, hx⟩) w hws
      rw [hn] at e2; injection e2 with e2
      exact ⟨m, e1, by omega⟩)
    (by
      intro x hx
      by_cases hxw : x = w
      · exact ⟨n, by rw [hxw, hn], by omega⟩
      · obtain ⟨s', hs'⟩ : ∃ s', s = s' ++ [x] := List.getLast?_eq_some_iff.1 hx
        have hws' : w ∈ s' := by
          rw [hs', List.mem_append, List.mem_singleton] at hws
          rcases hws with h | h
          · exact h
          · exact absurd h.symm hxw
        rw [hs'] at hds
        obtain ⟨m, n', e1, e2, e3⟩ := (List.pairwise_append.1 hds).2.2 w hws' x (by simp)
        rw [hn] at e1; injection e1 with e1
        exact ⟨n', e2, by omega⟩)
  have hsne : s ≠ [] := by rintro rfl; cases hws
  have hch := h.chain
  rw [hAB] at hch
  have hbk := h.back
  rw [hAB] at hbk
  -- v is in A or s
  have hvAs : ∀ x, x ∈ A.flatten ++ s → Star (Arc succ) x v := by
    intro x hx
    refine Inv.reach_top (ht ▸ h) hv x ?_
    rw [h.hS, hAB, flatten_split, List.mem_append]; exact .inl hx
  have hwAs : ∀ y, y ∈ A.flatten ++ s → Star (Arc succ) w y := by
    intro y hy
    rcases List.mem_append.1 hy with hy | hy
    · obtain ⟨a, ha, hya⟩ := List.mem_flatten.1 hy
      exact (List.pairwise_append.1 hch).2.2 a ha s (by simp) w hws y hya
    · exact h.strong s hs w hws y hy
  refine ⟨ps, (A.flatten ++ s) :: B, h1, ?_, ?_, _, _, rfl, by simp [hws]⟩
  · refine { h with hS := ?_, hP := ?_, strong := ?_, chain := ?_, back := ?_ }
    · rw [h.hS, hAB, flatten_split]; rfl
    · rw [h2]
      rw [List.map_cons, List.map_cons, getLast?_append_ne _ _ hsne]
    · intro s' hs' x hx y hy
      rcases List.mem_cons.1 hs' with rfl | hs'
      · exact ((hvAs x hx).tail hvw).trans (hwAs y hy)
      · exact h.strong s' (by rw [hAB]; simp [hs']) x hx y hy
    · rw [List.pairwise_cons]
      have h3 := (List.pairwise_append.1 hch).2.1
      rw [List.pairwise_cons] at h3
      refine ⟨?_, h3.2⟩
      intro below hb x hx y hy
      rcases List.mem_append.1 hy with hy | hy
      · obtain ⟨a, ha, hya⟩ := List.mem_flatten.1 hy
        exact (List.pairwise_append.1 hch).2.2 a ha below (by simp [hb]) x hx y hya
      · exact h3.1 below hb x hx y hy
    · rw [List.pairwise_cons]
      have h3 := (List.pairwise_append.1 hbk).2.1
      rw [List.pairwise_cons] at h3
      refine ⟨?_, h3.2⟩
      intro below hb x hx y hy
      rcases List.mem_append.1 hx with hx | hx
      · obtain ⟨a, ha, hya⟩ := List.mem_flatten.1 hx
        exact (List.pairwise_append.1 hbk).2.2 a ha below (by simp [hb]) x hya y hy
      · exact h3.1 below hb x hx y hy
  · refine ⟨[], A.length, by rw [hAB]; simp, ?_⟩
    rw [hAB]
    have e1 : (A ++ s :: B).take (A.length + 1) = A ++ [s] := by
      rw [List.take_length_add_append]; simp
    have e2 : (A ++ s :: B).drop (A.length + 1) = B := by
      rw [← List.drop_drop]; simp
    rw [e1, e2]; simp

/-- The loop's ghost set: arcs of newly reached vertices, and the arcs `(v, w)`, `w ∈ ws`. -/
def Scanned' (succ : V → List V) (E : V → V → Prop) (st st' : St V) (v : V) (ws : List V)
    (x w : V) : Prop := Scanned succ E st st' x w ∨ (x = v ∧ w ∈ ws)

theorem scanArc_ok {n : Nat} (ih : SearchOk verts succ n) {st : St V} {segs E}
    (h : Inv verts succ st segs E) (hsucc : ∀ a b, b ∈ succ a → b ∈ verts)
    {v w : V} (hvw : w ∈ succ v) {t ts} (ht : segs = t :: ts) (hv : v ∈ t)
    (hun : unseen verts st ≤ n) :
    ∃ st' segs', scanArc (search verts succ n) st w = some st' ∧
      Inv verts succ st' segs' (Scanned' succ E st st' v [w]) ∧ Ext st st' ∧ Grow segs segs' := by
  have hvS : v ∈ st.S := by rw [h.hS, ht]; simp [hv]
  have hvv : st.pre v ≠ none := (h.vis v).2 (.inl hvS)
  cases hp : st.pre w with
  | none =>
    obtain ⟨st', segs', h1, h2, h3, h4, _, h6⟩ := ih w st segs E h (hsucc v w hvw) hp
      (fun x hx => (Inv.reach_top (ht ▸ h) hv x hx).tail hvw) hun
    have hg := h6 (by rw [ht]; simp)
    refine ⟨st', segs', by simp [scanArc, hp, h1], ?_, h3, hg⟩
    refine h2.addE _ ?_
    rintro x y (hE | ⟨rfl, hy⟩) hnot
    · exact absurd hE hnot
    · rw [List.mem_singleton.1 hy]
      refine ⟨h3.vis hvv, h4, ?_⟩
      intro hwS
      obtain ⟨Y, k, hk, rfl⟩ := hg
      refine ⟨_, _, rfl, ?_⟩
      rw [h2.hS, List.flatten_cons, List.mem_append] at hwS
      rcases hwS with hh | hh
      · exact hh
      · exfalso
        refine (h.vis w).2 (.inl ?_) hp
        rw [h.hS]
        obtain ⟨b, hb, hwb⟩ := List.mem_flatten.1 hh
        exact List.mem_flatten.2 ⟨b, List.mem_of_mem_drop hb, hwb⟩
  | some m =>
    by_cases hw : w ∈ st.S
    · obtain ⟨ps, segs', h1, h2, h3, t', ts', ht', hwt⟩ := h.merge hvw ht hv hw
      refine ⟨{ st with P := ps }, segs', by simp [scanArc, hp, hw, h1], ?_, Ext.refl _, h3⟩
      refine h2.addE _ ?_
      rintro x y ((hE | ⟨h5, h6, _⟩) | ⟨rfl, hy⟩) hnot
      · exact absurd hE hnot
      · exact absurd h5 h6
      · rw [List.mem_singleton.1 hy]
        exact ⟨hvv, by simp [hp], fun _ => ⟨t', ts', ht', hwt⟩⟩
    · refine ⟨st, segs, by simp [scanArc, hp, hw], ?_, Ext.refl _, ht ▸ Grow.refl⟩
      refine h.addE _ ?_
      rintro x y ((hE | ⟨h5, h6, _⟩) | ⟨rfl, hy⟩) hnot
      · exact absurd hE hnot
      · exact absurd h5 h6
      · rw [List.mem_singleton.1 hy]
        exact ⟨hvv, by simp [hp], fun hh => absurd hh hw⟩

theorem scanLoop_ok {n : Nat} (ih : SearchOk verts succ n)
    (hsucc : ∀ a b, b ∈ succ a → b ∈ verts) {v : V} :
    ∀ (ws : List V) (st : St V) segs E, Inv verts succ st segs E → (∀ w ∈ ws, w ∈ succ v) →
    (∃ t ts, segs = t :: ts ∧ v ∈ t) → unseen verts st ≤ n →
    ∃ st' segs', ws.foldlM (scanArc (search verts succ n)) st = some st' ∧
      Inv verts succ st' segs' (Scanned' succ E st st' v ws) ∧ Ext st st' ∧ Grow segs segs' := by
  intro ws
  induction ws with
  | nil =>
    rintro st segs E h _ ⟨t, ts, rfl, hv⟩ _
    refine ⟨st, _, rfl, h.shrinkE ?_, Ext.refl _, Grow.refl⟩
    rintro x w ((hE | ⟨h5, h6, _⟩) | ⟨_, hy⟩)
    · exact hE
    · exact absurd h5 h6
    · cases hy
  | cons w ws ihw =>
    rintro st segs E h hws ⟨t, ts, ht, hv⟩ hun
    obtain ⟨st1, segs1, e1, i1, x1, g1⟩ := scanArc_ok ih h hsucc (hws w (by simp)) ht hv hun
    obtain ⟨st2, segs2, e2, i2, x2, g2⟩ := ihw st1 segs1 _ i1 (fun y hy => hws y (by simp [hy]))
      ((ht ▸ g1).mem_top hv) (Nat.le_trans (unseen_le x1) hun)
    refine ⟨st2, segs2, ?_, i2.shrinkE ?_, x1.trans x2, g1.trans g2⟩
    · rw [List.foldlM_cons, e1]; exact e2
    · rintro x y ((hE | ⟨h5, h6, h7⟩) | ⟨rfl, hy⟩)
      · exact .inl (.inl (.inl (.inl hE)))
      · by_cases h8 : st1.pre x = none
        · exact .inl (.inr ⟨h8, h6, h7⟩)
        · exact .inl (.inl (.inl (.inr ⟨h5, h8, h7⟩)))
      · rcases List.mem_cons.1 hy with rfl | hy
        · exact .inl (.inl (.inr ⟨rfl, by simp⟩))
        · exact .inr ⟨rfl, hy⟩

theorem search_ok (hsucc : ∀ a b, b ∈ succ a → b ∈ verts) : ∀ n, SearchOk verts succ n := by
  intro n
  induction n with
  | zero =>
    intro v st segs E h hv hn _ hun
    exfalso
    unfold unseen at hun
    have : v ∈ verts.filter (fun x => (st.pre x).isNone) := List.mem_filter.2 ⟨hv, by simp [hn]⟩
    have := List.length_pos_of_mem this
    omega
  | succ n ih =>
    intro v st segs E h hv hn hr hun
    have hp := h.push hv hn hr
    generalize hst1 : pushed v st = st1 at hp
    have hx1 : Ext st st1 := by
      intro x m hx
      rw [← hst1]; dsimp only [pushed]
      rw [if_neg (by rintro rfl; rw [hn] at hx; cases hx), hx]
    have hv1 : st1.pre v = some st.C := by rw [← hst1]; simp [pushed]
    have hnew1 : ∀ x, st.pre x = none → st1.pre x ≠ none → x = v := by
      intro x h1 h2
      rw [← hst1] at h2; dsimp only [pushed] at h2
      by_cases hxv : x = v
      · exact hxv
      · rw [if_neg hxv] at h2; exact absurd h1 h2
    have hun1 : unseen verts st1 ≤ n := by
      have := unseen_lt (verts := verts) hx1 hv hn (by rw [hv1]; simp); omega
    obtain ⟨st2, segs2, e2, i2, x2, g2⟩ := scanLoop_ok ih hsucc (succ v) st1 _ E hp
      (fun w hw => hw) ⟨[v], segs, rfl, by simp⟩ hun1
    have hv2 : st2.pre v = some st.C := x2 v _ hv1
    have hE2 : ∀ x w, Scanned succ E st st2 x w → Scanned' succ E st1 st2 v (succ v) x w := by
      rintro x w (hE | ⟨h5, h6, h7⟩)
      · exact .inl (.inl hE)
      · by_cases h8 : st1.pre x = none
        · exact .inl (.inr ⟨h8, h6, h7⟩)
        · have := hnew1 x h5 h8
          subst this
          exact .inr ⟨rfl, h7⟩
    replace i2 := i2.shrinkE hE2
    obtain ⟨Y, k, hk, hsegs2⟩ := g2
    have hsearch : search verts succ (n + 1) v st = finish v st2 := by
      rw [search, if_pos ⟨hv, hn⟩]
      show (match (succ v).foldlM (scanArc (search verts succ n)) (pushed v st) with
        | some st2 => finish v st2
        | none => none) = _
      rw [hst1, e2]
    have hPs : ∃ p ps, st2.P = p :: ps ∧ some p = (Y ++ (([v] :: segs).take (k + 1)).flatten).getLast? ∧
        ps.map some = (([v] :: segs).drop (k + 1)).map List.getLast? := by
      have := i2.hP
      rw [hsegs2] at this
      cases hP2 : st2.P with
      | nil => rw [hP2] at this; simp at this
      | cons p ps =>
        rw [hP2] at this
        rw [List.map_cons, List.map_cons, List.cons.injEq] at this
        exact ⟨p, ps, rfl, this.1, this.2⟩
    obtain ⟨p, ps, hP2, hptop, hps⟩ := hPs
    cases k with
    | zero =>
      simp only [Nat.zero_add, List.take_succ_cons, List.take_zero, List.flatten_cons, List.flatten_nil,
        List.append_nil, List.getLast?_concat, Option.some.injEq, List.drop_succ_cons, List.drop_zero]
        at hptop hps hsegs2
      subst hptop
      have hS2 : st2.S = Y ++ p :: segs.flatten := by rw [i2.hS, hsegs2]; simp
      have hvY : p ∉ Y := by
        have := i2.nodupS
        rw [hS2, List.nodup_append] at this
        intro hmem
        exact this.2.2 p hmem p (by simp) rfl
      have hcln : (Y ++ [p]).all (fun w => (st2.cl w).isNone) = true := by
        rw [List.all_eq_true]
        intro x hx
        have hxS : x ∈ st2.S := by
          rw [hS2]; rcases List.mem_append.1 hx with h | h
          · simp [h]
          · rw [List.mem_singleton] at h; simp [h]
        cases hc : st2.cl x with
        | none => rfl
        | some i =>
          obtain ⟨c, hc1, hc2⟩ := (i2.hcl x i).1 hc
          exact absurd (List.mem_flatten.2 ⟨c, List.mem_of_getElem? hc1, hc2⟩) (i2.disj x hxS)
      have hfin : finish p st2 = some { st2 with
            S := segs.flatten, P := ps,
            cl := fun x => if x ∈ Y ++ [p] then some st2.clusters.length else st2.cl x,
            clusters := st2.clusters ++ [Y ++ [p]] } := by
        unfold finish
        rw [hP2]
        dsimp only
        rw [if_pos rfl, hS2, popScc_spec p Y _ hvY]
        dsimp only
        rw [if_pos hcln]
      have hsplit : ∀ x, x ∈ st2.S ↔ x ∈ Y ++ [p] ∨ x ∈ segs.flatten := by
        intro x; rw [hS2]; simp [or_assoc]
      have hnd := i2.nodupS
      rw [show st2.S = (Y ++ [p]) ++ segs.flatten by rw [hS2]; simp] at hnd
      rw [List.nodup_append] at hnd
      refine ⟨_, segs, hsearch.trans hfin, ?_, hx1.trans x2, by simp [hv2], fun h => h, ?_⟩
      · have i3 : Inv verts succ { st2 with
            S := segs.flatten, P := ps,
            cl := fun x => if x ∈ Y ++ [p] then some st2.clusters.length else st2.cl x,
            clusters := st2.clusters ++ [Y ++ [p]] } segs (Scanned succ E st st2) := by
          refine ⟨rfl, hps, ?_, i2.bound, ?_, ?_, ?_, ?_, ?_, i2.sub, h.strong, h.chain, ?_, i2.evis, ?_, ?_⟩
          · have := i2.desc
            rw [show st2.S = (Y ++ [p]) ++ segs.flatten by rw [hS2]; simp] at this
            exact (List.pairwise_append.1 this).2.1
          · intro x
            dsimp only
            rw [i2.vis x, hsplit x]
            simp only [List.flatten_append, List.flatten_cons, List.flatten_nil, List.append_nil,
              List.mem_append]
            constructor
            · rintro ((h | h) | h) <;> simp_all
            · rintro (h | (h | h)) <;> simp_all
          · intro x hx
            dsimp only at hx ⊢
            simp only [List.flatten_append, List.flatten_cons, List.flatten_nil, List.append_nil]
            intro hm
            rcases List.mem_append.1 hm with hm | hm
            · exact i2.disj x ((hsplit x).2 (.inr hx)) hm
            · exact hnd.2.2 x hm x hx rfl
          · simp only [List.flatten_append, List.flatten_cons, List.flatten_nil, List.append_nil]
            rw [List.nodup_append]
            refine ⟨i2.cnodup, hnd.1, ?_⟩
            rintro a ha b hb rfl
            exact i2.disj a ((hsplit a).2 (.inl hb)) ha
          · intro c hc
            rcases List.mem_append.1 hc with hc | hc
            · exact i2.cne c hc
            · rw [List.mem_singleton.1 hc]; simp
          · intro x i
            dsimp only
            constructor
            · intro hx
              split at hx
              · rename_i hm
                injection hx with hx
                exact ⟨Y ++ [p], by rw [← hx]; simp, hm⟩
              · obtain ⟨c, h1, h2⟩ := (i2.hcl x i).1 hx
                refine ⟨c, ?_, h2⟩
                rw [List.getElem?_append_left]; exact h1
                exact (List.getElem?_eq_some_iff.1 h1).1
            · rintro ⟨c, h1, h2⟩
              rw [List.getElem?_append] at h1
              split at h1
              · have hx := (i2.hcl x i).2 ⟨c, h1, h2⟩
                rw [if_neg, hx]
                intro hm
                exact i2.disj x ((hsplit x).2 (.inl hm))
                  (List.mem_flatten.2 ⟨c, List.mem_of_getElem? h1, h2⟩)
              · rw [List.getElem?_singleton] at h1
                split at h1
                · injection h1 with h1
                  subst h1
                  rw [if_pos h2]; congr 1; omega
                · cases h1
          · have := i2.back
            rw [hsegs2, List.pairwise_cons] at this
            exact this.2
          · intro c hc
            rcases List.mem_append.1 hc with hc | hc
            · exact i2.cstrong c hc
            · rw [List.mem_singleton.1 hc]
              exact i2.strong (Y ++ [p]) (by rw [hsegs2]; simp)
          · intro i c hc x hx w hw
            dsimp only at hc ⊢
            have hgen : ∀ j d, j ≤ i → st2.clusters[j]? = some d → w ∈ d →
                ∃ j d, j ≤ i ∧ (st2.clusters ++ [Y ++ [p]])[j]? = some d ∧ w ∈ d := by
              intro j d h1 h2 h3
              refine ⟨j, d, h1, ?_, h3⟩
              rw [List.getElem?_append_left]; exact h2
              exact (List.getElem?_eq_some_iff.1 h2).1
            rw [List.getElem?_append] at hc
            split at hc
            · obtain ⟨j, d, h1, h2, h3⟩ := i2.cclosed i c hc x hx w hw
              exact hgen j d h1 h2 h3
            · rename_i hlt
              rw [List.getElem?_singleton] at hc
              split at hc
              · rename_i hi
                injection hc with hc
                subst hc
                have hxS : x ∈ st2.S := (hsplit x).2 (.inl hx)
                have hxnew : st.pre x = none := by
                  cases hpx : st.pre x with
                  | none => rfl
                  | some m =>
                    exfalso
                    have hb := h.bound x m hpx
                    have hx2 := (hx1.trans x2) x m hpx
                    rcases List.mem_append.1 hx with hxY | hxp
                    · have hd := i2.desc
                      rw [hS2] at hd
                      obtain ⟨a, b, h3, h4, h5⟩ := (List.pairwise_append.1 hd).2.2 x hxY p (by simp)
                      rw [hx2] at h3; rw [hv2] at h4
                      injection h3 with h3; injection h4 with h4; omega
                    · rw [List.mem_singleton] at hxp
                      subst hxp; rw [hn] at hpx; cases hpx
                have hE : Scanned succ E st st2 x w := .inr ⟨hxnew, (i2.vis x).2 (.inl hxS), hw⟩
                have hwv := (i2.evis x w hE).2
                rcases (i2.vis w).1 hwv with hwS | hwC
                · rcases (hsplit w).1 hwS with hwY | hwB
                  · exact ⟨st2.clusters.length, Y ++ [p], by omega, by simp, hwY⟩
                  · exfalso
                    have := i2.back
                    rw [hsegs2, List.pairwise_cons] at this
                    obtain ⟨b, hb, hwb⟩ := List.mem_flatten.1 hwB
                    exact this.1 b hb x hx w hwb hE
                · obtain ⟨d, hd, hwd⟩ := List.mem_flatten.1 hwC
                  obtain ⟨j, hj, hj2⟩ := List.mem_iff_getElem.1 hd
                  exact hgen j d (by omega) (by rw [List.getElem?_eq_getElem hj, hj2]) hwd
              · cases hc
        exact i3
      · intro hne
        cases segs with
        | nil => exact absurd rfl hne
        | cons s ss => exact Grow.refl
    | succ k =>
      simp only [List.length_cons] at hk
      simp only [List.take_succ_cons, List.flatten_cons, List.drop_succ_cons] at hptop hps hsegs2
      have hsne : (segs.take (k + 1)).flatten ≠ [] := by
        cases segs with
        | nil => simp at hk
        | cons s ss =>
          have := h.ne s (by simp)
          simp [this]
      have hpv : p ≠ v := by
        have : p ∈ (segs.take (k + 1)).flatten := by
          rw [← List.append_assoc, getLast?_append_ne _ _ hsne] at hptop
          exact List.mem_of_getLast? hptop.symm
        have : p ∈ st.S := by
          rw [h.hS]
          obtain ⟨a, ha, hpa⟩ := List.mem_flatten.1 this
          exact List.mem_flatten.2 ⟨a, List.mem_of_mem_take ha, hpa⟩
        rintro rfl
        exact (h.vis p).2 (.inl this) hn
      refine ⟨st2, segs2, ?_, i2, hx1.trans x2, by simp [hv2], ?_, ?_⟩
      · rw [hsearch]; unfold finish; rw [hP2]; dsimp only; rw [if_neg hpv]
      · rintro rfl; simp at hk
      · intro _
        refine ⟨Y ++ [v], k, by omega, ?_⟩
        rw [hsegs2]; simp

/-- The state after the whole run. -/
theorem findSccs_ok (hsucc : ∀ a b, b ∈ succ a → b ∈ verts) :
    ∃ st, findSccs verts succ = some st ∧ Inv verts succ st [] (fun x w => st.pre x ≠ none ∧ w ∈ succ x) ∧
      ∀ v ∈ verts, st.pre v ≠ none := by
  have key : ∀ (vs : List V) (st : St V), (∀ v ∈ vs, v ∈ verts) →
      Inv verts succ st [] (fun x w => st.pre x ≠ none ∧ w ∈ succ x) →
      ∃ st', vs.foldlM (fun st v => match st.pre v with
        | none => search verts succ verts.length v st
        | some _ => some st) st = some st' ∧
        Inv verts succ st' [] (fun x w => st'.pre x ≠ none ∧ w ∈ succ x) ∧ Ext st st' ∧
        ∀ v ∈ vs, st'.pre v ≠ none := by
    intro vs
    induction vs with
    | nil => intro st _ h; exact ⟨st, rfl, h, Ext.refl _, by simp⟩
    | cons v vs ih =>
      intro st hsub h
      have h1 : ∃ st1, (match st.pre v with
          | none => search verts succ verts.length v st
          | some _ => some st) = some st1 ∧
          Inv verts succ st1 [] (fun x w => st1.pre x ≠ none ∧ w ∈ succ x) ∧ Ext st st1 ∧
          st1.pre v ≠ none := by
        cases hp : st.pre v with
        | some m => exact ⟨st, rfl, h, Ext.refl _, by simp [hp]⟩
        | none =>
          obtain ⟨st1, segs1, e1, i1, x1, n1, g1, _⟩ := search_ok hsucc verts.length v st [] _ h
            (hsub v (by simp)) hp (by rw [h.hS]; simp) (List.length_filter_le _ _)
          have := g1 rfl
          subst this
          refine ⟨st1, e1, i1.shrinkE ?_, x1, n1⟩
          rintro x w ⟨h2, h3⟩
          by_cases h4 : st.pre x = none
          · exact .inr ⟨h4, h2, h3⟩
          · exact .inl ⟨h4, h3⟩
      obtain ⟨st1, e1, i1, x1, n1⟩ := h1
      obtain ⟨st2, e2, i2, x2, n2⟩ := ih st1 (fun y hy => hsub y (by simp [hy])) i1
      refine ⟨st2, ?_, i2, x1.trans x2, ?_⟩
      · rw [List.foldlM_cons, e1]; exact e2
      · intro y hy
        rcases List.mem_cons.1 hy with rfl | hy
        · exact x2.vis n1
        · exact n2 y hy
  obtain ⟨st, e, i, _, n⟩ := key verts St.init (fun v h => h) (by
    refine ⟨rfl, rfl, List.Pairwise.nil, ?_, ?_, ?_, List.nodup_nil, ?_, ?_, ?_, ?_, List.Pairwise.nil,
      List.Pairwise.nil, ?_, ?_, ?_⟩ <;> simp [St.init])
  exact ⟨st, e, i, n⟩

end
end Verif.Graph
