import Verif.Types.TreeLemmas
/-! # Lemmas about the subtype test -/
namespace Verif.Types

mutual
theorem Ty.ind {P : Ty → Prop} (tbd : P .tbd) (hier : ∀ n, P (.hier n)) (list : ∀ t, P t → P (.list t))
    (record : ∀ s fs, (∀ p ∈ fs, P p.2) → P (.record s fs)) (proc : ∀ ps r, P r → P (.proc ps r))
    (union : ∀ ms, (∀ m ∈ ms, P m) → P (.union ms)) : ∀ t, P t
  | .tbd => tbd
  | .hier n => hier n
  | .list t => list t (Ty.ind tbd hier list record proc union t)
  | .record s fs => record s fs (Ty.indF tbd hier list record proc union fs)
  | .proc ps r => proc ps r (Ty.ind tbd hier list record proc union r)
  | .union ms => union ms (Ty.indL tbd hier list record proc union ms)
theorem Ty.indL {P : Ty → Prop} (tbd : P .tbd) (hier : ∀ n, P (.hier n)) (list : ∀ t, P t → P (.list t))
    (record : ∀ s fs, (∀ p ∈ fs, P p.2) → P (.record s fs)) (proc : ∀ ps r, P r → P (.proc ps r))
    (union : ∀ ms, (∀ m ∈ ms, P m) → P (.union ms)) : ∀ (ms : List Ty), ∀ m ∈ ms, P m
  | [] => fun m hm => by cases hm
  | t :: ts => fun m hm => by
    rcases List.mem_cons.1 hm with e | hm'
    · rw [e]; exact Ty.ind tbd hier list record proc union t
    · exact Ty.indL tbd hier list record proc union ts m hm'
theorem Ty.indF {P : Ty → Prop} (tbd : P .tbd) (hier : ∀ n, P (.hier n)) (list : ∀ t, P t → P (.list t))
    (record : ∀ s fs, (∀ p ∈ fs, P p.2) → P (.record s fs)) (proc : ∀ ps r, P r → P (.proc ps r))
    (union : ∀ ms, (∀ m ∈ ms, P m) → P (.union ms)) : ∀ (fs : List (String × Ty)), ∀ p ∈ fs, P p.2
  | [] => fun m hm => by cases hm
  | (n, t) :: ts => fun m hm => by
    rcases List.mem_cons.1 hm with e | hm'
    · rw [e]; exact Ty.ind tbd hier list record proc union t
    · exact Ty.indF tbd hier list record proc union ts m hm'
end

variable {cfg : Cfg} {I : Interp}

theorem denAny_iff {v : I.V} : ∀ {ms : List Ty}, denAny cfg I ms v ↔ ∃ m ∈ ms, den cfg I m v := by
  intro ms
  induction ms with
  | nil => simp [denAny]
  | cons m ms ih => simp [denAny, ih]

theorem den_members {A : Ty} {v : I.V} : den cfg I A v ↔ ∃ m ∈ members A, den cfg I m v := by
  cases A <;> simp [members]
  simp [den, denAny_iff]

theorem denF_iff {v : I.V} : ∀ {fs : List (String × Ty)}, denF cfg I fs v ↔
    ∀ p ∈ fs, ∃ x, I.field v p.1 = some x ∧ den cfg I p.2 x := by
  intro fs
  induction fs with
  | nil => simp [denF]
  | cons p fs ih => obtain ⟨n, t⟩ := p; simp [denF, ih]

theorem denEach_length : ∀ {ps : List Ty}, (denEach cfg I ps).length = ps.length := by
  intro ps
  induction ps with
  | nil => rfl
  | cons p ps ih => simp [denEach, ih]

theorem denEach_eq_map : ∀ (ps : List Ty), denEach cfg I ps = ps.map (den cfg I) := by
  intro ps
  induction ps with
  | nil => rfl
  | cons p ps ih => simp [denEach, ih]

theorem anyOpt_true {α} {f : α → Option Bool} : ∀ {xs}, anyOpt f xs = some true → ∃ x ∈ xs, f x = some true := by
  intro xs
  induction xs with
  | nil => intro h; simp [anyOpt] at h
  | cons x xs ih =>
    intro h
    rw [anyOpt] at h
    split at h
    · obtain ⟨y, hy, h⟩ := ih h
      exact ⟨y, List.mem_cons_of_mem _ hy, h⟩
    · exact ⟨x, List.mem_cons_self, h⟩

theorem anyOpt_ne_false {α} {f : α → Option Bool} : ∀ {xs} {x : α}, x ∈ xs → f x ≠ some false → anyOpt f xs ≠ some false := by
  intro xs
  induction xs with
  | nil => intro x h; cases h
  | cons y ys ih =>
    intro x h hx
    rw [anyOpt]
    split
    · rename_i hy
      rcases List.mem_cons.1 h with rfl | h
      · exact absurd hy hx
      · exact ih h hx
    · rename_i hy; exact hy

theorem allOpt_true {α} {f : α → Option Bool} : ∀ {xs}, allOpt f xs = some true ↔ ∀ x ∈ xs, f x = some true := by
  intro xs
  induction xs with
  | nil => simp [allOpt]
  | cons x xs ih =>
    rw [allOpt]
    split
    · rename_i hx; simp [ih, hx]
    · rename_i hx
      constructor
      · intro h; exact absurd h hx
      · intro h; exact absurd (h x List.mem_cons_self) hx

theorem allOpt_false {α} {f : α → Option Bool} : ∀ {xs}, allOpt f xs = some false → ∃ x ∈ xs, f x = some false := by
  intro xs
  induction xs with
  | nil => intro h; simp [allOpt] at h
  | cons x xs ih =>
    intro h
    rw [allOpt] at h
    split at h
    · obtain ⟨y, hy, h⟩ := ih h
      exact ⟨y, List.mem_cons_of_mem _ hy, h⟩
    · exact ⟨x, List.mem_cons_self, h⟩

theorem relF_lookup (n : String) : ∀ {fs : List (String × Ty)},
    (relF cfg fs).lookup n = (fs.lookup n).map (fun t => (rel cfg t).2) := by
  intro fs
  induction fs with
  | nil => rfl
  | cons p fs ih =>
    obtain ⟨m, t⟩ := p
    simp only [relF, List.lookup]
    cases n == m <;> simp [ih]

theorem relF_mem {q : String × (Ty → Option Bool)} : ∀ {fs : List (String × Ty)},
    q ∈ relF cfg fs ↔ ∃ p ∈ fs, q = (p.1, (rel cfg p.2).2) := by
  intro fs
  induction fs with
  | nil => simp [relF]
  | cons p fs ih => obtain ⟨m, t⟩ := p; simp [relF, ih]

theorem relF_keys : ∀ {fs : List (String × Ty)}, (relF cfg fs).map (·.1) = fs.map (·.1) := by
  intro fs
  induction fs with
  | nil => rfl
  | cons p fs ih => obtain ⟨m, t⟩ := p; simp [relF, ih]

theorem lookup_mem {β} {n : String} {b : β} : ∀ {xs : List (String × β)}, xs.lookup n = some b → (n, b) ∈ xs := by
  intro xs
  induction xs with
  | nil => intro h; cases h
  | cons p xs ih =>
    obtain ⟨m, c⟩ := p
    intro h
    rw [List.lookup] at h
    split at h
    · rename_i e
      injection h with h
      simp at e
      subst h; subst e
      exact List.mem_cons_self
    · exact List.mem_cons_of_mem _ (ih h)

theorem relAll_true {bs : List Ty} : ∀ {ms : List Ty}, relAll cfg ms bs = some true →
    ∀ m ∈ ms, ∃ b ∈ bs, (rel cfg m).1 b = some true := by
  intro ms
  induction ms with
  | nil => intro _ m hm; cases hm
  | cons x ms ih =>
    intro h m hm
    rw [relAll] at h
    split at h
    · rename_i hx
      rcases List.mem_cons.1 hm with rfl | hm'
      · exact anyOpt_true hx
      · exact ih h m hm'
    · rename_i hx; exact absurd h hx

theorem relAll_ne_false {bs : List Ty} : ∀ {ms : List Ty}, (∀ m ∈ ms, anyOpt (rel cfg m).1 bs ≠ some false) →
    relAll cfg ms bs ≠ some false := by
  intro ms
  induction ms with
  | nil => intro _; simp [relAll]
  | cons x ms ih =>
    intro h
    rw [relAll]
    split
    · exact ih (fun m hm => h m (List.mem_cons_of_mem _ hm))
    · exact h x List.mem_cons_self

/-! ### Soundness -/

theorem Respects.anc (hr : Respects cfg I) : ∀ {a b}, Anc cfg.tree a b → ∀ v, I.named b v → I.named a v := by
  have key : ∀ t : Tree, (∀ p c, ChildOf t p c → ∀ v, I.named c v → I.named p v) →
      ∀ {a b}, Anc t a b → ∀ v, I.named b v → I.named a v := by
    intro t
    induction t using Tree.ind with
    | h n cs ih =>
      intro hch a b h v hv
      rcases anc_node.1 h with ⟨rfl, h⟩ | ⟨c, hc, h⟩
      · rcases mem_names.1 h with rfl | ⟨c, hc, h⟩
        · exact hv
        · refine hch a c.name (.here hc) v (ih c hc (fun p x hx => hch p x (.deeper hc hx)) (.here h) v hv)
      · exact ih c hc (fun p x hx => hch p x (.deeper hc hx)) h v hv
  intro a b
  exact key cfg.tree hr.child

theorem hierSub_sound (hc : CfgOk cfg) (hr : Respects cfg I) {a b} (h : hierSub cfg.tree a b = some true) (v : I.V)
    (hv : I.named a v) : I.named b v := by
  rcases (hierSub_iff hc.nodup).1 h with rfl | h
  · exact hv
  · exact hr.anc h v hv

theorem namedSub_sound (hc : CfgOk cfg) (hr : Respects cfg I) {a b} (h : namedSub cfg.tree a b = some true) (v : I.V)
    (hv : I.named a v) : I.named b v := by
  unfold namedSub at h
  split at h
  · rename_i e; rw [e]; exact hr.top v
  · exact hierSub_sound hc hr h v hv

theorem subWith_sound (hr : Respects cfg I) {A B : Ty} {g : List Ty → Option Bool}
    (hg : ∀ bs, g bs = some true → ∀ v, den cfg I A v → ∃ b ∈ bs, den cfg I b v)
    (h : subWith A B g = some true) (v : I.V) (hv : den cfg I A v) : den cfg I B v := by
  unfold subWith at h
  split at h
  · rename_i e; rw [e]; exact hr.top v
  · split at h
    · cases h
    · split at h
      · rename_i hs
        obtain ⟨m, hm, hv⟩ := den_members.1 hv
        exact den_members.2 ⟨m, hs hm, hv⟩
      · exact den_members.2 (hg _ h v hv)

theorem memberWith_sound {A B : Ty} {f : Ty → Option Bool}
    (hf : f B = some true → ∀ v, den cfg I A v → den cfg I B v)
    (h : memberWith A B f = some true) (v : I.V) (hv : den cfg I A v) : den cfg I B v := by
  unfold memberWith at h
  split at h
  · cases h
  · cases h
  · split at h
    · rename_i e; rw [← e]; exact hv
    · exact hf h v hv

theorem deepL_iff {p : Ty → Prop} : ∀ {ms : List Ty}, DeepL p ms ↔ ∀ m ∈ ms, Deep p m := by
  intro ms
  induction ms with
  | nil => simp [DeepL]
  | cons m ms ih => simp [DeepL, ih]

theorem deepF_iff {p : Ty → Prop} : ∀ {fs : List (String × Ty)}, DeepF p fs ↔ ∀ q ∈ fs, Deep p q.2 := by
  intro ms
  induction ms with
  | nil => simp [DeepF]
  | cons m ms ih => obtain ⟨n, t⟩ := m; simp [DeepF, ih]

theorem Deep.self {p : Ty → Prop} {t : Ty} (h : Deep p t) : p t := by
  cases t <;> first | exact h | exact h.1

theorem Deep.mem {p : Ty → Prop} {t m : Ty} (h : Deep p t) (hm : m ∈ members t) : Deep p m := by
  cases t with
  | union ms => exact deepL_iff.1 h.2 m hm
  | _ => simp [members] at hm; subst hm; exact h

theorem lookup_of_mem {β} {n : String} {b : β} : ∀ {xs : List (String × β)}, (xs.map (·.1)).Nodup → (n, b) ∈ xs →
    xs.lookup n = some b := by
  intro xs
  induction xs with
  | nil => intro _ h; cases h
  | cons p xs ih =>
    obtain ⟨m, c⟩ := p
    intro hn h
    simp only [List.map_cons, List.nodup_cons] at hn
    rw [List.lookup]
    rcases List.mem_cons.1 h with e | h'
    · injection e with e1 e2
      subst e1; subst e2
      simp
    · have : (n == m) = false := by
        rw [beq_eq_false_iff_ne]
        rintro rfl
        exact hn.1 (List.mem_map.2 ⟨(_, b), h', rfl⟩)
      rw [this]
      exact ih hn.2 h'

theorem recordSub_sound (hc : CfgOk cfg) {s s' : String} {fs fs' : List (String × Ty)}
    (hok : FieldsOk (.record s' fs'))
    (ih : ∀ p ∈ fs, ∀ B, FieldsOk B → (rel cfg p.2).2 B = some true → ∀ v, den cfg I p.2 v → den cfg I B v)
    (h : recordSub cfg s (relF cfg fs) s' fs' = some true) (v : I.V) (hv : den cfg I (.record s fs) v) :
    den cfg I (.record s' fs') v := by
  simp only [den] at hv ⊢
  obtain ⟨hs, hf⟩ := hv
  rw [denF_iff] at hf ⊢
  unfold recordSub at h
  split at h
  · rename_i e
    obtain ⟨rfl, rfl⟩ := e
    split at h
    · rename_i hk
      rw [relF_keys] at hk
      refine ⟨hs, fun p hp => ?_⟩
      rw [allOpt_true] at h
      obtain ⟨q, hq, e⟩ := List.mem_map.1 (hk.2 (List.mem_map.2 ⟨p, hp, rfl⟩))
      have := h _ (relF_mem.2 ⟨q, hq, rfl⟩)
      simp only at this
      rw [e, lookup_of_mem (n := p.1) (b := p.2) hok.1 hp] at this
      obtain ⟨x, hx, hd⟩ := hf q hq
      rw [e] at hx
      exact ⟨x, hx, ih q hq p.2 (deepF_iff.1 hok.2 p hp) this x hd⟩
    · cases h
  · split at h
    · cases h
    · rename_i h0 h1
      split at h
      · rename_i ia ib hia hib
        split at h
        · rename_i hsup
          rw [allOpt_true] at h
          refine ⟨?_, fun p hp => ?_⟩
          · unfold HasSchema at hs ⊢
            rw [if_neg (fun e => h1 (.inl e))] at hs
            rw [if_neg (fun e => h1 (.inr e))]
            obtain ⟨i, j, e1, e2, e3⟩ := hs
            rw [hia] at e1
            injection e1 with e1
            subst e1
            exact ⟨ib, j, hib, e2, hc.supers _ _ _ e3 hsup⟩
          · have := h p hp
            rw [relF_lookup] at this
            cases hl : fs.lookup p.1 with
            | none => rw [hl] at this; cases this
            | some t =>
              rw [hl] at this
              have hm := lookup_mem hl
              obtain ⟨x, hx, hd⟩ := hf _ hm
              exact ⟨x, hx, ih _ hm _ (deepF_iff.1 hok.2 p hp) this x hd⟩
        · cases h
      · cases h

theorem general_sound {A : Ty} {bs : List Ty} {m : Ty → Option Bool}
    (hm : ∀ b ∈ bs, m b = some true → ∀ v, den cfg I A v → den cfg I b v)
    (h : anyOpt m bs = some true) (v : I.V) (hv : den cfg I A v) : ∃ b ∈ bs, den cfg I b v := by
  obtain ⟨b, hb, h⟩ := anyOpt_true h
  exact ⟨b, hb, hm b hb h v hv⟩

theorem subWith_sound' (hr : Respects cfg I) {A B : Ty} (hB : FieldsOk B) {m : Ty → Option Bool}
    (hm : ∀ b, FieldsOk b → m b = some true → ∀ v, den cfg I A v → den cfg I b v)
    (h : subWith A B (anyOpt m) = some true) (v : I.V) (hv : den cfg I A v) : den cfg I B v := by
  unfold subWith at h
  split at h
  · rename_i e; rw [e]; exact hr.top v
  · split at h
    · cases h
    · split at h
      · rename_i hs
        obtain ⟨m, hm, hv⟩ := den_members.1 hv
        exact den_members.2 ⟨m, hs hm, hv⟩
      · exact den_members.2 (general_sound (fun b hb h => hm b (hB.mem hb) h) h v hv)

theorem rel_sound (hc : CfgOk cfg) (hr : Respects cfg I) (hp : ProcsByResult I) (A : Ty) :
    (∀ B, FieldsOk B → (rel cfg A).1 B = some true → ∀ v, den cfg I A v → den cfg I B v) ∧
    (∀ B, FieldsOk B → (rel cfg A).2 B = some true → ∀ v, den cfg I A v → den cfg I B v) := by
  induction A using Ty.ind with
  | tbd =>
    refine ⟨fun B _ h => by simp [rel] at h, fun B hB h => subWith_sound' hr hB (fun b _ h => by simp at h) h⟩
  | hier n =>
    have hm : ∀ B, FieldsOk B → (rel cfg (.hier n)).1 B = some true → ∀ v, den cfg I (.hier n) v → den cfg I B v := by
      intro B hB h v hv
      refine memberWith_sound (fun h v hv => ?_) h v hv
      split at h
      · exact hierSub_sound hc hr h v hv
      · cases h
    exact ⟨hm, fun B hB h => subWith_sound' hr hB hm h⟩
  | list t ih =>
    have hm : ∀ B, FieldsOk B → (rel cfg (.list t)).1 B = some true → ∀ v, den cfg I (.list t) v → den cfg I B v := by
      intro B hB h v hv
      refine memberWith_sound (fun h v hv => ?_) h v hv
      split at h
      · obtain ⟨l, hl, hv⟩ := hv
        exact ⟨l, hl, fun x hx => ih.2 _ hB.2 h x (hv x hx)⟩
      · obtain ⟨l, hl, hv⟩ := hv
        exact namedSub_sound hc hr h v (hr.list v l hl)
      · cases h
      · cases h
    exact ⟨hm, fun B hB h => subWith_sound' hr hB hm h⟩
  | record s fs ih =>
    have hm : ∀ B, FieldsOk B → (rel cfg (.record s fs)).1 B = some true → ∀ v, den cfg I (.record s fs) v → den cfg I B v := by
      intro B hB h v hv
      refine memberWith_sound (fun h v hv => ?_) h v hv
      split at h
      · exact recordSub_sound hc hB (fun p hp => (ih p hp).2) h v hv
      · refine namedSub_sound hc hr h v ?_
        have hs := hv.1
        unfold HasSchema at hs
        split at hs
        · exact hr.record v _ hs
        · obtain ⟨_, _, _, h, _⟩ := hs
          exact hr.record v _ h
      · cases h
      · cases h
      · cases h
    exact ⟨hm, fun B hB h => subWith_sound' hr hB hm h⟩
  | proc ps r ih =>
    have hm : ∀ B, FieldsOk B → (rel cfg (.proc ps r)).1 B = some true → ∀ v, den cfg I (.proc ps r) v → den cfg I B v := by
      intro B hB h v hv
      refine memberWith_sound (fun h v hv => ?_) h v hv
      split at h
      · split at h
        · rename_i hl
          exact hp _ _ _ _ v (by rw [denEach_length, denEach_length, hl]) (ih.2 _ hB.2 h) hv
        · cases h
      · exact namedSub_sound hc hr h v (hr.proc _ _ _ hv)
      · cases h
      · cases h
      · cases h
    exact ⟨hm, fun B hB h => subWith_sound' hr hB hm h⟩
  | union ms ih =>
    refine ⟨fun B _ h => by simp [rel] at h, fun B hB h v hv => ?_⟩
    have h : subWith (.union ms) B (relAll cfg ms) = some true := h
    unfold subWith at h
    split at h
    · rename_i e; rw [e]; exact hr.top v
    · split at h
      · cases h
      · split at h
        · rename_i hs
          obtain ⟨m, hm, hv⟩ := den_members.1 hv
          exact den_members.2 ⟨m, hs hm, hv⟩
        · obtain ⟨m, hm, hv⟩ := den_members.1 hv
          obtain ⟨b, hb, h⟩ := relAll_true h m hm
          exact den_members.2 ⟨b, hb, (ih m hm).1 b (hB.mem hb) h v hv⟩

end Verif.Types
