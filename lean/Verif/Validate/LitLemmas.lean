import Verif.Validate.Spec
/-! # Lemmas about literals -/
namespace Verif.Validate
open Verif.HTML (Str Attrs Node litName commentName)

/-- `s` is what the text has from `p` to `b`. -/
def Suf (text : Str) (b p : Nat) (s : Str) : Prop := ∀ (i : Nat), s[i]? = if p + i < b then text[p + i]? else none

theorem slice_suf (text : Str) (a b : Nat) : Suf text b a (slice text a b) := by
  intro i
  simp only [slice, List.getElem?_drop, List.getElem?_take]

theorem suf_tail {text : Str} {b p : Nat} {c : Char} {cs : Str} (h : Suf text b p (c :: cs)) : Suf text b (p + 1) cs := by
  intro i
  have := h (i + 1)
  rw [List.getElem?_cons_succ] at this
  rw [this]
  have e : p + (i + 1) = p + 1 + i := by omega
  rw [e]

theorem suf_head {text : Str} {b p : Nat} {c : Char} {cs : Str} (h : Suf text b p (c :: cs)) :
    p < b ∧ text[p]? = some c := by
  have := h 0
  simp only [List.getElem?_cons_zero, Nat.add_zero] at this
  by_cases hb : p < b
  · rw [if_pos hb] at this; exact ⟨hb, this.symm⟩
  · rw [if_neg hb] at this; cases this

theorem suf_nil {text : Str} {b p : Nat} (h : Suf text b p []) (j : Nat) (hj : p ≤ j) (hb : j < b) : text[j]? = none := by
  have := h (j - p)
  have e : p + (j - p) = j := by omega
  rw [e, if_pos hb] at this
  simpa using this.symm

/-! ## Runs of spaces -/

structure RunInv (text : Str) (a b p k : Nat) : Prop where
  le : k ≤ p
  lo : a ≤ p - k
  hi : k = 0 ∨ p ≤ b
  spaces : ∀ (i : Nat), p - k ≤ i → i < p → text[i]? = some ' '
  before : p - k = a ∨ text[p - k - 1]? ≠ some ' '

/-- A run that starts where one is known to be has its length. -/
theorem run_here {text : Str} {a b p k p' k' : Nat} (hI : RunInv text a b p k) (hend : ¬ (p < b ∧ text[p]? = some ' '))
    (hr : SpaceRun text a b p' k') (h2 : 2 ≤ k') (hge : p - k ≤ p') (hlt : p' < p) : p' = p - k ∧ k' = k := by
  have h1 : p' = p - k := by
    rcases Nat.lt_or_ge (p - k) p' with h | h
    · exfalso
      rcases hr.before with hb | hb
      · have := hI.lo; omega
      · exact hb (hI.spaces (p' - 1) (by omega) (by omega))
    · omega
  refine ⟨h1, ?_⟩
  have hle := hI.le
  rcases Nat.lt_trichotomy k' k with h | h | h
  · exfalso
    rcases hr.after with ha | ha
    · rcases hI.hi with h0 | h0 <;> omega
    · exact ha (hI.spaces (p' + k') (by omega) (by omega))
  · exact h
  · exfalso
    apply hend
    refine ⟨?_, hr.spaces p (by omega) (by omega)⟩
    have := hr.hi; omega

theorem run_mk {text : Str} {a b p k : Nat} (hI : RunInv text a b p k) (h2 : 2 ≤ k)
    (hend : p = b ∨ text[p]? ≠ some ' ') : SpaceRun text a b (p - k) k := by
  have hle := hI.le
  have e : p - k + k = p := by omega
  refine ⟨hI.lo, ?_, ?_, hI.before, ?_⟩
  · rcases hI.hi with h | h <;> omega
  · intro i h1 h3; exact hI.spaces i h1 (by omega)
  · rw [e]; exact hend

theorem mem_runs (text : Str) (a b : Nat) : ∀ (s : Str) (p k : Nat), Suf text b p s → RunInv text a b p k →
    ∀ p' k', (p', k') ∈ runs p k s ↔ SpaceRun text a b p' k' ∧ 2 ≤ k' ∧ p - k ≤ p' := by
  intro s
  induction s with
  | nil =>
    intro p k hs hI p' k'
    have hend : ¬ (p < b ∧ text[p]? = some ' ') := by
      rintro ⟨h1, h2⟩
      rw [suf_nil hs p (Nat.le_refl _) h1] at h2; cases h2
    have hend' : p < b → text[p]? ≠ some ' ' := fun h1 h2 => hend ⟨h1, h2⟩
    have back : SpaceRun text a b p' k' → 2 ≤ k' → p - k ≤ p' → p' = p - k ∧ k' = k := by
      intro hr h2 hge
      apply run_here hI hend hr h2 hge
      apply Classical.byContradiction
      intro hlt
      have h3 := hr.spaces p' (Nat.le_refl _) (by omega)
      rw [suf_nil hs p' (by omega) (by have := hr.hi; omega)] at h3
      cases h3
    simp only [runs]
    by_cases hk : 2 ≤ k
    · rw [if_pos hk]
      simp only [List.mem_singleton, Prod.mk.injEq]
      constructor
      · rintro ⟨rfl, rfl⟩
        refine ⟨run_mk hI hk ?_, hk, Nat.le_refl _⟩
        rcases hI.hi with h | h
        · omega
        · rcases Nat.lt_or_ge p b with h' | h'
          · exact .inr (hend' h')
          · exact .inl (by omega)
      · rintro ⟨hr, h2, hge⟩; exact back hr h2 hge
    · rw [if_neg hk]
      simp only [List.not_mem_nil, false_iff]
      rintro ⟨hr, h2, hge⟩
      have := back hr h2 hge
      omega
  | cons c cs ih =>
    intro p k hs hI p' k'
    obtain ⟨hpb, hc⟩ := suf_head hs
    have hle := hI.le
    simp only [runs]
    by_cases hsp : c = ' '
    · rw [if_pos hsp]
      subst hsp
      have e : p + 1 - (k + 1) = p - k := by omega
      rw [ih (p + 1) (k + 1) (suf_tail hs) ⟨by omega, by rw [e]; exact hI.lo, .inr (by omega), ?_, by rw [e]; exact hI.before⟩, e]
      intro i h1 h2
      rcases Nat.lt_or_ge i p with h | h
      · exact hI.spaces i (by omega) h
      · have : i = p := by omega
        rw [this]; exact hc
    · rw [if_neg hsp]
      have hne : text[p]? ≠ some ' ' := by rw [hc]; simpa using hsp
      have hlo := hI.lo
      have ih' := ih (p + 1) 0 (suf_tail hs) ⟨by omega, by omega, .inl rfl, by intro i h1 h2; omega, .inr (by simpa using hne)⟩ p' k'
      have split : SpaceRun text a b p' k' → 2 ≤ k' → p - k ≤ p' → (p' = p - k ∧ k' = k) ∨ p + 1 - 0 ≤ p' := by
        intro hr h2 hge
        rcases Nat.lt_trichotomy p' p with h | h | h
        · exact .inl (run_here hI (fun hx => hne hx.2) hr h2 hge h)
        · exfalso; apply hne; exact hr.spaces p (by omega) (by omega)
        · exact .inr (by omega)
      by_cases hk : 2 ≤ k
      · rw [if_pos hk, List.mem_cons, ih', Prod.mk.injEq]
        constructor
        · rintro (⟨rfl, rfl⟩ | ⟨hr, h2, hge⟩)
          · exact ⟨run_mk hI hk (.inr hne), hk, Nat.le_refl _⟩
          · exact ⟨hr, h2, by omega⟩
        · rintro ⟨hr, h2, hge⟩
          rcases split hr h2 hge with h | h
          · exact .inl h
          · exact .inr ⟨hr, h2, h⟩
      · rw [if_neg hk, ih']
        constructor
        · rintro ⟨hr, h2, hge⟩; exact ⟨hr, h2, by omega⟩
        · rintro ⟨hr, h2, hge⟩
          rcases split hr h2 hge with h | h
          · omega
          · exact ⟨hr, h2, h⟩

theorem mem_runs_slice (text : Str) (a b p k : Nat) :
    (p, k) ∈ runs a 0 (slice text a b) ↔ SpaceRun text a b p k ∧ 2 ≤ k := by
  rw [mem_runs text a b _ a 0 (slice_suf text a b)
    ⟨by omega, by omega, .inl rfl, by intro i h1 h2; omega, .inl rfl⟩]
  constructor
  · rintro ⟨h1, h2, _⟩; exact ⟨h1, h2⟩
  · rintro ⟨h1, h2⟩; exact ⟨h1, h2, h1.lo⟩

theorem charBefore_eq (text : Str) (p : Nat) :
    charBefore text p = some '\n' ↔ if p = 0 then text.getLast? = some '\n' else text[p - 1]? = some '\n' := by
  cases p with
  | zero => simp [charBefore]
  | succ p => simp [charBefore]

/-! ## Entities -/

structure WordOk (cfg : Cfg) : Prop where
  semi : cfg.word ';' = false
  hash : cfg.word '#' = false
  amp : cfg.word '&' = false

theorem takeWhile_stop (w : Char → Bool) (x : Str) (d : Char) (r : Str) (hx : ∀ c ∈ x, w c = true) (hd : w d = false) :
    (x ++ d :: r).takeWhile w = x ∧ (x ++ d :: r).dropWhile w = d :: r := by
  induction x with
  | nil => simp [hd]
  | cons c cs ih =>
    have ih := ih (fun z hz => hx z (by simp [hz]))
    simp [hx c (by simp), ih.1, ih.2]

/-- The shape of an entity after the `&`. -/
def Tail (cfg : Cfg) (t : Str) : Prop :=
  ∃ h w, t = h ++ w ++ [';'] ∧ (h = [] ∨ h = ['#']) ∧ w ≠ [] ∧ ∀ c ∈ w, cfg.word c = true

theorem entityTail_iff (cfg : Cfg) (hw : WordOk cfg) (s t : Str) :
    entityTail cfg s = some t ↔ Tail cfg t ∧ ∃ r, s = t ++ r := by
  have core : ∀ (h r0 : Str) (t : Str),
      entityWord cfg h r0 = some t ↔
      ∃ w r, w ≠ [] ∧ (∀ c ∈ w, cfg.word c = true) ∧ t = h ++ w ++ [';'] ∧ r0 = w ++ ';' :: r := by
    intro h r0 t
    constructor
    · intro he
      unfold entityWord at he
      split at he
      · next c cs r h1 h2 =>
        injection he with he
        refine ⟨c :: cs, r, by simp, ?_, he.symm, ?_⟩
        · rw [← h1]; intro x hx
          exact List.all_eq_true.1 List.all_takeWhile x hx
        · rw [← h1, ← h2, List.takeWhile_append_dropWhile]
      · cases he
    · rintro ⟨w, r, hne, hall, rfl, rfl⟩
      obtain ⟨h1, h2⟩ := takeWhile_stop cfg.word w ';' r hall hw.semi
      rw [entityWord, h1, h2]
      cases w with
      | nil => exact absurd rfl hne
      | cons c cs => rfl
  constructor
  · intro he
    simp only [entityTail] at he
    split at he
    · next r =>
      obtain ⟨w, r', hne, hall, rfl, rfl⟩ := (core ['#'] r t).1 he
      exact ⟨⟨['#'], w, rfl, .inr rfl, hne, hall⟩, r', by simp⟩
    · obtain ⟨w, r', hne, hall, rfl, rfl⟩ := (core [] _ t).1 he
      exact ⟨⟨[], w, rfl, .inl rfl, hne, hall⟩, r', by simp⟩
  · rintro ⟨⟨h, w, rfl, hh, hne, hall⟩, r, rfl⟩
    rcases hh with rfl | rfl
    · cases w with
      | nil => exact absurd rfl hne
      | cons c cs =>
        have hc : c ≠ '#' := by
          rintro rfl
          have := hall '#' (by simp)
          rw [hw.hash] at this; cases this
        simp only [entityTail, List.nil_append, List.cons_append]
        split
        · next he => injection he with h1 _; exact absurd h1 hc
        · exact (core [] (c :: (cs ++ [';'] ++ r)) (c :: (cs ++ [';']))).2 ⟨c :: cs, r, by simp, hall, by simp, by simp⟩
    · simp only [entityTail, List.cons_append, List.nil_append]
      have := (core ['#'] (w ++ [';'] ++ r) (['#'] ++ w ++ [';'])).2 ⟨w, r, hne, hall, rfl, by simp⟩
      exact this

/-- An entity starts with `&` and has no other. -/
theorem entity_amp (cfg : Cfg) (hw : WordOk cfg) {t : Str} (h : Tail cfg t) : '&' ∉ t := by
  obtain ⟨h, w, rfl, hh, _, hall⟩ := h
  intro hm
  simp only [List.mem_append, List.mem_singleton] at hm
  rcases hm with (hm | hm) | hm
  · rcases hh with rfl | rfl
    · cases hm
    · simp at hm
  · have := hall _ hm
    rw [hw.amp] at this; cases this
  · simp at hm

theorem entityAt_iff (cfg : Cfg) (text : Str) (a b p : Nat) (e : Str) :
    EntityAt cfg text a b p e ↔ a ≤ p ∧ p + e.length ≤ b ∧ (∀ (i : Nat), i < e.length → text[p + i]? = e[i]?) ∧
      ∃ t, e = '&' :: t ∧ Tail cfg t := by
  constructor
  · rintro ⟨h1, h2, h3, h, w, he, hh, hne, hall⟩
    exact ⟨h1, h2, h3, _, he, h, w, rfl, hh, hne, hall⟩
  · rintro ⟨h1, h2, h3, t, he, h, w, ht, hh, hne, hall⟩
    exact ⟨h1, h2, h3, h, w, by rw [he, ht], hh, hne, hall⟩

theorem entity_inside (cfg : Cfg) (hw : WordOk cfg) {text : Str} {a b q q' : Nat} {e e' : Str}
    (h : EntityAt cfg text a b q e) (h' : EntityAt cfg text a b q' e') (hlt : q < q') : q + e.length ≤ q' := by
  apply Classical.byContradiction
  intro hn
  obtain ⟨_, _, h3, t, rfl, ht⟩ := (entityAt_iff _ _ _ _ _ _).1 h
  obtain ⟨_, _, h3', t', rfl, _⟩ := (entityAt_iff _ _ _ _ _ _).1 h'
  have h1 := h3' 0 (by simp)
  have h2 := h3 (q' - q) (by omega)
  rw [Nat.add_zero] at h1
  have e : q + (q' - q) = q' := by omega
  rw [e, h1] at h2
  obtain ⟨m, hm⟩ : ∃ m, q' - q = m + 1 := ⟨q' - q - 1, by omega⟩
  rw [hm] at h2
  simp only [List.getElem?_cons_zero, List.getElem?_cons_succ] at h2
  exact entity_amp cfg hw ht (List.mem_of_getElem? h2.symm)

/-- The entity at the head of what is left. -/
theorem entity_head (cfg : Cfg) (hw : WordOk cfg) {text : Str} {a b p : Nat} {c : Char} {cs e : Str} (hap : a ≤ p)
    (hs : Suf text b p (c :: cs)) :
    EntityAt cfg text a b p e ↔ ∃ t, c = '&' ∧ entityTail cfg cs = some t ∧ e = '&' :: t := by
  rw [entityAt_iff]
  constructor
  · rintro ⟨_, h2, h3, t, rfl, ht⟩
    have hpre : ∀ (i : Nat), i < ('&' :: t).length → (c :: cs)[i]? = ('&' :: t)[i]? := by
      intro i hi
      rw [hs i, if_pos (by omega), h3 i hi]
    have hc := hpre 0 (by simp)
    simp only [List.getElem?_cons_zero, Option.some.injEq] at hc
    refine ⟨t, hc, (entityTail_iff cfg hw cs t).2 ⟨ht, cs.drop t.length, ?_⟩, rfl⟩
    have : cs.take t.length = t := by
      apply List.ext_getElem?
      intro i
      rw [List.getElem?_take]
      by_cases hi : i < t.length
      · rw [if_pos hi]
        have := hpre (i + 1) (by simpa using hi)
        simpa using this
      · rw [if_neg hi, List.getElem?_eq_none (by omega)]
    conv => lhs; rw [← List.take_append_drop t.length cs, this]
  · rintro ⟨t, rfl, he, rfl⟩
    obtain ⟨ht, r, rfl⟩ := (entityTail_iff cfg hw _ _).1 he
    have hlt : ∀ (i : Nat), i < ('&' :: t).length → p + i < b ∧ text[p + i]? = ('&' :: t)[i]? := by
      intro i hi
      have h1 := hs i
      have h2 : ('&' :: (t ++ r))[i]? = ('&' :: t)[i]? := by
        rw [← List.cons_append, List.getElem?_append_left hi]
      rw [h2] at h1
      by_cases hb : p + i < b
      · rw [if_pos hb] at h1; exact ⟨hb, h1.symm⟩
      · rw [if_neg hb, List.getElem?_eq_none_iff] at h1; omega
    refine ⟨hap, ?_, fun i hi => (hlt i hi).2, t, rfl, ht⟩
    have := (hlt t.length (by simp)).1
    simp only [List.length_cons]; omega

/-- What is to be reported from `p` on. -/
def EntFault (cfg : Cfg) (text : Str) (ents : List (Str × Option Char)) (a b p : Nat) (m : Msg) : Prop :=
  (∃ q e, p ≤ q ∧ EntityAt cfg text a b q e ∧ e ∉ ents.map (·.1) ∧ m = ⟨q, .entity e⟩) ∨
  (∃ j c, p ≤ j ∧ j < b ∧ text[j]? = some c ∧ c ≠ '\n' ∧ c ∈ ents.filterMap (·.2) ∧
    (¬ ∃ q e, EntityAt cfg text a b q e ∧ q ≤ j ∧ j < q + e.length) ∧ m = ⟨j, .literal c⟩)

theorem mem_entityMsgs (cfg : Cfg) (hw : WordOk cfg) (text : Str) (ents : List (Str × Option Char)) (a b : Nat) :
    ∀ (s : Str) (k p : Nat), a ≤ p → Suf text b p s →
      (∀ (j : Nat), p ≤ j → ((∃ q e, EntityAt cfg text a b q e ∧ q < p ∧ j < q + e.length) ↔ j < p + k)) →
      ∀ m, m ∈ entityMsgs cfg ents k p s ↔ EntFault cfg text ents a b p m := by
  intro s
  induction s with
  | nil =>
    intro k p hap hs _ m
    have : entityMsgs cfg ents k p [] = [] := by cases k <;> rfl
    rw [this]
    simp only [List.not_mem_nil, false_iff]
    rintro (⟨q, e, hq, he, _, _⟩ | ⟨j, c, hj, hb, hc, _⟩)
    · obtain ⟨_, h2, h3, t, rfl, _⟩ := (entityAt_iff _ _ _ _ _ _).1 he
      have h4 := h3 0 (by simp)
      rw [Nat.add_zero, suf_nil hs q hq (by simp only [List.length_cons] at h2; omega)] at h4
      simp at h4
    · rw [suf_nil hs j hj hb] at hc; cases hc
  | cons c cs ih =>
    intro k p hap hs hI m
    obtain ⟨hpb, hc⟩ := suf_head hs
    cases k with
    | succ k =>
      simp only [entityMsgs]
      obtain ⟨q0, e0, he0, hq0, hj0⟩ := (hI p (Nat.le_refl _)).2 (by omega)
      have nohere : ∀ e, ¬ EntityAt cfg text a b p e := by
        intro e he
        have := entity_inside cfg hw he0 he hq0
        omega
      rw [ih k (p + 1) (by omega) (suf_tail hs) ?_ m]
      · constructor
        · rintro (⟨q, e, hq, h⟩ | ⟨j, c', hj, h⟩)
          · exact .inl ⟨q, e, by omega, h⟩
          · exact .inr ⟨j, c', by omega, h⟩
        · rintro (⟨q, e, hq, he, h⟩ | ⟨j, c', hj, h1, h2, h3, h4, h5, h6⟩)
          · refine .inl ⟨q, e, ?_, he, h⟩
            rcases Nat.lt_or_ge p q with h' | h'
            · omega
            · have : q = p := by omega
              subst this; exact absurd he (nohere e)
          · refine .inr ⟨j, c', ?_, h1, h2, h3, h4, h5, h6⟩
            rcases Nat.lt_or_ge p j with h' | h'
            · omega
            · have : j = p := by omega
              subst this
              exact absurd ⟨q0, e0, he0, by omega, hj0⟩ h5
      · intro j hj
        rw [show p + 1 + k = p + (k + 1) by omega, ← hI j (by omega)]
        constructor
        · rintro ⟨q, e, he, hq, hlt⟩
          refine ⟨q, e, he, ?_, hlt⟩
          rcases Nat.lt_or_ge q p with h' | h'
          · exact h'
          · have : q = p := by omega
            subst this; exact absurd he (nohere e)
        · rintro ⟨q, e, he, hq, hlt⟩; exact ⟨q, e, he, by omega, hlt⟩
    | zero =>
      have nocover : ∀ q e (j : Nat), EntityAt cfg text a b q e → q < p → p ≤ j → ¬ j < q + e.length := by
        intro q e j he hq hj hlt
        have := (hI j hj).1 ⟨q, e, he, hq, hlt⟩
        omega
      simp only [entityMsgs]
      cases ht : (if c = '&' then entityTail cfg cs else none) with
      | none =>
        simp only
        have nohere : ∀ e, ¬ EntityAt cfg text a b p e := by
          intro e he
          obtain ⟨t, rfl, h1, _⟩ := (entity_head cfg hw hap hs).1 he
          rw [if_pos rfl, h1] at ht; cases ht
        have hI' : ∀ (j : Nat), p + 1 ≤ j →
            ((∃ q e, EntityAt cfg text a b q e ∧ q < p + 1 ∧ j < q + e.length) ↔ j < p + 1 + 0) := by
          intro j hj
          constructor
          · rintro ⟨q, e, he, hq, hlt⟩
            exfalso
            rcases Nat.lt_or_ge q p with h' | h'
            · exact nocover q e j he h' (by omega) hlt
            · have : q = p := by omega
              subst this; exact nohere e he
          · intro h; omega
        have ih' := ih 0 (p + 1) (by omega) (suf_tail hs) hI' m
        have uncov : ¬ ∃ q e, EntityAt cfg text a b q e ∧ q ≤ p ∧ p < q + e.length := by
          rintro ⟨q, e, he, hq, hlt⟩
          rcases Nat.lt_or_ge q p with h' | h'
          · exact nocover q e p he h' (Nat.le_refl _) hlt
          · have : q = p := by omega
            subst this; exact nohere e he
        have key : EntFault cfg text ents a b p m ↔
            (c ≠ '\n' ∧ c ∈ ents.filterMap (·.2) ∧ m = ⟨p, .literal c⟩) ∨ EntFault cfg text ents a b (p + 1) m := by
          constructor
          · rintro (⟨q, e, hq, he, h⟩ | ⟨j, c', hj, h1, h2, h3, h4, h5, h6⟩)
            · refine .inr (.inl ⟨q, e, ?_, he, h⟩)
              rcases Nat.lt_or_ge p q with h' | h'
              · omega
              · have : q = p := by omega
                subst this; exact absurd he (nohere e)
            · rcases Nat.lt_or_ge p j with h' | h'
              · exact .inr (.inr ⟨j, c', by omega, h1, h2, h3, h4, h5, h6⟩)
              · have : j = p := by omega
                subst this
                rw [hc] at h2; injection h2 with h2; subst h2
                exact .inl ⟨h3, h4, h6⟩
          · rintro (⟨h3, h4, h6⟩ | ⟨q, e, hq, h⟩ | ⟨j, c', hj, h⟩)
            · exact .inr ⟨p, c, Nat.le_refl _, hpb, hc, h3, h4, uncov, h6⟩
            · exact .inl ⟨q, e, by omega, h⟩
            · exact .inr ⟨j, c', by omega, h⟩
        rw [key]
        by_cases hd : c ≠ '\n' ∧ c ∈ ents.filterMap (·.2)
        · rw [if_pos hd, List.mem_cons, ih']
          constructor
          · rintro (h | h)
            · exact .inl ⟨hd.1, hd.2, h⟩
            · exact .inr h
          · rintro (h | h)
            · exact .inl h.2.2
            · exact .inr h
        · rw [if_neg hd, ih']
          constructor
          · exact .inr
          · rintro (h | h)
            · exact absurd ⟨h.1, h.2.1⟩ hd
            · exact h
      | some t =>
        simp only
        have hamp : c = '&' := by
          by_cases h : c = '&'
          · exact h
          · rw [if_neg h] at ht; cases ht
        rw [if_pos hamp] at ht
        have here : EntityAt cfg text a b p ('&' :: t) := (entity_head cfg hw hap hs).2 ⟨t, hamp, ht, rfl⟩
        have only : ∀ e, EntityAt cfg text a b p e → e = '&' :: t := by
          intro e he
          obtain ⟨t', _, h1, h2⟩ := (entity_head cfg hw hap hs).1 he
          rw [ht] at h1; injection h1 with h1; subst h1; exact h2
        have hI' : ∀ (j : Nat), p + 1 ≤ j →
            ((∃ q e, EntityAt cfg text a b q e ∧ q < p + 1 ∧ j < q + e.length) ↔ j < p + 1 + t.length) := by
          intro j hj
          constructor
          · rintro ⟨q, e, he, hq, hlt⟩
            rcases Nat.lt_or_ge q p with h' | h'
            · exact absurd hlt (nocover q e j he h' (by omega))
            · have : q = p := by omega
              subst this
              rw [only e he] at hlt
              simp only [List.length_cons] at hlt; omega
          · intro h
            exact ⟨p, _, here, by omega, by simp only [List.length_cons]; omega⟩
        have ih' := ih t.length (p + 1) (by omega) (suf_tail hs) hI' m
        have key : EntFault cfg text ents a b p m ↔
            (('&' :: t) ∉ ents.map (·.1) ∧ m = ⟨p, .entity ('&' :: t)⟩) ∨ EntFault cfg text ents a b (p + 1) m := by
          constructor
          · rintro (⟨q, e, hq, he, h⟩ | ⟨j, c', hj, h1, h2, h3, h4, h5, h6⟩)
            · rcases Nat.lt_or_ge p q with h' | h'
              · exact .inr (.inl ⟨q, e, by omega, he, h⟩)
              · have : q = p := by omega
                subst this
                rw [only e he] at h
                exact .inl h
            · rcases Nat.lt_or_ge p j with h' | h'
              · exact .inr (.inr ⟨j, c', by omega, h1, h2, h3, h4, h5, h6⟩)
              · have : j = p := by omega
                subst this
                exact absurd ⟨j, _, here, Nat.le_refl _, by simp⟩ h5
          · rintro (⟨h1, h2⟩ | ⟨q, e, hq, h⟩ | ⟨j, c', hj, h⟩)
            · exact .inl ⟨p, _, Nat.le_refl _, here, h1, h2⟩
            · exact .inl ⟨q, e, by omega, h⟩
            · exact .inr ⟨j, c', by omega, h⟩
        rw [key]
        by_cases hd : ('&' :: t) ∈ ents.map (·.1)
        · rw [if_pos hd, ih']
          constructor
          · exact .inr
          · rintro (h | h)
            · exact absurd hd h.1
            · exact h
        · rw [if_neg hd, List.mem_cons, ih']
          constructor
          · rintro (h | h)
            · exact .inl ⟨hd, h⟩
            · exact .inr h
          · rintro (h | h)
            · exact .inl h.2
            · exact .inr h

end Verif.Validate
