import Verif.Validate.LitLemmas
/-! # Lemmas about elements and trees -/
namespace Verif.Validate
open Verif.HTML (Str Attrs Node litName commentName)

variable {cfg : Cfg} {text : Str}

/-- A result that fails exactly if `F`, and otherwise has exactly the messages in `M`. -/
def Desc (r : Option (List Msg)) (F : Prop) (M : Msg → Prop) : Prop :=
  (r = none ↔ F) ∧ ∀ ms, r = some ms → ∀ m, m ∈ ms ↔ M m

/-! ## Loose cells -/

theorem isLoose_none (chain : List Node) : isLoose chain = none ↔ Stray chain := by
  cases chain with
  | nil =>
    simp only [isLoose]
    constructor
    · intro h; cases h
    · rintro ⟨x, rest, h, _⟩; cases h
  | cons x rest =>
    simp only [isLoose]
    by_cases hn : nName x = thName ∨ nName x = tdName
    · rw [if_pos hn]
      cases hf : (x :: rest).find? (fun a => nName a = tableName) with
      | none =>
        simp only [true_iff]
        refine ⟨x, rest, rfl, hn, ?_⟩
        intro y hy
        simpa using List.find?_eq_none.1 hf y hy
      | some t =>
        simp only [reduceCtorEq, false_iff]
        rintro ⟨_, _, _, _, h⟩
        have h1 := List.mem_of_find?_eq_some hf
        have h2 := List.find?_some hf
        exact h t h1 (by simpa using h2)
    · rw [if_neg hn]
      simp only [reduceCtorEq, false_iff]
      rintro ⟨x', rest', he, hx, _⟩
      injection he with h1 _; subst h1; exact hn hx

theorem isLoose_true (chain : List Node) : isLoose chain = some true ↔ Loose chain := by
  cases chain with
  | nil =>
    simp only [isLoose]
    constructor
    · intro h; cases h
    · rintro ⟨x, rest, h, _⟩; cases h
  | cons x rest =>
    simp only [isLoose]
    by_cases hn : nName x = thName ∨ nName x = tdName
    · rw [if_pos hn]
      cases hf : (x :: rest).find? (fun a => nName a = tableName) with
      | none =>
        simp only [reduceCtorEq, false_iff]
        rintro ⟨_, _, _, _, pre, t, post, he, _, ht, _⟩
        have := List.find?_eq_none.1 hf t (by rw [he]; simp)
        simp [ht] at this
      | some t =>
        simp only [Option.some.injEq, decide_eq_true_eq]
        obtain ⟨hp, pre, post, he, hpre⟩ := List.find?_eq_some_iff_append.1 hf
        constructor
        · intro hl
          refine ⟨x, rest, rfl, hn, pre, t, post, he, ?_, by simpa using hp, hl⟩
          intro y hy
          simpa using hpre y hy
        · rintro ⟨_, _, _, _, pre', t', post', he', hpre', ht', hl⟩
          have : (x :: rest).find? (fun a => nName a = tableName) = some t' :=
            List.find?_eq_some_iff_append.2 ⟨by simpa using ht', pre', post', he', fun y hy => by simpa using hpre' y hy⟩
          rw [hf] at this; injection this with this; subst this; exact hl
    · rw [if_neg hn]
      simp only [Option.some.injEq, Bool.false_eq_true, false_iff]
      rintro ⟨x', rest', he, hx, _⟩
      injection he with h1 _; subst h1; exact hn hx

theorem isLoose_false (chain : List Node) (h : isLoose chain = some false) : ¬ Loose chain ∧ ¬ Stray chain := by
  constructor
  · intro hl; rw [(isLoose_true chain).2 hl] at h; cases h
  · intro hl; rw [(isLoose_none chain).2 hl] at h; cases h

theorem isLoose_true' (chain : List Node) (h : isLoose chain = some true) : Loose chain ∧ ¬ Stray chain := by
  refine ⟨(isLoose_true chain).1 h, ?_⟩
  intro hl; rw [(isLoose_none chain).2 hl] at h; cases h

/-! ## Literals -/

theorem desc_runMsgs (chain : List Node) (rs : List (Nat × Nat)) :
    Desc (runMsgs text chain rs) (Stray chain ∧ ∃ p k, (p, k) ∈ rs ∧ charBefore text p ≠ some '\n')
      (fun m => ∃ p k, (p, k) ∈ rs ∧ charBefore text p ≠ some '\n' ∧ ¬ Loose chain ∧ m = ⟨p, .spaces k⟩) := by
  induction rs with
  | nil =>
    constructor
    · simp [runMsgs]
    · intro ms h m; simp only [runMsgs, Option.some.injEq] at h; subst h; simp
  | cons r rs ih =>
    obtain ⟨p, k⟩ := r
    simp only [runMsgs]
    by_cases hc : charBefore text p = some '\n'
    · rw [if_pos hc]
      constructor
      · rw [ih.1]
        constructor
        · rintro ⟨h1, p', k', h2, h3⟩; exact ⟨h1, p', k', by simp [h2], h3⟩
        · rintro ⟨h1, p', k', h2, h3⟩
          rcases List.mem_cons.1 h2 with h2 | h2
          · injection h2 with h4 _; subst h4; exact absurd hc h3
          · exact ⟨h1, p', k', h2, h3⟩
      · intro ms h m
        rw [ih.2 ms h m]
        constructor
        · rintro ⟨p', k', h2, h3⟩; exact ⟨p', k', by simp [h2], h3⟩
        · rintro ⟨p', k', h2, h3, h4⟩
          rcases List.mem_cons.1 h2 with h2 | h2
          · injection h2 with h5 _; subst h5; exact absurd hc h3
          · exact ⟨p', k', h2, h3, h4⟩
    · rw [if_neg hc]
      cases hl : isLoose chain with
      | none =>
        have := (isLoose_none chain).1 hl
        constructor
        · simp only [true_iff]; exact ⟨this, p, k, by simp, hc⟩
        · intro ms h; cases h
      | some b =>
        cases b with
        | true =>
          obtain ⟨h1, h2⟩ := isLoose_true' chain hl
          simp only
          constructor
          · rw [ih.1]
            constructor
            · intro h; exact absurd h.1 h2
            · intro h; exact absurd h.1 h2
          · intro ms h m
            rw [ih.2 ms h m]
            constructor
            · rintro ⟨p', k', _, _, h5, _⟩; exact absurd h1 h5
            · rintro ⟨p', k', _, _, h5, _⟩; exact absurd h1 h5
        | false =>
          obtain ⟨h1, h2⟩ := isLoose_false chain hl
          simp only
          cases hr : runMsgs text chain rs with
          | none =>
            exact absurd (ih.1.1 hr).1 h2
          | some ms' =>
            constructor
            · simp only [reduceCtorEq, false_iff]; intro h; exact h2 h.1
            · intro ms h m
              injection h with h; subst h
              rw [List.mem_cons, ih.2 ms' hr m]
              constructor
              · rintro (rfl | ⟨p', k', h3, h4⟩)
                · exact ⟨p, k, by simp, hc, h1, rfl⟩
                · exact ⟨p', k', by simp [h3], h4⟩
              · rintro ⟨p', k', h3, h4, h5, h6⟩
                rcases List.mem_cons.1 h3 with h3 | h3
                · injection h3 with h7 h8; subst h7; subst h8; exact .inl h6
                · exact .inr ⟨p', k', h3, h4, h5, h6⟩

theorem wideGap_iff (a b p k : Nat) :
    WideGap text a b p k ↔ (p, k) ∈ runs a 0 (slice text a b) ∧ charBefore text p ≠ some '\n' := by
  rw [mem_runs_slice]
  unfold WideGap
  rw [Ne, charBefore_eq]
  constructor
  · rintro ⟨h1, h2, h3⟩; exact ⟨⟨h1, h2⟩, h3⟩
  · rintro ⟨⟨h1, h2⟩, h3⟩; exact ⟨h1, h2, h3⟩

theorem mem_fst {ents : List (Str × Option Char)} {e : Str} : e ∉ ents.map (·.1) ↔ ∀ c, (e, c) ∉ ents := by
  simp only [List.mem_map, not_exists, not_and]
  constructor
  · intro h c hc; exact h (e, c) hc rfl
  · rintro h ⟨e', c⟩ hm rfl; exact h c hm

theorem mem_snd {ents : List (Str × Option Char)} {c : Char} : c ∈ ents.filterMap (·.2) ↔ ∃ e, (e, some c) ∈ ents := by
  simp only [List.mem_filterMap]
  constructor
  · rintro ⟨⟨e, d⟩, hm, hd⟩
    simp only at hd; subst hd; exact ⟨e, hm⟩
  · rintro ⟨e, hm⟩; exact ⟨(e, some c), hm, rfl⟩

theorem desc_literal (hw : WordOk cfg) (anc : List Node) (n : Node) (hn : nName n = litName) :
    Desc (literalMsgs cfg text anc n) (Fatal text anc n) (Fault cfg text anc n) := by
  cases anc with
  | nil =>
    constructor
    · simp only [literalMsgs, true_iff]; exact .orphan hn rfl
    · intro ms h; simp [literalMsgs] at h
  | cons parent rest =>
    have hd := desc_runMsgs (text := text) (parent :: rest) (runs (nStart n) 0 (slice text (nStart n) (nStop n)))
    simp only [literalMsgs]
    have hf : (Stray (parent :: rest) ∧ ∃ p k, (p, k) ∈ runs (nStart n) 0 (slice text (nStart n) (nStop n)) ∧
        charBefore text p ≠ some '\n') ↔ Fatal text (parent :: rest) n := by
      constructor
      · rintro ⟨h1, p, k, h2⟩
        exact .gap hn ((wideGap_iff _ _ _ _).2 h2) h1
      · intro h
        cases h with
        | cell h _ _ => exact absurd hn h
        | gap _ h1 h2 => exact ⟨h2, _, _, (wideGap_iff _ _ _ _).1 h1⟩
        | orphan _ h => cases h
    cases hr : runMsgs text (parent :: rest) (runs (nStart n) 0 (slice text (nStart n) (nStop n))) with
    | none =>
      constructor
      · simp only [true_iff]; exact hf.1 (hd.1.1 hr)
      · intro ms h; cases h
    | some ms' =>
      constructor
      · simp only [reduceCtorEq, false_iff]
        intro h
        have := hd.1.2 (hf.2 h)
        rw [hr] at this; cases this
      · intro ms h m
        injection h with h; subst h
        rw [List.mem_append, hd.2 ms' hr m,
          mem_entityMsgs cfg hw text (cfg.entities (nName parent)) (nStart n) (nStop n) _ 0 (nStart n) (Nat.le_refl _)
            (slice_suf _ _ _) ?_ m]
        · constructor
          · rintro (⟨p, k, h1, h2, h3, rfl⟩ | ⟨q, e, h1, h2, h3, rfl⟩ | ⟨j, c, h1, h2, h3, h4, h5, h6, rfl⟩)
            · exact .spaces hn ((wideGap_iff _ _ _ _).2 ⟨h1, h2⟩) h3
            · exact .entity hn rfl h2 (mem_fst.1 h3)
            · exact .literal hn rfl h1 h2 h3 h4 (mem_snd.1 h5) h6
          · intro hfa
            cases hfa with
            | spaces _ h1 h2 =>
              have := (wideGap_iff _ _ _ _).1 h1
              exact .inl ⟨_, _, this.1, this.2, h2, rfl⟩
            | entity _ he h1 h2 =>
              injection he with he _; subst he
              exact .inr (.inl ⟨_, _, h1.1, h1, mem_fst.2 h2, rfl⟩)
            | literal _ he h1 h2 h3 h4 h5 h6 =>
              injection he with he _; subst he
              exact .inr (.inr ⟨_, _, h1, h2, h3, h4, mem_snd.2 h5, h6, rfl⟩)
            | startsSpace h => exact absurd hn h
            | endsSpace h => exact absurd hn h
            | missing h => exact absurd hn h
            | unexpected h => exact absurd hn h
            | unknown h => exact absurd hn h
            | noValue h => exact absurd hn h
            | needValue h => exact absurd hn h
            | badValue h => exact absurd hn h
            | kindless h => exact absurd hn h
            | mixed h => exact absurd hn h
            | noModel h => exact absurd hn h
            | content h => exact absurd hn h
        · intro j hj
          constructor
          · rintro ⟨q, e, he, hq, _⟩
            have := he.1; omega
          · intro h; omega

/-! ## Spaces at the ends -/

theorem rev_cons_iff (s : Str) (c : Char) (r : Str) : s.reverse = c :: r ↔ s = r.reverse ++ [c] := by
  constructor
  · intro h
    have : s = (c :: r).reverse := by rw [← h, List.reverse_reverse]
    rw [this]; simp
  · rintro rfl; simp

theorem drop_spaces (r : Str) : ∃ k, r = List.replicate k ' ' ++ r.dropWhile (· = ' ') := by
  induction r with
  | nil => exact ⟨0, rfl⟩
  | cons c cs ih =>
    by_cases hc : c = ' '
    · obtain ⟨k, hk⟩ := ih
      subst hc
      refine ⟨k + 1, ?_⟩
      simp only [List.dropWhile_cons, decide_true, if_true, List.replicate_succ, List.cons_append]
      rw [← hk]
    · exact ⟨0, by simp [hc]⟩

theorem nlSpaces_iff (r : Str) : nlSpaces (' ' :: r) = true ↔ ∃ k y, r = List.replicate k ' ' ++ '\n' :: y := by
  simp only [nlSpaces, decide_eq_true_eq]
  constructor
  · intro h
    obtain ⟨k, hk⟩ := drop_spaces r
    cases hd : r.dropWhile (· = ' ') with
    | nil => rw [hd] at h; cases h
    | cons c cs =>
      rw [hd] at h hk
      injection h with h; subst h
      exact ⟨k, cs, hk⟩
  · rintro ⟨k, y, rfl⟩
    have : ∀ k, (List.replicate k ' ' ++ '\n' :: y).dropWhile (· = ' ') = '\n' :: y := by
      intro k
      induction k with
      | zero => rfl
      | succ k ih => simpa [List.replicate_succ] using ih
    rw [this]; rfl

theorem ends_iff (ist : Str) :
    (¬ indentedEnd ist = true ∧ ist.getLast? = some ' ') ↔
      (∃ y, ist = y ++ [' ']) ∧ ¬ ∃ y k, ist = y ++ '\n' :: List.replicate k ' ' := by
  have hl : ist.getLast? = some ' ' ↔ ∃ y, ist = y ++ [' '] := by
    rw [← List.head?_reverse]
    constructor
    · intro h
      cases hr : ist.reverse with
      | nil => rw [hr] at h; cases h
      | cons c r =>
        rw [hr] at h; injection h with h; subst h
        exact ⟨_, (rev_cons_iff _ _ _).1 hr⟩
    · rintro ⟨y, rfl⟩; simp
  rw [hl]
  constructor
  · rintro ⟨h1, y, rfl⟩
    refine ⟨⟨y, rfl⟩, ?_⟩
    rintro ⟨z, k, he⟩
    apply h1
    have hr : (y ++ [' ']).reverse = ' ' :: y.reverse := by simp
    simp only [indentedEnd, hr]
    cases k with
    | zero =>
      have := congrArg List.getLast? he
      simp at this
    | succ k =>
      have h2 := congrArg List.reverse he
      rw [hr] at h2
      simp only [List.reverse_append, List.reverse_cons, List.reverse_replicate, List.replicate_succ, List.cons_append] at h2
      have h3 : (List.replicate k ' ' ++ [' '] ++ ['\n']) ++ z.reverse = ' ' :: (List.replicate k ' ' ++ '\n' :: z.reverse) := by
        rw [← List.replicate_succ', List.replicate_succ]; simp
      rw [h3] at h2
      injection h2 with _ h2
      exact (nlSpaces_iff _).2 ⟨k, z.reverse, h2⟩
  · rintro ⟨⟨y, rfl⟩, hn⟩
    refine ⟨?_, y, rfl⟩
    intro h
    apply hn
    have hr : (y ++ [' ']).reverse = ' ' :: y.reverse := by simp
    simp only [indentedEnd, hr] at h
    obtain ⟨k, z, he⟩ := (nlSpaces_iff _).1 h
    have h2 := congrArg List.reverse he
    rw [List.reverse_reverse] at h2
    refine ⟨z.reverse, k + 1, ?_⟩
    rw [h2]
    simp [List.replicate_succ']

theorem desc_edge (anc : List Node) (n : Node) :
    Desc (edgeMsgs text (n :: anc) n) (nInner n ≠ none ∧ Stray (n :: anc))
      (fun m => ∃ a b, nInner n = some (a, b) ∧ ¬ Loose (n :: anc) ∧
        (((∃ y, slice text a b = ' ' :: y) ∧ m = ⟨a, .startsSpace (nName n)⟩) ∨
         ((∃ y, slice text a b = y ++ [' ']) ∧ (¬ ∃ y k, slice text a b = y ++ '\n' :: List.replicate k ' ') ∧
            m = ⟨b, .endsSpace (nName n)⟩))) := by
  unfold edgeMsgs
  cases hi : nInner n with
  | none =>
    constructor
    · simp
    · intro ms h m; injection h with h; subst h; simp
  | some ab =>
    obtain ⟨a, b⟩ := ab
    simp only
    cases hl : isLoose (n :: anc) with
    | none =>
      constructor
      · simp only [true_iff]; exact ⟨by simp, (isLoose_none _).1 hl⟩
      · intro ms h; cases h
    | some v =>
      cases v with
      | true =>
        obtain ⟨h1, h2⟩ := isLoose_true' _ hl
        constructor
        · simp only [reduceCtorEq, false_iff]; exact fun h => h2 h.2
        · intro ms h m; injection h with h; subst h
          simp only [List.not_mem_nil, false_iff]
          rintro ⟨_, _, _, h3, _⟩; exact h3 h1
      | false =>
        obtain ⟨h1, h2⟩ := isLoose_false _ hl
        constructor
        · simp only [reduceCtorEq, false_iff]; exact fun h => h2 h.2
        · intro ms h m; injection h with h; subst h
          have hh : (slice text a b).head? = some ' ' ↔ ∃ y, slice text a b = ' ' :: y := by
            cases slice text a b with
            | nil => simp
            | cons c cs => simp
          have he := ends_iff (slice text a b)
          rw [List.mem_append]
          constructor
          · rintro (h | h)
            · split at h
              · next hc =>
                simp only [List.mem_singleton] at h
                exact ⟨a, b, rfl, h1, .inl ⟨hh.1 hc, h⟩⟩
              · cases h
            · split at h
              · cases h
              · next hc =>
                split at h
                · next hc2 =>
                  simp only [List.mem_singleton] at h
                  have := he.1 ⟨hc, hc2⟩
                  exact ⟨a, b, rfl, h1, .inr ⟨this.1, this.2, h⟩⟩
                · cases h
          · rintro ⟨a', b', hab, _, h⟩
            injection hab with hab; injection hab with ha hb; subst ha; subst hb
            rcases h with ⟨h, rfl⟩ | ⟨h3, h4, rfl⟩
            · left; rw [if_pos (hh.2 h)]; simp
            · right
              have := he.2 ⟨h3, h4⟩
              rw [if_neg this.1, if_pos this.2]; simp

end Verif.Validate
