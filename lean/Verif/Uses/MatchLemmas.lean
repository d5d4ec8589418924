import Verif.Uses.Spec
import Verif.Gram.RhsProps
/-!
# The matching of right-hand sides and its notes
-/
namespace Verif.Uses
open Verif.Uses.Spec
open Verif.Gram (Notes matchRhs matchItem matchLoop matchSym needless optbits Item Sym IKind Optionality SameSym Annotation)

/-- The notes are those of the steps. -/
structure NotesFor (n : Notes) (st : List Step) : Prop where
  optional : n.optional.map (·.2) = st.filterMap treatment
  intact : n.argsIntact = st.filterMap keptArgs
  suppressed : n.argsSuppressed = st.filterMap droppedArgs
  annIntact : n.annIntact = st.filterMap keptText
  annSuppressed : n.annSuppressed = st.filterMap leftText

theorem NotesFor.add {a b : Notes} {s t : List Step} (h : NotesFor a s) (k : NotesFor b t) : NotesFor (a.add b) (s ++ t) where
  optional := by rw [List.filterMap_append, ← h.optional, ← k.optional, ← List.map_append]; rfl
  intact := by rw [List.filterMap_append, ← h.intact, ← k.intact]; rfl
  suppressed := by rw [List.filterMap_append, ← h.suppressed, ← k.suppressed]; rfl
  annIntact := by rw [List.filterMap_append, ← h.annIntact, ← k.annIntact]; rfl
  annSuppressed := by rw [List.filterMap_append, ← h.annSuppressed, ← k.annSuppressed]; rfl

theorem notesFor_nil : NotesFor {} [] := ⟨rfl, rfl, rfl, rfl, rfl⟩

theorem matchSym_some {u d : Sym} : (∃ n, matchSym u d = some n) ↔ SameSym u d := Gram.matchSym_iff u d

/-- What the notes on two symbols are. -/
theorem matchSym_notes {u d : Sym} {n : Notes} (h : matchSym u d = some n) :
    n.optional = [] ∧ n.annSuppressed = [] ∧
    ∀ u' d' : Item, u'.sym = u → d'.sym = d →
      n.argsIntact = [Step.kept u' d'].filterMap keptArgs ∧ n.argsSuppressed = [Step.kept u' d'].filterMap droppedArgs ∧
      n.annIntact = [Step.kept u' d'].filterMap keptText := by
  cases u with
  | gnt a p =>
    cases d with
    | other l b => simp [matchSym] at h
    | gnt b q =>
      simp only [matchSym] at h
      split at h
      · cases h
      · by_cases hq : q = []
        · simp [hq] at h; subst h
          refine ⟨rfl, rfl, fun u' d' hu hd => ?_⟩
          simp [keptArgs, droppedArgs, keptText, hu, hd, hq]
        · by_cases hp : p = []
          · simp [hq, hp] at h; subst h
            refine ⟨rfl, rfl, fun u' d' hu hd => ?_⟩
            simp [keptArgs, droppedArgs, keptText, hu, hd, hq, hp]
          · simp [hq, hp] at h; subst h
            refine ⟨rfl, rfl, fun u' d' hu hd => ?_⟩
            simp [keptArgs, droppedArgs, keptText, hu, hd, hq, hp]
  | other k a =>
    cases d with
    | gnt b q => simp [matchSym] at h
    | other l b =>
      simp only [matchSym] at h
      split at h
      · cases h
      · split at h
        · cases h
        · split at h
          · next hk =>
            cases h
            refine ⟨rfl, rfl, fun u' d' hu hd => ?_⟩
            simp [keptArgs, droppedArgs, keptText, hu, hk]
          · next hk =>
            cases h
            refine ⟨rfl, rfl, fun u' d' hu hd => ?_⟩
            simp [keptArgs, droppedArgs, keptText, hu, hk]

theorem matchItem_some {u d : Item} : (∃ n, matchItem u d = some n) ↔ Same u d := by
  cases d with
  | plain b =>
    cases u with
    | plain a => exact matchSym_some
    | qm a => simp [matchItem, Same]
  | qm b =>
    cases u with
    | plain a =>
      simp only [matchItem, Same, ← matchSym_some]
      cases matchSym a b <;> simp [Gram.withOptional]
    | qm a =>
      simp only [matchItem, Same, ← matchSym_some]
      cases matchSym a b <;> simp [Gram.withOptional]

theorem matchItem_none {u d : Item} : matchItem u d = none ↔ ¬Same u d := by
  rw [← matchItem_some]
  cases matchItem u d <;> simp

theorem matchItem_notes {u d : Item} {n : Notes} (h : matchItem u d = some n) : NotesFor n [.kept u d] := by
  cases d with
  | plain b =>
    cases u with
    | plain a =>
      obtain ⟨h1, h2, h3⟩ := matchSym_notes h
      obtain ⟨k1, k2, k3⟩ := h3 (.plain a) (.plain b) rfl rfl
      exact ⟨by rw [h1]; rfl, k1, k2, k3, by rw [h2]; rfl⟩
    | qm a => simp [matchItem] at h
  | qm b =>
    cases u with
    | plain a =>
      simp only [matchItem] at h
      cases hm : matchSym a b with
      | none => rw [hm] at h; simp [Gram.withOptional] at h
      | some m =>
        rw [hm] at h; simp only [Gram.withOptional, Option.some.injEq] at h
        subst h
        obtain ⟨h1, h2, h3⟩ := matchSym_notes hm
        obtain ⟨k1, k2, k3⟩ := h3 (.plain a) (.qm b) rfl rfl
        exact ⟨rfl, k1, k2, k3, by simp only; rw [h2]; rfl⟩
    | qm a =>
      simp only [matchItem] at h
      cases hm : matchSym a b with
      | none => rw [hm] at h; simp [Gram.withOptional] at h
      | some m =>
        rw [hm] at h; simp only [Gram.withOptional, Option.some.injEq] at h
        subst h
        obtain ⟨h1, h2, h3⟩ := matchSym_notes hm
        obtain ⟨k1, k2, k3⟩ := h3 (.qm a) (.qm b) rfl rfl
        exact ⟨rfl, k1, k2, k3, by simp only; rw [h2]; rfl⟩

theorem needless_some {d : Item} : (∃ n, needless d = some n) ↔ CanLeave d := by
  cases d with
  | qm s => simp [needless, CanLeave]
  | plain s =>
    cases s with
    | gnt a p => simp [needless, CanLeave, Annotation]
    | other k t => cases k <;> simp [needless, CanLeave, Annotation]

theorem needless_none {d : Item} : needless d = none ↔ ¬CanLeave d := by
  rw [← needless_some]
  cases needless d <;> simp

theorem needless_notes {d : Item} {n : Notes} (h : needless d = some n) : NotesFor n [.left d] := by
  cases d with
  | qm s => simp only [needless, Option.some.injEq] at h; subst h; exact ⟨rfl, rfl, rfl, rfl, rfl⟩
  | plain s =>
    cases s with
    | gnt a p => simp [needless] at h
    | other k t =>
      cases k <;> simp only [needless, Option.some.injEq, reduceCtorEq] at h <;> subst h <;> exact ⟨rfl, rfl, rfl, rfl, rfl⟩

theorem loop_sound : ∀ (ds us : List Item) (n out : Notes) (st : List Step), NotesFor n st → matchLoop us ds n = some out →
    ∃ st', Match us ds st' ∧ NotesFor out (st ++ st')
  | [], us, n, out, st, hn, h => by
    cases us with
    | nil => simp only [matchLoop, Option.some.injEq] at h; subst h; exact ⟨[], .done, by simpa using hn⟩
    | cons u us => simp [matchLoop] at h
  | d :: ds, [], n, out, st, hn, h => by
    simp only [matchLoop] at h
    cases hd : needless d with
    | none => simp [hd] at h
    | some m =>
      simp only [hd] at h
      obtain ⟨st', h1, h2⟩ := loop_sound ds [] _ out _ (hn.add (needless_notes hd)) h
      exact ⟨.left d :: st', .rest (needless_some.1 ⟨m, hd⟩) h1, by simpa using h2⟩
  | d :: ds, u :: us, n, out, st, hn, h => by
    simp only [matchLoop] at h
    cases hm : matchItem u d with
    | some m =>
      simp only [hm] at h
      obtain ⟨st', h1, h2⟩ := loop_sound ds us _ out _ (hn.add (matchItem_notes hm)) h
      exact ⟨.kept u d :: st', .keep (matchItem_some.1 ⟨m, hm⟩) h1, by simpa using h2⟩
    | none =>
      simp only [hm] at h
      cases hd : needless d with
      | none => simp [hd] at h
      | some m =>
        simp only [hd] at h
        obtain ⟨st', h1, h2⟩ := loop_sound ds (u :: us) _ out _ (hn.add (needless_notes hd)) h
        exact ⟨.left d :: st', .skip (matchItem_none.1 hm) (needless_some.1 ⟨m, hd⟩) h1, by simpa using h2⟩

theorem loop_complete {us ds : List Item} {st : List Step} (h : Match us ds st) : ∀ n, ∃ out, matchLoop us ds n = some out := by
  induction h with
  | done => intro n; exact ⟨n, rfl⟩
  | keep hs _ ih =>
    intro n
    obtain ⟨m, hm⟩ := matchItem_some.2 hs
    obtain ⟨out, ho⟩ := ih (n.add m)
    exact ⟨out, by simp only [matchLoop, hm]; exact ho⟩
  | skip hs hc _ ih =>
    intro n
    obtain ⟨m, hm⟩ := needless_some.2 hc
    obtain ⟨out, ho⟩ := ih (n.add m)
    exact ⟨out, by simp only [matchLoop, matchItem_none.2 hs, hm]; exact ho⟩
  | rest hc _ ih =>
    intro n
    obtain ⟨m, hm⟩ := needless_some.2 hc
    obtain ⟨out, ho⟩ := ih (n.add m)
    exact ⟨out, by simp only [matchLoop, hm]; exact ho⟩

theorem match_unique {us ds : List Item} {st st' : List Step} (h : Match us ds st) (h' : Match us ds st') : st = st' := by
  induction h generalizing st' with
  | done => cases h'; rfl
  | keep hs _ ih =>
    cases h' with
    | keep _ h2 => rw [ih h2]
    | skip hn _ _ => exact absurd hs hn
  | skip hs hc _ ih =>
    cases h' with
    | keep hk _ => exact absurd hk hs
    | skip _ _ h2 => rw [ih h2]
  | rest hc _ ih =>
    cases h' with
    | rest _ h2 => rw [ih h2]

theorem match_some {us ds : List Item} {n : Notes} (h : matchRhs us ds = some n) : ∃ st, Match us ds st ∧ NotesFor n st := by
  obtain ⟨st, h1, h2⟩ := loop_sound ds us {} n [] notesFor_nil h
  exact ⟨st, h1, h2⟩

theorem match_iff {us ds : List Item} : (matchRhs us ds).isSome = true ↔ ∃ st, Match us ds st := by
  constructor
  · intro h
    obtain ⟨n, h⟩ := Option.isSome_iff_exists.1 h
    obtain ⟨st, h1, _⟩ := match_some h
    exact ⟨st, h1⟩
  · rintro ⟨st, h⟩
    obtain ⟨out, ho⟩ := loop_complete h {}
    exact Option.isSome_iff_exists.2 ⟨out, ho⟩

theorem match_notes {us ds : List Item} {st : List Step} (h : Match us ds st) : ∃ n, matchRhs us ds = some n ∧ NotesFor n st := by
  obtain ⟨out, ho⟩ := loop_complete h {}
  obtain ⟨st', h1, h2⟩ := match_some ho
  rw [match_unique h h1]
  exact ⟨out, ho, h2⟩

/-- A match is a use in the sense of C27, and every use is one if no symbol occurs twice in the definition. -/
theorem match_use {us ds : List Item} {st : List Step} (h : Match us ds st) : Gram.Use us ds (st.filterMap treatment) := by
  obtain ⟨n, h1, h2⟩ := match_notes h
  rw [← h2.optional]
  exact (Gram.c27_sound h1).1

theorem use_match {us ds : List Item} {os : List Optionality} (hd : Gram.Distinct ds) (h : Gram.Use us ds os) :
    ∃ st, Match us ds st ∧ st.filterMap treatment = os := by
  obtain ⟨n, h1, h2, _⟩ := Gram.c27_complete hd h
  obtain ⟨st, h3, h4⟩ := match_some h1
  exact ⟨st, h3, by rw [← h4.optional, h2]⟩

/-! ## The messages on arguments -/

/-- The message that is due when `u`, item `i` of right-hand side `r`, is compared with `d`. -/
inductive ArgDue (r i : Nat) (u d : Item) : Msg → Prop where
  | args (n up dp) : Same u d → u.sym = .gnt n up → d.sym = .gnt n dp → up ≠ [] → dp ≠ [] → up ≠ dp → ArgDue r i u d (.args r i up dp)
  | argsNone (n up) : Same u d → u.sym = .gnt n up → d.sym = .gnt n [] → up ≠ [] → ArgDue r i u d (.argsNone r i)

theorem mem_symMsgs (r i : Nat) (u d : Item) (hq : Same u d ↔ SameSym u.sym d.sym) (m : Msg) :
    m ∈ symMsgs r i u.sym d.sym ↔ ArgDue r i u d m := by
  cases hu : u.sym with
  | other k a =>
    constructor
    · intro h; simp [symMsgs] at h
    · intro h
      cases h with
      | args _ _ _ _ h1 => rw [hu] at h1; cases h1
      | argsNone _ _ _ h1 => rw [hu] at h1; cases h1
  | gnt a p =>
    cases hd : d.sym with
    | other k b =>
      constructor
      · intro h; simp [symMsgs] at h
      · intro h
        cases h with
        | args _ _ _ _ _ h1 => rw [hd] at h1; cases h1
        | argsNone _ _ _ _ h1 => rw [hd] at h1; cases h1
    | gnt b q =>
      rw [hu, hd] at hq
      simp only [SameSym] at hq
      simp only [symMsgs]
      constructor
      · intro h
        by_cases hab : a = b
        · subst hab
          rw [if_neg (by simp)] at h
          by_cases hqn : q = []
          · subst hqn
            rw [if_neg (by simp)] at h
            split at h
            · simp only [List.mem_singleton] at h; subst h
              exact .argsNone a p (hq.2 rfl) hu hd (by assumption)
            · simp at h
          · rw [if_pos hqn] at h
            split at h
            · next hp =>
              simp only [List.mem_singleton] at h; subst h
              exact .args a p q (hq.2 rfl) hu hd hp.1 hqn hp.2
            · simp at h
        · rw [if_pos hab] at h; simp at h
      · intro h
        cases h with
        | args n up dp h1 h2 h3 h4 h5 h6 =>
          rw [hu] at h2; rw [hd] at h3; cases h2; cases h3
          simp [h4, h5, h6]
        | argsNone n up h1 h2 h3 h4 =>
          rw [hu] at h2; rw [hd] at h3; cases h2; cases h3
          simp [h4]

theorem mem_itemMsgs (r i : Nat) (u d : Item) (m : Msg) : m ∈ itemMsgs r i u d ↔ ArgDue r i u d m := by
  cases u with
  | plain a =>
    cases d with
    | plain b => exact mem_symMsgs r i (.plain a) (.plain b) Iff.rfl m
    | qm b => exact mem_symMsgs r i (.plain a) (.qm b) Iff.rfl m
  | qm a =>
    cases d with
    | plain b =>
      constructor
      · intro h; simp [itemMsgs] at h
      · intro h
        cases h with
        | args _ _ _ h1 => cases h1
        | argsNone _ _ h1 => cases h1
    | qm b => exact mem_symMsgs r i (.qm a) (.qm b) Iff.rfl m

theorem meets_cons {u d : Item} {us ds : List Item} {i : Nat} {x y : Item} : Meets (u :: us) (d :: ds) i x y ↔
    (i = 0 ∧ x = u ∧ y = d) ∨ (Same u d ∧ ∃ k, i = k + 1 ∧ Meets us ds k x y) ∨ (¬Same u d ∧ CanLeave d ∧ Meets (u :: us) ds i x y) := by
  constructor
  · intro h
    cases h with
    | here => exact Or.inl ⟨rfl, rfl, rfl⟩
    | keep hs h => exact Or.inr (Or.inl ⟨hs, _, rfl, h⟩)
    | skip hs hc h => exact Or.inr (Or.inr ⟨hs, hc, h⟩)
  · rintro (⟨rfl, rfl, rfl⟩ | ⟨hs, k, rfl, h⟩ | ⟨hs, hc, h⟩)
    · exact .here
    · exact .keep hs h
    · exact .skip hs hc h

theorem mem_loopMsgs (r : Nat) (m : Msg) : ∀ (ds us : List Item) (i : Nat), m ∈ loopMsgs r i us ds ↔
    ∃ k u d, Meets us ds k u d ∧ ArgDue r (i + k) u d m
  | [], us, i => by
    simp only [loopMsgs, List.not_mem_nil, false_iff]
    rintro ⟨k, u, d, h, _⟩
    cases h
  | d :: ds, [], i => by
    have hno : ¬∃ k u d', Meets [] (d :: ds) k u d' ∧ ArgDue r (i + k) u d' m := by
      rintro ⟨k, u, d, h, _⟩; cases h
    rw [iff_false_right hno]
    simp only [loopMsgs]
    cases needless d with
    | none => simp
    | some _ =>
      simp only
      rw [mem_loopMsgs r m ds [] i]
      rintro ⟨k, u, d, h, _⟩; cases h
  | d :: ds, u :: us, i => by
    simp only [loopMsgs, List.mem_append, mem_itemMsgs]
    cases hm : matchItem u d with
    | some _ =>
      have hs := matchItem_some.1 ⟨_, hm⟩
      simp only
      rw [mem_loopMsgs r m ds us (i + 1)]
      constructor
      · rintro (h | ⟨k, x, y, h, ha⟩)
        · exact ⟨0, u, d, .here, h⟩
        · exact ⟨k + 1, x, y, .keep hs h, by rw [show i + (k + 1) = i + 1 + k by omega]; exact ha⟩
      · rintro ⟨k, x, y, h, ha⟩
        rcases meets_cons.1 h with ⟨rfl, rfl, rfl⟩ | ⟨_, k, rfl, h'⟩ | ⟨hn, _, _⟩
        · exact Or.inl ha
        · exact Or.inr ⟨k, x, y, h', by rw [show i + 1 + k = i + (k + 1) by omega]; exact ha⟩
        · exact absurd hs hn
    | none =>
      have hs := matchItem_none.1 hm
      simp only
      have hA : ¬ArgDue r i u d m := by
        intro h
        cases h with
        | args _ _ _ h1 => exact hs h1
        | argsNone _ _ h1 => exact hs h1
      cases hd : needless d with
      | none =>
        have hc := needless_none.1 hd
        simp only [List.not_mem_nil, or_false]
        rw [iff_false_left hA]
        rintro ⟨k, x, y, h, ha⟩
        rcases meets_cons.1 h with ⟨rfl, rfl, rfl⟩ | ⟨h1, _⟩ | ⟨_, h1, _⟩
        · exact hA ha
        · exact hs h1
        · exact hc h1
      | some _ =>
        have hc := needless_some.1 ⟨_, hd⟩
        simp only
        rw [mem_loopMsgs r m ds (u :: us) i]
        constructor
        · rintro (h | ⟨k, x, y, h, ha⟩)
          · exact absurd h hA
          · exact ⟨k, x, y, .skip hs hc h, ha⟩
        · rintro ⟨k, x, y, h, ha⟩
          rcases meets_cons.1 h with ⟨rfl, rfl, rfl⟩ | ⟨h1, _⟩ | ⟨_, _, h1⟩
          · exact Or.inl ha
          · exact absurd h1 hs
          · exact Or.inr ⟨k, x, y, h1, ha⟩
termination_by ds us => (ds.length, us.length)

end Verif.Uses
