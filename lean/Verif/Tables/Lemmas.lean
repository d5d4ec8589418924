import Verif.Tables.Spec
/-! # Lemmas for tables -/
namespace Verif.Tables
open Verif.HTML (Str Node litName)
open Verif.Validate (nStart nStop nName nAttrs nInner nKids slice)
open Verif.Ids (attr preorder)

variable {cfg : Cfg}

/-! ## Stripping -/

theorem takeWhile_all {p : Char → Bool} (s : Str) : ∀ c ∈ s.takeWhile p, p c = true := by
  induction s with
  | nil => simp
  | cons a s ih =>
    intro c hc
    rw [List.takeWhile_cons] at hc
    split at hc
    · rename_i h
      rcases List.mem_cons.1 hc with rfl | hc
      · exact h
      · exact ih c hc
    · cases hc

theorem dropWhile_head {p : Char → Bool} (s : Str) : ∀ c r, s.dropWhile p = c :: r → p c = false := by
  induction s with
  | nil => intro c r h; cases h
  | cons a s ih =>
    intro c r h
    rw [List.dropWhile_cons] at h
    split at h
    · exact ih c r h
    · rename_i hp
      injection h with h1 h2
      subst h1
      simpa using hp

theorem dropWhile_prefix {p : Char → Bool} (a t : Str) (ha : ∀ c ∈ a, p c = true) : (a ++ t).dropWhile p = t.dropWhile p := by
  induction a with
  | nil => rfl
  | cons c a ih =>
    rw [List.cons_append, List.dropWhile_cons, if_pos (ha c (by simp))]
    exact ih (fun c hc => ha c (by simp [hc]))

theorem dropWhile_stop {p : Char → Bool} (t : Str) (h : ∀ c r, t = c :: r → p c = false) : t.dropWhile p = t := by
  cases t with
  | nil => rfl
  | cons c r => rw [List.dropWhile_cons, h c r rfl]; rfl

theorem strip_iff (s t : Str) : strip cfg.space s = t ↔ Stripped cfg s t := by
  constructor
  · intro h
    subst h
    unfold strip
    generalize hu : s.dropWhile cfg.space = u
    have hs : s = s.takeWhile cfg.space ++ u := by rw [← hu, List.takeWhile_append_dropWhile]
    have hu2 : u = (u.reverse.dropWhile cfg.space).reverse ++ (u.reverse.takeWhile cfg.space).reverse := by
      rw [← List.reverse_append, List.takeWhile_append_dropWhile, List.reverse_reverse]
    refine ⟨s.takeWhile cfg.space, (u.reverse.takeWhile cfg.space).reverse, ?_, takeWhile_all s, ?_, ?_, ?_⟩
    · rw [List.append_assoc, ← hu2, ← hs]
    · intro c hc
      rw [List.mem_reverse] at hc
      exact takeWhile_all _ c hc
    · intro c r he
      have : u = c :: (r ++ (u.reverse.takeWhile cfg.space).reverse) := by rw [he] at hu2; exact hu2
      exact dropWhile_head s c _ (by rw [hu]; exact this)
    · intro c r he
      have h2 : u.reverse.dropWhile cfg.space = c :: r.reverse := by
        have := congrArg List.reverse he
        rw [List.reverse_reverse] at this
        rw [this]; simp
      exact dropWhile_head _ c _ h2
  · rintro ⟨a, b, hs, ha, hb, h1, h2⟩
    unfold strip
    rw [hs, List.append_assoc, dropWhile_prefix a _ ha]
    by_cases ht : t = []
    · subst ht
      have : (([] : Str) ++ b).dropWhile cfg.space = [] := by
        have := dropWhile_prefix b [] hb
        simpa using this
      rw [this]; rfl
    · have e1 : (t ++ b).dropWhile cfg.space = t ++ b := by
        cases t with
        | nil => exact absurd rfl ht
        | cons c r => rw [List.cons_append, List.dropWhile_cons, h1 c r rfl]; rfl
      rw [e1, List.reverse_append, dropWhile_prefix b.reverse _ (by intro c hc; exact hb c (by simpa using hc))]
      rw [dropWhile_stop, List.reverse_reverse]
      intro c r he
      apply h2 c r.reverse
      have := congrArg List.reverse he
      simpa using this

theorem stripped_fun {s t u : Str} (h : Stripped cfg s t) (h' : Stripped cfg s u) : t = u := by
  rw [← strip_iff] at h h'; rw [← h, ← h']

theorem isWhite_iff (n : Node) : isWhite cfg n = true ↔ White cfg n := by
  unfold isWhite White
  simp only [Bool.and_eq_true, decide_eq_true_eq, List.all_eq_true]

/-! ## Marked-up text -/

theorem unquote_iff (s b : Str) : unquote s = b ↔ Body s b := by
  have key : ∀ r m : Str, r = m ++ ['`'] ↔ r.getLast? = some '`' ∧ r.dropLast = m := by
    intro r m
    constructor
    · rintro rfl; simp
    · rintro ⟨h1, h2⟩
      have hne : r ≠ [] := by rintro rfl; cases h1
      have h3 : r.getLast hne = '`' := by
        rw [List.getLast?_eq_some_getLast hne] at h1; injection h1
      have := List.dropLast_concat_getLast hne
      rw [h3, h2] at this
      exact this.symm
  have hq : ∀ r m : Str, '`' :: r = '`' :: m ++ ['`'] ↔ r = m ++ ['`'] := by
    intro r m; rw [List.cons_append]; simp
  unfold unquote Body
  split
  · rename_i r
    simp only [hq, key]
    by_cases hc : r.getLast? = some '`' ∧ '`' ∉ r.dropLast
    · rw [if_pos hc]
      constructor
      · rintro rfl; exact .inl ⟨⟨hc.1, rfl⟩, hc.2⟩
      · rintro (⟨⟨_, h⟩, _⟩ | ⟨_, h⟩)
        · exact h
        · exact absurd ⟨_, ⟨hc.1, rfl⟩, hc.2⟩ h
    · rw [if_neg hc]
      constructor
      · intro h
        refine .inr ⟨h, ?_⟩
        rintro ⟨m, ⟨h1, h2⟩, h3⟩
        exact hc ⟨h1, by rw [h2]; exact h3⟩
      · rintro (⟨⟨h1, h2⟩, h3⟩ | ⟨h, _⟩)
        · exact absurd ⟨h1, by rw [h2]; exact h3⟩ hc
        · exact h
  · rename_i hno
    constructor
    · intro h
      refine .inr ⟨h, ?_⟩
      rintro ⟨m, h1, _⟩
      exact hno _ h1
    · rintro (⟨h, _⟩ | ⟨h, _⟩)
      · exact absurd h (hno _)
      · exact h

theorem unesc_two (c d : Char) (r : Str) (hc : c ≠ '\\') : unesc (c :: d :: r) = c :: unesc (d :: r) := by
  rw [unesc]
  intro h; exact absurd h hc

theorem unescaped_unesc : ∀ s : Str, Unescaped s (unesc s)
  | [] => .nil
  | [c] => by
    rw [unesc]
    · exact .keep (fun _ => .inl rfl) .nil
  | c :: d :: r => by
    by_cases hc : c = '\\'
    · subst hc
      rw [unesc]
      by_cases hd : d = '\n'
      · rw [if_pos hd]
        subst hd
        refine .keep (fun _ => .inr ⟨r, rfl⟩) (.keep (fun h => absurd h (by decide)) (unescaped_unesc r))
      · rw [if_neg hd]
        exact .esc hd (unescaped_unesc r)
    · rw [unesc_two _ _ _ hc]
      exact .keep (fun h => absurd h hc) (unescaped_unesc (d :: r))

theorem unescaped_fun {s t : Str} (h : Unescaped s t) : t = unesc s := by
  induction h with
  | nil => rfl
  | @esc c s t hc _ ih => rw [unesc, if_neg hc, ih]
  | @keep c s t hk _ ih =>
    subst ih
    cases s with
    | nil => simp [unesc]
    | cons d r =>
      by_cases hc : c = '\\'
      · rcases hk hc with h | ⟨q, h⟩
        · cases h
        · injection h with h1 h2
          subst h1; subst h2; subst hc
          rw [unesc, if_pos rfl]
          cases r with
          | nil => simp [unesc]
          | cons e q => rw [unesc_two _ _ _ (by decide)]
      · rw [unesc_two _ _ _ hc]

def isLt (s : Str) : Prop := ∃ q, s = '&' :: 'l' :: 't' :: ';' :: q
def isGt (s : Str) : Prop := ∃ q, s = '&' :: 'g' :: 't' :: ';' :: q

theorem replLt_keep (c : Char) (s : Str) (h : ¬ isLt (c :: s)) : replLt (c :: s) = c :: replLt s := by
  rw [replLt]
  intro r h1 h2
  exact h ⟨r, by rw [h1, h2]⟩

theorem replGt_keep (c : Char) (s : Str) (h : ¬ isGt (c :: s)) : replGt (c :: s) = c :: replGt s := by
  rw [replGt]
  intro r h1 h2
  exact h ⟨r, by rw [h1, h2]⟩

theorem replLt_inv (s : Str) (c : Char) (q : Str) (hc : c ≠ '<') (h : replLt s = c :: q) : ∃ s', s = c :: s' ∧ replLt s' = q := by
  cases s with
  | nil => simp [replLt] at h
  | cons a s =>
    by_cases hl : isLt (a :: s)
    · obtain ⟨r, hr⟩ := hl
      rw [hr, replLt] at h
      injection h with h1 _
      exact absurd h1.symm hc
    · rw [replLt_keep _ _ hl] at h
      injection h with h1 h2
      exact ⟨s, by rw [h1], h2⟩

theorem replLt_gt (q : Str) : replLt ('&' :: 'g' :: 't' :: ';' :: q) = '&' :: 'g' :: 't' :: ';' :: replLt q := by
  rw [replLt_keep, replLt_keep, replLt_keep, replLt_keep]
  all_goals (rintro ⟨r, h⟩; simp at h)

theorem not_isGt_replLt (c : Char) (s : Str) (h : ¬ isGt (c :: s)) : ¬ isGt (c :: replLt s) := by
  rintro ⟨q, hq⟩
  injection hq with h1 h2
  obtain ⟨s1, e1, h3⟩ := replLt_inv s _ _ (by decide) h2
  obtain ⟨s2, e2, h4⟩ := replLt_inv s1 _ _ (by decide) h3
  obtain ⟨s3, e3, h5⟩ := replLt_inv s2 _ _ (by decide) h4
  exact h ⟨s3, by rw [h1, e1, e2, e3]⟩

theorem decoded_fun {s t : Str} (h : Decoded s t) : t = replGt (replLt s) := by
  induction h with
  | nil => rfl
  | @lt s t _ ih =>
    show _ = replGt (replLt ('&' :: 'l' :: 't' :: ';' :: s))
    rw [replLt, replGt_keep, ih]
    rintro ⟨r, h⟩; simp at h
  | @gt s t _ ih =>
    show _ = replGt (replLt ('&' :: 'g' :: 't' :: ';' :: s))
    rw [replLt_gt, replGt, ih]
  | @keep c s t h1 h2 _ ih => rw [replLt_keep _ _ h1, replGt_keep _ _ (not_isGt_replLt c s h2), ih]

theorem decoded_repl : ∀ (n : Nat) (s : Str), s.length ≤ n → Decoded s (replGt (replLt s))
  | 0, [], _ => .nil
  | 0, _ :: _, h => by simp at h
  | n + 1, s, hn => by
    cases s with
    | nil => exact .nil
    | cons c s =>
      by_cases hl : isLt (c :: s)
      · obtain ⟨q, hq⟩ := hl
        rw [hq, replLt, replGt_keep _ _ (by rintro ⟨r, h⟩; simp at h)]
        exact .lt (decoded_repl n q (by have := congrArg List.length hq; simp at this hn; omega))
      · by_cases hg : isGt (c :: s)
        · obtain ⟨q, hq⟩ := hg
          rw [hq, replLt_gt, replGt]
          exact .gt (decoded_repl n q (by have := congrArg List.length hq; simp at this hn; omega))
        · rw [replLt_keep _ _ hl, replGt_keep _ _ (not_isGt_replLt c s hg)]
          exact .keep hl hg (decoded_repl n s (by simpa using hn))

theorem cook_iff (s t : Str) : cook s = t ↔ Means s t := by
  constructor
  · rintro rfl
    exact ⟨_, _, (unquote_iff s _).1 rfl, unescaped_unesc _, decoded_repl _ _ (Nat.le_refl _)⟩
  · rintro ⟨b, u, h1, h2, h3⟩
    rw [cook, (unquote_iff s b).2 h1, ← unescaped_fun h2, ← decoded_fun h3]

/-! ## Captions -/

theorem no_caps (t : Node) : (nKids t).filter (fun c => nName c = sCap) = [] ↔ ¬ ∃ c ∈ nKids t, nName c = sCap := by
  rw [List.filter_eq_nil_iff]
  simp

theorem truthy_iff (o : Option Str) (a : Str) : truthy o = some a ↔ o = some a ∧ a ≠ [] := by
  unfold truthy
  split
  · constructor
    · intro h; injection h with h; subst h; exact ⟨rfl, by simp⟩
    · rintro ⟨h, _⟩; injection h with h; rw [h]
  · rename_i h
    constructor
    · intro h; cases h
    · rintro ⟨rfl, hne⟩
      cases a with
      | nil => exact absurd rfl hne
      | cons c cs => exact absurd rfl (h c cs)

theorem aCap_some (t : Node) (a : Str) : aCap t = some a ↔ attr t aCaption = some (some a) ∧ a ≠ [] := by
  rw [aCap, truthy_iff]
  cases attr t aCaption with
  | none => simp
  | some v => simp

theorem aCap_none (t : Node) : aCap t = none ↔ ¬ ∃ a, attr t aCaption = some (some a) ∧ a ≠ [] := by
  constructor
  · rintro h ⟨a, ha⟩
    rw [← aCap_some, h] at ha; cases ha
  · intro h
    cases ha : aCap t with
    | none => rfl
    | some a => exact absurd ⟨a, (aCap_some t a).1 ha⟩ h

theorem eCaption_none (t : Node) : eCaption cfg t = some none ↔ ¬ ∃ c ∈ nKids t, nName c = sCap := by
  rw [← no_caps]
  unfold eCaption
  split
  · rename_i h; simp [h]
  · rename_i c h; simp [h]
  · rename_i h1 h2; simp only [reduceCtorEq, false_iff]; exact h1

theorem eCaption_some (t : Node) (e : Str) : eCaption cfg t = some (some e) ↔
    ∃ c s, (nKids t).filter (fun c => nName c = sCap) = [c] ∧ inner cfg c = some s ∧ Stripped cfg s e := by
  unfold eCaption
  split
  · rename_i h; simp [h]
  · rename_i c h
    rw [h]
    simp only [Option.map_eq_some_iff, Option.some.injEq, strip_iff]
    constructor
    · rintro ⟨s, h1, h2⟩; exact ⟨c, s, rfl, h1, h2⟩
    · rintro ⟨c', s, h1, h2, h3⟩
      injection h1 with h1; subst h1
      exact ⟨s, h2, h3⟩
  · rename_i h1 h2
    constructor
    · intro h; cases h
    · rintro ⟨c, s, h, _⟩; exact absurd h (h2 c)

theorem caption_iff (t : Node) (cap : Str) : captionOf cfg t = some cap ↔ Caption cfg t cap := by
  constructor
  · intro h
    unfold captionOf at h
    cases he : eCaption cfg t with
    | none => rw [he] at h; cases h
    | some e =>
      simp only [he] at h
      cases ht : attr t aType with
      | some tt =>
        simp only [ht] at h
        by_cases h1 : tt = some sAbstract
        · rw [if_pos h1] at h
          by_cases h2 : e = none
          · rw [if_pos h2] at h
            subst h1; subst h2
            have hno := (eCaption_none t).1 he
            cases ha : aCap t with
            | some a =>
              simp only [ha] at h
              injection h with h; subst h
              have := (aCap_some t a).1 ha
              exact .methods ht hno this.1 this.2
            | none =>
              simp only [ha] at h
              split at h
              · rename_i o ho
                injection h with h; subst h
                exact .methodsOf ht hno ((aCap_none t).1 ha) ho
              · cases h
          · rw [if_neg h2] at h; cases h
        · rw [if_neg h1] at h; cases h
      | none =>
        simp only [ht] at h
        cases ha : aCap t with
        | some a =>
          have hA := (aCap_some t a).1 ha
          cases hte : truthy e with
          | some e' => simp only [ha, hte] at h; cases h
          | none =>
            simp only [ha, hte] at h
            injection h with h; subst h
            refine .given ht hA.1 hA.2 ?_
            cases e with
            | none => exact .inl ((eCaption_none t).1 he)
            | some e =>
              cases e with
              | nil => exact .inr ((eCaption_some t []).1 he)
              | cons c cs => cases hte
        | none =>
          cases hte : truthy e with
          | none => simp only [ha, hte] at h; cases h
          | some e' =>
            simp only [ha, hte] at h
            injection h with h; subst h
            obtain ⟨h1, h2⟩ := (truthy_iff _ _).1 hte
            subst h1
            obtain ⟨c, s, h3, h4, h5⟩ := (eCaption_some t _).1 he
            exact .element ht ((aCap_none t).1 ha) h3 h4 h5 h2
  · intro h
    unfold captionOf
    cases h with
    | given ht ha hne hc =>
      have hA := (aCap_some t cap).2 ⟨ha, hne⟩
      rcases hc with hc | ⟨c, s, h1, h2, h3⟩
      · simp only [(eCaption_none t).2 hc, ht, hA]; rfl
      · simp only [(eCaption_some t []).2 ⟨c, s, h1, h2, h3⟩, ht, hA]; rfl
    | @element c s e ht ha h1 h2 h3 hne =>
      simp only [(eCaption_some t cap).2 ⟨c, s, h1, h2, h3⟩, ht, (aCap_none t).2 ha, (truthy_iff _ _).2 ⟨rfl, hne⟩]
    | methods ht hc ha hne => simp only [(eCaption_none t).2 hc, ht, (aCap_some t cap).2 ⟨ha, hne⟩, if_true]
    | methodsOf ht hc ha ho => simp only [(eCaption_none t).2 hc, ht, (aCap_none t).2 ha, ho, if_true]

/-! ## Rows -/

theorem cells_iff (cs ds : List Node) : cellsOf cfg cs = some ds ↔ Cells cfg cs ds := by
  induction cs generalizing ds with
  | nil =>
    simp only [cellsOf]
    constructor
    · intro h; injection h with h; subst h; exact .nil
    · intro h; cases h; rfl
  | cons c cs ih =>
    simp only [cellsOf]
    by_cases hw : isWhite cfg c = true
    · rw [if_pos hw, ih]
      have hW := (isWhite_iff c).1 hw
      constructor
      · intro h; exact .white hW h
      · intro h
        cases h with
        | white _ h => exact h
        | cell hc _ =>
          rw [hW.1] at hc
          exact absurd hc (by decide)
    · rw [if_neg hw]
      by_cases hc : nName c = sTh ∨ nName c = sTd
      · rw [if_pos hc, Option.map_eq_some_iff]
        constructor
        · rintro ⟨x, h1, rfl⟩; exact .cell hc ((ih _).1 h1)
        · intro h
          cases h with
          | white h _ => exact absurd ((isWhite_iff c).2 h) hw
          | cell _ h => exact ⟨_, (ih _).2 h, rfl⟩
      · rw [if_neg hc]
        constructor
        · intro h; cases h
        · intro h
          cases h with
          | white h _ => exact absurd ((isWhite_iff c).2 h) hw
          | cell h _ => exact absurd h hc

theorem colspan_iff (cap : Str) (c : Node) (k : Int) : colspan cfg cap c = some k ↔ Spans cfg cap c k := by
  unfold colspan Spans
  cases h : attr c aColspan with
  | none => simp [eq_comm]
  | some v =>
    cases v with
    | none => simp
    | some v =>
      simp only [reduceCtorEq, false_and, Option.some.injEq, exists_eq_left', false_or]
      cases hi : cfg.toInt v with
      | none => simp
      | some i =>
        simp only [Option.some.injEq]
        by_cases hc : i ≠ 1 ∧ cap ≠ capImport
        · rw [if_pos hc]
          constructor
          · intro h; cases h
          · rintro ⟨rfl, h | h⟩
            · exact absurd h hc.1
            · exact absurd h hc.2
        · rw [if_neg hc]
          constructor
          · intro h; injection h with h; subst h
            refine ⟨rfl, ?_⟩
            by_cases h1 : i = 1
            · exact .inl h1
            · exact .inr (Classical.byContradiction fun h2 => hc ⟨h1, h2⟩)
          · rintro ⟨rfl, _⟩; rfl

theorem columns_iff (cap : Str) (cs : List Node) (ts : List Str) : textsOf cfg cap cs = some ts ↔ Columns cfg cap cs ts := by
  induction cs generalizing ts with
  | nil =>
    simp only [textsOf]
    constructor
    · intro h; injection h with h; subst h; exact .nil
    · intro h; cases h; rfl
  | cons c cs ih =>
    simp only [textsOf]
    constructor
    · intro h
      split at h
      · rename_i s k us h1 h2 h3
        injection h with h; subst h
        exact .cell h1 ((strip_iff _ _).1 rfl) ((colspan_iff _ _ _).1 h2) ((ih _).1 h3)
      · cases h
    · intro h
      cases h with
      | cell h1 h2 h3 h4 => rw [h1, (colspan_iff _ _ _).2 h3, (ih _).2 h4, ← (strip_iff _ _).2 h2]

theorem readRow_iff (cap : Str) (tr : Node) (cs : List Node) (ts : List Str) :
    readRow cfg cap tr = some (cs, ts) ↔ IsRow cfg cap tr cs ts := by
  unfold readRow
  by_cases ha : (nAttrs tr).map (·.1) = [] ∨ (nAttrs tr).map (·.1) = [aId]
  · rw [if_pos ha]
    constructor
    · intro h
      cases hc : cellsOf cfg (nKids tr) with
      | none => rw [hc] at h; cases h
      | some ds =>
        rw [hc] at h
        obtain ⟨us, hu, he⟩ := Option.map_eq_some_iff.1 h
        injection he with h1 h2
        subst h1; subst h2
        exact ⟨ha, (cells_iff _ _).1 hc, (columns_iff _ _ _).1 hu⟩
    · rintro ⟨_, h1, h2⟩
      rw [(cells_iff _ _).2 h1]
      simp only
      rw [(columns_iff _ _ _).2 h2]; rfl
  · rw [if_neg ha]
    constructor
    · intro h; cases h
    · rintro ⟨h, _, _⟩; exact absurd h ha

/-! ## The dict of a row -/

theorem lookup_put (d : List (Str × Str)) (x y : Str) (n : Str) :
    (put d x n).lookup y = if y = x then some n else d.lookup y := by
  induction d with
  | nil =>
    simp only [put, List.lookup]
    by_cases h : y = x
    · subst h; simp
    · have : (y == x) = false := by simpa using h
      simp [this, h]
  | cons p d ih =>
    obtain ⟨z, m⟩ := p
    simp only [put]
    by_cases hz : z = x
    · rw [if_pos hz]
      subst hz
      by_cases h : y = z
      · subst h; simp
      · have : (y == z) = false := by simpa using h
        simp [List.lookup, this, h]
    · rw [if_neg hz]
      simp only [List.lookup]
      by_cases h : y = z
      · subst h; simp [hz]
      · have : (y == z) = false := by simpa using h
        simp only [this]
        exact ih

theorem keys_put (d : List (Str × Str)) (x y v : Str) : y ∈ (put d x v).map (·.1) → y = x ∨ y ∈ d.map (·.1) := by
  induction d with
  | nil => simp [put]
  | cons p d ih =>
    obtain ⟨z, m⟩ := p
    simp only [put]
    by_cases hz : z = x
    · subst hz; simp
    · rw [if_neg hz, List.map_cons, List.mem_cons, List.map_cons, List.mem_cons]
      rintro (h | h)
      · exact .inr (.inl h)
      · rcases ih h with h | h
        · exact .inl h
        · exact .inr (.inr h)

theorem nodup_put (d : List (Str × Str)) (x v : Str) (h : (d.map (·.1)).Nodup) : ((put d x v).map (·.1)).Nodup := by
  induction d with
  | nil => simp [put]
  | cons p d ih =>
    obtain ⟨z, m⟩ := p
    simp only [List.map_cons, List.nodup_cons] at h
    simp only [put]
    by_cases hz : z = x
    · subst hz
      rw [if_pos rfl]
      simp only [List.map_cons, List.nodup_cons]
      exact h
    · rw [if_neg hz]
      simp only [List.map_cons, List.nodup_cons]
      refine ⟨?_, ih h.2⟩
      intro hk
      rcases keys_put _ _ _ _ hk with hk | hk
      · exact hz hk
      · exact h.1 hk

theorem mem_lookup (d : List (Str × Str)) (h : (d.map (·.1)).Nodup) (x v : Str) : (x, v) ∈ d ↔ d.lookup x = some v := by
  induction d with
  | nil => simp
  | cons p d ih =>
    obtain ⟨z, m⟩ := p
    simp only [List.map_cons, List.nodup_cons] at h
    simp only [List.lookup, List.mem_cons, Prod.mk.injEq]
    by_cases hx : x = z
    · subst hx
      simp only [true_and, BEq.rfl, Option.some.injEq]
      constructor
      · rintro (h1 | h1)
        · exact h1.symm
        · exact absurd (List.mem_map.2 ⟨_, h1, rfl⟩) h.1
      · intro h1; exact .inl h1.symm
    · have : (x == z) = false := by simpa using hx
      simp only [this, hx, false_and, false_or]
      exact ih h.2

/-- The value that is put last. -/
theorem fold_put (ps : List (Str × Str)) (d : List (Str × Str)) (hd : (d.map (·.1)).Nodup) :
    ((ps.foldl (fun d p => put d p.1 p.2) d).map (·.1)).Nodup ∧
    ∀ k v, (ps.foldl (fun d p => put d p.1 p.2) d).lookup k = some v ↔
      (∃ (i : Nat), ps[i]? = some (k, v) ∧ ∀ (j : Nat) w, i < j → ps[j]? ≠ some (k, w)) ∨
      (d.lookup k = some v ∧ ∀ (j : Nat) w, ps[j]? ≠ some (k, w)) := by
  induction ps generalizing d with
  | nil => simp [hd]
  | cons p ps ih =>
    obtain ⟨x, u⟩ := p
    obtain ⟨h1, h2⟩ := ih (put d x u) (nodup_put _ _ _ hd)
    refine ⟨h1, ?_⟩
    intro k v
    show (ps.foldl (fun d p => put d p.1 p.2) (put d x u)).lookup k = some v ↔ _
    rw [h2, lookup_put]
    constructor
    · rintro (⟨i, h3, h4⟩ | ⟨h3, h4⟩)
      · refine .inl ⟨i + 1, by simpa using h3, ?_⟩
        intro j w hj
        cases j with
        | zero => omega
        | succ j => simpa using h4 j w (by omega)
      · by_cases hk : k = x
        · rw [if_pos hk] at h3
          injection h3 with h3
          subst hk; subst h3
          refine .inl ⟨0, rfl, ?_⟩
          intro j w hj
          cases j with
          | zero => omega
          | succ j => simpa using h4 j w
        · rw [if_neg hk] at h3
          refine .inr ⟨h3, ?_⟩
          intro j w
          cases j with
          | zero =>
            simp only [List.getElem?_cons_zero, ne_eq, Option.some.injEq, Prod.mk.injEq, not_and]
            intro h; exact absurd h.symm hk
          | succ j => simpa using h4 j w
    · rintro (⟨i, h3, h4⟩ | ⟨h3, h4⟩)
      · cases i with
        | zero =>
          simp only [List.getElem?_cons_zero, Option.some.injEq, Prod.mk.injEq] at h3
          refine .inr ⟨by rw [if_pos h3.1.symm, h3.2], ?_⟩
          intro j w
          simpa using h4 (j + 1) w (by omega)
        | succ i =>
          refine .inl ⟨i, by simpa using h3, ?_⟩
          intro j w hj
          simpa using h4 (j + 1) w (by omega)
      · have hk : k ≠ x := by
          intro hk; subst hk
          exact h4 0 u rfl
        refine .inr ⟨by rw [if_neg hk]; exact h3, ?_⟩
        intro j w
        simpa using h4 (j + 1) w

theorem maps_dictZip (hs ts : List Str) (hl : ts.length = hs.length) : Maps hs ts (dictZip hs (ts.map cook)) := by
  have h := fold_put (hs.zip (ts.map cook)) [] (by simp)
  refine ⟨h.1, ?_⟩
  intro k v
  unfold dictZip
  rw [mem_lookup _ h.1, h.2]
  simp only [List.lookup_nil, reduceCtorEq, false_and, or_false]
  have hz : ∀ (i : Nat) k v, (hs.zip (ts.map cook))[i]? = some (k, v) ↔ ∃ t, hs[i]? = some k ∧ ts[i]? = some t ∧ Means t v := by
    intro i k v
    rw [List.getElem?_zip_eq_some, List.getElem?_map, Option.map_eq_some_iff]
    simp only [cook_iff]
    constructor
    · rintro ⟨h1, t, h2, h3⟩; exact ⟨t, h1, h2, h3⟩
    · rintro ⟨t, h1, h2, h3⟩; exact ⟨h1, t, h2, h3⟩
  constructor
  · rintro ⟨i, h1, h2⟩
    obtain ⟨t, h3, h4, h5⟩ := (hz i k v).1 h1
    refine ⟨i, t, h3, h4, h5, ?_⟩
    intro j hj hk
    have hlt : j < ts.length := by
      rw [hl]; exact (List.getElem?_eq_some_iff.1 hk).1
    exact h2 j (cook ts[j]) hj ((hz j k _).2 ⟨ts[j], hk, List.getElem?_eq_getElem hlt, (cook_iff _ _).1 rfl⟩)
  · rintro ⟨i, t, h1, h2, h3, h4⟩
    refine ⟨i, (hz i k v).2 ⟨t, h1, h2, h3⟩, ?_⟩
    intro j w hj hk
    obtain ⟨t', h5, _⟩ := (hz j k w).1 hk
    exact h4 j hj h5

/-! ## The loop over rows -/

theorem all_th (cs : List Node) : cs.all (fun c => nName c = sTh) = true ↔ ∀ c ∈ cs, nName c = sTh := by
  simp

theorem not_all_th (cs : List Node) : ¬ (cs.all (fun c => nName c = sTh) = true) ↔ ∃ c ∈ cs, nName c ≠ sTh := by
  simp

theorem rowsLoop_data (cap : Str) (h : Row) (trs : List Node) (data : List Row) (st : Option Row × List Row)
    (he : rowsLoop cfg cap trs (some h, data) = some st) :
    ∃ rows, st = (some h, data ++ rows) ∧ AllData cfg cap h.texts trs rows := by
  induction trs generalizing data with
  | nil =>
    injection he with he
    exact ⟨[], by simp [he.symm], .nil⟩
  | cons tr trs ih =>
    simp only [rowsLoop] at he
    cases hr : readRow cfg cap tr with
    | none => rw [hr] at he; cases he
    | some p =>
      obtain ⟨cs, ts⟩ := p
      simp only [hr] at he
      by_cases ha : cs.all (fun c => nName c = sTh) = true
      · rw [if_pos ha] at he; cases he
      · rw [if_neg ha] at he
        have hrow := (readRow_iff _ _ _ _).1 hr
        by_cases hl : (ts.map cook).length = h.texts.length
        · rw [if_pos hl] at he
          obtain ⟨rows, h1, h2⟩ := ih _ he
          have hl' : ts.length = h.texts.length := by simpa using hl
          refine ⟨_ :: rows, by rw [h1, List.append_assoc]; rfl, .cons ⟨rfl, hrow, (not_all_th _).1 ha, .inl ⟨hl', _, rfl, ?_⟩⟩ h2⟩
          exact maps_dictZip _ _ hl'
        · rw [if_neg hl] at he
          by_cases hc : cap = capNumeric
          · rw [if_pos hc] at he
            obtain ⟨rows, h1, h2⟩ := ih _ he
            refine ⟨_ :: rows, by rw [h1, List.append_assoc]; rfl, .cons ⟨rfl, hrow, (not_all_th _).1 ha, .inr ⟨?_, hc, rfl⟩⟩ h2⟩
            simpa using hl
          · rw [if_neg hc] at he; cases he

theorem rowsLoop_spec (cap : Str) (trs : List Node) (hd : Option Row) (data : List Row)
    (he : rowsLoop cfg cap trs (none, []) = some (hd, data)) : IsTable cfg cap trs hd data := by
  cases trs with
  | nil =>
    injection he with he; injection he with h1 h2
    subst h1; subst h2; exact .empty
  | cons tr trs =>
    simp only [rowsLoop] at he
    cases hr : readRow cfg cap tr with
    | none => rw [hr] at he; cases he
    | some p =>
      obtain ⟨cs, ts⟩ := p
      simp only [hr] at he
      by_cases ha : cs.all (fun c => nName c = sTh) = true
      · rw [if_pos ha] at he
        obtain ⟨rows, h1, h2⟩ := rowsLoop_data cap _ trs [] _ he
        injection h1 with h3 h4
        subst h3; subst h4
        exact .rows rfl ((readRow_iff _ _ _ _).1 hr) ((all_th _).1 ha) rfl h2
      · rw [if_neg ha] at he; cases he

theorem rowsLoop_complete (cap : Str) (h : Row) (trs : List Node) (rows : List Row) (ha : AllData cfg cap h.texts trs rows)
    (data : List Row) : rowsLoop cfg cap trs (some h, data) ≠ none := by
  induction ha generalizing data with
  | nil => simp [rowsLoop]
  | @cons tr trs r rs hd _ ih =>
    simp only [rowsLoop, (readRow_iff _ _ _ _).2 hd.row]
    rw [if_neg ((not_all_th _).2 hd.data)]
    rcases hd.dict with ⟨h1, _⟩ | ⟨h1, h2, _⟩
    · rw [if_pos (by simpa using h1)]
      exact ih _
    · rw [if_neg (by simpa using h1), if_pos h2]
      exact ih _

theorem rowsLoop_complete0 (cap : Str) (trs : List Node) (hd : Option Row) (data : List Row) (ht : IsTable cfg cap trs hd data) :
    rowsLoop cfg cap trs (none, []) ≠ none := by
  cases ht with
  | empty => simp [rowsLoop]
  | rows h1 h2 h3 h4 h5 =>
    simp only [rowsLoop, (readRow_iff _ _ _ _).2 h2]
    rw [if_pos ((all_th _).2 h3)]
    exact rowsLoop_complete cap ⟨_, _, _, none⟩ _ _ h5 _

end Verif.Tables
