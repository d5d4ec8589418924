import Verif.Front.Spec
/-! # Lemmas for the parser of frontmatter -/
namespace Verif.Front

theorem blank_iff (l : Line) : l.blank = true ↔ l.rest = [] := by
  simp [Line.blank, List.isEmpty_iff]

/-! ## Trimming -/

theorem dropWhile_split (p : Line → Bool) (ls : List Line) :
    ∃ a, ls = a ++ ls.dropWhile p ∧ ∀ x ∈ a, p x = true := by
  induction ls with
  | nil => exact ⟨[], rfl, by simp⟩
  | cons x xs ih =>
    by_cases hx : p x = true
    · obtain ⟨a, ha, hp⟩ := ih
      refine ⟨x :: a, ?_, ?_⟩
      · simp only [List.dropWhile_cons, hx, if_true, List.cons_append]
        rw [← ha]
      · intro y hy
        rcases List.mem_cons.1 hy with rfl | hy
        · exact hx
        · exact hp _ hy
    · exact ⟨[], by simp [hx], by simp⟩

theorem dropWhile_head (p : Line → Bool) (ls : List Line) (x : Line)
    (h : (ls.dropWhile p).head? = some x) : p x = false := by
  induction ls with
  | nil => simp at h
  | cons y ys ih =>
    by_cases hy : p y = true
    · simp only [List.dropWhile_cons, hy, if_true] at h
      exact ih h
    · simp [hy] at h
      subst h; simpa using hy

theorem trim_split (ls : List Line) :
    ∃ bs, ls = trim ls ++ bs ∧ Blanks bs ∧ ∀ l, (trim ls).getLast? = some l → l.rest ≠ [] := by
  obtain ⟨a, ha, hp⟩ := dropWhile_split Line.blank ls.reverse
  refine ⟨a.reverse, ?_, ?_, ?_⟩
  · unfold trim
    rw [← List.reverse_append, ← ha, List.reverse_reverse]
  · intro l hl
    exact (blank_iff l).1 (hp l (by simpa using hl))
  · intro l hl hr
    unfold trim at hl
    rw [List.getLast?_reverse] at hl
    have := dropWhile_head _ _ _ hl
    rw [(blank_iff l).2 hr] at this
    cases this

theorem trim_append (body bs : List Line) (hb : Blanks bs)
    (hl : ∀ l, body.getLast? = some l → l.rest ≠ []) : trim (body ++ bs) = body := by
  unfold trim
  rw [List.reverse_append]
  have h1 : ∀ (xs ys : List Line), (∀ x ∈ xs, x.rest = []) →
      (xs ++ ys).dropWhile Line.blank = ys.dropWhile Line.blank := by
    intro xs ys h
    induction xs with
    | nil => rfl
    | cons x xs ih =>
      have hx : x.blank = true := (blank_iff x).2 (h x (by simp))
      simp only [List.cons_append, List.dropWhile_cons, hx, if_true]
      exact ih (fun y hy => h y (by simp [hy]))
  rw [h1 _ _ (fun x hx => hb x (by simpa using hx))]
  cases hr : body.reverse with
  | nil => simp at hr; subst hr; rfl
  | cons x xs =>
    have hx : body.getLast? = some x := by
      have : body = (x :: xs).reverse := by rw [← hr, List.reverse_reverse]
      rw [this, List.getLast?_reverse]; rfl
    have hb : x.blank = false := by
      have := hl x hx
      cases hc : x.blank with
      | false => rfl
      | true => exact absurd ((blank_iff x).1 hc) this
    simp only [List.dropWhile_cons, hb]
    simp only [Bool.false_eq_true, if_false]
    rw [← hr, List.reverse_reverse]

/-! ## Groups -/

/-- Lines and their groups. -/
inductive G (n : Nat) : List Line → List (Line × List Line) → Prop
  | nil : G n [] []
  | cons {l body bs ls gs} : l.indent = n → l.rest ≠ [] → Body n body → Blanks bs → G n ls gs →
      G n (l :: (body ++ (bs ++ ls))) ((l, body) :: gs)

theorem deeper_nil (n : Nat) : Deeper n [] := by
  intro l hl; cases hl

theorem groups_some (n : Nat) : ∀ (ls pend : List Line) (gs : List (Line × List Line)),
    groups n ls = some (pend, gs) → ∃ ls', ls = pend ++ ls' ∧ Deeper n pend ∧ G n ls' gs := by
  intro ls
  induction ls with
  | nil =>
    intro pend gs h
    simp only [groups, Option.some.injEq, Prod.mk.injEq] at h
    obtain ⟨rfl, rfl⟩ := h
    exact ⟨[], rfl, deeper_nil n, .nil⟩
  | cons l ls ih =>
    intro pend gs h
    simp only [groups] at h
    cases hg : groups n ls with
    | none => simp only [hg] at h; cases h
    | some r =>
      obtain ⟨p, g⟩ := r
      simp only [hg] at h
      obtain ⟨ls', he, hd, hG⟩ := ih p g hg
      by_cases hb : l.blank = true
      · rw [if_pos hb] at h
        injection h with h; injection h with h1 h2; subst h1; subst h2
        refine ⟨ls', by simp [he], ?_, hG⟩
        intro x hx
        rcases List.mem_cons.1 hx with rfl | hx
        · exact .inl ((blank_iff _).1 hb)
        · exact hd x hx
      · rw [if_neg hb] at h
        by_cases hlt : l.indent < n
        · rw [if_pos hlt] at h; cases h
        · rw [if_neg hlt] at h
          by_cases heq : l.indent = n
          · rw [if_pos heq] at h
            injection h with h; injection h with h1 h2; subst h1; subst h2
            obtain ⟨bs, hs, hbl, hlast⟩ := trim_split p
            have hbody : Body n (trim p) :=
              ⟨fun x hx => hd x (by rw [hs]; exact List.mem_append_left _ hx), hlast⟩
            refine ⟨l :: ls, rfl, deeper_nil n, ?_⟩
            have := G.cons (l := l) heq (fun hr => hb ((blank_iff l).2 hr)) hbody hbl hG
            rwa [← List.append_assoc, ← hs, ← he] at this
          · rw [if_neg heq] at h
            injection h with h; injection h with h1 h2; subst h1; subst h2
            refine ⟨ls', by simp [he], ?_, hG⟩
            intro x hx
            rcases List.mem_cons.1 hx with rfl | hx
            · exact .inr (by omega)
            · exact hd x hx

theorem groups_deeper (n : Nat) (pend ls p : List Line) (gs : List (Line × List Line)) (hd : Deeper n pend)
    (h : groups n ls = some (p, gs)) : groups n (pend ++ ls) = some (pend ++ p, gs) := by
  induction pend with
  | nil => exact h
  | cons l pend ih =>
    have ih := ih (fun x hx => hd x (by simp [hx]))
    simp only [List.cons_append, groups, ih]
    by_cases hb : l.blank = true
    · rw [if_pos hb]
    · rw [if_neg hb]
      have : n < l.indent := by
        rcases hd l (by simp) with h | h
        · exact absurd ((blank_iff l).2 h) hb
        · exact h
      rw [if_neg (by omega), if_neg (by omega)]

theorem groups_of (n : Nat) {ls : List Line} {gs : List (Line × List Line)} (h : G n ls gs) :
    groups n ls = some ([], gs) := by
  induction h with
  | nil => rfl
  | @cons l body bs ls gs hi hr hbody hbs _ ih =>
    have hd : Deeper n (body ++ bs) := by
      intro x hx
      rcases List.mem_append.1 hx with hx | hx
      · exact hbody.1 x hx
      · exact .inl (hbs x hx)
    have h1 := groups_deeper n (body ++ bs) ls [] gs hd ih
    rw [List.append_assoc, List.append_nil] at h1
    simp only [groups, h1]
    have hb : ¬ l.blank = true := fun hb => hr ((blank_iff l).1 hb)
    rw [if_neg hb, if_neg (by omega), if_pos hi, trim_append body bs hbs hbody.2]

/-! ## Sequences -/

theorem body_nil (n : Nat) : Body n [] := ⟨by (intro l hl; cases hl), by (intro l hl; cases hl)⟩

theorem seqItem_iff (l : Line) (body : List Line) (v : List Char) :
    seqItem (l, body) = some v ↔
      body = [] ∧ l.rest = '-' :: ' ' :: v ∧ v ≠ [] ∧ v.head? ∉ [some ' ', some '[', some '{'] := by
  constructor
  · intro h
    simp only [seqItem] at h
    cases body with
    | cons _ _ => cases h
    | nil =>
      simp only at h
      split at h
      · next x xs hr =>
        split at h
        · cases h
        · next hn =>
          injection h with h; subst h
          refine ⟨rfl, hr, by simp, ?_⟩
          simp only [not_or] at hn
          simp [hn.1, hn.2.1, hn.2.2]
      · cases h
  · rintro ⟨rfl, hr, hv, hh⟩
    cases v with
    | nil => exact absurd rfl hv
    | cons x xs =>
      simp only [List.head?_cons, List.mem_cons, Option.some.injEq, List.not_mem_nil, or_false] at hh
      simp only [seqItem, hr]
      rw [if_neg hh]

theorem items_of (n : Nat) {ls : List Line} {gs : List (Line × List Line)} (h : G n ls gs) :
    ∀ vs, seqItems gs = some vs → Items n ls vs := by
  induction h with
  | nil => intro vs h; injection h with h; subst h; exact .nil
  | @cons l body bs ls gs hi hr hbody hbs _ ih =>
    intro vs h
    simp only [seqItems] at h
    cases hs : seqItem (l, body) with
    | none => simp only [hs] at h; cases h
    | some v =>
      simp only [hs] at h
      cases hg : seqItems gs with
      | none => simp only [hg] at h; cases h
      | some ws =>
        simp only [hg] at h
        injection h with h; subst h
        obtain ⟨rfl, hl, hv, hh⟩ := (seqItem_iff _ _ _).1 hs
        have : l = ⟨n, '-' :: ' ' :: v⟩ := by cases l; simp_all
        subst this
        exact Items.cons (bs := bs) hv hh hbs (ih ws hg)

theorem of_items (n : Nat) {ls : List Line} {vs : List (List Char)} (h : Items n ls vs) :
    ∃ gs, G n ls gs ∧ seqItems gs = some vs := by
  induction h with
  | nil => exact ⟨[], .nil, rfl⟩
  | @cons v bs ls vs hv hh hbs _ ih =>
    obtain ⟨gs, hG, hs⟩ := ih
    refine ⟨(⟨n, '-' :: ' ' :: v⟩, []) :: gs, G.cons (l := ⟨n, '-' :: ' ' :: v⟩) (bs := bs) rfl (by simp) (body_nil n) hbs hG, ?_⟩
    have h1 : seqItem (⟨n, '-' :: ' ' :: v⟩, []) = some v := (seqItem_iff _ _ _).2 ⟨rfl, rfl, hv, hh⟩
    simp only [seqItems, h1, hs]

/-! ## Keys -/

theorem takeWhile_all {α} (p : α → Bool) (a b : List α) (x : α) (h : ∀ y ∈ a, p y = true) (hx : p x = false) :
    (a ++ x :: b).takeWhile p = a ∧ (a ++ x :: b).dropWhile p = x :: b := by
  induction a with
  | nil => simp [hx]
  | cons y ys ih =>
    have ih := ih (fun z hz => h z (by simp [hz]))
    have hy := h y (by simp)
    simp [hy, ih.1, ih.2]

theorem splitKey_iff (word : Char → Bool) (hc : word ':' = false) (s key rest : List Char) :
    splitKey word s = some (key, rest) ↔ key ≠ [] ∧ (∀ c ∈ key, word c = true) ∧ s = key ++ ':' :: rest := by
  constructor
  · intro h
    simp only [splitKey] at h
    split at h
    · next k ks r h1 h2 =>
      injection h with h; injection h with ha hb; subst ha; subst hb
      refine ⟨by simp, ?_, ?_⟩
      · rw [← h1]; intro c hc
        exact List.all_eq_true.1 (List.all_takeWhile) c hc
      · rw [← h1, ← h2, List.takeWhile_append_dropWhile]
    · cases h
  · rintro ⟨hk, hw, rfl⟩
    obtain ⟨h1, h2⟩ := takeWhile_all word key rest ':' hw hc
    simp only [splitKey, h1, h2]
    cases key with
    | nil => exact absurd rfl hk
    | cons k ks => rfl

/-! ## Flow sequences -/

theorem splitComma_ne (b : Bool) (s : List Char) : splitComma b s ≠ [] := by
  induction s generalizing b with
  | nil => simp [splitComma]
  | cons c cs ih =>
    simp only [splitComma]
    split
    · exact ih true
    · split
      · simp
      · split <;> simp

theorem splitComma_flow (s : List Char) :
    Flow s (splitComma false s) ∧
    ∃ k t, s = List.replicate k ' ' ++ t ∧ t.head? ≠ some ' ' ∧ Flow t (splitComma true s) := by
  induction s with
  | nil => exact ⟨.one (by simp), 0, [], rfl, by simp, .one (by simp)⟩
  | cons c cs ih =>
    obtain ⟨h1, k, t, he, ht, h2⟩ := ih
    have key : Flow (c :: cs) (splitComma false (c :: cs)) := by
      simp only [splitComma, Bool.false_eq_true, false_and, if_false]
      by_cases hc : c = ','
      · rw [if_pos hc]
        subst hc
        have := Flow.more (a := []) k (by simp) ht h2
        rwa [← he] at this
      · rw [if_neg hc]
        generalize splitComma false cs = r at h1
        cases h1 with
        | @one _ hn =>
          simp only
          exact .one (by simp [hn, Ne.symm hc])
        | @more a t as j hn hh hf =>
          simp only
          rw [← List.cons_append]
          exact .more j (by simp [hn, Ne.symm hc]) hh hf
    refine ⟨key, ?_⟩
    by_cases hs : c = ' '
    · subst hs
      refine ⟨k + 1, t, by rw [he, List.replicate_succ]; rfl, ht, ?_⟩
      simpa [splitComma] using h2
    · refine ⟨0, c :: cs, rfl, by simpa using hs, ?_⟩
      have : splitComma true (c :: cs) = splitComma false (c :: cs) := by simp [splitComma, hs]
      rw [this]; exact key

theorem splitComma_no (a : List Char) (h : ',' ∉ a) : splitComma false a = [a] := by
  induction a with
  | nil => rfl
  | cons c cs ih =>
    simp only [List.mem_cons, not_or] at h
    simp [splitComma, ih h.2, Ne.symm h.1]

theorem splitComma_comma (a s : List Char) (h : ',' ∉ a) :
    splitComma false (a ++ ',' :: s) = a :: splitComma true s := by
  induction a with
  | nil => simp [splitComma]
  | cons c cs ih =>
    simp only [List.mem_cons, not_or] at h
    simp [splitComma, ih h.2, Ne.symm h.1]

theorem splitComma_skip (k : Nat) (t : List Char) (h : t.head? ≠ some ' ') :
    splitComma true (List.replicate k ' ' ++ t) = splitComma false t := by
  induction k with
  | zero =>
    cases t with
    | nil => rfl
    | cons c cs =>
      have : c ≠ ' ' := by simpa using h
      simp [splitComma, this]
  | succ k ih => simpa [List.replicate_succ, splitComma] using ih

theorem flow_splitComma {s : List Char} {as : List (List Char)} (h : Flow s as) : splitComma false s = as := by
  induction h with
  | one h => exact splitComma_no _ h
  | more k ha ht _ ih => rw [splitComma_comma _ _ ha, splitComma_skip k _ ht, ih]

/-! ## Values -/

theorem joinLines_eq (ls : List Line) :
    joinLines ls = ['\n'].intercalate (ls.map (fun l => List.replicate l.indent ' ' ++ l.rest)) := by
  induction ls with
  | nil => rfl
  | cons l ls ih =>
    cases ls with
    | nil => simp [joinLines, Line.text, List.intercalate]
    | cons m ms =>
      simp only [joinLines, ih, Line.text]
      simp [List.intercalate]

theorem getLast_split (s : List Char) (h : s.getLast? = some ']') : s = s.dropLast ++ [']'] := by
  cases s with
  | nil => simp at h
  | cons c cs =>
    have := List.dropLast_concat_getLast (List.cons_ne_nil c cs)
    rw [List.getLast?_eq_some_getLast (List.cons_ne_nil c cs)] at h
    injection h with h
    rw [h] at this
    exact this.symm

theorem all_space (s : List Char) (h : s.all (· = ' ') = true) : s = List.replicate s.length ' ' := by
  apply List.eq_replicate_iff.2
  refine ⟨rfl, fun c hc => ?_⟩
  simpa using List.all_eq_true.1 h c hc

theorem inlineVal_value (word space : Char → Bool) (n : Nat) (rest : List Char) (v : Val)
    (h : inlineVal rest = some v) : Value word space n rest [] v := by
  simp only [inlineVal] at h
  split at h
  · cases h
  · next s =>
    split at h
    · next hl =>
      rw [getLast_split s hl]
      split at h
      · next ha =>
        injection h with h; subst h
        rw [all_space _ ha]
        exact .flowEmpty _
      · next ha =>
        injection h with h; subst h
        refine .flow ?_ (splitComma_flow _).1
        apply Classical.byContradiction
        intro hn
        apply ha
        apply List.all_eq_true.2
        intro c hc
        by_cases hcc : c = ' '
        · simpa using hcc
        · exact absurd ⟨c, hc, hcc⟩ hn
    · cases h
  · next s h1 h2 =>
    injection h with h; subst h
    refine .scalar ?_
    intro hm
    simp only [List.mem_cons, List.not_mem_nil, or_false] at hm
    cases s with
    | nil => simp at hm
    | cons c cs =>
      simp only [List.head?_cons, Option.some.injEq] at hm
      rcases hm with rfl | rfl
      · exact h2 cs rfl
      · exact h1 cs rfl
  · cases h

theorem inlineVal_scalar (s : List Char) (h : s.head? ∉ [some '[', some '{']) :
    inlineVal (' ' :: s) = some (.scalar s) := by
  cases s with
  | nil => rfl
  | cons c cs =>
    simp only [List.head?_cons, List.mem_cons, Option.some.injEq, List.not_mem_nil, or_false, not_or] at h
    simp only [inlineVal]
    split
    · next hh => injection hh with _ hh; injection hh with hh; exact absurd hh h.2
    · next hh => injection hh with _ hh; injection hh with hh; exact absurd hh h.1
    · next hh => injection hh with _ hh; subst hh; rfl
    · next hh => exact absurd rfl (hh _)

theorem inlineVal_flow (t : List Char) :
    inlineVal (' ' :: '[' :: (t ++ [']'])) =
      if t.all (· = ' ') then some (.list []) else some (.list (splitComma false t)) := by
  simp [inlineVal]

theorem hasColonSpace_iff (s : List Char) : hasColonSpace s = true ↔ ∃ x y, s = x ++ ':' :: ' ' :: y := by
  induction s with
  | nil => simp [hasColonSpace]
  | cons c cs ih =>
    constructor
    · intro h
      rw [hasColonSpace.eq_def] at h
      split at h
      · next y he => exact ⟨[], y, he⟩
      · next d ds hn he =>
        injection he with h1 h2; subst h1; subst h2
        obtain ⟨x, y, rfl⟩ := ih.1 h
        exact ⟨c :: x, y, rfl⟩
      · next he => cases he
    · rintro ⟨x, y, h⟩
      cases x with
      | nil => rw [h]; rfl
      | cons z zs =>
        injection h with h1 h2
        have := ih.2 ⟨zs, y, h2⟩
        rw [hasColonSpace.eq_def]
        split
        · rfl
        · next he => injection he with _ he; subst he; exact this
        · next he => cases he

end Verif.Front
