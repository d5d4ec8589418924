import Verif.Algs.Spec
import Verif.Deps.UseLemmas
import Verif.Style.IfLemmas
/-!
# Headers
-/
namespace Verif.Algs
open Deps (Begins startsWith startsWith_iff)
open Style (Pairs)

theorem mem_takeWhile {α : Type} (f : α → Bool) : ∀ (l : List α) (x : α), x ∈ l.takeWhile f → f x = true
  | a :: l, x, h => by
    by_cases ha : f a = true
    · rw [List.takeWhile_cons_of_pos ha] at h
      rcases List.mem_cons.1 h with rfl | h
      · exact ha
      · exact mem_takeWhile f l x h
    · rw [List.takeWhile_cons_of_neg ha] at h; cases h

theorem takeWhile_append_stop {α : Type} (f : α → Bool) (a : List α) (c : α) (r : List α) (ha : ∀ x ∈ a, f x = true) (hc : f c = false) :
    (a ++ c :: r).takeWhile f = a ∧ (a ++ c :: r).dropWhile f = c :: r := by
  induction a with
  | nil => simp [hc]
  | cons x a ih =>
    obtain ⟨h1, h2⟩ := ih (fun y hy => ha y (by simp [hy]))
    have := ha x (by simp)
    simp [this, h1, h2]

theorem bare_plain {s : List Char} : Bare s ↔ s ≠ [] ∧ ∀ c ∈ s, plain c = true := by
  rw [Bare]
  refine and_congr_right fun _ => ?_
  constructor
  · rintro ⟨h1, h2⟩ c hc
    simp only [plain, bne_iff_ne, Bool.and_eq_true]
    exact ⟨fun h => h1 (h ▸ hc), fun h => h2 (h ▸ hc)⟩
  · intro h
    exact ⟨fun hc => by simpa [plain] using h _ hc, fun hc => by simpa [plain] using h _ hc⟩

theorem takeWhile_bare {s : List Char} (h : ¬ (s.takeWhile plain).isEmpty = true) : Bare (s.takeWhile plain) :=
  bare_plain.2 ⟨by simpa using h, fun _ hc => mem_takeWhile _ _ _ hc⟩

theorem unmark_iff (cs n : List Char) : unmark cs = some n ↔ Named cs n := by
  have e5 : "<dfn ".toList = ['<', 'd', 'f', 'n', ' '] := by decide
  have e6 : "</dfn>".toList = ['<', '/', 'd', 'f', 'n', '>'] := by decide
  have e1 : "<".toList = ['<'] := by decide
  unfold unmark
  constructor
  · intro h
    split at h
    · split at h
      · rename_i hp
        split at h
        · cases h
        · rename_i ha
          split at h
          · rename_i r hr
            split at h
            · cases h
            · rename_i hb
              split at h
              · rename_i he
                cases h
                have h1 : cs = "<dfn ".toList ++ cs.drop 5 := by
                  obtain ⟨t, rfl⟩ := List.isPrefixOf_iff_prefix.1 hp
                  rw [e5]; simp
                have h2 := (List.takeWhile_append_dropWhile (p := plain) (l := cs.drop 5))
                have h3 := (List.takeWhile_append_dropWhile (p := plain) (l := r))
                rw [he] at h3
                rw [hr, ← h3] at h2
                rw [← h2] at h1
                have := Named.marked (takeWhile_bare ha) (takeWhile_bare hb)
                have e : cs = "<dfn ".toList ++ (cs.drop 5).takeWhile plain ++ ['>'] ++ r.takeWhile plain ++ "</dfn>".toList := by
                  rw [h1]
                  simp only [List.append_assoc, List.cons_append, List.nil_append, List.append_cancel_left_eq]
                  rw [List.drop_append_of_le_length (by decide)]
                  simp only [e5, List.drop_succ_cons, List.drop_zero, List.nil_append]
                  have := List.takeWhile_append_dropWhile (p := plain) (l := cs.drop 5)
                  rw [hr] at this
                  rw [(takeWhile_append_stop plain ((cs.drop 5).takeWhile plain) '>' _ (fun _ hc => mem_takeWhile _ _ _ hc) (by decide)).1]
                rw [e]; exact this
              · cases h
          · cases h
      · cases h
    · rename_i hp
      cases h
      refine .same (fun h => hp ?_)
      rw [e1]; exact List.isPrefixOf_iff_prefix.2 h
  · intro h
    cases h with
    | same h =>
      rw [if_neg]
      rw [e1, List.isPrefixOf_iff_prefix]; exact h
    | @marked a n ha hn =>
      rw [bare_plain] at ha hn
      have e : "<dfn ".toList ++ a ++ ['>'] ++ n ++ "</dfn>".toList = "<dfn ".toList ++ (a ++ '>' :: (n ++ "</dfn>".toList)) := by simp
      have hd : ("<dfn ".toList ++ (a ++ '>' :: (n ++ "</dfn>".toList))).drop 5 = a ++ '>' :: (n ++ "</dfn>".toList) := by rw [e5]; rfl
      have t1 := takeWhile_append_stop plain a '>' (n ++ "</dfn>".toList) ha.2 (by decide)
      have t2 : (n ++ "</dfn>".toList).takeWhile plain = n ∧ (n ++ "</dfn>".toList).dropWhile plain = "</dfn>".toList := by
        rw [e6]; exact takeWhile_append_stop plain n '<' _ hn.2 (by decide)
      rw [e, if_pos (by rw [e1, List.isPrefixOf_iff_prefix, e5]; exact ⟨_, rfl⟩), if_pos (List.isPrefixOf_iff_prefix.2 ⟨_, rfl⟩), hd, t1.1, t1.2]
      rw [if_neg (by simpa using ha.1)]
      simp only
      rw [t2.1, t2.2, if_neg (by simpa using hn.1), if_pos rfl]

/-! ### Parameters -/

theorem pairs_map {α β : Type} {r : α → β → Prop} {f : α → β} (h : ∀ a b, r a b ↔ b = f a) : ∀ as bs, Pairs r as bs ↔ bs = as.map f
  | [], bs => by
    constructor
    · intro h; cases h; rfl
    · rintro rfl; exact .nil
  | a :: as, bs => by
    constructor
    · intro hc
      cases hc with
      | cons h1 h2 => rw [(h _ _).1 h1, (pairs_map h _ _).1 h2]; rfl
    · rintro rfl; exact .cons ((h _ _).2 rfl) ((pairs_map h _ _).2 rfl)

theorem filled_pos {f : Prop} (hf : f) (p q : Param) : Filled f p q ↔ q = fillNature p := by
  constructor
  · intro h
    cases h with
    | known h => rw [fillNature, if_neg]; exact h.resolve_left (fun g => g hf)
    | rest => rw [fillNature, if_pos rfl]; rfl
    | one _ h => rw [fillNature, if_pos rfl]; simp only [if_neg h]
  · rintro rfl
    obtain ⟨n, u, s⟩ := p
    unfold fillNature
    by_cases hs : s = "unknown"
    · subst hs
      rw [if_pos rfl]
      by_cases hu : u = "..."
      · subst hu; exact .rest hf
      · simp only [if_neg hu]; exact .one hf hu
    · rw [if_neg hs]; exact .known (Or.inr hs)

theorem filled_neg {f : Prop} (hf : ¬ f) (p q : Param) : Filled f p q ↔ q = id p := by
  constructor
  · intro h
    cases h with
    | known h => rfl
    | rest h => exact absurd h hf
    | one h => exact absurd h hf
  · rintro rfl
    exact .known (Or.inl hf)

theorem filled_iff (s : String) (ps qs : List Param) :
    Pairs (Filled (Begins "bif:" s)) ps qs ↔ qs = if startsWith "bif:" s then ps.map fillNature else ps := by
  by_cases h : Begins "bif:" s
  · rw [if_pos ((startsWith_iff _ _).2 h), pairs_map (filled_pos h)]
  · rw [if_neg (fun g => h ((startsWith_iff _ _).1 g)), pairs_map (filled_neg h), List.map_id]

theorem filter_le_one {α : Type} (f : α → Bool) : ∀ l : List α, (l.filter f).length < 2 ↔
    ∀ (i j : Nat) p q, l[i]? = some p → l[j]? = some q → f p = true → f q = true → i = j
  | [] => by simp
  | a :: l => by
    have ih := filter_le_one f l
    by_cases ha : f a = true
    · rw [List.filter_cons_of_pos ha, List.length_cons]
      constructor
      · intro h
        have hn : l.filter f = [] := List.length_eq_zero_iff.1 (by omega)
        rw [List.filter_eq_nil_iff] at hn
        intro i j p q hi hj hp hq
        cases i with
        | zero =>
          cases j with
          | zero => rfl
          | succ j => exact absurd hq (hn q (List.mem_of_getElem? hj))
        | succ i => exact absurd hp (hn p (List.mem_of_getElem? hi))
      · intro h
        have hn : l.filter f = [] := by
          rw [List.filter_eq_nil_iff]
          intro x hx hfx
          obtain ⟨j, hj⟩ := List.mem_iff_getElem?.1 hx
          have := h 0 (j + 1) a x rfl hj ha hfx
          omega
        simp [hn]
    · rw [List.filter_cons_of_neg ha, ih]
      constructor
      · intro h i j p q hi hj hp hq
        cases i with
        | zero => cases hi; exact absurd hp ha
        | succ i =>
          cases j with
          | zero => cases hj; exact absurd hq ha
          | succ j => rw [h i j p q hi hj hp hq]
      · intro h i j p q hi hj hp hq
        have := h (i + 1) (j + 1) p q hi hj hp hq
        omega

/-! ### The description -/

theorem joined_iff : ∀ (ss : List String) (t : List Char), Joined ss t ↔ t = joinSpaces (ss.map String.toList)
  | [], t => by
    constructor
    · intro h; cases h; rfl
    · rintro rfl; exact .nothing
  | [s], t => by
    constructor
    · intro h
      cases h with
      | one => rfl
      | more h => exact absurd rfl h
    · rintro rfl; exact .one
  | s :: s' :: ss, t => by
    constructor
    · intro h
      cases h with
      | more _ h => rw [(joined_iff (s' :: ss) _).1 h]; simp [joinSpaces]
    · rintro rfl
      have := Joined.more (s := s) (ss := s' :: ss) (by simp) ((joined_iff (s' :: ss) _).2 rfl)
      simpa [joinSpaces] using this

/-- No word with a space starts another. -/
def Apart (ws : List String) : Prop := ∀ w ∈ ws, ∀ w' ∈ ws, (w.toList ++ [' ']) <+: (w'.toList ++ [' ']) → w = w'

theorem find_words (ws : List String) (t : List Char) :
    (ws.map String.toList).find? (fun w => (w ++ [' ']).isPrefixOf t) = (ws.find? (fun w => (w.toList ++ [' ']).isPrefixOf t)).map String.toList := by
  rw [List.find?_map]; rfl

theorem without_iff (ws : List String) (hw : Apart ws) (t t' : List Char) : Without ws t t' ↔ t' = stripWord (ws.map String.toList) t := by
  unfold stripWord
  rw [find_words]
  constructor
  · intro h
    cases h with
    | @word w _ h =>
      have hp : (w.toList ++ [' ']).isPrefixOf (w.toList ++ [' '] ++ t') = true := List.isPrefixOf_iff_prefix.2 ⟨_, rfl⟩
      cases hf : ws.find? (fun x => (x.toList ++ [' ']).isPrefixOf (w.toList ++ [' '] ++ t')) with
      | none =>
        have := List.find?_eq_none.1 hf w h
        exact absurd hp this
      | some x =>
        have h1 := List.find?_some hf
        have h2 := List.mem_of_find?_eq_some hf
        have h1 : (x.toList ++ [' ']) <+: (w.toList ++ [' '] ++ t') := List.isPrefixOf_iff_prefix.1 h1
        have h3 : (w.toList ++ [' ']) <+: (w.toList ++ [' '] ++ t') := ⟨_, rfl⟩
        have e : x = w := by
          rcases List.prefix_or_prefix_of_prefix h1 h3 with g | g
          · exact hw x h2 w h g
          · exact (hw w h x h2 g).symm
        subst e
        simp
    | none h =>
      have : ws.find? (fun x => (x.toList ++ [' ']).isPrefixOf t) = none := by
        rw [List.find?_eq_none]
        intro x hx hp
        exact h x hx (List.isPrefixOf_iff_prefix.1 hp)
      rw [this]; rfl
  · rintro rfl
    cases hf : ws.find? (fun x => (x.toList ++ [' ']).isPrefixOf t) with
    | none =>
      rw [List.find?_eq_none] at hf
      exact .none (fun w hw hp => hf w hw (List.isPrefixOf_iff_prefix.2 hp))
    | some x =>
      have hp := List.find?_some hf
      obtain ⟨r, rfl⟩ := List.isPrefixOf_iff_prefix.1 hp
      have := Without.word (t := r) (List.mem_of_find?_eq_some hf)
      simpa using this

theorem replace_skip (p n : List Char) : ∀ (a s : List Char), replace p n a.length (a ++ s) = replace p n 0 s
  | [], s => by simp
  | c :: a, s => by simp only [List.length_cons, List.cons_append, replace]; exact replace_skip p n a s

theorem replaced_iff (p n : List Char) (hp : p ≠ []) (s o : List Char) : Replaced p n s o ↔ o = replace p n 0 s := by
  obtain ⟨c0, p', rfl⟩ : ∃ c p', p = c :: p' := by cases p with
    | nil => exact absurd rfl hp
    | cons c p' => exact ⟨c, p', rfl⟩
  constructor
  · intro h
    induction h with
    | nil => rfl
    | hit _ ih =>
      rename_i s o _
      rw [List.cons_append, replace, if_pos (show (c0 :: p').isPrefixOf (c0 :: (p' ++ s)) = true from List.isPrefixOf_iff_prefix.2 ⟨s, rfl⟩)]
      simp only [List.length_cons, Nat.add_sub_cancel]
      rw [replace_skip, ih]
    | miss h _ ih =>
      rw [replace, if_neg (fun g => h (List.isPrefixOf_iff_prefix.1 g)), ih]
  · rintro rfl
    have key : ∀ (k : Nat) (s : List Char), s.length ≤ k → Replaced (c0 :: p') n s (replace (c0 :: p') n 0 s) := by
      intro k
      induction k with
      | zero =>
        intro s hs
        obtain rfl := List.length_eq_zero_iff.1 (Nat.le_zero.1 hs)
        exact .nil
      | succ k ih =>
        intro s hs
        cases s with
        | nil => exact .nil
        | cons c s =>
          rw [replace]
          by_cases h : (c0 :: p').isPrefixOf (c :: s) = true
          · rw [if_pos h]
            obtain ⟨r, hr⟩ := List.isPrefixOf_iff_prefix.1 h
            simp only [List.cons_append, List.cons.injEq] at hr
            obtain ⟨rfl, rfl⟩ := hr
            simp only [List.length_cons, Nat.add_sub_cancel, replace_skip]
            exact .hit (ih r (by simp only [List.length_cons, List.length_append] at hs; omega))
          · rw [if_neg h]
            exact .miss (fun g => h (List.isPrefixOf_iff_prefix.2 g)) (ih s (by simp only [List.length_cons] at hs; omega))
    exact key s.length s (Nat.le_refl _)

theorem described_iff (ps : List String) (d : String) : Described ps d ↔ d = describe ps := by
  have a1 : Apart ["!OP", "!FUNC", "!CM"] := by
    unfold Apart; decide +kernel
  have a2 : Apart ["It", "This operation", "The job"] := by
    unfold Apart; decide +kernel
  unfold Described describe
  simp only [joined_iff, without_iff _ a1, without_iff _ a2, replaced_iff _ _ (show "!OP".toList ≠ [] by decide), replaced_iff _ _ (show "!FUNC".toList ≠ [] by decide)]
  constructor
  · rintro ⟨_, _, _, _, rfl, rfl, rfl, rfl, h⟩
    rw [← String.ofList_toList (s := d), h]; rfl
  · rintro rfl
    exact ⟨_, _, _, _, rfl, rfl, rfl, rfl, by rw [String.toList_ofList]; rfl⟩

theorem finish_iff (r : Raw) (h : Header) : finish r = some h ↔ Finished r h := by
  unfold finish Finished
  simp only [Option.bind_eq_bind, Option.bind_eq_some_iff]
  constructor
  · rintro ⟨name, hn, ps, hp, hc⟩
    split at hc
    · cases hc
    · rename_i hf
      cases hc
      refine ⟨ps, hp, by rw [String.toList_ofList]; exact (unmark_iff _ _).1 hn, ?_, (filled_iff _ _ _).2 rfl, (described_iff _ _).2 rfl, rfl, rfl, rfl, rfl, rfl⟩
      have := (filter_le_one (fun p : Param => decide (p.punct = "...")) ps).1 (Nat.not_le.1 hf)
      simpa using this
  · rintro ⟨ps, hp, hn, hf, h1, h2, h3, h4, h5, h6, h7⟩
    refine ⟨_, (unmark_iff _ _).2 hn, ps, hp, ?_⟩
    rw [if_neg]
    · rw [filled_iff] at h1
      rw [described_iff] at h2
      rw [String.ofList_toList, ← h1, ← h2, ← h3, ← h4, ← h5, ← h6, ← h7]
    · have := (filter_le_one (fun p : Param => decide (p.punct = "...")) ps).2 (by simpa using hf)
      omega

end Verif.Algs
