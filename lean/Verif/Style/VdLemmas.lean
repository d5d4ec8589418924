import Verif.Style.IfLemmas
import Verif.Deps.UseLemmas
/-!
# Lemmas about descriptions of values
-/
namespace Verif.Style
open Annot (RNode RAt)
open Deps (Before Begins Listing idx listing_idx)

/-! ### The letters -/

theorem multi_iff (r : String) : (multiStarts.any (fun p => Deps.startsWith p r) = true ∨ multiForms.contains r = true) ↔ Multi r := by
  simp only [multiStarts, List.any_cons, List.any_nil, Bool.or_eq_true, Deps.startsWith_iff, Bool.false_eq_true, or_false, List.contains_iff_mem]
  simp only [Multi, or_assoc]
  rfl

theorem single_not_multi (r : String) (h : Single r) : ¬ Multi r := by
  rw [← multi_iff]
  have : ∀ x ∈ singleForms, ¬ (multiStarts.any (fun p => Deps.startsWith p x) = true ∨ multiForms.contains x = true) := by decide +kernel
  exact this r h

theorem letter_iff (d : RNode) (c : Char) : singleOrMulti d = some c ↔ Letter d c := by
  obtain ⟨l, r, t, ks⟩ := d
  simp only [singleOrMulti]
  constructor
  · intro h
    by_cases h1 : l = "{VAL_DESC}"
    · subst h1
      rw [if_neg (fun h => h rfl)] at h
      by_cases h2 : multiStarts.any (fun p => Deps.startsWith p r) = true
      · rw [if_pos h2] at h; cases h; exact .m ((multi_iff r).1 (Or.inl h2))
      rw [if_neg h2] at h
      by_cases h3 : multiForms.contains r = true
      · rw [if_pos h3] at h; cases h; exact .m ((multi_iff r).1 (Or.inr h3))
      rw [if_neg h3] at h
      by_cases h4 : singleForms.contains r = true
      · rw [if_pos h4] at h; cases h; exact .s (List.contains_iff_mem.1 h4)
      · rw [if_neg h4] at h; cases h
    · rw [if_pos h1] at h; cases h
  · intro h
    cases h with
    | m h =>
      rw [if_neg (fun h => h rfl)]
      by_cases h2 : multiStarts.any (fun p => Deps.startsWith p r) = true
      · rw [if_pos h2]
      · rw [if_neg h2, if_pos (((multi_iff r).2 h).resolve_left h2)]
    | s h =>
      have hn := mt (multi_iff r).1 (single_not_multi r h)
      rw [not_or] at hn
      rw [if_neg (fun h => h rfl), if_neg hn.1, if_neg hn.2, if_pos (show singleForms.contains r = true from List.contains_iff_mem.2 h)]

theorem letter_MS {ks : List RNode} {sm : List Char} (h : Pairs Letter ks sm) : ∀ c ∈ sm, c = 'M' ∨ c = 'S' := by
  induction h with
  | nil => simp
  | cons h1 _ ih =>
    intro c hc
    rcases List.mem_cons.1 hc with rfl | hc
    · cases h1
      · exact Or.inl rfl
      · exact Or.inr rfl
    · exact ih c hc

theorem all_S_iff : ∀ sm : List Char, (∀ c ∈ sm, c = 'M' ∨ c = 'S') → (sm.all (· == 'S') = true ↔ ¬ ∃ j : Nat, sm[j]? = some 'M') := by
  intro sm h
  rw [List.all_eq_true]
  constructor
  · rintro H ⟨j, hj⟩
    have := H 'M' (List.mem_of_getElem? hj)
    revert this; decide
  · intro H c hc
    rcases h c hc with rfl | rfl
    · exact absurd (List.mem_iff_getElem?.1 hc) H
    · rfl

theorem inOrder_iff : ∀ sm : List Char, (∀ c ∈ sm, c = 'M' ∨ c = 'S') → (inOrder sm = true ↔ ¬ Mixed sm)
  | [], _ => by simp [inOrder, Mixed]
  | c :: sm, h => by
    have ih := inOrder_iff sm (fun x hx => h x (by simp [hx]))
    rcases h c (by simp) with rfl | rfl
    · have : inOrder ('M' :: sm) = inOrder sm := rfl
      rw [this, ih]
      constructor
      · rintro H ⟨i, j, hij, hi, hj⟩
        cases i with
        | zero => exact absurd (Option.some_inj.1 hi) (by decide)
        | succ i =>
          cases j with
          | zero => omega
          | succ j => exact H ⟨i, j, by omega, by simpa using hi, by simpa using hj⟩
      · rintro H ⟨i, j, hij, hi, hj⟩
        exact H ⟨i + 1, j + 1, by omega, by simpa using hi, by simpa using hj⟩
    · have : inOrder ('S' :: sm) = sm.all (· == 'S') := rfl
      rw [this, all_S_iff sm (fun x hx => h x (by simp [hx]))]
      constructor
      · rintro H ⟨i, j, hij, hi, hj⟩
        cases j with
        | zero => omega
        | succ j => exact H ⟨j, by simpa using hj⟩
      · rintro H ⟨j, hj⟩
        exact H ⟨0, j + 1, by omega, rfl, by simpa using hj⟩

/-! ### The words before -/

theorem rstrip_iff (sp : Char → Bool) (s r : List Char) : (s.reverse.dropWhile sp).reverse = r ↔
    ∃ spaces, s = r ++ spaces ∧ (∀ c ∈ spaces, sp c = true) ∧ ∀ c, r.getLast? = some c → sp c = false := by
  constructor
  · rintro rfl
    refine ⟨(s.reverse.takeWhile sp).reverse, ?_, ?_, ?_⟩
    · rw [← List.reverse_append, List.takeWhile_append_dropWhile, List.reverse_reverse]
    · intro c hc
      exact List.all_eq_true.1 List.all_takeWhile c (List.mem_reverse.1 hc)
    · intro c hc
      rw [List.getLast?_reverse] at hc
      cases hd : s.reverse.dropWhile sp with
      | nil => rw [hd] at hc; simp at hc
      | cons x xs =>
        rw [hd] at hc
        simp at hc; subst hc
        have hh := List.head?_dropWhile_not sp s.reverse
        rw [hd] at hh
        simpa using hh
  · rintro ⟨spaces, rfl, h1, h2⟩
    rw [List.reverse_append]
    have hd : ∀ (a b : List Char), (∀ c ∈ a, sp c = true) → (a ++ b).dropWhile sp = b.dropWhile sp := by
      intro a b ha
      induction a with
      | nil => rfl
      | cons x a ih => rw [List.cons_append, List.dropWhile_cons_of_pos (ha x (by simp)), ih (fun c hc => ha c (by simp [hc]))]
    rw [hd _ _ (fun c hc => h1 c (List.mem_reverse.1 hc))]
    cases hr : r.reverse with
    | nil => simp only [List.dropWhile_nil, List.reverse_nil]; exact (List.reverse_eq_nil_iff.1 hr).symm
    | cons x xs =>
      have hl : r.getLast? = some x := by rw [← List.reverse_reverse r, hr, List.getLast?_reverse]; rfl
      rw [List.dropWhile_cons_of_neg (by rw [h2 x hl]; decide), ← hr, List.reverse_reverse]

theorem words_iff (sp : Char → Bool) (p : RNode) (is : String) : (p.lhs = "{VALUE_DESCRIPTION}" ∧ prefixOf sp p.rhs = some is) ↔ Words sp p is := by
  rw [Words]
  refine and_congr Iff.rfl ?_
  simp only [prefixOf]
  generalize "{VAL_DESC_DISJUNCTION}".toList = suf
  constructor
  · intro h
    split at h
    · rename_i hs
      rw [List.isSuffixOf_iff_suffix] at hs
      obtain ⟨pre, hp⟩ := hs
      rw [Option.some_inj] at h
      rw [← hp, List.length_append, Nat.add_sub_cancel, List.take_left] at h
      have h' : (pre.reverse.dropWhile sp).reverse = is.toList := by rw [← h, String.toList_ofList]
      obtain ⟨spaces, h1, h2, h3⟩ := (rstrip_iff sp pre is.toList).1 h'
      exact ⟨spaces, by rw [← hp, h1], h2, h3⟩
    · cases h
  · rintro ⟨spaces, h1, h2, h3⟩
    rw [if_pos (by rw [List.isSuffixOf_iff_suffix]; exact ⟨_, h1.symm⟩), h1, List.length_append, Nat.add_sub_cancel, List.take_left,
      (rstrip_iff sp (is.toList ++ spaces) is.toList).2 ⟨spaces, rfl, h2, h3⟩, String.ofList_toList]

/-! ### The preferred words -/

theorem prose_iff (g : RNode) : proseProds.contains (prod g) = true ↔ Prose g := by
  rw [List.contains_iff_mem, proseProds]
  simp only [List.mem_cons, List.not_mem_nil, or_false, Prose, Prod, prod]

theorem decl_iff (g : RNode) : isDecl g = true ↔ Decl g := by
  simp only [isDecl, Bool.or_eq_true, List.contains_iff_mem, List.mem_cons, List.not_mem_nil, or_false, Deps.startsWith_iff, beq_iff_eq, Decl, Prod, prod, or_assoc]
  refine or_congr Iff.rfl (or_congr Iff.rfl (or_congr Iff.rfl (or_congr ?_ Iff.rfl)))
  constructor
  · intro h; exact ⟨_, rfl, h⟩
  · rintro ⟨s, rfl, h⟩; exact h

theorem preferred_iff (g d : RNode) (sm : List Char) (s : String) : preferred g d sm = some s ↔ Should g d sm s := by
  rw [preferred]
  constructor
  · intro h
    by_cases h1 : proseProds.contains (prod g) = true
    · rw [if_pos h1, Option.some_inj] at h
      have hp := (prose_iff g).1 h1
      split at h
      · rename_i hc
        simp only [ge_iff_le, Bool.and_eq_true, decide_eq_true_eq, List.all_eq_true, beq_iff_eq] at hc
        subst h; exact .oneOf hp hc.1 hc.2
      · rename_i hc
        subst h
        refine .either hp ?_
        simp only [ge_iff_le, Bool.and_eq_true, decide_eq_true_eq, List.all_eq_true, beq_iff_eq] at hc
        by_cases hl : sm.length < 3
        · exact Or.inl hl
        · refine Or.inr (Classical.byContradiction fun hn => hc ⟨by omega, fun c hc' => Classical.byContradiction fun hne => hn ⟨c, hc', hne⟩⟩)
    · rw [if_neg h1] at h
      have hp := mt (prose_iff g).2 h1
      by_cases h2 : isDecl g = true
      · rw [if_pos h2] at h
        have hd := (decl_iff g).1 h2
        cases hk : d.kids with
        | nil => rw [hk] at h; cases h
        | cons v vs =>
          rw [hk] at h
          simp only [Option.some_inj] at h
          split at h
          · subst h; exact .clear hp hd hk ‹_›
          · subst h; exact .bare hp hd hk ‹_›
      · rw [if_neg h2] at h; cases h
  · intro h
    cases h with
    | oneOf h1 h2 h3 =>
      rw [if_pos ((prose_iff g).2 h1), if_pos]
      simp only [ge_iff_le, Bool.and_eq_true, decide_eq_true_eq, List.all_eq_true, beq_iff_eq]
      exact ⟨h2, h3⟩
    | either h1 h2 =>
      rw [if_pos ((prose_iff g).2 h1), if_neg]
      simp only [ge_iff_le, Bool.and_eq_true, decide_eq_true_eq, List.all_eq_true, beq_iff_eq]
      rintro ⟨h3, h4⟩
      rcases h2 with h2 | ⟨c, hc, hn⟩
      · omega
      · exact hn (h4 c hc)
    | clear h1 h2 h3 h4 =>
      rw [if_neg (mt (prose_iff g).1 h1), if_pos ((decl_iff g).2 h2), h3]
      simp only
      rw [if_pos h4]
    | bare h1 h2 h3 h4 =>
      rw [if_neg (mt (prose_iff g).1 h1), if_pos ((decl_iff g).2 h2), h3]
      simp only
      rw [if_neg h4]

/-! ### One disjunction -/

theorem checkVd_iff (sp : Char → Bool) (g p : Option RNode) (d : RNode) (ms : List VdMsg) : checkVd sp g p d = some ms ↔
    ∃ g' p' sm should is m1 m2, g = some g' ∧ p = some p' ∧ Pairs Letter d.kids sm ∧ Words sp p' is ∧ Should g' d sm should ∧
      OrderMsg d sm m1 ∧ WordMsg d should is m2 ∧ ms = m1 ++ m2 := by
  have hL : ∀ sm, d.kids.mapM singleOrMulti = some sm ↔ Pairs Letter d.kids sm := by
    intro sm
    rw [mapM_pairs]
    exact pairs_congr (fun x _ y => letter_iff x y)
  simp only [checkVd, Option.bind_eq_bind, Option.bind_eq_some_iff, hL]
  constructor
  · rintro ⟨sm, h1, p', rfl, h⟩
    split at h
    · cases h
    · rename_i hp
      simp only [Option.bind_eq_some_iff] at h
      obtain ⟨is, h2, g', rfl, should, h3, h⟩ := h
      rw [Option.some_inj] at h
      refine ⟨g', p', sm, should, is, _, _, rfl, rfl, h1, (words_iff sp p' is).1 ⟨Classical.not_not.1 hp, h2⟩, (preferred_iff g' d sm should).1 h3, ?_, ?_, h.symm⟩
      · split
        · rename_i ho; exact .fine ((inOrder_iff sm (letter_MS h1)).1 ho)
        · rename_i ho
          exact .mixed (Classical.not_not.1 (mt (inOrder_iff sm (letter_MS h1)).2 ho)) String.toList_ofList
      · split
        · rename_i hn; exact .wrong (Ne.symm hn)
        · rename_i hn; exact .fine (Classical.not_not.1 hn).symm
  · rintro ⟨g', p', sm, should, is, m1, m2, rfl, rfl, h1, h2, h3, h4, h5, rfl⟩
    obtain ⟨hp, hw⟩ := (words_iff sp p' is).2 h2
    refine ⟨sm, h1, p', rfl, ?_⟩
    rw [if_neg (fun h => h hp)]
    simp only [Option.bind_eq_some_iff]
    refine ⟨is, hw, g', rfl, should, (preferred_iff g' d sm should).2 h3, ?_⟩
    congr 2
    · cases h4 with
      | fine h => rw [if_pos ((inOrder_iff sm (letter_MS h1)).2 h)]
      | mixed h hs =>
        rw [if_neg (fun ho => (inOrder_iff sm (letter_MS h1)).1 ho h), ← hs, String.ofList_toList]
    · cases h5 with
      | fine h => rw [if_neg (fun hn => hn h.symm)]
      | wrong h => rw [if_pos (Ne.symm h)]

/-! ### The nodes above -/

/-- The two nodes above a place. -/
def above : Option RNode → Option RNode → RNode → List Nat → Option RNode × Option RNode
  | g, p, _, [] => (g, p)
  | _, p, .node l r x ks, i :: q => match ks[i - 1]? with
    | some k => above p (some (.node l r x ks)) k q
    | none => (none, none)

mutual
theorem up_eq (g p : Option RNode) : ∀ t : RNode, upWalk g p t = (Annot.rWalk t).map (fun e => ((above g p t e.1).1, (above g p t e.1).2, e.2))
  | .node l r x ks => by
    have h := up_eqs p l r x ks ks 0 (by simp)
    simp only [upWalk, Annot.rWalk, List.map_cons, above, h]
    congr 1
    apply List.map_congr_left
    rintro ⟨q, d⟩ he
    rw [Annot.rWalks_idx] at he
    obtain ⟨i, y, q', h1, h2, h3⟩ := (Deps.mem_idx Annot.rWalk ks 1 q d).1 he
    simp only at h2 ⊢
    subst h2
    simp only [above, Nat.add_sub_cancel, h1]
theorem up_eqs (g : Option RNode) (l r x : String) (all : List RNode) : ∀ (ts : List RNode) (n : Nat), (∀ i : Nat, ts[i]? = all[n + i]?) →
    upWalks g (.node l r x all) ts = (Annot.rWalks (n + 1) ts).map (fun e =>
      match e.1 with
      | [] => (none, none, e.2)
      | i :: q => match all[i - 1]? with
        | some k => ((above g (some (.node l r x all)) k q).1, (above g (some (.node l r x all)) k q).2, e.2)
        | none => (none, none, e.2))
  | [], _, _ => rfl
  | t :: ts, n, h => by
    have h0 : all[n]? = some t := by have := h 0; simpa using this.symm
    have ih := up_eqs g l r x all ts (n + 1) (fun i => by have := h (i + 1); simp at this; rw [this]; congr 1; omega)
    simp only [upWalks, Annot.rWalks, List.map_append, List.map_map, ih, up_eq g (some (.node l r x all)) t]
    congr 1
    apply List.map_congr_left
    intro e _
    simp [h0]
end

/-- What is above a place, in terms of places. -/
theorem above_iff (t : RNode) : ∀ (pl : List Nat) (d : RNode), RAt t pl d → ∀ (g p : Option RNode),
    (pl = [] → above g p t pl = (g, p)) ∧ (∀ i, pl = [i] → above g p t pl = (p, some t)) ∧
    ∀ q i j, pl = q ++ [i, j] → ∃ g' p', above g p t pl = (some g', some p') ∧ RAt t q g' ∧ RAt t (q ++ [i]) p' := by
  intro pl
  induction pl generalizing t with
  | nil =>
    intro d _ g p
    refine ⟨fun _ => by rw [above], fun i h => by simp at h, fun q i j h => ?_⟩
    have := congrArg List.length h
    simp at this
  | cons n pl ih =>
    intro d hd g p
    cases hd with
    | @kid l r x i k _ _ ks hk hd =>
      have ha : above g p (.node l r x ks) ((i + 1) :: pl) = above p (some (.node l r x ks)) k pl := by rw [above]; simp [hk]
      refine ⟨fun h => by simp at h, fun j h => ?_, fun q j j' h => ?_⟩
      · simp at h
        rw [ha, (ih k d hd p _).1 h.2]
      · rw [ha]
        cases q with
        | nil =>
          simp at h
          obtain ⟨rfl, h⟩ := h
          rw [(ih k d hd p _).2.1 j' h]
          exact ⟨_, _, rfl, .here, .kid hk .here⟩
        | cons m q =>
          simp at h
          obtain ⟨rfl, h⟩ := h
          obtain ⟨g', p', h1, h2, h3⟩ := (ih k d hd p (some (.node l r x ks))).2.2 q j j' h
          exact ⟨g', p', h1, .kid hk h2, .kid hk h3⟩

theorem above_some (t : RNode) (pl : List Nat) (d g' p' : RNode) (h : RAt t pl d) :
    above none none t pl = (some g', some p') ↔ ∃ q i j, pl = q ++ [i, j] ∧ RAt t q g' ∧ RAt t (q ++ [i]) p' := by
  obtain ⟨h1, h2, h3⟩ := above_iff t pl d h none none
  have uniq : ∀ q a b, RAt t q a → RAt t q b → a = b := by
    intro q a b ha hb
    have e1 := (Annot.mem_lookup_place _ q a (Annot.rWalk_listing t).1).2 (((Annot.rWalk_listing t).2 q a).2 ha)
    have e2 := (Annot.mem_lookup_place _ q b (Annot.rWalk_listing t).1).2 (((Annot.rWalk_listing t).2 q b).2 hb)
    rw [e1] at e2; exact Option.some_inj.1 e2
  have split : pl = [] ∨ (∃ i, pl = [i]) ∨ ∃ q i j, pl = q ++ [i, j] := by
    rcases List.eq_nil_or_concat pl with h | ⟨a, j, rfl⟩
    · exact Or.inl h
    · rcases List.eq_nil_or_concat a with rfl | ⟨q, i, rfl⟩
      · exact Or.inr (Or.inl ⟨j, rfl⟩)
      · exact Or.inr (Or.inr ⟨q, i, j, by simp⟩)
  constructor
  · intro h
    rcases split with h' | ⟨i, h'⟩ | ⟨q, i, j, h'⟩
    · rw [h1 h'] at h; cases h
    · rw [h2 i h'] at h; cases h
    · obtain ⟨g0, p0, h4, h5, h6⟩ := h3 q i j h'
      rw [h4] at h; cases h
      exact ⟨q, i, j, h', h5, h6⟩
  · rintro ⟨q, i, j, h', h5, h6⟩
    obtain ⟨g0, p0, h4, h7, h8⟩ := h3 q i j h'
    rw [h4, uniq _ _ _ h5 h7, uniq _ _ _ h6 h8]

/-! ### The report on a tree -/

theorem mapM_map_comp {α β γ : Type} (f : β → Option γ) (k : α → β) : ∀ xs : List α, (xs.map k).mapM f = xs.mapM (fun x => f (k x))
  | [] => rfl
  | x :: xs => by simp only [List.map_cons, List.mapM_cons, mapM_map_comp f k xs]

theorem checkVdTree_iff (sp : Char → Bool) (t : RNode) (ms : List VdMsg) : checkVdTree sp t = some ms ↔ VdReport sp t ms := by
  have hq : ∀ d : RNode, (d.lhs == "{VAL_DESC_DISJUNCTION}") = true ↔ d.lhs = "{VAL_DESC_DISJUNCTION}" := by intro d; rw [beq_iff_eq]
  have hfilt := inOrder_congr (inOrder_filter t (fun d => d.lhs == "{VAL_DESC_DISJUNCTION}")) hq
  rw [checkVdTree, up_eq, List.filter_map, mapM_map_comp]
  have hp : ∀ mss, Pairs (fun (e : List Nat × RNode) m => checkVd sp (above none none t e.1).1 (above none none t e.1).2 e.2 = some m)
      ((Annot.rWalk t).filter (fun e => e.2.lhs == "{VAL_DESC_DISJUNCTION}")) mss ↔
      Pairs (fun e m => VdSays sp t e.1 e.2 m) ((Annot.rWalk t).filter (fun e => e.2.lhs == "{VAL_DESC_DISJUNCTION}")) mss := by
    intro mss
    refine pairs_congr (fun e he m => ?_)
    have hat := ((Annot.rWalk_listing t).2 e.1 e.2).1 (List.mem_filter.1 he).1
    rw [checkVd_iff]
    constructor
    · rintro ⟨g', p', sm, should, is, m1, m2, h1, h2, h3⟩
      obtain ⟨q, i, j, h4, h5, h6⟩ := (above_some t e.1 e.2 g' p' hat).1 (by rw [← h1, ← h2])
      exact ⟨q, i, j, g', p', sm, should, is, m1, m2, h4, h5, h6, h3⟩
    · rintro ⟨q, i, j, g', p', sm, should, is, m1, m2, h4, h5, h6, h3⟩
      have := (above_some t e.1 e.2 g' p' hat).2 ⟨q, i, j, h4, h5, h6⟩
      exact ⟨g', p', sm, should, is, m1, m2, by rw [this], by rw [this], h3⟩
  simp only [Option.map_eq_some_iff, mapM_pairs, VdReport]
  constructor
  · rintro ⟨mss, h1, rfl⟩; exact ⟨_, mss, hfilt, (hp mss).1 h1, rfl⟩
  · rintro ⟨ds, mss, h1, h2, rfl⟩
    obtain rfl := inOrder_unique h1 hfilt
    exact ⟨mss, (hp mss).2 h2, rfl⟩

/-! ### The document -/

mutual
/-- The trees with their places. -/
def docWalk : Doc → List (List Nat × RNode)
  | .node t ks => t.toList.map (fun t => ([], t)) ++ docWalks 1 ks
def docWalks : Nat → List Doc → List (List Nat × RNode)
  | _, [] => []
  | k, d :: ds => (docWalk d).map (fun e => (k :: e.1, e.2)) ++ docWalks (k + 1) ds
end

theorem docWalks_idx : ∀ (ts : List Doc) (k : Nat), docWalks k ts = idx docWalk k ts
  | [], _ => rfl
  | t :: ts, k => by simp [docWalks, idx, docWalks_idx ts (k + 1)]

mutual
theorem docWalk_snd : ∀ d : Doc, (docWalk d).map (·.2) = docTrees d
  | .node t ks => by cases t <;> simp [docWalk, docTrees, docWalks_snd ks 1]
theorem docWalks_snd : ∀ (ds : List Doc) (k : Nat), (docWalks k ds).map (·.2) = docTreess ds
  | [], _ => rfl
  | d :: ds, k => by simp [docWalks, docTreess, docWalks_snd ds (k + 1), ← docWalk_snd d, Function.comp_def]
end

mutual
theorem docWalk_listing : ∀ d : Doc, Listing (DAt d) (docWalk d)
  | .node x ks => by
    have hk := listing_idx ks 1 (docWalk_listings ks)
    rw [← docWalks_idx] at hk
    constructor
    · rw [docWalk, List.pairwise_append]
      refine ⟨by cases x <;> simp, hk.1, ?_⟩
      intro a ha b hb
      obtain ⟨i, y, q, _, h2, _⟩ := (hk.2 b.1 b.2).1 hb
      rw [List.mem_map] at ha
      obtain ⟨t, _, rfl⟩ := ha
      rw [h2]; trivial
    · intro p t
      rw [docWalk, List.mem_append, hk.2, List.mem_map]
      constructor
      · rintro (⟨u, hu, he⟩ | ⟨i, y, q, h1, rfl, h3⟩)
        · cases he
          rw [Option.mem_toList] at hu
          cases hu
          exact .here
        · exact .kid h1 h3
      · intro h
        cases h with
        | here => exact Or.inl ⟨t, by simp, rfl⟩
        | kid h1 h2 => exact Or.inr ⟨_, _, _, h1, rfl, h2⟩
theorem docWalk_listings : ∀ ds : List Doc, ∀ d ∈ ds, Listing (DAt d) (docWalk d)
  | [], _, h => by cases h
  | d :: ds, u, h => by
    rcases List.mem_cons.1 h with h | h
    · rw [h]; exact docWalk_listing d
    · exact docWalk_listings ds u h
end

theorem trees_iff (d : Doc) (ts : List RNode) : Trees d ts ↔ ts = docTrees d := by
  have h := docWalk_listing d
  constructor
  · rintro ⟨es, h1, h2, rfl⟩
    have : es = docWalk d := Refs.pairwise_unique (fun a b => Deps.before_asymm a.1 b.1) h1 h.1 (fun a => (h2 a.1 a.2).trans (h.2 a.1 a.2).symm)
    rw [this, docWalk_snd]
  · rintro rfl
    exact ⟨docWalk d, h.1, h.2, (docWalk_snd d).symm⟩

end Verif.Style
