import Verif.Titles.ParamLemmas
/-!
# Lemmas about ids
-/
namespace Verif.Titles
open Verif.Sections

theorem takeWhile_all {p : Char → Bool} {w r : Str} (hw : ∀ c ∈ w, p c = true) (hr : ∀ c, r.head? = some c → p c = false) : (w ++ r).takeWhile p = w ∧ (w ++ r).dropWhile p = r := by
  induction w with
  | nil =>
    cases r with
    | nil => exact ⟨rfl, rfl⟩
    | cons c r =>
      have := hr c rfl
      simp [this]
  | cons c w ih =>
    have h1 := hw c (List.mem_cons_self ..)
    obtain ⟨i1, i2⟩ := ih (fun d hd => hw d (List.mem_cons_of_mem _ hd))
    rw [List.cons_append, List.takeWhile_cons, List.dropWhile_cons, h1]
    exact ⟨by simp [i1], by simpa using i2⟩

theorem take_drop_while {p : Char → Bool} (s : Str) : s = s.takeWhile p ++ s.dropWhile p ∧ (∀ c ∈ s.takeWhile p, p c = true) ∧ ∀ c, (s.dropWhile p).head? = some c → p c = false := by
  refine ⟨(List.takeWhile_append_dropWhile).symm, fun c hc => ?_, fun c hc => ?_⟩
  · induction s with
    | nil => cases hc
    | cons d s ih =>
      rw [List.takeWhile_cons] at hc
      by_cases hd : p d = true
      · rw [if_pos hd] at hc
        rcases List.mem_cons.1 hc with rfl | hc
        · exact hd
        · exact ih hc
      · rw [if_neg hd] at hc; cases hc
  · induction s with
    | nil => cases hc
    | cons d s ih =>
      rw [List.dropWhile_cons] at hc
      by_cases hd : p d = true
      · rw [if_pos hd] at hc; exact ih hc
      · rw [if_neg hd] at hc; cases hc; simpa using hd

/-! ### Names of operations -/

theorem plainOk_iff (k : Kind) (op : Str) (h1 : k ≠ .numeric) (h2 : k ≠ .internal) : plainOk op = true ↔ OpName k op := by
  constructor
  · intro h
    unfold plainOk at h
    split at h
    · rename_i a b r
      rw [Bool.and_eq_true, List.all_eq_true] at h
      exact .other h1 h2 h.1 (fun c hc => by simpa using h.2 c hc)
    · cases h
  · intro h
    cases h with
    | numeric => exact absurd rfl h1
    | internal => exact absurd rfl h2
    | other _ _ ha hb =>
      rw [plainOk, Bool.and_eq_true, List.all_eq_true]
      exact ⟨ha, fun c hc => by simpa using hb c hc⟩

theorem numericOk_iff (op : Str) : numericOk op = true ↔ OpName .numeric op := by
  constructor
  · intro h
    unfold numericOk at h
    split at h
    · rename_i u v a l m b e1 e2
      obtain ⟨t1, t2, _⟩ := take_drop_while (p := Char.isAlpha) op
      rw [e1, e2] at t1
      rw [e1] at t2
      simp only [Bool.and_eq_true, List.all_eq_true] at h
      rw [t1]
      exact .numeric h.1.1.1 (t2 v (by simp)) (fun c hc => t2 c (by simp [hc])) h.1.1.2 h.1.2 h.2
    · cases h
  · intro h
    cases h with
    | @numeric u v l m a b h1 h2 h3 h4 h5 h6 =>
      have hu : u.isAlpha = true := by simp [Char.isAlpha, h1]
      obtain ⟨e1, e2⟩ := takeWhile_all (p := Char.isAlpha) (w := u :: v :: a) (r := ':' :: ':' :: l :: m :: b) (by
        intro c hc
        rcases List.mem_cons.1 hc with rfl | hc
        · exact hu
        · rcases List.mem_cons.1 hc with rfl | hc
          · exact h2
          · exact h3 c hc) (by intro c hc; cases hc; decide)
      rw [numericOk, e1, e2]
      simp only [h1, h4, h5, Bool.and_eq_true, List.all_eq_true, true_and]
      exact h6
    | other h _ => exact absurd rfl h

theorem internalOk_iff (op : Str) : internalOk op = true ↔ OpName .internal op := by
  constructor
  · intro h
    unfold internalOk at h
    split at h
    · rename_i u r
      unfold bracketed at h
      split at h
      · rename_i x y e
        rw [Bool.and_eq_true, List.all_eq_true] at h
        have e' : r = (x :: y).reverse ++ [']', ']'] := by
          have := congrArg List.reverse e
          rw [List.reverse_reverse] at this
          rw [this]; simp
        cases hr : (x :: y).reverse with
        | nil => simp at hr
        | cons z w =>
          rw [hr] at e'
          subst e'
          have hm : ∀ c ∈ z :: w, c.isAlpha = true := fun c hc => h.2 c (by rw [← hr] at hc; exact List.mem_reverse.1 hc)
          exact .internal h.1 (hm z (by simp)) (fun c hc => hm c (by simp [hc]))
      · cases h
    · cases h
  · intro h
    cases h with
    | @internal u v a h1 h2 h3 =>
      have e : (v :: (a ++ [']', ']'])).reverse = ']' :: ']' :: (v :: a).reverse := by simp
      simp only [List.cons_append]
      rw [internalOk, e]
      cases hr : (v :: a).reverse with
      | nil => simp at hr
      | cons x y =>
        rw [bracketed, h1, Bool.true_and, List.all_eq_true]
        intro c hc
        rw [← hr, List.mem_reverse] at hc
        rcases List.mem_cons.1 hc with rfl | hc
        · exact h2
        · exact h3 c hc
    | other _ h => exact absurd rfl h

theorem opOk_iff (k : Kind) (op : Str) : opOk k op = true ↔ OpName k op := by
  cases k with
  | numeric => exact numericOk_iff op
  | internal => exact internalOk_iff op
  | envRec => exact plainOk_iff _ _ (by decide) (by decide)
  | moduleRec => exact plainOk_iff _ _ (by decide) (by decide)
  | singular => exact plainOk_iff _ _ (by decide) (by decide)
  | hostDefined => exact plainOk_iff _ _ (by decide) (by decide)
  | implDefined => exact plainOk_iff _ _ (by decide) (by decide)
  | sdo => exact plainOk_iff _ _ (by decide) (by decide)

theorem op_chars {k : Kind} {op : Str} (h : OpName k op) : '(' ∉ op ∧ ')' ∉ op ∧ ' ' ∉ op ∧ '_' ∉ op := by
  have alpha : ∀ {a : Str}, (∀ c ∈ a, c.isAlpha = true) → '(' ∉ a ∧ ')' ∉ a ∧ ' ' ∉ a ∧ '_' ∉ a := by
    intro a ha
    refine ⟨fun h => ?_, fun h => ?_, fun h => ?_, fun h => ?_⟩ <;> (have := ha _ h; revert this; decide)
  have ne : ∀ {c : Char} (p : Char → Bool), p c = true → p '(' = false → p ')' = false → p ' ' = false → p '_' = false → '(' ≠ c ∧ ')' ≠ c ∧ ' ' ≠ c ∧ '_' ≠ c := by
    intro c p hc h1 h2 h3 h4
    refine ⟨?_, ?_, ?_, ?_⟩ <;> (rintro rfl; simp_all)
  cases h with
  | @numeric u v l m a b h1 h2 h3 h4 h5 h6 =>
    obtain ⟨a1, a2, a3, a4⟩ := alpha h3
    obtain ⟨b1, b2, b3, b4⟩ := alpha h6
    obtain ⟨u1, u2, u3, u4⟩ := ne Char.isUpper h1 (by decide) (by decide) (by decide) (by decide)
    obtain ⟨v1, v2, v3, v4⟩ := ne Char.isAlpha h2 (by decide) (by decide) (by decide) (by decide)
    obtain ⟨l1, l2, l3, l4⟩ := ne Char.isLower h4 (by decide) (by decide) (by decide) (by decide)
    obtain ⟨m1, m2, m3, m4⟩ := ne Char.isAlpha h5 (by decide) (by decide) (by decide) (by decide)
    simp_all
  | @internal u v a h1 h2 h3 =>
    obtain ⟨a1, a2, a3, a4⟩ := alpha h3
    obtain ⟨u1, u2, u3, u4⟩ := ne Char.isUpper h1 (by decide) (by decide) (by decide) (by decide)
    obtain ⟨v1, v2, v3, v4⟩ := ne Char.isAlpha h2 (by decide) (by decide) (by decide) (by decide)
    simp_all
  | @other k a b r _ _ h1 h2 =>
    obtain ⟨u1, u2, u3, u4⟩ := ne Char.isAlpha h1 (by decide) (by decide) (by decide) (by decide)
    have hb : ∀ c, c ∈ b :: r → c ≠ '(' ∧ c ≠ ')' ∧ c ≠ ' ' ∧ c ≠ '_' := by
      intro c hc
      refine ⟨?_, ?_, ?_, ?_⟩ <;> (rintro rfl; rcases h2 _ hc with h | h <;> revert h <;> decide)
    refine ⟨?_, ?_, ?_, ?_⟩
    · exact fun h => (List.mem_cons.1 h).elim u1 (fun h => (hb _ h).1 rfl)
    · exact fun h => (List.mem_cons.1 h).elim u2 (fun h => (hb _ h).2.1 rfl)
    · exact fun h => (List.mem_cons.1 h).elim u3 (fun h => (hb _ h).2.2.1 rfl)
    · exact fun h => (List.mem_cons.1 h).elim u4 (fun h => (hb _ h).2.2.2 rfl)

/-! ### Parameters -/

theorem removeParams_app : ∀ (a r : Str), '(' ∉ a → r ≠ [] → removeParams (a ++ ' ' :: '(' :: r) = a
  | [], c :: r, _, _ => rfl
  | [], [], _, h => absurd rfl h
  | c :: a, r, ha, hr => by
    have ih := removeParams_app a r (fun h => ha (List.mem_cons_of_mem _ h)) hr
    rw [List.cons_append, removeParams, ih]
    intro d s h1 h2
    cases a with
    | nil => rw [List.nil_append] at h2; cases h2
    | cons e a =>
      rw [List.cons_append] at h2
      injection h2 with h2 _
      exact ha (by simp [h2])

theorem splitLast_none : ∀ (l : Str), '(' ∉ l → splitLast l = none
  | [], _ => rfl
  | c :: l, h => by
    have : parenRest (c :: l) = none := by
      unfold parenRest
      split
      · rename_i r e
        injection e with _ e
        exact absurd (by simp [e]) h
      · rfl
    rw [splitLast, splitLast_none l (fun h' => h (List.mem_cons_of_mem _ h')), this]

theorem splitLast_app : ∀ (a l : Str), '(' ∉ l → splitLast (a ++ ' ' :: '(' :: l) = some (a, l)
  | [], l, h => by
    have : splitLast ('(' :: l) = none := by
      rw [splitLast, splitLast_none l h]
      rfl
    rw [List.nil_append, splitLast, this]
    rfl
  | c :: a, l, h => by rw [List.cons_append, splitLast, splitLast_app a l h]

theorem extract_title (a : Str) (ps : List Param) (ha : a ≠ []) (hp : ∀ p ∈ ps, IsName p.name) :
    extractNames (a ++ (" (".toList ++ brief true ps ++ " )".toList)) = spaced a ((ps.map (·.name)).map (convert (backTable a))) := by
  have e : (a ++ (" (".toList ++ brief true ps ++ " )".toList)).reverse = ')' :: (a ++ ' ' :: '(' :: (brief true ps ++ [' '])).reverse := by simp
  rw [extractNames, e]
  simp only [List.reverse_reverse]
  rw [splitLast_app _ _ (by simp [(brief_chars ps true hp).1])]
  cases a with
  | nil => exact absurd rfl ha
  | cons c a =>
    dsimp only
    rw [words_brief ps true [' '] hp (by simp; decide)]
    have : words [' '] = [] := rfl
    rw [this, List.append_nil]

/-! ### Former names -/

theorem hasSub_iff (x : Str) : ∀ s, hasSub x s = true ↔ Part x s
  | [] => by
    rw [hasSub, List.isEmpty_iff]
    constructor
    · rintro rfl; exact ⟨[], [], rfl⟩
    · rintro ⟨a, b, h⟩
      have := congrArg List.length h
      simp only [List.length_nil, List.length_append] at this
      exact List.length_eq_zero_iff.1 (by omega)
  | c :: cs => by
    rw [hasSub, Bool.or_eq_true, List.isPrefixOf_iff_prefix, hasSub_iff x cs]
    constructor
    · rintro (⟨b, h⟩ | ⟨a, b, h⟩)
      · exact ⟨[], b, by simp [h]⟩
      · exact ⟨c :: a, b, by simp [h]⟩
    · rintro ⟨a, b, h⟩
      cases a with
      | nil => exact .inl ⟨b, by simpa using h.symm⟩
      | cons d a =>
        simp only [List.cons_append, List.cons.injEq] at h
        exact .inr ⟨a, b, by simpa using h.2⟩

theorem convert_of_mem {t : List (String × String)} (hd : (t.map (·.1)).Nodup) {n o : String} (h : (n, o) ∈ t) : convert t n.toList = o.toList := by
  induction t with
  | nil => cases h
  | cons e t ih =>
    obtain ⟨h1, h2⟩ := List.nodup_cons.1 hd
    rw [convert, List.find?_cons]
    rcases List.mem_cons.1 h with rfl | h
    · simp
    · have : e.1 ≠ n := fun he => h1 (List.mem_map.2 ⟨_, h, he.symm⟩)
      have hf : (decide (e.1.toList = n.toList)) = false := decide_eq_false fun he => this (String.toList_inj.1 he)
      simp only [hf]
      exact ih h2 h

theorem convert_same {t : List (String × String)} {n : Str} (h : ∀ o, (String.ofList n, o) ∉ t) : convert t n = n := by
  rw [convert]
  cases hf : t.find? (fun e => e.1.toList = n) with
  | none => rfl
  | some e =>
    have h1 := List.find?_some hf
    have h2 := List.mem_of_find?_eq_some hf
    simp only [decide_eq_true_eq] at h1
    exact absurd (show (String.ofList n, e.2) ∈ t by rw [← h1, String.ofList_toList]; exact h2) (h e.2)

theorem old_convert {pre n o : Str} (h : Old pre n o) : convert (backTable pre) n = o := by
  have hset : ¬ Part "Environment Records".toList "Set".toList := by rw [← hasSub_iff]; decide +kernel
  have h1 : Part "Environment Records".toList pre → backTable pre = backEnv := fun hp => if_pos ((hasSub_iff _ _).2 hp)
  have h2 : ¬ Part "Environment Records".toList pre → backTable pre = backOther ++ [("_value_", if pre = "Set".toList then "_V_" else "_value_")] := fun hp => if_neg (fun hh => hp ((hasSub_iff _ _).1 hh))
  have nd : ∀ x : String, ((backOther ++ [("_value_", x)]).map (fun e => e.1)).Nodup := fun x => by
    rw [List.map_append, List.map_singleton]
    show (backOther.map (fun e => e.1) ++ ["_value_"]).Nodup
    decide +kernel
  cases h with
  | env hp hm => rw [h1 hp]; exact convert_of_mem (by decide +kernel) hm
  | envSame hp hm => rw [h1 hp]; exact convert_same hm
  | other hp hm => rw [h2 hp]; exact convert_of_mem (nd _) (List.mem_append_left _ hm)
  | set he =>
    rw [h2 (he ▸ hset)]
    exact convert_of_mem (nd _) (by simp [he])
  | otherSame hp hm hv =>
    rw [h2 hp]
    by_cases he : n = "_value_".toList
    · subst he
      rw [convert_of_mem (n := "_value_") (o := "_value_") (nd _)]
      by_cases hs : pre = "Set".toList
      · exact absurd rfl (hv hs)
      · rw [if_neg hs]; exact List.mem_append_right _ (List.mem_singleton.2 rfl)
    · refine convert_same fun o ho => ?_
      rcases List.mem_append.1 ho with ho | ho
      · exact hm o ho
      · simp only [List.mem_singleton, Prod.mk.injEq] at ho
        exact he (by rw [← String.toList_ofList (l := n), ho.1])

theorem old_exists (pre n : Str) : ∃ o, Old pre n o := by
  by_cases hp : Part "Environment Records".toList pre
  · by_cases h : ∃ o, (String.ofList n, o) ∈ backEnv
    · obtain ⟨o, ho⟩ := h
      exact ⟨o.toList, by have := Old.env hp ho; rwa [String.toList_ofList] at this⟩
    · exact ⟨n, .envSame hp (fun o ho => h ⟨o, ho⟩)⟩
  · by_cases h : ∃ o, (String.ofList n, o) ∈ backOther
    · obtain ⟨o, ho⟩ := h
      exact ⟨o.toList, by have := Old.other hp ho; rwa [String.toList_ofList] at this⟩
    · by_cases hs : pre = "Set".toList ∧ n = "_value_".toList
      · exact ⟨"_V_".toList, by rw [hs.2]; exact .set hs.1⟩
      · exact ⟨n, .otherSame hp (fun o ho => h ⟨o, ho⟩) (fun a b => hs ⟨a, b⟩)⟩

def nameEnd : Str → Bool
  | '_' :: c :: w => (c :: w).all (fun c => c.isAlphanum)
  | _ => false

def nameOk : Str → Bool
  | '_' :: r => nameEnd r.reverse
  | _ => false

theorem convert_name (pre : Str) {n : Str} (hn : IsName n) : IsName (convert (backTable pre) n) := by
  have tab : ∀ e ∈ backTable pre, IsName e.2.toList := by
    have key : ∀ s : String, nameOk s.toList = true → IsName s.toList := by
      intro s h
      unfold nameOk at h
      split at h
      · rename_i r e1
        unfold nameEnd at h
        split at h
        · rename_i c w e2
          refine ⟨(c :: w).reverse, by simp, fun d hd => .inl (List.all_eq_true.1 h d (List.mem_reverse.1 hd)), ?_⟩
          rw [e1]
          have := congrArg List.reverse e2
          rw [List.reverse_reverse] at this
          rw [this]; simp
        · cases h
      · cases h
    intro e he
    apply key
    revert e he
    unfold backTable
    by_cases h1 : hasSub "Environment Records".toList pre = true
    · rw [if_pos h1]; decide +kernel
    · rw [if_neg h1]
      by_cases h2 : pre = "Set".toList
      · rw [if_pos h2]; decide +kernel
      · rw [if_neg h2]; decide +kernel
  rw [convert]
  split
  · rename_i e he
    exact tab e (List.mem_of_find?_eq_some he)
  · exact hn

/-! ### Underscores -/

theorem alpha_word {c : Char} (h : c.isAlpha = true) : isWord c = true := by simp [isWord, Char.isAlphanum, h]

theorem trim_skip : ∀ (n : Nat) (b : Bool) (u t : Str), u.length = n → u ≠ [] → trimFrom n b (u ++ t) = trimFrom 0 (isWord (u.getLast?.getD ' ')) t
  | 0, b, u, t, h, hu => absurd (List.length_eq_zero_iff.1 h) hu
  | n + 1, b, c :: u, t, h, _ => by
    rw [List.cons_append, trimFrom]
    cases u with
    | nil =>
      simp only [List.length_cons, List.length_nil] at h
      obtain rfl : n = 0 := by omega
      rfl
    | cons d u =>
      rw [trim_skip n _ (d :: u) t (by simp only [List.length_cons] at h ⊢; omega) (by simp)]
      simp

theorem trim_word : ∀ (w t : Str) (b : Bool), (∀ c ∈ w, isWord c = true) → b = true → ∃ b', trimFrom 0 b (w ++ t) = w ++ trimFrom 0 b' t
  | [], t, b, _, _ => ⟨b, rfl⟩
  | c :: w, t, b, hw, hb => by
    obtain ⟨b', h⟩ := trim_word w t (isWord c) (fun d hd => hw d (List.mem_cons_of_mem _ hd)) (hw c (List.mem_cons_self ..))
    refine ⟨b', ?_⟩
    rw [List.cons_append, trimFrom, if_neg (by simp [hb]), h]
    rfl

theorem trim_space (b : Bool) (s : Str) : trimFrom 0 b (' ' :: s) = ' ' :: trimFrom 0 false s := by
  rw [trimFrom, if_neg (by simp)]
  rfl

theorem trim_plain : ∀ (w t : Str) (b : Bool), '_' ∉ w → ∃ b', trimFrom 0 b (w ++ t) = w ++ trimFrom 0 b' t
  | [], t, b, _ => ⟨b, rfl⟩
  | c :: w, t, b, hw => by
    obtain ⟨b', h⟩ := trim_plain w t (isWord c) (fun hd => hw (List.mem_cons_of_mem _ hd))
    refine ⟨b', ?_⟩
    rw [List.cons_append, trimFrom, if_neg (by rintro ⟨rfl, _⟩; exact hw (by simp)), h]
    rfl

theorem trim_name {n m t : Str} (hn : IsName n) (hb : Bare n m) (ht : ∀ c, t.head? = some c → isWord c = false) : ∃ b', trimFrom 0 false (n ++ t) = m ++ trimFrom 0 b' t := by
  cases hb with
  | letters hw =>
    have hne : m ≠ [] := by
      obtain ⟨w', h1, _, h3⟩ := hn
      simp only [List.cons_append, List.cons.injEq, true_and] at h3
      have := List.append_cancel_right h3
      rw [this]; exact h1
    have ha : aliasRest (m ++ ['_'] ++ t) = some (m, t) := by
      obtain ⟨e1, e2⟩ := takeWhile_all (p := Char.isAlpha) (w := m) (r := '_' :: t) hw (by intro c hc; cases hc; decide)
      have e : m ++ ['_'] ++ t = m ++ '_' :: t := by simp
      rw [e, aliasRest, e1, e2]
      cases m with
      | nil => exact absurd rfl hne
      | cons c m =>
        cases t with
        | nil => rfl
        | cons d t => simp [ht d rfl]
    have e : '_' :: m ++ ['_'] ++ t = '_' :: (m ++ ['_'] ++ t) := by simp
    have h2 := trim_skip (m.length + 1) true (m ++ ['_']) t (by simp) (by simp)
    refine ⟨isWord ((m ++ ['_']).getLast?.getD ' '), ?_⟩
    rw [e, trimFrom, if_pos ⟨rfl, rfl⟩, ha]
    dsimp only
    rw [h2]
  | other hno =>
    obtain ⟨w, h1, h2, rfl⟩ := hn
    have ha : aliasRest (w ++ ['_'] ++ t) = none := by
      cases hr : aliasRest (w ++ ['_'] ++ t) with
      | none => rfl
      | some x =>
        exfalso
        rw [aliasRest] at hr
        obtain ⟨t1, t2, t3⟩ := take_drop_while (p := Char.isAlpha) (w ++ ['_'] ++ t)
        generalize List.takeWhile Char.isAlpha (w ++ ['_'] ++ t) = u at hr t1 t2
        generalize List.dropWhile Char.isAlpha (w ++ ['_'] ++ t) = v at hr t1 t3
        split at hr
        · rename_i c u' r
          -- the word up to the next character that isn't one
          have hw : ∀ d ∈ w ++ ['_'], isWord d = true := by
            intro d hd
            rcases List.mem_append.1 hd with hd | hd
            · exact (isWord_iff d).2 (h2 d hd)
            · rw [List.mem_singleton.1 hd]; decide
          have hr' : ∀ d, r.head? = some d → isWord d = false := by
            intro d hd
            cases r with
            | nil => cases hd
            | cons e r =>
              cases hd
              dsimp only at hr
              by_cases he : isWord d = true
              · rw [if_pos he] at hr; cases hr
              · simpa using he
          have hu : ∀ d ∈ c :: u' ++ ['_'], isWord d = true := by
            intro d hd
            rcases List.mem_append.1 hd with hd | hd
            · exact alpha_word (t2 d hd)
            · rw [List.mem_singleton.1 hd]; decide
          have f1 := (takeWhile_all (p := isWord) hw ht).1
          have f2 := (takeWhile_all (p := isWord) (w := c :: u' ++ ['_']) (r := r) hu hr').1
          have t1' : w ++ ['_'] ++ t = c :: u' ++ ['_'] ++ r := by rw [t1]; simp
          rw [t1', f2] at f1
          exact hno (c :: u') t2 (by rw [List.cons_append, List.cons_append, ← f1])
        · cases hr
    have e : '_' :: w ++ ['_'] ++ t = '_' :: (w ++ ['_'] ++ t) := by simp
    rw [e, trimFrom, if_pos ⟨rfl, rfl⟩, ha]
    dsimp only
    obtain ⟨b', hb'⟩ := trim_word (w ++ ['_']) t true (by
      intro d hd
      rcases List.mem_append.1 hd with hd | hd
      · exact (isWord_iff d).2 (h2 d hd)
      · rw [List.mem_singleton.1 hd]; decide) rfl
    exact ⟨b', by rw [hb']; simp⟩

theorem bare_exists (n : Str) : ∃ m, Bare n m := by
  by_cases h : ∃ w : Str, (∀ c ∈ w, c.isAlpha = true) ∧ n = '_' :: w ++ ['_']
  · obtain ⟨w, h1, rfl⟩ := h
    exact ⟨w, .letters h1⟩
  · exact ⟨n, .other fun w h1 h2 => h ⟨w, h1, h2⟩⟩

theorem trim_spaced (f : Str → Str) : ∀ (ns : List Str) (b : Bool), (∀ n ∈ ns, IsName n ∧ Bare n (f n)) → trimFrom 0 b (ns.flatMap (fun n => ' ' :: n)) = ns.flatMap (fun n => ' ' :: f n)
  | [], b, _ => rfl
  | n :: ns, b, h => by
    obtain ⟨h1, h2⟩ := h n (List.mem_cons_self ..)
    have hh : ∀ c, (ns.flatMap (fun n => ' ' :: n)).head? = some c → isWord c = false := by
      intro c hc
      cases ns with
      | nil => cases hc
      | cons m ns => simp at hc; subst hc; decide
    rw [List.flatMap_cons, List.flatMap_cons, List.cons_append, trim_space]
    obtain ⟨b', hb⟩ := trim_name h1 h2 hh
    rw [hb, trim_spaced f ns b' (fun m hm => h m (List.mem_cons_of_mem _ hm))]
    simp

/-! ### Other -/

theorem unbracket_ok {w t : Str} (hw : w ≠ []) (h : ∀ c ∈ w, c.isAlpha = true) : unbracket ('[' :: '[' :: w ++ [']', ']'] ++ t) = w ++ t := by
  obtain ⟨e1, e2⟩ := takeWhile_all (p := isWord) (w := w) (r := ']' :: ']' :: t) (fun c hc => alpha_word (h c hc)) (by intro c hc; cases hc; decide)
  have e : '[' :: '[' :: w ++ [']', ']'] ++ t = '[' :: '[' :: (w ++ ']' :: ']' :: t) := by simp
  rw [e, unbracket]
  simp only [e1, e2]
  cases w with
  | nil => exact absurd rfl hw
  | cons c w => simp

theorem numericName_ok {a b : Str} (ha : a ≠ []) (hb : b ≠ []) (h1 : ∀ c ∈ a, c.isAlpha = true) (h2 : ∀ c ∈ b, c.isAlpha = true) : numericName (a ++ ':' :: ':' :: b) = lower a ++ '-' :: b := by
  obtain ⟨e1, e2⟩ := takeWhile_all (p := isWord) (w := a) (r := ':' :: ':' :: b) (fun c hc => alpha_word (h1 c hc)) (by intro c hc; cases hc; decide)
  rw [numericName, e1, e2]
  cases a with
  | nil => exact absurd rfl ha
  | cons c a =>
    cases b with
    | nil => exact absurd rfl hb
    | cons d b =>
      exact if_pos (List.all_eq_true.2 fun x hx => alpha_word (h2 x hx))

/-- A pipeline of functions. -/
theorem pipeline_ones (fs : List (Str → Str)) : ∀ s, pipeline s (fs.map Step.one) = [fs.foldl (fun a f => f a) s] := by
  have : ∀ (fs : List (Str → Str)) (s : Str), (fs.map Step.one).foldl pipeStep [s] = [fs.foldl (fun a f => f a) s] := by
    intro fs
    induction fs with
    | nil => intro s; rfl
    | cons f fs ih =>
      intro s
      rw [List.map_cons, List.foldl_cons, List.foldl_cons]
      have : pipeStep [s] (Step.one f) = [f s] := by simp [pipeStep, insert']
      rw [this, ih]
  exact this fs

end Verif.Titles
