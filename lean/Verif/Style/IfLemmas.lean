import Verif.Style.Spec
import Verif.Annot.TreeLemmas
/-!
# Lemmas about If-commands
-/
namespace Verif.Style
open Annot (RNode RAt rWalk rWalk_listing)
open Deps (Before Begins)

/-! ### Lists -/

theorem mapM_pairs {α β : Type} (f : α → Option β) : ∀ (xs : List α) (ys : List β), xs.mapM f = some ys ↔ Pairs (fun x y => f x = some y) xs ys
  | [], ys => by
    simp only [List.mapM_nil]
    constructor
    · intro h; cases h; exact .nil
    · intro h; cases h; rfl
  | x :: xs, ys => by
    simp only [List.mapM_cons, Option.bind_eq_bind, Option.bind_eq_some_iff]
    constructor
    · rintro ⟨y, hy, zs, hz, h⟩
      cases h
      exact .cons hy ((mapM_pairs f xs zs).1 hz)
    · intro h
      cases h with
      | cons h1 h2 => exact ⟨_, h1, _, (mapM_pairs f xs _).2 h2, rfl⟩

theorem pairs_congr {α β : Type} {r r' : α → β → Prop} {xs : List α} (h : ∀ x ∈ xs, ∀ y, r x y ↔ r' x y) {ys : List β} : Pairs r xs ys ↔ Pairs r' xs ys := by
  induction xs generalizing ys with
  | nil => exact ⟨fun h => (by cases h; exact .nil), fun h => (by cases h; exact .nil)⟩
  | cons x xs ih =>
    constructor
    · intro hp
      cases hp with
      | cons h1 h2 => exact .cons ((h x (by simp) _).1 h1) ((ih (fun y hy => h y (by simp [hy]))).1 h2)
    · intro hp
      cases hp with
      | cons h1 h2 => exact .cons ((h x (by simp) _).2 h1) ((ih (fun y hy => h y (by simp [hy]))).2 h2)

/-- What says nothing can be left out. -/
theorem mapM_flatten_filter {α β : Type} (f : α → Option (List β)) (q : α → Bool) (h : ∀ x, q x = false → f x = some []) :
    ∀ xs : List α, (xs.mapM f).map List.flatten = ((xs.filter q).mapM f).map List.flatten
  | [] => rfl
  | x :: xs => by
    have ih := mapM_flatten_filter f q h xs
    cases hq : q x with
    | true =>
      rw [List.filter_cons_of_pos (by simpa using hq)]
      simp only [List.mapM_cons, Option.bind_eq_bind]
      cases f x with
      | none => rfl
      | some y =>
        simp only [Option.bind_some]
        cases h1 : List.mapM f xs <;> cases h2 : List.mapM f (xs.filter q) <;> rw [h1, h2] at ih <;> simp_all
    | false =>
      rw [List.filter_cons_of_neg (by simp [hq])]
      rw [← ih]
      simp only [List.mapM_cons, Option.bind_eq_bind, h x hq, Option.bind_some]
      cases h1 : List.mapM f xs <;> simp

/-! ### Arms -/

theorem arms_iff : ∀ (d : RNode) (as : List RNode), arms d = some as ↔ Arms d as
  | .node l r t ks, as => by
    constructor
    · intro h
      rw [arms.eq_def] at h
      simp only at h
      by_cases h1 : l = "{IF_CLOSED}"
      · subst h1
        rw [if_pos rfl] at h
        split at h
        · rename_i hk
          cases h
          rw [show (fun c : RNode => c.lhs == "{SMALL_COMMAND}") = (fun c => decide (c.lhs = "{SMALL_COMMAND}")) from funext (fun c => by rw [Bool.eq_iff_iff]; simp)]
          refine .closed (fun c hc => ?_)
          have := List.all_eq_true.1 hk c hc
          simpa only [Bool.or_eq_true, beq_iff_eq] using this
        · cases h
      rw [if_neg h1] at h
      by_cases h2 : l = "{IF_OTHER}"
      · subst h2
        rw [if_pos rfl] at h
        by_cases h3 : r = "{IF_OPEN}{IF_TAIL}"
        · subst h3
          rw [if_neg (fun h => h rfl)] at h
          match ks, h with
          | [o, u], h =>
            simp only [Option.bind_eq_bind, Option.bind_eq_some_iff] at h
            obtain ⟨xs, hx, ys, hy, h⟩ := h
            cases h
            exact .other ((arms_iff o xs).1 hx) ((arms_iff u ys).1 hy)
        · rw [if_pos h3] at h; cases h
      rw [if_neg h2] at h
      by_cases h3 : l = "{IF_OPEN}" ∨ l = "{ELSEIF_PART}"
      · rw [if_pos h3] at h
        match ks, h with
        | [x, c], h =>
          simp only at h
          split at h
          · cases h; exact .opening h3 ‹_›
          · cases h
      rw [if_neg h3] at h
      by_cases h4 : l = "{IF_TAIL}"
      · subst h4
        rw [if_pos rfl] at h
        by_cases h5 : r = "{EPSILON}"
        · subst h5
          rw [if_pos rfl] at h
          cases ks with
          | nil => cases h; exact .nothing
          | cons _ _ => simp at h
        rw [if_neg h5] at h
        by_cases h6 : r = "{_NL_N} {ELSEIF_PART}{IF_TAIL}"
        · subst h6
          rw [if_pos rfl] at h
          match ks, h with
          | [e, u], h =>
            simp only [Option.bind_eq_bind, Option.bind_eq_some_iff] at h
            obtain ⟨xs, hx, ys, hy, h⟩ := h
            cases h
            exact .elseif ((arms_iff e xs).1 hx) ((arms_iff u ys).1 hy)
        rw [if_neg h6] at h
        by_cases h7 : r = "{_NL_N} {ELSE_PART}"
        · subst h7
          rw [if_pos rfl] at h
          match ks, h with
          | [e], h => exact .last ((arms_iff e as).1 h)
        · rw [if_neg h7] at h; cases h
      rw [if_neg h4] at h
      by_cases h5 : l = "{ELSE_PART}"
      · subst h5
        rw [if_pos rfl] at h
        cases hl : ks.getLast? with
        | none => rw [hl] at h; cases h
        | some c =>
          rw [hl] at h
          simp only at h
          split at h
          · cases h
            obtain ⟨ys, rfl⟩ := List.getLast?_eq_some_iff.1 hl
            exact .elsePart ‹_›
          · cases h
      · rw [if_neg h5] at h; cases h
    · intro h
      cases h with
      | closed hk =>
        rw [arms.eq_def]
        simp only
        rw [if_pos trivial, if_pos]
        · rw [show (fun c : RNode => c.lhs == "{SMALL_COMMAND}") = (fun c => decide (c.lhs = "{SMALL_COMMAND}")) from funext (fun c => by rw [Bool.eq_iff_iff]; simp)]
        · rw [List.all_eq_true]
          intro c hc
          simpa only [Bool.or_eq_true, beq_iff_eq] using hk c hc
      | other hx hy =>
        rename_i o u xs ys
        have e1 := (arms_iff o xs).2 hx
        have e2 := (arms_iff u ys).2 hy
        rw [arms.eq_def]
        simp [e1, e2]
      | opening hl hc =>
        rw [arms.eq_def]
        rcases hl with rfl | rfl <;> simp [hc]
      | nothing => rw [arms.eq_def]; simp
      | elseif hx hy =>
        rename_i o u xs ys
        have e1 := (arms_iff o xs).2 hx
        have e2 := (arms_iff u ys).2 hy
        rw [arms.eq_def]
        simp [e1, e2]
      | last hx =>
        rename_i e
        have e1 := (arms_iff e as).2 hx
        rw [arms.eq_def]
        simp [e1]
      | elsePart hc =>
        rw [arms.eq_def]
        simp [hc]

/-! ### The common prefix -/

theorem le_refl : ∀ s, le s s = true
  | [] => rfl
  | a :: s => by simp [le, le_refl s]

theorem le_total : ∀ s t, le s t = false → le t s = true
  | [], _, h => by simp [le] at h
  | _ :: _, [], _ => rfl
  | a :: s, b :: t, h => by
    simp only [le] at h ⊢
    by_cases hab : a = b
    · subst hab
      simp only [if_true] at h ⊢
      exact le_total s t h
    · rw [if_neg hab] at h
      rw [if_neg (Ne.symm hab)]
      simp only [decide_eq_false_iff_not, Nat.not_lt, decide_eq_true_eq] at h ⊢
      have : a.toNat ≠ b.toNat := fun h => hab (Char.toNat_inj.1 h)
      omega

theorem le_trans : ∀ s t u, le s t = true → le t u = true → le s u = true
  | [], _, _, _, _ => rfl
  | _ :: _, [], _, h, _ => by simp [le] at h
  | _ :: _, _ :: _, [], _, h => by simp [le] at h
  | a :: s, b :: t, c :: u, h, h' => by
    simp only [le] at h h' ⊢
    by_cases hab : a = b
    · subst hab
      simp only [if_true] at h
      by_cases hac : a = c
      · subst hac
        simp only [if_true] at h' ⊢
        exact le_trans s t u h h'
      · rw [if_neg hac] at h' ⊢; exact h'
    · rw [if_neg hab] at h
      simp only [decide_eq_true_eq] at h
      by_cases hbc : b = c
      · subst hbc
        rw [if_neg hab]; simpa using h
      · rw [if_neg hbc] at h'
        simp only [decide_eq_true_eq] at h'
        have : a ≠ c := by rintro rfl; omega
        rw [if_neg this]
        simp only [decide_eq_true_eq]; omega

theorem minOf_spec : ∀ (ys : List (List Char)) (x : List Char), (minOf x ys = x ∨ minOf x ys ∈ ys) ∧ le (minOf x ys) x = true ∧ ∀ y ∈ ys, le (minOf x ys) y = true
  | [], x => ⟨Or.inl rfl, le_refl x, by simp⟩
  | y :: ys, x => by
    simp only [minOf]
    cases h : le x y with
    | true =>
      simp only [if_true]
      obtain ⟨h1, h2, h3⟩ := minOf_spec ys x
      refine ⟨h1.imp id (List.mem_cons_of_mem _), h2, fun z hz => ?_⟩
      rcases List.mem_cons.1 hz with rfl | hz
      · exact le_trans _ _ _ h2 h
      · exact h3 z hz
    | false =>
      simp only [Bool.false_eq_true, if_false]
      obtain ⟨h1, h2, h3⟩ := minOf_spec ys y
      refine ⟨Or.inr (h1.elim (fun h => by rw [h]; exact List.mem_cons_self ..) (List.mem_cons_of_mem _)), le_trans _ _ _ h2 (le_total x y h), fun z hz => ?_⟩
      rcases List.mem_cons.1 hz with rfl | hz
      · exact h2
      · exact h3 z hz

theorem maxOf_spec : ∀ (ys : List (List Char)) (x : List Char), (maxOf x ys = x ∨ maxOf x ys ∈ ys) ∧ le x (maxOf x ys) = true ∧ ∀ y ∈ ys, le y (maxOf x ys) = true
  | [], x => ⟨Or.inl rfl, le_refl x, by simp⟩
  | y :: ys, x => by
    simp only [maxOf]
    cases h : le y x with
    | true =>
      simp only [if_true]
      obtain ⟨h1, h2, h3⟩ := maxOf_spec ys x
      refine ⟨h1.imp id (List.mem_cons_of_mem _), h2, fun z hz => ?_⟩
      rcases List.mem_cons.1 hz with rfl | hz
      · exact le_trans _ _ _ h h2
      · exact h3 z hz
    | false =>
      simp only [Bool.false_eq_true, if_false]
      obtain ⟨h1, h2, h3⟩ := maxOf_spec ys y
      refine ⟨Or.inr (h1.elim (fun h => by rw [h]; exact List.mem_cons_self ..) (List.mem_cons_of_mem _)), le_trans _ _ _ (le_total y x h) h2, fun z hz => ?_⟩
      rcases List.mem_cons.1 hz with rfl | hz
      · exact h2
      · exact h3 z hz

theorem common_spec : ∀ (s t : List Char), le s t = true → ∃ pre, common s t = some pre ∧ ∀ ph, ph <+: pre ↔ ph <+: s ∧ ph <+: t
  | [], t, _ => ⟨[], rfl, fun ph => by
      constructor
      · intro h; have := List.prefix_nil.1 h; subst this; exact ⟨h, List.nil_prefix⟩
      · exact fun h => h.1⟩
  | _ :: _, [], h => by simp [le] at h
  | a :: s, b :: t, h => by
    simp only [le] at h
    simp only [common]
    by_cases hab : a = b
    · subst hab
      simp only [if_true] at h
      obtain ⟨pre, h1, h2⟩ := common_spec s t h
      refine ⟨a :: pre, by rw [if_pos rfl, h1]; rfl, fun ph => ?_⟩
      cases ph with
      | nil => simp
      | cons c ph => simp only [List.cons_prefix_cons, h2]; exact ⟨fun ⟨h1, h2, h3⟩ => ⟨⟨h1, h2⟩, h1, h3⟩, fun ⟨⟨h1, h2⟩, _, h3⟩ => ⟨h1, h2, h3⟩⟩
    · refine ⟨[], by rw [if_neg hab], fun ph => ?_⟩
      cases ph with
      | nil => simp
      | cons c ph =>
        simp only [List.cons_prefix_cons, List.prefix_nil]
        constructor
        · intro h; cases h
        · rintro ⟨⟨rfl, _⟩, rfl, _⟩; exact absurd rfl hab

theorem sandwich : ∀ (ph s x t : List Char), le s x = true → le x t = true → ph <+: s → ph <+: t → ph <+: x
  | [], _, _, _, _, _, _, _ => List.nil_prefix
  | c :: ph, s, x, t, h1, h2, h3, h4 => by
    cases s with
    | nil => cases List.prefix_nil.1 h3
    | cons a s =>
      cases t with
      | nil => cases List.prefix_nil.1 h4
      | cons b t =>
        rw [List.cons_prefix_cons] at h3 h4
        obtain ⟨rfl, h3⟩ := h3
        obtain ⟨rfl, h4⟩ := h4
        cases x with
        | nil => simp [le] at h1
        | cons y x =>
          simp only [le] at h1 h2
          by_cases hy : c = y
          · subst hy
            simp only [if_true] at h1 h2
            rw [List.cons_prefix_cons]
            exact ⟨rfl, sandwich ph s x t h1 h2 h3 h4⟩
          · rw [if_neg hy] at h1
            rw [if_neg (Ne.symm hy)] at h2
            simp only [decide_eq_true_eq] at h1 h2
            omega

theorem commonPrefix_spec (xs : List (List Char)) (hx : xs ≠ []) : ∃ pre, commonPrefix xs = some pre ∧ ∀ ph, ph <+: pre ↔ ∀ x ∈ xs, ph <+: x := by
  cases xs with
  | nil => exact absurd rfl hx
  | cons x xs =>
    obtain ⟨a1, a2, a3⟩ := minOf_spec xs x
    obtain ⟨b1, b2, b3⟩ := maxOf_spec xs x
    obtain ⟨pre, h1, h2⟩ := common_spec (minOf x xs) (maxOf x xs) (le_trans _ _ _ a2 b2)
    refine ⟨pre, h1, fun ph => ?_⟩
    rw [h2]
    constructor
    · rintro ⟨h3, h4⟩ y hy
      rcases List.mem_cons.1 hy with rfl | hy
      · exact sandwich ph _ _ _ a2 b2 h3 h4
      · exact sandwich ph _ _ _ (a3 y hy) (b3 y hy) h3 h4
    · intro h
      exact ⟨h _ (a1.elim (fun e => by rw [e]; exact List.mem_cons_self ..) (List.mem_cons_of_mem _)), h _ (b1.elim (fun e => by rw [e]; exact List.mem_cons_self ..) (List.mem_cons_of_mem _))⟩

/-! ### Phrases -/

theorem varThen_iff (w : Char → Bool) (after s : List Char) :
    varThen w after s = true ↔ ∃ v, v ≠ [] ∧ (∀ c ∈ v, w c = true) ∧ ('_' :: v ++ '_' :: after) <+: s := by
  constructor
  · intro h
    rw [varThen.eq_def] at h
    split at h
    · rename_i s
      simp only [List.any_eq_true, List.mem_range, Bool.and_eq_true, bne_iff_ne, ne_eq, List.all_eq_true] at h
      obtain ⟨n, hn, ⟨h0, hw⟩, hp⟩ := h
      rw [List.isPrefixOf_iff_prefix] at hp
      refine ⟨s.take n, ?_, hw, ?_⟩
      · intro he
        rw [List.take_eq_nil_iff] at he
        rcases he with he | he
        · exact h0 he
        · rw [he] at hn; simp at hn
      · rw [List.cons_append, List.cons_prefix_cons]
        refine ⟨rfl, ?_⟩
        obtain ⟨r, hr⟩ := hp
        exact ⟨r, by rw [List.append_assoc, hr, List.take_append_drop]⟩
    · cases h
  · rintro ⟨v, hv, hw, r, hr⟩
    subst hr
    rw [List.cons_append, List.cons_append]
    simp only [varThen, List.any_eq_true, List.mem_range, Bool.and_eq_true, bne_iff_ne, ne_eq, List.all_eq_true]
    refine ⟨v.length, ?_, ⟨?_, ?_⟩, ?_⟩
    · simp
    · intro h; exact hv (List.length_eq_zero_iff.1 h)
    · rw [List.append_assoc, List.take_left]; exact hw
    · rw [List.append_assoc, List.drop_left, List.isPrefixOf_iff_prefix]; exact ⟨r, rfl⟩

theorem drop4 (k : List Char) (hk : k.length = 4) (pre x : List Char) : (k ++ x) <+: pre ↔ k.isPrefixOf pre = true ∧ x <+: pre.drop 4 := by
  rw [List.isPrefixOf_iff_prefix]
  constructor
  · rintro ⟨r, rfl⟩
    refine ⟨⟨x ++ r, by simp⟩, r, ?_⟩
    rw [List.append_assoc, ← hk, List.drop_left]
  · rintro ⟨⟨r, rfl⟩, r', h⟩
    rw [← hk, List.drop_left] at h
    exact ⟨r', by rw [List.append_assoc, h]⟩

theorem doesSame_iff (w : Char → Bool) (pre : List Char) : doesSame w pre = true ↔ ∃ ph, Phrase w ph ∧ ph <+: pre := by
  have split : ∀ (k after v : List Char), k ++ ('_' :: v ++ '_' :: after) = (k ++ ['_']) ++ v ++ ('_' :: after) := by intro k after v; simp
  simp only [doesSame, Bool.or_eq_true, Bool.and_eq_true, varThen_iff]
  constructor
  · rintro ((h | ⟨h1, v, h2, h3, h4⟩) | ⟨h1, v, h2, h3, h4⟩)
    · exact ⟨_, .return, List.isPrefixOf_iff_prefix.1 h⟩
    · refine ⟨_, .let h2 h3, ?_⟩
      have := (drop4 "let ".toList rfl pre _).2 ⟨h1, h4⟩
      rw [split] at this; exact this
    · refine ⟨_, .set h2 h3, ?_⟩
      have := (drop4 "set ".toList rfl pre _).2 ⟨h1, h4⟩
      rw [split] at this; exact this
  · rintro ⟨ph, hp, h⟩
    cases hp with
    | «return» => exact Or.inl (Or.inl (List.isPrefixOf_iff_prefix.2 h))
    | «let» h2 h3 =>
      rename_i v
      have h' : ("let ".toList ++ ('_' :: v ++ '_' :: " be ".toList)) <+: pre := by rw [split]; exact h
      obtain ⟨h1, h4⟩ := (drop4 "let ".toList rfl pre _).1 h'
      exact Or.inl (Or.inr ⟨h1, v, h2, h3, h4⟩)
    | set h2 h3 =>
      rename_i v
      have h' : ("set ".toList ++ ('_' :: v ++ '_' :: " to ".toList)) <+: pre := by rw [split]; exact h
      obtain ⟨h1, h4⟩ := (drop4 "set ".toList rfl pre _).1 h'
      exact Or.inr ⟨h1, v, h2, h3, h4⟩

/-! ### Reports -/

theorem ne_nil_map {α β : Type} {f : α → β} {xs : List α} (h : xs.length ≠ 0) : xs.map f ≠ [] := by
  cases xs with
  | nil => exact absurd rfl h
  | cons _ _ => simp

theorem oneKind_iff (ks : List String) (h : ks ≠ []) : oneKind ks = true ↔ ∀ a ∈ ks, ∀ b ∈ ks, a = b := by
  cases ks with
  | nil => exact absurd rfl h
  | cons k ks =>
    simp only [oneKind, List.all_eq_true, beq_iff_eq]
    constructor
    · intro H a ha b hb
      have : ∀ a ∈ k :: ks, a = k := fun a ha => (List.mem_cons.1 ha).elim id (H a)
      rw [this a ha, this b hb]
    · intro H x hx; exact H x (by simp [hx]) k (by simp)

theorem arms_unique {d : RNode} {as bs : List RNode} (h : Arms d as) (h' : Arms d bs) : as = bs := by
  rw [← arms_iff] at h h'
  rw [h] at h'; exact Option.some_inj.1 h'

theorem checkIf_iff (w : Char → Bool) (d : RNode) (hd : d.lhs = "{IF_OTHER}" ∨ d.lhs = "{IF_CLOSED}") (ms : List IfMsg) : checkIf w d = some ms ↔ IfSays w d ms := by
  have dif : "{IF_CLOSED}" ≠ "{IF_OTHER}" := by decide
  constructor
  · intro h
    rw [checkIf] at h
    rcases hd with hd | hd
    · rw [if_pos hd] at h
      cases ha : arms d with
      | none => rw [ha] at h; cases h
      | some as =>
        rw [ha] at h
        simp only at h
        have harm := (arms_iff d as).1 ha
        split at h
        · cases h
        · split at h
          · cases h
            rename_i h1
            obtain ⟨a, rfl⟩ := List.length_eq_one_iff.1 h1
            exact .one hd harm
          · have hne : as.map RNode.lhs ≠ [] := ne_nil_map (by omega)
            split at h
            · cases h
              rename_i hk
              rw [oneKind_iff _ hne] at hk
              exact .balanced hd harm (by omega) (fun a h1 b h2 => hk _ (List.mem_map.2 ⟨a, h1, rfl⟩) _ (List.mem_map.2 ⟨b, h2, rfl⟩))
            · cases h
              rename_i hk
              rw [oneKind_iff _ hne] at hk
              simp only [Classical.not_forall] at hk
              obtain ⟨x, hx, y, hy, hxy⟩ := hk
              obtain ⟨a, h1, rfl⟩ := List.mem_map.1 hx
              obtain ⟨b, h2, rfl⟩ := List.mem_map.1 hy
              exact .unbalanced hd harm h1 h2 hxy
    · rw [if_neg (hd ▸ dif), if_pos hd] at h
      cases ha : arms d with
      | none => rw [ha] at h; cases h
      | some as =>
        rw [ha] at h
        simp only at h
        have harm := (arms_iff d as).1 ha
        split at h
        · cases h
        · rename_i hl
          obtain ⟨pre, hp, hs⟩ := commonPrefix_spec (as.map (fun a => a.text.toList)) (ne_nil_map (by omega))
          rw [hp] at h
          simp only at h
          have key : doesSame w pre = true ↔ SameThing w as := by
            rw [doesSame_iff]
            simp only [hs, SameThing, List.mem_map, forall_exists_index, and_imp, forall_apply_eq_imp_iff₂]
          split at h
          · cases h; exact .same hd harm (by omega) (key.1 ‹_›)
          · cases h; exact .notSame hd harm (by omega) (fun h => ‹¬ _› (key.2 h))
  · intro h
    have key : ∀ as, as.length ≥ 2 → ∃ pre, commonPrefix (as.map (fun a : RNode => a.text.toList)) = some pre ∧ (doesSame w pre = true ↔ SameThing w as) := by
      intro as hl
      obtain ⟨pre, hp, hs⟩ := commonPrefix_spec (as.map (fun a : RNode => a.text.toList)) (ne_nil_map (by omega))
      refine ⟨pre, hp, ?_⟩
      rw [doesSame_iff]
      simp only [hs, SameThing, List.mem_map, forall_exists_index, and_imp, forall_apply_eq_imp_iff₂]
    cases h with
    | one h1 h2 => rw [checkIf, if_pos h1, (arms_iff _ _).2 h2]; rfl
    | balanced h1 h2 h3 h4 =>
      rw [checkIf, if_pos h1, (arms_iff _ _).2 h2]
      simp only
      rw [if_neg (by omega), if_neg (by omega), if_pos]
      rw [oneKind_iff _ (ne_nil_map (by omega))]
      intro a ha b hb
      obtain ⟨x, hx, rfl⟩ := List.mem_map.1 ha
      obtain ⟨y, hy, rfl⟩ := List.mem_map.1 hb
      exact h4 x hx y hy
    | @unbalanced as a b h1 h2 h3 h4 h5 =>
      rw [checkIf, if_pos h1, (arms_iff _ _).2 h2]
      simp only
      have hl : ¬ as.length ≤ 1 := by
        intro hl
        match as, hl, h3, h4 with
        | [x], _, h3, h4 => rw [List.mem_singleton.1 h3, List.mem_singleton.1 h4] at h5; exact h5 rfl
      rw [if_neg (by omega), if_neg (by omega), if_neg]
      rw [oneKind_iff _ (ne_nil_map (by omega))]
      intro H
      exact h5 (H _ (List.mem_map.2 ⟨a, h3, rfl⟩) _ (List.mem_map.2 ⟨b, h4, rfl⟩))
    | same h1 h2 h3 h4 =>
      obtain ⟨pre, hp, hk⟩ := key _ h3
      rw [checkIf, if_neg (h1 ▸ dif), if_pos h1, (arms_iff _ _).2 h2]
      simp only
      rw [if_neg (by omega), hp]
      simp only
      rw [if_pos (hk.2 h4)]
    | notSame h1 h2 h3 h4 =>
      obtain ⟨pre, hp, hk⟩ := key _ h3
      rw [checkIf, if_neg (h1 ▸ dif), if_pos h1, (arms_iff _ _).2 h2]
      simp only
      rw [if_neg (by omega), hp]
      simp only
      rw [if_neg (fun h => h4 (hk.1 h))]

/-- The nodes with the property. -/
theorem inOrder_filter (t : RNode) (q : RNode → Bool) : InOrder t (fun d => q d = true) ((rWalk t).filter (fun e => q e.2)) := by
  have h := rWalk_listing t
  refine ⟨h.1.filter _, fun p d => ?_⟩
  rw [List.mem_filter, h.2]

theorem inOrder_unique {t : RNode} {P : RNode → Prop} {ds ds'} (h1 : InOrder t P ds) (h2 : InOrder t P ds') : ds = ds' :=
  Refs.pairwise_unique (fun a b => Deps.before_asymm a.1 b.1) h1.1 h2.1 (fun a => (h1.2 a.1 a.2).trans (h2.2 a.1 a.2).symm)

theorem inOrder_congr {t : RNode} {P P' : RNode → Prop} {ds} (h : InOrder t P ds) (hp : ∀ d, P d ↔ P' d) : InOrder t P' ds :=
  ⟨h.1, fun p d => by rw [h.2, hp]⟩

theorem checkIfTree_iff (w : Char → Bool) (t : RNode) (ms : List IfMsg) : checkIfTree w t = some ms ↔ IfReport w t ms := by
  have hq : ∀ d : RNode, (d.lhs == "{IF_OTHER}" || d.lhs == "{IF_CLOSED}") = true ↔ d.lhs = "{IF_OTHER}" ∨ d.lhs = "{IF_CLOSED}" := by
    intro d; simp only [Bool.or_eq_true, beq_iff_eq]
  have hfilt := inOrder_congr (inOrder_filter t (fun d => d.lhs == "{IF_OTHER}" || d.lhs == "{IF_CLOSED}")) hq
  rw [checkIfTree, mapM_flatten_filter _ (fun e => e.2.lhs == "{IF_OTHER}" || e.2.lhs == "{IF_CLOSED}") (by
    intro e he
    have h := mt (hq e.2).2 (by rw [he]; decide)
    rw [not_or] at h
    rw [checkIf, if_neg h.1, if_neg h.2])]
  have hp : ∀ mss, Pairs (fun (e : List Nat × RNode) m => checkIf w e.2 = some m) ((rWalk t).filter (fun e => e.2.lhs == "{IF_OTHER}" || e.2.lhs == "{IF_CLOSED}")) mss ↔
      Pairs (fun e m => IfSays w e.2 m) ((rWalk t).filter (fun e => e.2.lhs == "{IF_OTHER}" || e.2.lhs == "{IF_CLOSED}")) mss := by
    intro mss
    refine pairs_congr (fun e he m => checkIf_iff w e.2 ((hq e.2).1 ?_) m)
    exact (List.mem_filter.1 he).2
  simp only [Option.map_eq_some_iff, mapM_pairs, hp, IfReport]
  constructor
  · rintro ⟨mss, h1, rfl⟩; exact ⟨_, mss, hfilt, h1, rfl⟩
  · rintro ⟨ds, mss, h1, h2, rfl⟩
    obtain rfl := inOrder_unique h1 hfilt
    exact ⟨mss, h2, rfl⟩

end Verif.Style
