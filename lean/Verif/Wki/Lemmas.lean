import Verif.Preambles.HeadLemmas
import Verif.Wki.Spec
/-! # Lemmas about the tables of well-known intrinsics -/
namespace Verif.Wki
open Verif.Kinds
open Verif.Preambles (after_iff foldr_insert word_chars)
open Verif.Paths.Spec (Word)
open Verif.Kinds.Spec (Some' Line)
open Verif.Sections (isWord)
open Spec

/-! ## Phrases -/

theorem before_iff {t : String} {s r : Str} : before t s = some r ↔ s = r ++ t.toList := by
  unfold before
  by_cases h : t.toList.isSuffixOf s = true
  · rw [if_pos h]
    obtain ⟨u, rfl⟩ := List.isSuffixOf_iff_suffix.mp h
    have e : (u ++ t.toList).take ((u ++ t.toList).length - t.toList.length) = u := by simp
    rw [e]
    simp
  · rw [if_neg h]
    refine iff_of_false (by simp) ?_
    rintro rfl
    exact h (List.isSuffixOf_iff_suffix.mpr ⟨r, rfl⟩)

theorem quote_back {x h : Str} (hq : '"' ∉ h) : ((x ++ ['"']) ++ h).reverse.takeWhile (· != '"') = h.reverse ∧ ((x ++ ['"']) ++ h).reverse.dropWhile (· != '"') = '"' :: x.reverse := by
  have e : ((x ++ ['"']) ++ h).reverse = h.reverse ++ '"' :: x.reverse := by simp
  rw [e]
  exact Titles.takeWhile_all (p := fun c => c != '"') (w := h.reverse) (r := '"' :: x.reverse) (by
    intro c hc
    rw [List.mem_reverse] at hc
    have : c ≠ '"' := fun e => hq (e ▸ hc)
    simpa using this) (by intro c hc; cases hc; rfl)

theorem unlink_iff {t x : Str} : unlink t = some x ↔ ∃ h, Some' x ∧ h ≠ [] ∧ '"' ∉ h ∧ t = x ++ " (<emu-xref href=\"".toList ++ h ++ "\"></emu-xref>)".toList := by
  have el : " (<emu-xref href=\"".toList = " (<emu-xref href=".toList ++ ['"'] := by decide +kernel
  unfold unlink
  constructor
  · intro hh
    split at hh
    · cases hh
    · next u hu =>
      split at hh
      · cases hh
      · next hne =>
        split at hh
        · cases hh
        · next y hy =>
          split at hh
          · next hf =>
            cases hh
            refine ⟨(u.reverse.takeWhile (· != '"')).reverse, m_line.mp ((full_iff _ _).mp hf), by simpa using hne, ?_, ?_⟩
            · intro hm
              rw [List.mem_reverse] at hm
              have := List.all_eq_true.mp List.all_takeWhile _ hm
              simp at this
            · rw [before_iff.mp hu, ← before_iff.mp hy]
              congr 1
              rw [← List.reverse_append, List.takeWhile_append_dropWhile, List.reverse_reverse]
          · cases hh
  · rintro ⟨h, hx, hne, hq, rfl⟩
    rw [before_iff.mpr rfl]
    simp only
    have e : x ++ " (<emu-xref href=\"".toList ++ h = ((x ++ " (<emu-xref href=".toList) ++ ['"']) ++ h := by
      rw [el]
      simp only [List.append_assoc]
    obtain ⟨k1, k2⟩ := quote_back (x := x ++ " (<emu-xref href=".toList) hq
    have e2 : ('"' :: (x ++ " (<emu-xref href=".toList).reverse).reverse = x ++ " (<emu-xref href=\"".toList := by
      rw [el]
      simp
    rw [e, k1, k2, if_neg (by simpa using hne), e2, before_iff.mpr rfl]
    simp only
    rw [if_pos ((full_iff _ _).mpr (m_line.mpr hx))]

theorem phrase_iff {a ph : Str} : phrase a = some ph ↔ Assoc a ph := by
  unfold phrase
  by_cases h : ("A function object that ".toList.isPrefixOf a || "An object that ".toList.isPrefixOf a) = true
  · rw [if_pos h]
    rw [Bool.or_eq_true, List.isPrefixOf_iff_prefix, List.isPrefixOf_iff_prefix] at h
    rcases h with ⟨r, rfl⟩ | ⟨r, rfl⟩
    · constructor
      · intro e; cases e; exact .function
      · intro h
        generalize e : "A function object that ".toList ++ r = a at h
        cases h with
        | function => rfl
        | object => rfl
        | the _ _ _ => exact absurd (congrArg List.head? e) (by simp)
    · constructor
      · intro e; cases e; exact .object
      · intro h
        generalize e : "An object that ".toList ++ r = a at h
        cases h with
        | function => rfl
        | object => rfl
        | the _ _ _ => exact absurd (congrArg List.head? e) (by simp)
  · rw [if_neg h]
    rw [Bool.or_eq_true, List.isPrefixOf_iff_prefix, List.isPrefixOf_iff_prefix, not_or] at h
    constructor
    · intro hh
      split at hh
      · cases hh
      · next t ht =>
        obtain ⟨x, hx, rfl⟩ := Option.map_eq_some_iff.mp hh
        obtain ⟨l, h1, h2, h3, rfl⟩ := unlink_iff.mp hx
        rw [after_iff.mp ht]
        have := Assoc.the h1 h2 h3
        simpa only [List.append_assoc] using this
    · intro hh
      cases hh with
      | function => exact absurd ⟨_, rfl⟩ h.1
      | object => exact absurd ⟨_, rfl⟩ h.2
      | @the x l h1 h2 h3 =>
        have e : "The ".toList ++ x ++ " (<emu-xref href=\"".toList ++ l ++ "\"></emu-xref>)".toList = "The ".toList ++ (x ++ " (<emu-xref href=\"".toList ++ l ++ "\"></emu-xref>)".toList) := by
          simp only [List.append_assoc]
        rw [e, after_iff.mpr rfl]
        simp only
        rw [unlink_iff.mpr ⟨l, h1, h2, h3, rfl⟩]
        rfl

/-! ## Rows -/

/-- What is known after a correct row. -/
def Known.with (k : Known) (n : Str) (b : Bool) : Known :=
  ⟨k.names ++ ["%".toList ++ n ++ "%".toList], if b then k.globals ++ [n] else k.globals, if b then k.others else k.others ++ ["%".toList ++ n ++ "%".toList]⟩

theorem percent_mid {n : Str} : (("%".toList ++ n ++ "%".toList).drop 1).dropLast = n := by simp

theorem star_mid {n : Str} : (("*\"".toList ++ n ++ "\"*".toList).drop 2).dropLast.dropLast = n := by
  have e : ("*\"".toList ++ n ++ "\"*".toList).drop 2 = (n ++ ['"']) ++ ['*'] := by simp
  rw [e, List.dropLast_concat, List.dropLast_concat]

theorem row_iff {k k' : Known} (hg : ∀ g ∈ k.globals, Word g) {r : List Str} : row k r = some k' ↔ ∃ n b, RowOk r n b ∧ "%".toList ++ n ++ "%".toList ∉ k.names ∧ k' = k.with n b := by
  constructor
  · intro h
    unfold row at h
    split at h
    · next p g a =>
      split at h
      · next hp =>
        rw [Bool.and_eq_true, full_iff, m_between, decide_eq_true_eq] at hp
        obtain ⟨⟨n, hn, rfl⟩, hk⟩ := hp
        rw [m_word] at hn
        simp only at h
        split at h
        · cases h
        · next ph hph =>
          have ha := phrase_iff.mp hph
          split at h
          · next hg0 =>
            subst hg0
            cases h
            exact ⟨n, false, .plain hn ha, hk, rfl⟩
          · split at h
            · next hc =>
              rw [Bool.and_eq_true, Bool.and_eq_true, full_iff, m_between, beq_iff_eq, percent_mid] at hc
              obtain ⟨⟨⟨y, hy, rfl⟩, he⟩, _⟩ := hc
              rw [star_mid] at he
              subst he
              cases h
              refine ⟨y, true, .global hn ha, hk, ?_⟩
              rw [star_mid]
              rfl
            · cases h
      · cases h
    · cases h
  · rintro ⟨n, b, hr, hk, rfl⟩
    have hp : ∀ hn : Word n, (full (cat [lit "%", plus w, lit "%"]) ("%".toList ++ n ++ "%".toList) && decide ("%".toList ++ n ++ "%".toList ∉ k.names)) = true := by
      intro hn
      rw [Bool.and_eq_true, full_iff, m_between, decide_eq_true_eq]
      exact ⟨⟨n, m_word.mpr hn, rfl⟩, hk⟩
    cases hr with
    | @plain _ a ph hn ha =>
      unfold row
      simp only
      rw [if_pos (hp hn), phrase_iff.mpr ha]
      rfl
    | @global _ a ph hn ha =>
      have hng : "*\"".toList ++ n ++ "\"*".toList ∉ k.globals := by
        intro hm
        obtain ⟨_, hw⟩ := word_chars.mp (hg _ hm)
        have := hw '*' (by simp)
        exact absurd this (by decide)
      unfold row
      simp only
      rw [if_pos (hp hn), phrase_iff.mpr ha]
      simp only
      rw [if_neg (by simp), if_pos, star_mid]
      · rfl
      · rw [Bool.and_eq_true, Bool.and_eq_true, full_iff, m_between, beq_iff_eq, percent_mid, star_mid, decide_eq_true_eq]
        exact ⟨⟨⟨n, m_word.mpr hn, rfl⟩, rfl⟩, hng⟩

/-- What is known after correct rows. -/
def Known.withAll (k : Known) : List (Str × Bool) → Known
  | [] => k
  | (n, b) :: ns => (k.with n b).withAll ns

theorem rowOk_word {r : List Str} {n : Str} {b : Bool} (h : RowOk r n b) : Word n := by
  cases h <;> assumption

theorem with_words {k : Known} {n : Str} {b : Bool} (hg : ∀ g ∈ k.globals, Word g) (hn : Word n) : ∀ g ∈ (k.with n b).globals, Word g := by
  intro g h
  unfold Known.with at h
  simp only at h
  split at h
  · rcases List.mem_append.mp h with h | h
    · exact hg g h
    · rw [List.mem_singleton.mp h]; exact hn
  · exact hg g h

theorem withAll_eq : ∀ (ns : List (Str × Bool)) (k : Known), (k.withAll ns).names = k.names ++ ns.map (fun n => "%".toList ++ n.1 ++ "%".toList) ∧
    (k.withAll ns).globals = k.globals ++ (ns.filter (fun n => n.2)).map Prod.fst ∧
    (k.withAll ns).others = k.others ++ (ns.filter (fun n => !n.2)).map (fun n => "%".toList ++ n.1 ++ "%".toList)
  | [], k => by simp [Known.withAll]
  | (n, b) :: ns, k => by
    obtain ⟨h1, h2, h3⟩ := withAll_eq ns (k.with n b)
    rw [Known.withAll, h1, h2, h3]
    cases b <;> simp [Known.with]

theorem withAll_append : ∀ (ns ms : List (Str × Bool)) (k : Known), k.withAll (ns ++ ms) = (k.withAll ns).withAll ms
  | [], _, _ => rfl
  | (n, b) :: ns, ms, k => by rw [List.cons_append, Known.withAll, Known.withAll, withAll_append ns]

theorem rows_iff : ∀ {rs : List (List Str)} {k k' : Known}, (∀ g ∈ k.globals, Word g) → k.names.Nodup →
    (rows k rs = some k' ↔ ∃ ns, RowsOk rs ns ∧ (k.withAll ns).names.Nodup ∧ k' = k.withAll ns)
  | [], k, k', hg, hk => by
    rw [rows]
    constructor
    · intro h; cases h; exact ⟨[], .nil, hk, rfl⟩
    · rintro ⟨ns, h, _, rfl⟩; cases h; rfl
  | r :: rs, k, k', hg, hk => by
    rw [rows]
    have nd : ∀ {n b}, "%".toList ++ n ++ "%".toList ∉ k.names → (k.with n b).names.Nodup := by
      intro n b h
      unfold Known.with
      exact List.nodup_append.mpr ⟨hk, by simp, by rintro a ha b hb rfl; rw [List.mem_singleton] at hb; exact h (hb ▸ ha)⟩
    constructor
    · intro h
      split at h
      · cases h
      · next k1 h1 =>
        obtain ⟨n, b, hr, hn, rfl⟩ := (row_iff hg).mp h1
        obtain ⟨ns, h2, h3, rfl⟩ := (rows_iff (with_words hg (rowOk_word hr)) (nd hn)).mp h
        exact ⟨(n, b) :: ns, .cons hr h2, h3, rfl⟩
    · rintro ⟨ns, h1, h2, rfl⟩
      cases h1 with
      | @cons _ _ n b ns hr hs =>
        have hn : "%".toList ++ n ++ "%".toList ∉ k.names := by
          rw [(withAll_eq _ k).1] at h2
          intro hm
          exact (List.nodup_append.mp h2).2.2 _ hm _ (by simp) rfl
        rw [(row_iff hg).mpr ⟨n, b, hr, hn, rfl⟩]
        exact (rows_iff (with_words hg (rowOk_word hr)) (nd hn)).mpr ⟨ns, hs, h2, rfl⟩

theorem rowsOk_words : ∀ {rs : List (List Str)} {ns : List (Str × Bool)}, RowsOk rs ns → ∀ n ∈ ns, Word n.1
  | _, _, .nil, _, h => by cases h
  | _, _, .cons hr hs, n, h => by
    rcases List.mem_cons.mp h with rfl | h
    · exact rowOk_word hr
    · exact rowsOk_words hs n h

theorem rowsOk_append : ∀ {rs ss : List (List Str)} {ns : List (Str × Bool)}, RowsOk (rs ++ ss) ns ↔ ∃ as bs, RowsOk rs as ∧ RowsOk ss bs ∧ ns = as ++ bs
  | [], ss, ns => by
    constructor
    · intro h; exact ⟨[], ns, .nil, h, rfl⟩
    · rintro ⟨as, bs, h1, h2, rfl⟩; cases h1; exact h2
  | r :: rs, ss, ns => by
    constructor
    · intro h
      cases h with
      | cons hr h =>
        obtain ⟨as, bs, h1, h2, rfl⟩ := rowsOk_append.mp h
        exact ⟨_, bs, .cons hr h1, h2, rfl⟩
    · rintro ⟨as, bs, h1, h2, rfl⟩
      cases h1 with
      | cons hr h1 => exact .cons hr (rowsOk_append.mpr ⟨_, bs, h1, h2, rfl⟩)

theorem withAll_words {k : Known} {ns : List (Str × Bool)} (hg : ∀ g ∈ k.globals, Word g) (hn : ∀ n ∈ ns, Word n.1) : ∀ g ∈ (k.withAll ns).globals, Word g := by
  rw [(withAll_eq ns k).2.1]
  intro g h
  rcases List.mem_append.mp h with h | h
  · exact hg g h
  · obtain ⟨n, hm, rfl⟩ := List.mem_map.mp h
    exact hn n (List.mem_filter.mp hm).1

theorem tables_iff : ∀ {ts : List Table} {k k' : Known}, (∀ g ∈ k.globals, Word g) → k.names.Nodup →
    (tables k ts = some k' ↔ (∀ t ∈ ts, TableOk t) ∧ ∃ ns, RowsOk (ts.flatMap Table.rows) ns ∧ (k.withAll ns).names.Nodup ∧ k' = k.withAll ns)
  | [], k, k', hg, hk => by
    rw [tables]
    constructor
    · intro h; cases h; exact ⟨by simp, [], .nil, hk, rfl⟩
    · rintro ⟨_, ns, h, _, rfl⟩; cases h; rfl
  | t :: ts, k, k', hg, hk => by
    rw [tables]
    constructor
    · intro h
      split at h
      · cases h
      · next k1 h1 =>
        unfold table at h1
        split at h1
        · next ht =>
          obtain ⟨as, ha, hd, rfl⟩ := (rows_iff hg hk).mp h1
          obtain ⟨h2, bs, hb, hd', rfl⟩ := (tables_iff (withAll_words hg (rowsOk_words ha)) hd).mp h
          refine ⟨?_, as ++ bs, ?_, ?_, (withAll_append ..).symm⟩
          · intro u hu
            rcases List.mem_cons.mp hu with rfl | hu
            · exact ht
            · exact h2 u hu
          · rw [List.flatMap_cons]
            exact rowsOk_append.mpr ⟨as, bs, ha, hb, rfl⟩
          · rw [withAll_append]; exact hd'
        · cases h1
    · rintro ⟨h1, ns, h2, h3, rfl⟩
      rw [List.flatMap_cons] at h2
      obtain ⟨as, bs, ha, hb, rfl⟩ := rowsOk_append.mp h2
      rw [withAll_append] at h3 ⊢
      have hd : (k.withAll as).names.Nodup := by
        rw [(withAll_eq bs _).1] at h3
        exact (List.nodup_append.mp h3).1
      unfold table
      rw [if_pos (show _ ∧ _ from h1 t (by simp)), (rows_iff hg hk).mpr ⟨as, ha, hd, rfl⟩]
      exact (tables_iff (withAll_words hg (rowsOk_words ha)) hd).mpr ⟨fun u hu => h1 u (List.mem_cons_of_mem _ hu), bs, hb, h3, rfl⟩

/-! ## References -/

theorem inside_iff {c : Char} : inside c = true ↔ c ≠ '%' ∧ c ≠ ' ' := by simp [inside]

theorem inside_all {r : Str} (h : Inside r) : ∀ c ∈ r, inside c = true := fun _ hc => inside_iff.mpr ⟨fun e => h.2.1 (e ▸ hc), fun e => h.2.2 (e ▸ hc)⟩

theorem refs_skip {i : Nat} {s : Str} : ∀ (x : Str) (j : Nat), i = j + x.length → refs x.length j (x ++ s) = refs 0 i s
  | [], j, h => by rw [List.length_nil, List.nil_append, h]; simp
  | c :: x, j, h => by
    rw [List.length_cons, List.cons_append, refs]
    exact refs_skip x (j + 1) (by rw [h, List.length_cons]; omega)

theorem ref_here {c : Char} {s : Str} : (c = '%' ∧ s.takeWhile inside ≠ [] ∧ (s.dropWhile inside).head? = some '%') ↔ ∃ r b, RefAt (c :: s) [] r b := by
  constructor
  · rintro ⟨rfl, h1, h2⟩
    cases hd : s.dropWhile inside with
    | nil => rw [hd] at h2; cases h2
    | cons d t =>
      rw [hd] at h2
      cases h2
      refine ⟨s.takeWhile inside, t, ?_, h1, ?_, ?_⟩
      · have : s = s.takeWhile inside ++ '%' :: t := by rw [← hd, List.takeWhile_append_dropWhile]
        conv => lhs; rw [this]
        simp
      · intro hm
        have := inside_iff.mp (List.all_eq_true.mp List.all_takeWhile _ hm)
        exact this.1 rfl
      · intro hm
        have := inside_iff.mp (List.all_eq_true.mp List.all_takeWhile _ hm)
        exact this.2 rfl
  · rintro ⟨r, b, he, hr⟩
    have e : c :: s = '%' :: (r ++ '%' :: b) := by simpa using he
    obtain ⟨rfl, rfl⟩ := List.cons.inj e
    obtain ⟨k1, k2⟩ := Titles.takeWhile_all (p := inside) (w := r) (r := '%' :: b) (inside_all hr) (by intro c h; cases h; decide)
    rw [k1, k2]
    exact ⟨rfl, hr.1, rfl⟩

theorem refs_none : ∀ {s : Str} {i : Nat}, (∀ a r b, ¬ RefAt s a r b) → refs 0 i s = []
  | [], _, _ => rfl
  | c :: s, i, h => by
    rw [refs, if_neg]
    · refine refs_none ?_
      rintro a r b ⟨rfl, hr⟩
      exact h (c :: a) r b ⟨by simp, hr⟩
    · rw [ref_here]
      rintro ⟨r, b, hh⟩
      exact h [] r b hh

theorem refs_at {r b : Str} : ∀ {a s : Str} {i : Nat}, RefAt s a r b → (∀ a' r' b', RefAt s a' r' b' → a.length ≤ a'.length) →
    refs 0 i s = (i + a.length, r) :: refs 0 (i + a.length + r.length + 2) b
  | [], s, i, h, _ => by
    obtain ⟨rfl, hr⟩ := h
    obtain ⟨k1, k2⟩ := Titles.takeWhile_all (p := inside) (w := r) (r := '%' :: b) (inside_all hr) (by intro c h; cases h; decide)
    have e : [] ++ "%".toList ++ r ++ "%".toList ++ b = '%' :: (r ++ '%' :: b) := by simp
    rw [e, refs, if_pos, k1]
    · have e2 : r ++ '%' :: b = (r ++ ['%']) ++ b := by simp
      have := refs_skip (i := i + r.length + 2) (s := b) (r ++ ['%']) (i + 1) (by simp; omega)
      rw [List.length_append, List.length_singleton] at this
      rw [e2, this]
      simp
    · rw [k1, k2]
      exact ⟨rfl, hr.1, rfl⟩
  | c :: a, s, i, h, hm => by
    obtain ⟨rfl, hr⟩ := h
    have e : c :: a ++ "%".toList ++ r ++ "%".toList ++ b = c :: (a ++ "%".toList ++ r ++ "%".toList ++ b) := by simp
    rw [e] at hm ⊢
    rw [refs, if_neg]
    · rw [refs_at (a := a) (r := r) (b := b) ⟨rfl, hr⟩]
      · simp only [List.length_cons]
        congr 2 <;> omega
      · intro a' r' b' h'
        have := hm (c :: a') r' b' ⟨by rw [h'.1]; simp, h'.2⟩
        simpa using this
    · rw [ref_here]
      rintro ⟨r', b', hh⟩
      have := hm [] r' b' hh
      simp at this

theorem refs_fun {i : Nat} {s : Str} {rs : List (Nat × Str)} (h : Refs i s rs) : refs 0 i s = rs := by
  induction h with
  | done h => exact refs_none h
  | more h hm _ ih => rw [refs_at h hm, ih]

theorem first_ref {s : Str} : ∀ (n : Nat) (a r b : Str), a.length = n → RefAt s a r b → ∃ a r b, RefAt s a r b ∧ ∀ a' r' b', RefAt s a' r' b' → a.length ≤ a'.length := by
  intro n
  induction n using Nat.strongRecOn with
  | _ n ih =>
    intro a r b hn h
    by_cases hh : ∃ a' r' b', RefAt s a' r' b' ∧ a'.length < a.length
    · obtain ⟨a', r', b', h', hl⟩ := hh
      exact ih a'.length (by omega) a' r' b' rfl h'
    · refine ⟨a, r, b, h, fun a' r' b' h' => ?_⟩
      rcases Nat.lt_or_ge a'.length a.length with hl | hl
      · exact absurd ⟨a', r', b', h', hl⟩ hh
      · exact hl

theorem refs_total : ∀ (n : Nat) (s : Str) (i : Nat), s.length = n → ∃ rs, Refs i s rs := by
  intro n
  induction n using Nat.strongRecOn with
  | _ n ih =>
    intro s i hn
    by_cases h : ∃ a r b, RefAt s a r b
    · obtain ⟨a, r, b, h⟩ := h
      obtain ⟨a, r, b, h, hm⟩ := first_ref _ a r b rfl h
      have hl : b.length < n := by
        rw [← hn, h.1]
        simp
        omega
      obtain ⟨rs, hr⟩ := ih b.length hl b (i + a.length + r.length + 2) rfl
      exact ⟨_, .more h hm hr⟩
    · exact ⟨[], .done fun a r b hh => h ⟨a, r, b, hh⟩⟩

theorem refs_iff {i : Nat} {s : Str} {rs : List (Nat × Str)} : refs 0 i s = rs ↔ Refs i s rs := by
  refine ⟨fun h => ?_, refs_fun⟩
  obtain ⟨qs, hq⟩ := refs_total _ s i rfl
  rw [← h, refs_fun hq]
  exact hq

theorem refs_sound {i : Nat} {s : Str} {rs : List (Nat × Str)} (h : Refs i s rs) : ∀ q ∈ rs, ∃ a b, RefAt s a q.2 b ∧ q.1 = i + a.length := by
  induction h with
  | done _ => simp
  | @more i s a r b rs h hm _ ih =>
    intro q hq
    rcases List.mem_cons.mp hq with rfl | hq
    · exact ⟨a, b, h, rfl⟩
    · obtain ⟨a', b', h', e⟩ := ih q hq
      refine ⟨a ++ "%".toList ++ r ++ "%".toList ++ a', b', ⟨?_, h'.2⟩, ?_⟩
      · rw [h.1, h'.1]
        simp only [List.append_assoc]
      · rw [e]
        simp
        omega

theorem refs_sorted {i : Nat} {s : Str} {rs : List (Nat × Str)} (h : Refs i s rs) : rs.Pairwise (fun p q => p.1 + p.2.length + 2 ≤ q.1) := by
  induction h with
  | done _ => exact .nil
  | more h hm hr ih =>
    refine List.pairwise_cons.mpr ⟨?_, ih⟩
    intro q hq
    obtain ⟨a', b', _, e⟩ := refs_sound hr q hq
    rw [e]
    show _ + _ + 2 ≤ _
    simp only
    omega

theorem base_iff {r b : Str} : base r = b ↔ Base r b := by
  have dot : ∀ a : Str, '.' ∉ a → ∀ c ∈ a, (c != '.') = true := by
    intro a ha c hc
    have : c ≠ '.' := fun e => ha (e ▸ hc)
    simpa using this
  have key : ∀ {b}, Base r b → base r = b := by
    intro b h
    unfold base
    cases h with
    | plain h =>
      have := (Titles.takeWhile_all (p := fun c => c != '.') (w := r) (r := []) (dot r h) (by simp)).2
      rw [List.append_nil] at this
      rw [this, if_neg (by simp)]
    | @last a h =>
      have := (Titles.takeWhile_all (p := fun c => c != '.') (w := a) (r := ['.']) (dot a h) (by intro c h; cases h; rfl)).2
      rw [this, if_neg (by simp)]
    | @dotted a t h ht =>
      obtain ⟨k1, k2⟩ := Titles.takeWhile_all (p := fun c => c != '.') (w := b) (r := '.' :: t) (dot b h) (by intro c h; cases h; rfl)
      have := List.length_pos_iff.mpr ht
      rw [k2, if_pos (by simp; omega), k1]
  refine ⟨fun h => ?_, key⟩
  have tot : ∃ b, Base r b := by
    by_cases hd : '.' ∈ r
    · obtain ⟨a, t, rfl, ha⟩ := List.eq_append_cons_of_mem hd
      cases t with
      | nil => exact ⟨_, .last ha⟩
      | cons c t => exact ⟨_, .dotted ha (by simp)⟩
    · exact ⟨_, .plain hd⟩
  obtain ⟨b', hb⟩ := tot
  rw [← h, key hb]
  exact hb

theorem skipped_iff {r : Str} : r ∈ skipped.map String.toList ↔ Placeholder r := by
  simp [skipped, Placeholder]

/-! ## The global object -/

theorem m_rest {s : Str} : Matches (cat [lit " (", .star dot, lit ")"]) s ↔ ∃ x, Line x ∧ s = " (".toList ++ x ++ ")".toList := by
  rw [m_between]
  simp only [m_lines]

theorem title_iff {t n : Str} : titleName t = some n ↔ Title t n := by
  unfold titleName
  simp only
  constructor
  · intro h
    split at h
    · next hc =>
      cases h
      have hw : Word (t.takeWhile isWord) := word_chars.mpr ⟨hc.1, fun c hm => List.all_eq_true.mp List.all_takeWhile c hm⟩
      have ht : t = t.takeWhile isWord ++ t.dropWhile isWord := List.takeWhile_append_dropWhile.symm
      rcases hc.2 with h2 | h2
      · rw [h2, List.append_nil] at ht
        have := Title.plain hw
        rw [← ht] at this
        rw [← ht]
        exact this
      · obtain ⟨x, hx, he⟩ := m_rest.mp ((full_iff _ _).mp h2)
        have := Title.params hw hx
        rw [he] at ht
        have e : t = t.takeWhile isWord ++ " (".toList ++ x ++ ")".toList := by
          conv => lhs; rw [ht]
          simp only [List.append_assoc]
        rw [← e] at this
        exact this
    · cases h
  · intro h
    cases h with
    | plain hw =>
      obtain ⟨h1, h2⟩ := word_chars.mp hw
      obtain ⟨k1, k2⟩ := Titles.takeWhile_all (p := isWord) (w := t) (r := []) h2 (by simp)
      rw [List.append_nil] at k1 k2
      rw [k1, k2, if_pos ⟨h1, .inl rfl⟩]
    | @params n ps hw hl =>
      obtain ⟨h1, h2⟩ := word_chars.mp hw
      have e : n ++ " (".toList ++ ps ++ ")".toList = n ++ (" (".toList ++ ps ++ ")".toList) := by simp only [List.append_assoc]
      obtain ⟨k1, k2⟩ := Titles.takeWhile_all (p := isWord) (w := n) (r := " (".toList ++ ps ++ ")".toList) h2 (by intro c h; cases h; decide)
      rw [e, k1, k2, if_pos ⟨h1, .inr ((full_iff _ _).mpr (m_rest.mpr ⟨ps, hl, rfl⟩))⟩]

theorem prop_iff {s : Sec} : Titles.hasSub "_property".toList s.kind = true ↔ IsProp s := by
  rw [Titles.hasSub_iff]
  rfl

theorem names_none : ∀ {ss : List Sec}, globalNames ss = none ↔ ∃ s ∈ ss, IsProp s ∧ ∀ n, ¬ Title s.title n
  | [] => by simp [globalNames]
  | s :: ss => by
    rw [globalNames]
    have ih := names_none (ss := ss)
    simp only [List.mem_cons, exists_eq_or_imp]
    by_cases hp : Titles.hasSub "_property".toList s.kind = true
    · rw [if_pos hp]
      have hp' := prop_iff.mp hp
      cases ht : titleName s.title with
      | none =>
        have : ∀ n, ¬ Title s.title n := fun n hn => by
          rw [title_iff.mpr hn] at ht
          cases ht
        simp [hp', this]
      | some n =>
        have : ¬ ∀ n, ¬ Title s.title n := fun h => h n (title_iff.mp ht)
        simp only [Option.map_eq_none_iff, ih, this, and_false, false_or]
    · rw [if_neg hp, ih]
      have : ¬ IsProp s := fun h => hp (prop_iff.mpr h)
      simp [this]

theorem names_some : ∀ {ss : List Sec} {ns : List Str}, globalNames ss = some ns → ∀ n, n ∈ ns ↔ Listed ss n
  | [], ns, h, n => by
    cases h
    simp [Listed]
  | s :: ss, ns, h, n => by
    rw [globalNames] at h
    unfold Listed
    simp only [List.mem_cons, exists_eq_or_imp]
    by_cases hp : Titles.hasSub "_property".toList s.kind = true
    · rw [if_pos hp] at h
      have hp' := prop_iff.mp hp
      cases ht : titleName s.title with
      | none => rw [ht] at h; cases h
      | some m =>
        rw [ht] at h
        obtain ⟨ms, hm, rfl⟩ := Option.map_eq_some_iff.mp h
        have ih := names_some hm n
        unfold Listed at ih
        have hmn : ∀ x, Title s.title x ↔ x = m := fun x => by
          rw [← title_iff, ht]
          simp [eq_comm]
        by_cases hv : s.parent ≠ "Value Properties of the Global Object".toList
        · rw [if_pos hv, List.mem_cons, ih]
          simp only [hmn, hp', hv, ne_eq, not_false_eq_true, true_and]
        · rw [if_neg hv, ih]
          simp only [hv, false_and, and_false, false_or]
    · rw [if_neg hp] at h
      have hp' : ¬ IsProp s := fun hh => hp (prop_iff.mpr hh)
      rw [names_some h n]
      unfold Listed
      simp only [hp', false_and, false_or]

theorem minus_spec (a b : List Str) : (minus a b).Pairwise (· < ·) ∧ ∀ x, x ∈ minus a b ↔ x ∈ a ∧ x ∉ b := by
  unfold minus
  obtain ⟨h1, h2⟩ := foldr_insert (a.filter (fun x => decide (x ∉ b)))
  refine ⟨h1, fun x => ?_⟩
  rw [h2, List.mem_filter, decide_eq_true_eq]

end Verif.Wki
