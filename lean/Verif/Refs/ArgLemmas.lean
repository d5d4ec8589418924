import Verif.Refs.ScanLemmas
/-!
# The parts of a reference
-/
namespace Verif.Refs
open Verif.Refs.Spec
open Verif.Defs (Str Arena)

/-- The characters that must not be characters of words. -/
theorem takeWhile_all (p : Char → Bool) (x y : Str) (h : ∀ c ∈ x, p c = true) (hy : ∀ c, y.head? = some c → p c = false) :
    (x ++ y).takeWhile p = x ∧ (x ++ y).dropWhile p = y := by
  induction x with
  | nil =>
    cases y with
    | nil => simp
    | cons c y => simp [hy c rfl]
  | cons c x ih =>
    have := ih (fun d hd => h d (List.mem_cons_of_mem _ hd))
    have hc := h c (List.mem_cons_self ..)
    simp only [List.cons_append, List.takeWhile_cons, List.dropWhile_cons, hc, if_true]
    rw [this.1, this.2]
    exact ⟨rfl, rfl⟩

theorem mem_takeWhile_all (p : Char → Bool) (s : Str) : ∀ c ∈ s.takeWhile p, p c = true := by
  induction s with
  | nil => simp
  | cons c s ih =>
    rw [List.takeWhile_cons]
    split
    · rename_i h
      intro d hd
      rcases List.mem_cons.1 hd with rfl | hd
      · exact h
      · exact ih d hd
    · simp

theorem argsOf_iff (r a : Str) : argsOf r = some a ↔ (∃ opt, (opt = [] ∨ opt = ['?']) ∧ r = a ++ ']' :: opt) ∧ a ≠ [] ∧ '\n' ∉ a := by
  constructor
  · intro h
    unfold argsOf at h
    split at h
    · rename_i x hx
      have hx' : r = x.reverse ++ [']'] := by
        have := congrArg List.reverse hx
        simpa using this
      split at h
      · rename_i hc
        cases h
        exact ⟨⟨[], Or.inl rfl, hx'⟩, by simpa using hc.1, by simpa using hc.2⟩
      · cases h
    · rename_i x hx
      have hx' : r = x.reverse ++ [']', '?'] := by
        have := congrArg List.reverse hx
        simpa using this
      split at h
      · rename_i hc
        cases h
        exact ⟨⟨['?'], Or.inr rfl, hx'⟩, by simpa using hc.1, by simpa using hc.2⟩
      · cases h
    · cases h
  · rintro ⟨⟨opt, ho, rfl⟩, h1, h2⟩
    rcases ho with rfl | rfl
    · simp [argsOf, h1, h2]
    · simp [argsOf, h1, h2]

variable (word : Char → Bool) (hb : word '[' = false) (hq : word '?' = false)

include hb hq in
theorem partsOf_iff (b nt : Str) (args : Option Str) : partsOf word b = some (nt, args) ↔ Parts word b nt args := by
  constructor
  · intro h
    unfold partsOf at h
    have hd := List.takeWhile_append_dropWhile (p := word) (l := b)
    have hw := mem_takeWhile_all word b
    split at h
    · cases h
    · rename_i hn
      split at h
      · rename_i hr
        cases h
        rw [hr] at hd
        have := Parts.plain (word := word) _ [] hn hw (Or.inl rfl)
        rw [hd] at this
        exact this
      · rename_i hr
        cases h
        rw [hr] at hd
        have := Parts.plain (word := word) _ ['?'] hn hw (Or.inr rfl)
        rw [hd] at this
        exact this
      · rename_i r hr
        rw [Option.map_eq_some_iff] at h
        obtain ⟨a, ha, h⟩ := h
        cases h
        obtain ⟨⟨opt, ho, he⟩, h1, h2⟩ := (argsOf_iff r a).1 ha
        rw [hr, he] at hd
        have := Parts.args (word := word) _ a opt hn hw ho h1 h2
        rw [hd] at this
        exact this
      · cases h
  · intro h
    cases h with
    | plain _ opt hn hw ho =>
      have hy : ∀ c, opt.head? = some c → word c = false := by
        intro c hc
        rcases ho with rfl | rfl
        · cases hc
        · cases hc; exact hq
      have := takeWhile_all word nt opt hw hy
      simp only [partsOf]
      rw [this.1, this.2, if_neg hn]
      rcases ho with rfl | rfl <;> rfl
    | args _ a opt hn hw ho h1 h2 =>
      have := takeWhile_all word nt ('[' :: (a ++ ']' :: opt)) hw (by intro c hc; cases hc; exact hb)
      simp only [partsOf]
      rw [this.1, this.2, if_neg hn]
      simp only
      rw [(argsOf_iff _ a).2 ⟨⟨opt, ho, rfl⟩, h1, h2⟩]
      rfl

include hb hq in
theorem partsOf_none (b : Str) : partsOf word b = none ↔ ¬∃ nt a, Parts word b nt a := by
  cases h : partsOf word b with
  | none =>
    refine ⟨?_, fun _ => rfl⟩
    rintro _ ⟨nt, a, h2⟩
    rw [← partsOf_iff word hb hq, h] at h2
    cases h2
  | some x =>
    refine ⟨(fun h => by cases h), fun h2 => absurd ⟨x.1, x.2, ?_⟩ h2⟩
    rw [← partsOf_iff word hb hq, h]

include hb hq in
theorem parts_unique {b nt nt' : Str} {a a' : Option Str} (h : Parts word b nt a) (h' : Parts word b nt' a') : nt = nt' ∧ a = a' := by
  rw [← partsOf_iff word hb hq] at h h'
  rw [h] at h'
  cases h'
  exact ⟨rfl, rfl⟩

/-! ## The pieces -/

theorem splitGo_free (a : Str) (ha : ',' ∉ a) : ∀ (cur rest : Str), rest = [] ∨ rest.head? = some ',' →
    splitGo false cur (a ++ rest) = splitGo false (cur ++ a) rest := by
  induction a with
  | nil => intro cur rest _; simp
  | cons c a ih =>
    intro cur rest hr
    simp only [List.mem_cons, not_or] at ha
    have hc : c ≠ ',' := fun e => ha.1 e.symm
    simp only [List.cons_append, splitGo, hc, if_false, Bool.false_and, Bool.false_eq_true]
    rw [ih ha.2 _ rest hr]
    simp

theorem splitGo_spaces (k : Nat) (rest : Str) (cur : Str) : splitGo true cur (List.replicate k ' ' ++ rest) = splitGo true cur rest := by
  induction k with
  | zero => simp
  | succ k ih =>
    simp only [List.replicate_succ, List.cons_append, splitGo]
    simp [ih]

theorem splitGo_noSpace (rest cur : Str) (h : rest.head? ≠ some ' ') : splitGo true cur rest = splitGo false cur rest := by
  cases rest with
  | nil => rfl
  | cons c rest =>
    have hc : c ≠ ' ' := fun e => h (by rw [e]; rfl)
    simp [splitGo, hc]

theorem splitGo_of (s : Str) (as : List Str) (h : Pieces s as) : splitGo false [] s = as := by
  induction h with
  | last a ha =>
    have := splitGo_free a ha [] [] (Or.inl rfl)
    simp only [List.append_nil, List.nil_append] at this
    rw [this]
    rfl
  | more a k rest as ha hr _ ih =>
    rw [splitGo_free a ha [] _ (Or.inr rfl)]
    simp only [List.nil_append, splitGo, if_true]
    rw [splitGo_spaces, splitGo_noSpace rest [] hr, ih]

theorem pieces_unique {s : Str} {as as' : List Str} (h : Pieces s as) (h' : Pieces s as') : as = as' :=
  (splitGo_of s as h).symm.trans (splitGo_of s as' h')

theorem spaces_split (s : Str) : ∃ k rest, s = List.replicate k ' ' ++ rest ∧ rest.head? ≠ some ' ' := by
  induction s with
  | nil => exact ⟨0, [], rfl, by simp⟩
  | cons c s ih =>
    by_cases hc : c = ' '
    · obtain ⟨k, rest, h1, h2⟩ := ih
      exact ⟨k + 1, rest, by rw [hc, h1]; rfl, h2⟩
    · exact ⟨0, c :: s, rfl, by simpa using hc⟩

theorem pieces_exist : ∀ (n : Nat) (s : Str), s.length ≤ n → ∃ as, Pieces s as := by
  intro n
  induction n with
  | zero =>
    intro s h
    have : s = [] := List.length_eq_zero_iff.1 (by omega)
    subst this
    exact ⟨[[]], .last [] (by simp)⟩
  | succ n ih =>
    intro s h
    by_cases hc : ',' ∈ s
    · obtain ⟨a, r, hs, ha⟩ := List.append_of_mem hc |> fun _ => List.eq_append_cons_of_mem hc
      obtain ⟨k, rest, h1, h2⟩ := spaces_split r
      subst h1
      obtain ⟨as, has⟩ := ih rest (by rw [hs] at h; simp only [List.length_append, List.length_cons, List.length_replicate] at h; omega)
      rw [hs]
      exact ⟨a :: as, .more a k rest as ha h2 has⟩
    · exact ⟨[s], .last s hc⟩

theorem pieces_splitGo (s : Str) : Pieces s (splitGo false [] s) := by
  obtain ⟨as, h⟩ := pieces_exist s.length s (Nat.le_refl _)
  rw [splitGo_of s as h]
  exact h

/-! ## The names -/

theorem argLoop_iff (p : Nat) (as : List Str) : ∀ (ms : List Msg) (ns : List Str),
    argLoop p as = some (ms, ns) ↔ ∃ bs, Args as ns bs ∧ ms = bs.map (fun s => ⟨p, .noPrefix s⟩) := by
  induction as with
  | nil =>
    intro ms ns
    simp only [argLoop, Option.some.injEq, Prod.mk.injEq]
    constructor
    · rintro ⟨rfl, rfl⟩
      exact ⟨[], .nil, rfl⟩
    · rintro ⟨bs, h, rfl⟩
      cases h
      exact ⟨rfl, rfl⟩
  | cons a as ih =>
    intro ms ns
    constructor
    · intro h
      simp only [argLoop] at h
      split at h
      · rename_i bare n ms' ns' h1 h2
        cases h
        obtain ⟨bs, hb, rfl⟩ := (ih _ _).1 h2
        cases a with
        | nil => cases h1
        | cons c r =>
          simp only [argName] at h1
          split at h1
          · rename_i hc
            cases h1
            exact ⟨bs, .signed hc hb, rfl⟩
          · rename_i hc
            cases h1
            exact ⟨_, .bare hc hb, rfl⟩
      · cases h
    · rintro ⟨bs, h, rfl⟩
      cases h with
      | signed hc hb =>
        have := (ih _ _).2 ⟨_, hb, rfl⟩
        unfold IsSign at hc
        simp [argLoop, argName, hc, this]
      | bare hc hb =>
        have := (ih _ _).2 ⟨_, hb, rfl⟩
        unfold IsSign at hc
        simp [argLoop, argName, hc, this]

theorem argLoop_none (p : Nat) (as : List Str) : argLoop p as = none ↔ [] ∈ as := by
  induction as with
  | nil => simp [argLoop]
  | cons a as ih =>
    cases a with
    | nil => simp [argLoop, argName]
    | cons c r =>
      have h1 : ∃ x, argName (c :: r) = some x := by
        simp only [argName]
        split <;> exact ⟨_, rfl⟩
      obtain ⟨x, hx⟩ := h1
      simp only [argLoop, hx]
      cases h2 : argLoop p as with
      | none => simp [ih.1 h2]
      | some y =>
        have : ¬[] ∈ as := fun h => by rw [ih.2 h] at h2; cases h2
        simp [this]

theorem args_unique {as ns ns' bs bs' : List Str} (h : Args as ns bs) (h' : Args as ns' bs') : ns = ns' ∧ bs = bs' := by
  induction h generalizing ns' bs' with
  | nil => cases h'; exact ⟨rfl, rfl⟩
  | signed hc _ ih =>
    cases h' with
    | signed _ h2 => obtain ⟨rfl, rfl⟩ := ih h2; exact ⟨rfl, rfl⟩
    | bare hc' _ => exact absurd hc hc'
  | bare hc _ ih =>
    cases h' with
    | signed hc' _ => exact absurd hc' hc
    | bare _ h2 => obtain ⟨rfl, rfl⟩ := ih h2; exact ⟨rfl, rfl⟩

/-! ## The arena -/

theorem find_some (pat : Str) (s : Str) : ∀ (p b : Nat), find pat p s = some b ↔
    (∃ x y, s = x ++ pat ++ y ∧ p + x.length = b) ∧ ∀ x y, s = x ++ pat ++ y → b ≤ p + x.length := by
  induction s with
  | nil =>
    intro p b
    simp only [find]
    constructor
    · intro h
      split at h
      · rename_i hp
        cases h
        rw [List.isPrefixOf_iff_prefix] at hp
        obtain ⟨y, hy⟩ := hp
        exact ⟨⟨[], y, by simp [hy], rfl⟩, fun x y _ => by omega⟩
      · cases h
    · rintro ⟨⟨x, y, h1, h2⟩, _⟩
      have h3 := h1.symm
      simp only [List.append_eq_nil_iff] at h3
      obtain ⟨⟨rfl, rfl⟩, rfl⟩ := h3
      simp at h2
      simp [h2]
  | cons c s ih =>
    intro p b
    simp only [find]
    by_cases hp : pat.isPrefixOf (c :: s) = true
    · rw [if_pos hp]
      rw [List.isPrefixOf_iff_prefix] at hp
      obtain ⟨y, hy⟩ := hp
      constructor
      · intro h
        cases h
        exact ⟨⟨[], y, by simp [hy], rfl⟩, fun x y _ => by omega⟩
      · rintro ⟨⟨x, z, h1, h2⟩, h3⟩
        have := h3 [] y (by simp [hy])
        simp only [List.length_nil] at this
        congr 1
        omega
    · rw [if_neg hp, ih]
      rw [List.isPrefixOf_iff_prefix] at hp
      have key : ∀ x y, c :: s = x ++ pat ++ y → ∃ x', x = c :: x' ∧ s = x' ++ pat ++ y := by
        intro x y h
        cases x with
        | nil => exact absurd ⟨y, h.symm⟩ hp
        | cons d x' =>
          simp only [List.cons_append, List.cons.injEq] at h
          obtain ⟨rfl, h⟩ := h
          exact ⟨x', rfl, h⟩
      constructor
      · rintro ⟨⟨x, y, h1, h2⟩, h3⟩
        refine ⟨⟨c :: x, y, by rw [h1]; rfl, by simp only [List.length_cons]; omega⟩, ?_⟩
        intro x' y' h
        obtain ⟨x'', rfl, hk⟩ := key x' y' h
        have := h3 x'' y' hk
        simp only [List.length_cons]
        omega
      · rintro ⟨⟨x, y, h1, h2⟩, h3⟩
        obtain ⟨x', rfl, hk⟩ := key x y h1
        refine ⟨⟨x', y, hk, by simp only [List.length_cons] at h2; omega⟩, ?_⟩
        intro x'' y'' h
        have := h3 (c :: x'') y'' (by rw [h]; rfl)
        simp only [List.length_cons] at this
        omega

theorem find_mark (text : Str) (b : Nat) : find marker 0 text = some b ↔ MarkAt text b := by
  rw [find_some]
  unfold MarkAt marker
  simp only [Nat.zero_add]

theorem arenaAt_iff (text : Str) (p : Nat) (a : Arena) : arenaAt text p = a ↔ Place text p a := by
  have key : arenaAt text p = .A ↔ ∃ b, MarkAt text b ∧ p < b := by
    unfold arenaAt
    cases h : find marker 0 text with
    | none =>
      simp only [reduceCtorEq, false_iff]
      rintro ⟨b, hb, _⟩
      rw [← find_mark, h] at hb
      cases hb
    | some b =>
      simp only
      have hm := (find_mark text b).1 h
      split
      · rename_i hl; exact ⟨fun _ => ⟨b, hm, hl⟩, fun _ => rfl⟩
      · rename_i hl
        simp only [reduceCtorEq, false_iff]
        rintro ⟨b', hb', hl'⟩
        rw [← find_mark, h] at hb'
        cases hb'
        exact hl hl'
  have two : arenaAt text p = .A ∨ arenaAt text p = .B := by
    unfold arenaAt
    split
    · split <;> simp
    · simp
  cases a with
  | A => exact key
  | B =>
    show _ ↔ ¬∃ b, MarkAt text b ∧ p < b
    rw [← key]
    rcases two with h | h <;> simp [h]
  | E =>
    show _ ↔ False
    rcases two with h | h <;> simp [h]

end Verif.Refs
