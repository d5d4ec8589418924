import Verif.StepRefs.Spec
import Verif.Tables.Lemmas
/-! Lemmas on the text: where the references are, and what they refer to. -/
namespace Verif.StepRefs
open Verif.HTML (Str Attrs Node)
open Verif.Validate (nStart nStop nName nKids slice)

/-! ### The matches -/

theorem afterStep_sound : ∀ (s : Str) k, afterStep s = some k →
    ∃ kw d rest n, s = kw ++ ' ' :: d :: rest ∧ kw.map fold = List.replicate n 's' ∧ (('0' ≤ d ∧ d ≤ '9') ∨ d = '<') ∧
      k = kw.length + 2
  | [], k, h => by simp [afterStep] at h
  | c :: r, k, h => by
    unfold afterStep at h
    by_cases hc : fold c = 's'
    · rw [if_pos hc] at h
      cases ha : afterStep r with
      | none => rw [ha] at h; exact absurd h (by simp)
      | some k' =>
        rw [ha] at h
        simp only [Option.map_some, Option.some.injEq] at h
        obtain ⟨kw, d, rest, n, h1, h2, h3, h4⟩ := afterStep_sound r k' ha
        refine ⟨c :: kw, d, rest, n + 1, by rw [h1]; rfl, ?_, h3, by rw [← h, h4]; simp⟩
        simp only [List.map_cons, hc, h2, List.replicate_succ]
    · rw [if_neg hc] at h
      by_cases hs : c = ' '
      · rw [if_pos hs] at h
        match r, h with
        | d :: r', h =>
          simp only at h
          by_cases hd : (isDigit d || decide (d = '<')) = true
          · rw [if_pos hd] at h
            injection h with h
            refine ⟨[], d, r', 0, by rw [hs]; rfl, rfl, ?_, by simp [← h]⟩
            simp only [isDigit, Bool.or_eq_true, Bool.and_eq_true, decide_eq_true_eq] at hd
            exact hd
          · rw [if_neg hd] at h; exact absurd h (by simp)
      · rw [if_neg hs] at h; exact absurd h (by simp)

theorem fold_space : fold ' ' = ' ' := by decide

theorem afterStep_complete : ∀ (kw : Str) (d : Char) (rest : Str) (n : Nat), kw.map fold = List.replicate n 's' →
    (('0' ≤ d ∧ d ≤ '9') ∨ d = '<') → afterStep (kw ++ ' ' :: d :: rest) = some (kw.length + 2)
  | [], d, rest, n, _, hd => by
    have h1 : ¬ fold ' ' = 's' := by decide
    have h2 : (isDigit d || decide (d = '<')) = true := by
      simp only [isDigit, Bool.or_eq_true, Bool.and_eq_true, decide_eq_true_eq]; exact hd
    simp only [List.nil_append, afterStep]
    rw [if_neg h1, if_pos trivial, if_pos h2]
    rfl
  | c :: kw, d, rest, n, hk, hd => by
    cases n with
    | zero => simp at hk
    | succ n =>
      simp only [List.map_cons, List.replicate_succ, List.cons.injEq] at hk
      simp only [List.cons_append, afterStep]
      rw [if_pos hk.1, afterStep_complete kw d rest n hk.2 hd]
      simp only [Option.map_some, List.length_cons]

/-- A keyword at the start of `s`. -/
def KwAt (s : Str) (len : Nat) : Prop :=
  ∃ kw d rest k, s = kw ++ ' ' :: d :: rest ∧ kw.map fold = ['s', 't', 'e', 'p'] ++ List.replicate k 's' ∧
    (('0' ≤ d ∧ d ≤ '9') ∨ d = '<') ∧ len = kw.length + 2

theorem matchKw_iff (s : Str) (len : Nat) : matchKw s = some len ↔ KwAt s len := by
  constructor
  · intro h
    match s, h with
    | a :: b :: c :: d :: r, h =>
      simp only [matchKw] at h
      split at h
      · rename_i hf
        cases ha : afterStep r with
        | none => rw [ha] at h; exact absurd h (by simp)
        | some k =>
          rw [ha] at h
          simp only [Option.map_some, Option.some.injEq] at h
          obtain ⟨kw, e, rest, n, h1, h2, h3, h4⟩ := afterStep_sound r k ha
          refine ⟨a :: b :: c :: d :: kw, e, rest, n, by rw [h1]; rfl, ?_, h3, by rw [← h, h4]; simp⟩
          simp only [List.map_cons, hf.1, hf.2.1, hf.2.2.1, hf.2.2.2, h2]
          rfl
      · exact absurd h (by simp)
  · rintro ⟨kw, d, rest, k, rfl, hk, hd, rfl⟩
    match kw, hk with
    | a :: b :: c :: e :: kw, hk =>
      simp only [List.map_cons, List.cons_append, List.nil_append, List.cons.injEq] at hk
      obtain ⟨h1, h2, h3, h4, h5⟩ := hk
      simp only [List.cons_append, matchKw]
      rw [if_pos ⟨h1, h2, h3, h4⟩, afterStep_complete kw d rest k h5 hd]
      simp only [Option.map_some, List.length_cons]
    | [], hk => simp at hk
    | [_], hk => simp at hk
    | [_, _], hk => simp at hk
    | [_, _, _], hk => simp at hk

theorem refAt_iff (text : Str) (isWord : Char → Bool) (pre s : Str) (ht : text = pre ++ s) :
    RefAt text isWord pre.length ↔ (∃ k, KwAt s k) ∧ boundary isWord pre.getLast? = true := by
  constructor
  · rintro ⟨pre', kw, d, rest, k, h1, h2, h3, h4, h5⟩
    have := List.append_inj (ht.symm.trans h1) (by omega)
    obtain ⟨rfl, rfl⟩ := this
    refine ⟨⟨_, kw, d, rest, k, rfl, h3, h4, rfl⟩, ?_⟩
    cases hg : pre.getLast? with
    | none => rfl
    | some c => simp only [boundary, h5 c hg]; rfl
  · rintro ⟨⟨_, kw, d, rest, k, rfl, h3, h4, _⟩, hb⟩
    refine ⟨pre, kw, d, rest, k, ht, rfl, h3, h4, ?_⟩
    intro c hc
    rw [hc] at hb
    simpa [boundary] using hb

theorem fold_digit {d : Char} (h : ('0' ≤ d ∧ d ≤ '9') ∨ d = '<') : fold d ≠ 's' := by
  rcases h with ⟨h1, h2⟩ | rfl
  · intro hf
    unfold fold at hf
    have hA : ¬ ('A' ≤ d ∧ d ≤ 'Z') := by
      rintro ⟨h3, _⟩
      have := Char.le_trans h3 h2
      exact absurd this (by decide)
    rw [if_neg hA] at hf
    by_cases hK : d = 'K'
    · rw [if_pos hK] at hf; exact absurd hf (by decide)
    rw [if_neg hK] at hf
    by_cases hS : d = 'ſ'
    · subst hS; exact absurd h2 (by decide)
    rw [if_neg hS] at hf
    by_cases hI : d = 'İ' ∨ d = 'ı'
    · rw [if_pos hI] at hf; exact absurd hf (by decide)
    rw [if_neg hI] at hf
    subst hf
    exact absurd h2 (by decide)
  · decide

/-- A match doesn't begin inside another. -/
theorem no_overlap {isWord : Char → Bool} (hw : LettersOk isWord) {s : Str} {len : Nat} (h : KwAt s len) :
    ∀ (u v : Str) (c : Char), s = u ++ c :: v → u ≠ [] → u.length < len →
      ¬ ((∃ k, KwAt (c :: v) k) ∧ boundary isWord u.getLast? = true) := by
  rintro u v c hs hu hl ⟨⟨_, kw', d', rest', k', h1', h2', _, _⟩, hb⟩
  obtain ⟨kw, d, rest, k, h1, h2, h3, rfl⟩ := h
  have hc : fold c = 's' := by
    cases kw' with
    | nil => simp at h2'
    | cons x kw' =>
      simp only [List.cons_append, List.cons.injEq] at h1'
      simp only [List.map_cons, List.cons_append, List.cons.injEq] at h2'
      rw [h1'.1]; exact h2'.1
  by_cases hle : u.length ≤ kw.length
  · have hu' : u = kw.take u.length := by
      have := congrArg (List.take u.length) (hs.symm.trans h1)
      rw [List.take_left' rfl, List.take_append_of_le_length hle] at this
      exact this
    obtain ⟨y, hy⟩ : ∃ y, u.getLast? = some y := by
      cases hg : u.getLast? with
      | none => rw [List.getLast?_eq_none_iff] at hg; exact absurd hg hu
      | some y => exact ⟨y, rfl⟩
    have hmem : y ∈ kw := by
      have : y ∈ u := List.mem_of_getLast? hy
      rw [hu'] at this
      exact List.mem_of_mem_take this
    have hfy : fold y ∈ kw.map fold := List.mem_map_of_mem hmem
    rw [h2] at hfy
    have hin : fold y ∈ ['s', 't', 'e', 'p'] := by
      rcases List.mem_append.1 hfy with h | h
      · exact h
      · rw [(List.mem_replicate.1 h).2]; exact List.mem_cons_self
    rw [hy] at hb
    simp only [boundary, hw y hin] at hb
    exact absurd hb (by decide)
  · have hl' : u.length = kw.length + 1 := by omega
    have : (s[kw.length + 1]? : Option Char) = some c := by
      rw [hs, List.getElem?_append_right (by omega), hl']; simp
    rw [h1, List.getElem?_append_right (by omega)] at this
    simp at this
    exact fold_digit h3 (this ▸ hc)

theorem mem_starts {isWord : Char → Bool} (hw : LettersOk isWord) (text : Str) : ∀ (s pre : Str) (skip : Nat), text = pre ++ s →
    (∀ i, i < skip → ∀ a b, s = a ++ b → a.length = i → ¬ RefAt text isWord (pre.length + i)) →
    (∀ q, q ∈ starts isWord pre.length pre.getLast? skip s ↔ pre.length ≤ q ∧ RefAt text isWord q) ∧
      (starts isWord pre.length pre.getLast? skip s).Pairwise (· < ·) := by
  intro s
  induction s with
  | nil =>
    intro pre skip ht _
    have hs : starts isWord pre.length pre.getLast? skip [] = [] := by cases skip <;> simp [starts]
    rw [hs]
    refine ⟨fun q => ⟨fun h => absurd h (by simp), ?_⟩, .nil⟩
    rintro ⟨hle, pre', kw, d, rest, k, h1, h2, _⟩
    have := congrArg List.length h1
    rw [ht] at this
    simp at this
    omega
  | cons c r ih =>
    intro pre skip ht hskip
    have ht' : text = (pre ++ [c]) ++ r := by rw [ht]; simp
    have hlen : (pre ++ [c]).length = pre.length + 1 := by simp
    have hlast : (pre ++ [c]).getLast? = some c := by simp
    have hback : ∀ (sk : Nat), (∀ i, i < sk → ∀ a b, r = a ++ b → a.length = i → ¬ RefAt text isWord (pre.length + 1 + i)) →
        (∀ q, q ∈ starts isWord (pre.length + 1) (some c) sk r ↔ pre.length + 1 ≤ q ∧ RefAt text isWord q) ∧
          (starts isWord (pre.length + 1) (some c) sk r).Pairwise (· < ·) := by
      intro sk hsk
      have := ih (pre ++ [c]) sk ht' (by rw [hlen]; exact hsk)
      rwa [hlen, hlast] at this
    have hno : ¬ RefAt text isWord pre.length → ∀ (l : List Nat),
        (∀ q, q ∈ l ↔ pre.length + 1 ≤ q ∧ RefAt text isWord q) → ∀ q, q ∈ l ↔ pre.length ≤ q ∧ RefAt text isWord q := by
      intro hn l hl q
      rw [hl]
      constructor
      · rintro ⟨h1, h2⟩; exact ⟨by omega, h2⟩
      · rintro ⟨h1, h2⟩
        refine ⟨?_, h2⟩
        rcases Nat.lt_or_ge pre.length q with h | h
        · exact h
        · have : q = pre.length := by omega
          subst this; exact absurd h2 hn
    cases skip with
    | succ skip =>
      simp only [starts]
      have hb := hback skip (by
        intro i hi a b hab hl
        have := hskip (i + 1) (by omega) (c :: a) b (by rw [hab]; rfl) (by simp [hl])
        rwa [show pre.length + 1 + i = pre.length + (i + 1) by omega])
      exact ⟨hno (hskip 0 (by omega) [] (c :: r) rfl rfl) _ hb.1, hb.2⟩
    | zero =>
      simp only [starts]
      by_cases hbd : boundary isWord pre.getLast? = true
      · rw [if_pos hbd]
        cases hm : matchKw (c :: r) with
        | none =>
          have hn : ¬ RefAt text isWord pre.length := by
            rw [refAt_iff text isWord pre (c :: r) ht]
            rintro ⟨⟨k, hk⟩, _⟩
            rw [(matchKw_iff _ _).2 hk] at hm
            exact absurd hm (by simp)
          have hb := hback 0 (by intro i hi; omega)
          exact ⟨hno hn _ hb.1, hb.2⟩
        | some k =>
          have hk := (matchKw_iff _ _).1 hm
          have hy : RefAt text isWord pre.length := (refAt_iff text isWord pre (c :: r) ht).2 ⟨⟨k, hk⟩, hbd⟩
          have hb := hback (k - 1) (by
            intro i hi a b hab hl hr
            cases b with
            | nil =>
              obtain ⟨pre', kw, d, rest, k', h1, h2, h3, _⟩ := hr
              have := congrArg List.length h1
              rw [ht, hab] at this
              simp at this
              omega
            | cons e b =>
              have hsplit : text = (pre ++ c :: a) ++ e :: b := by rw [ht, hab]; simp
              have hlen' : (pre ++ c :: a).length = pre.length + 1 + i := by simp; omega
              rw [← hlen', refAt_iff text isWord _ _ hsplit] at hr
              refine no_overlap hw hk (c :: a) b e (by rw [hab]; rfl) (by simp) (by simp; omega) ⟨hr.1, ?_⟩
              have hg : (pre ++ c :: a).getLast? = (c :: a).getLast? := by
                rw [List.getLast?_append, List.getLast?_eq_some_getLast (l := c :: a) (by simp)]
                rfl
              rw [← hg]
              exact hr.2)
          simp only
          constructor
          · intro q
            rw [List.mem_cons, hb.1]
            constructor
            · rintro (rfl | ⟨h1, h2⟩)
              · exact ⟨Nat.le_refl _, hy⟩
              · exact ⟨by omega, h2⟩
            · rintro ⟨h1, h2⟩
              rcases Nat.lt_or_ge pre.length q with h | h
              · exact Or.inr ⟨h, h2⟩
              · exact Or.inl (by omega)
          · refine List.pairwise_cons.2 ⟨?_, hb.2⟩
            intro q hq
            have := (hb.1 q).1 hq
            omega
      · rw [if_neg hbd]
        have hn : ¬ RefAt text isWord pre.length := by
          rw [refAt_iff text isWord pre (c :: r) ht]
          rintro ⟨_, h⟩
          exact hbd h
        have hb := hback 0 (by intro i hi; omega)
        exact ⟨hno hn _ hb.1, hb.2⟩

theorem starts_spec {isWord : Char → Bool} (hw : LettersOk isWord) (text : Str) :
    (∀ q, q ∈ starts isWord 0 none 0 text ↔ RefAt text isWord q) ∧ (starts isWord 0 none 0 text).Pairwise (· < ·) := by
  have := mem_starts hw text text [] 0 rfl (by intro i hi; omega)
  simpa using this

/-! ### The forms of a reference -/

theorem lit_iff : ∀ (p s r : Str), lit p s = some r ↔ ∃ a, s = a ++ r ∧ a.map fold = p
  | [], s, r => by
    simp only [lit, Option.some.injEq]
    constructor
    · intro h; exact ⟨[], by simp [h], rfl⟩
    · rintro ⟨a, h1, h2⟩
      cases a with
      | nil => simpa using h1
      | cons _ _ => simp at h2
  | p :: ps, [], r => by
    simp only [lit]
    constructor
    · intro h; exact absurd h (by simp)
    · rintro ⟨a, h1, h2⟩
      cases a with
      | nil => simp at h2
      | cons _ _ => simp at h1
  | p :: ps, c :: s, r => by
    unfold lit
    by_cases hc : fold c = p
    · rw [if_pos hc, lit_iff ps s r]
      constructor
      · rintro ⟨a, h1, h2⟩
        exact ⟨c :: a, by rw [h1]; rfl, by simp [hc, h2]⟩
      · rintro ⟨a, h1, h2⟩
        cases a with
        | nil => simp at h2
        | cons x a =>
          simp only [List.cons_append, List.cons.injEq] at h1
          simp only [List.map_cons, List.cons.injEq] at h2
          exact ⟨a, h1.2, h2.2⟩
    · rw [if_neg hc]
      constructor
      · intro h; exact absurd h (by simp)
      · rintro ⟨a, h1, h2⟩
        cases a with
        | nil => simp at h2
        | cons x a =>
          simp only [List.cons_append, List.cons.injEq] at h1
          simp only [List.map_cons, List.cons.injEq] at h2
          exact absurd (h1.1 ▸ h2.1) hc

theorem lit_unique {p s a r a' r' : Str} (h1 : s = a ++ r) (h2 : a.map fold = p) (h3 : s = a' ++ r') (h4 : a'.map fold = p) :
    a = a' ∧ r = r' := by
  have hl : a.length = a'.length := by
    have e1 := congrArg List.length h2
    have e2 := congrArg List.length h4
    simp at e1 e2
    omega
  exact List.append_inj (h1.symm.trans h3) hl

theorem not_idChar_of_fold_quote {c : Char} (h : fold c = '"') : idChar c = false := by
  unfold idChar
  simp only [h]
  decide

theorem takeWhile_id (x b : Str) (hx : ∀ c ∈ x, idChar c = true) (hb : b.map fold = "\"></emu-xref>".toList) (rest : Str) :
    (x ++ (b ++ rest)).takeWhile idChar = x ∧ (x ++ (b ++ rest)).dropWhile idChar = b ++ rest := by
  cases b with
  | nil => simp at hb
  | cons q b =>
    have hq : fold q = '"' := by
      have e : (fold q :: b.map fold) = '"' :: "></emu-xref>".toList := hb
      simp only [List.cons.injEq] at e
      exact e.1
    have hn := not_idChar_of_fold_quote hq
    constructor
    · rw [List.takeWhile_append_of_pos hx, List.cons_append, List.takeWhile_cons, hn]; simp
    · rw [List.dropWhile_append_of_pos hx, List.cons_append, List.dropWhile_cons, hn]; simp

theorem matchXref_iff (s x r : Str) : matchXref s = some (x, r) ↔ ∃ u, s = u ++ r ∧ XrefTo x u := by
  constructor
  · intro h
    unfold matchXref at h
    cases h1 : lit "<emu-xref href=\"#".toList s with
    | none => rw [h1] at h; exact absurd h (by simp)
    | some t =>
      rw [h1] at h
      obtain ⟨a, ha, ha'⟩ := (lit_iff _ _ _).1 h1
      simp only at h
      by_cases hne : t.takeWhile idChar = []
      · rw [if_pos hne] at h; exact absurd h (by simp)
      · rw [if_neg hne] at h
        cases h2 : lit "\"></emu-xref>".toList (t.dropWhile idChar) with
        | none => rw [h2] at h; exact absurd h (by simp)
        | some r' =>
          rw [h2] at h
          injection h with h
          injection h with hx hr
          subst hx; subst hr
          obtain ⟨b, hb, hb'⟩ := (lit_iff _ _ _).1 h2
          refine ⟨a ++ (t.takeWhile idChar ++ b), ?_, a, b, rfl, ha', hb', hne, ?_⟩
          · rw [ha]
            conv => lhs; rw [← List.takeWhile_append_dropWhile (p := idChar) (l := t), hb]
            simp
          · intro c hc
            exact (List.all_eq_true.1 (List.all_takeWhile (p := idChar) (l := t))) c hc
  · rintro ⟨u, hs, a, b, rfl, ha, hb, hne, hx⟩
    obtain ⟨e1, e2⟩ := takeWhile_id x b hx hb r
    unfold matchXref
    rw [(lit_iff _ s (x ++ (b ++ r))).2 ⟨a, by rw [hs]; simp, ha⟩]
    simp only
    rw [e1, if_neg hne, e2, (lit_iff _ (b ++ r) r).2 ⟨b, rfl, hb⟩]

theorem matchTail_iff : ∀ (seps : List Str) (s u x : Str) (ids : List Str) (_ : XrefTo x u),
    matchTail seps s = some ids ↔ ∃ w rest, u ++ s = w ++ rest ∧ Listing seps (x :: ids) w
  | [], s, u, x, ids, hu => by
    simp only [matchTail, Option.some.injEq]
    constructor
    · rintro rfl; exact ⟨u, s, rfl, .one hu⟩
    · rintro ⟨w, rest, _, hl⟩
      cases hl
      rfl
  | sep :: seps, s, u, x, ids, hu => by
    unfold matchTail
    constructor
    · intro h
      cases h1 : lit sep s with
      | none => rw [h1] at h; exact absurd h (by simp)
      | some r =>
        rw [h1] at h
        simp only at h
        obtain ⟨v, hv, hv'⟩ := (lit_iff _ _ _).1 h1
        cases h2 : matchXref r with
        | none => rw [h2] at h; exact absurd h (by simp)
        | some q =>
          obtain ⟨y, r'⟩ := q
          rw [h2] at h
          simp only at h
          obtain ⟨u', hu', hx'⟩ := (matchXref_iff _ _ _).1 h2
          cases h3 : matchTail seps r' with
          | none => rw [h3] at h; exact absurd h (by simp)
          | some ys =>
            rw [h3] at h
            simp only [Option.map_some, Option.some.injEq] at h
            obtain ⟨w, rest, hw, hl⟩ := (matchTail_iff seps r' u' y ys hx').1 h3
            subst h
            refine ⟨u ++ (v ++ w), rest, ?_, .more hu hv' hl⟩
            rw [hv, hu', hw]; simp
    · rintro ⟨w, rest, hw, hl⟩
      cases hl with
      | @more _ u1 v _ _ _ w' hu1 hv hl' =>
        have hu1' := (matchXref_iff (u ++ s) x s).2 ⟨u, rfl, hu⟩
        have hu2' := (matchXref_iff (u ++ s) x (v ++ (w' ++ rest))).2 ⟨u1, by rw [hw]; simp, hu1⟩
        have hs : s = v ++ (w' ++ rest) := by
          have := hu1'.symm.trans hu2'
          injection this with this
          injection this
        rw [(lit_iff sep s (w' ++ rest)).2 ⟨v, hs, hv⟩]
        simp only
        cases hl' with
        | @one y u2 hy =>
          rw [(matchXref_iff _ y rest).2 ⟨w', rfl, hy⟩]
          rfl
        | @more y u2 v2 sep2 seps2 ys w2 hy hv2 hl2 =>
          rw [(matchXref_iff _ y (v2 ++ (w2 ++ rest))).2 ⟨u2, by simp, hy⟩]
          simp only
          rw [(matchTail_iff _ (v2 ++ (w2 ++ rest)) u2 y ys hy).2 ⟨u2 ++ (v2 ++ w2), rest, by simp, .more hy hv2 hl2⟩]
          rfl

theorem listing_ne {seps ids w} (h : Listing seps ids w) : ∃ x ys u t, ids = x :: ys ∧ w = u ++ t ∧ XrefTo x u := by
  cases h with
  | one h => exact ⟨_, _, _, [], rfl, by simp, h⟩
  | more h _ _ => exact ⟨_, _, _, _, rfl, rfl, h⟩

theorem matchPat_iff (w : Str) (seps : List Str) (s : Str) (ids : List Str) :
    matchPat (w ++ [' '], seps) s = some ids ↔ Fits (w, seps) s ids := by
  unfold matchPat Fits
  constructor
  · intro h
    cases h1 : lit (w ++ [' ']) s with
    | none => rw [h1] at h; exact absurd h (by simp)
    | some r =>
      rw [h1] at h
      simp only at h
      obtain ⟨a, ha, ha'⟩ := (lit_iff _ _ _).1 h1
      cases h2 : matchXref r with
      | none => rw [h2] at h; exact absurd h (by simp)
      | some q =>
        obtain ⟨y, r'⟩ := q
        rw [h2] at h
        simp only at h
        obtain ⟨u, hu, hx⟩ := (matchXref_iff _ _ _).1 h2
        cases h3 : matchTail seps r' with
        | none => rw [h3] at h; exact absurd h (by simp)
        | some ys =>
          rw [h3] at h
          simp only [Option.map_some, Option.some.injEq] at h
          subst h
          obtain ⟨l, rest, hl, hl'⟩ := (matchTail_iff seps r' u y ys hx).1 h3
          exact ⟨a, l, rest, by rw [ha, hu, hl], ha', hl'⟩
  · rintro ⟨a, l, rest, hs, ha, hl⟩
    simp only at ha hl ⊢
    rw [(lit_iff _ s (l ++ rest)).2 ⟨a, hs, ha⟩]
    simp only
    obtain ⟨x, ys, u, t, rfl, rfl, hx⟩ := listing_ne hl
    rw [(matchXref_iff _ x (t ++ rest)).2 ⟨u, by simp, hx⟩]
    simp only
    rw [(matchTail_iff seps (t ++ rest) u x ys hx).2 ⟨u ++ t, rest, by simp, hl⟩]
    rfl

theorem findSome_iff {α β γ : Type} (f : α → Option β) (g : γ → α) (P : γ → β → Prop) (hP : ∀ c b, f (g c) = some b ↔ P c b) :
    ∀ (l : List γ) (b : β), (l.map g).findSome? f = some b ↔
      ∃ before c after, l = before ++ c :: after ∧ P c b ∧ ∀ c' ∈ before, ∀ b', ¬ P c' b'
  | [], b => by simp
  | c :: l, b => by
    rw [List.map_cons, List.findSome?_cons]
    constructor
    · intro h
      cases hf : f (g c) with
      | some b' =>
        rw [hf] at h
        simp only [Option.some.injEq] at h
        subst h
        exact ⟨[], c, l, rfl, (hP _ _).1 hf, by simp⟩
      | none =>
        rw [hf] at h
        obtain ⟨p, c', q, h1, h2, h3⟩ := (findSome_iff f g P hP l b).1 h
        refine ⟨c :: p, c', q, by rw [h1]; rfl, h2, ?_⟩
        intro c'' hc b' hb
        rcases List.mem_cons.1 hc with rfl | hc
        · rw [(hP _ _).2 hb] at hf; exact absurd hf (by simp)
        · exact h3 _ hc _ hb
    · rintro ⟨p, c', q, h1, h2, h3⟩
      cases p with
      | nil =>
        simp only [List.nil_append, List.cons.injEq] at h1
        rw [h1.1, (hP _ _).2 h2]
      | cons d p =>
        simp only [List.cons_append, List.cons.injEq] at h1
        have hn : f (g c) = none := by
          cases hf : f (g c) with
          | none => rfl
          | some b' => exact absurd ((hP _ _).1 hf) (h3 c (by rw [h1.1]; exact List.mem_cons_self) b')
        rw [hn]
        exact (findSome_iff f g P hP l b).2 ⟨p, c', q, h1.2, h2, fun x hx => h3 x (List.mem_cons_of_mem _ hx)⟩

theorem stepIds_iff (s : Str) (ids : List Str) : stepIds s = some ids ↔ RefersTo s ids := by
  have hp : patterns = forms.map (fun f => (f.1 ++ [' '], f.2)) := by decide
  unfold stepIds RefersTo
  rw [hp]
  exact findSome_iff _ _ (fun f ids => Fits f s ids) (fun f ids => matchPat_iff f.1 f.2 s ids) forms ids

theorem listing_idChar {seps ids w} (h : Listing seps ids w) : ∀ x ∈ ids, x ≠ [] ∧ ∀ c ∈ x, idChar c = true := by
  induction h with
  | one h =>
    obtain ⟨_, _, _, _, _, h1, h2⟩ := h
    intro y hy
    rw [List.mem_singleton.1 hy]
    exact ⟨h1, h2⟩
  | more h _ _ ih =>
    obtain ⟨_, _, _, _, _, h1, h2⟩ := h
    intro y hy
    rcases List.mem_cons.1 hy with rfl | hy
    · exact ⟨h1, h2⟩
    · exact ih y hy

theorem refersTo_idChar {s ids} (h : RefersTo s ids) : ∀ x ∈ ids, x ≠ [] ∧ ∀ c ∈ x, idChar c = true := by
  obtain ⟨_, _, _, _, ⟨_, _, _, _, _, hl⟩, _⟩ := h
  exact listing_idChar hl

end Verif.StepRefs
