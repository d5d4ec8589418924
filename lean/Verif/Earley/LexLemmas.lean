import Verif.Earley.LexSpec
import Verif.Earley.NoCrash
import Verif.Earley.Terminate
/-! # The lexical provider presents exactly the text -/
namespace Verif.Earley

theorem characterNamed_iff {n : String} {ch : Char} : characterNamed n = some ch ↔ (n, ch) ∈ namedChars := by
  unfold characterNamed namedChars
  constructor
  · intro h
    repeat' split at h
    all_goals first | (injection h with h; subst h; simp [*]) | cases h
  · intro h
    simp at h
    rcases h with ⟨rfl, rfl⟩ | ⟨rfl, rfl⟩ | ⟨rfl, rfl⟩ | ⟨rfl, rfl⟩ | ⟨rfl, rfl⟩ | ⟨rfl, rfl⟩ | ⟨rfl, rfl⟩ | ⟨rfl, rfl⟩ <;> rfl

theorem GoodTerm.ne_final {t : Term} (h : GoodTerm t) : t ≠ endOfInput ∧ t ≠ acceptance := by
  constructor <;> rintro rfl <;> simp [GoodTerm, endOfInput, acceptance, namedChars] at h

theorem Stands.good {env ch t} (h : Stands env ch t) : GoodTerm t := by
  cases t with
  | lit s => exact ⟨ch, h⟩
  | named n =>
    rcases h with h | ⟨h, _⟩
    · exact .inr ⟨ch, h⟩
    · exact .inl h
  | uRange lo hi => trivial
  | uProp p =>
    rcases h with ⟨h, _⟩ | ⟨h, _⟩
    · exact .inl h
    · exact .inr h

theorem uProp_spec (env : LexEnv) (p : String) (ch : Char) (h : p = "ID_Start" ∨ p = "ID_Continue") :
    ∃ b, uPropMatches env p ch = some b ∧ (b = true ↔ Stands env ch (.uProp p)) := by
  rcases h with rfl | rfl
  · refine ⟨_, if_pos rfl, ?_⟩
    simp only [Stands, letterCats]
    simp
  · refine ⟨_, by unfold uPropMatches; rw [if_neg (by decide), if_pos rfl], ?_⟩
    have hne : ¬ ("ID_Continue" = "ID_Start") := by decide
    simp only [Stands, letterCats, markCats, hne, false_and, false_or, true_and]
    simp only [Bool.and_eq_true, Bool.or_eq_true, decide_eq_true_eq, List.mem_append]
    constructor
    · rintro ⟨(h1 | h1) | h1, h2⟩
      · refine ⟨h2, .inl ?_⟩
        simp at h1 ⊢
        rcases h1 with h1 | h1 | h1 | h1 | h1 | h1 | h1 | h1 | h1 | h1 <;> simp [h1]
      · exact ⟨h2, .inr (.inl h1)⟩
      · exact ⟨h2, .inr (.inr h1)⟩
    · rintro ⟨h2, h1 | h1 | h1⟩
      · refine ⟨.inl (.inl ?_), h2⟩
        simp at h1 ⊢
        rcases h1 with (h1 | h1 | h1 | h1 | h1 | h1) | h1 | h1 | h1 | h1 <;> simp [h1]
      · exact ⟨.inl (.inr h1), h2⟩
      · exact ⟨.inr h1, h2⟩

theorem lexMatches_spec (env : LexEnv) (ch : Char) {t : Term} (h : GoodTerm t) :
    ∃ b, lexMatches env t ch = some b ∧ (b = true ↔ Stands env ch t) := by
  unfold lexMatches
  rw [if_neg h.ne_final.2]
  cases t with
  | lit s =>
    obtain ⟨c, hc⟩ := h
    refine ⟨decide (c = ch), by simp [hc], ?_⟩
    simp [Stands, hc]
  | named n =>
    dsimp only
    split
    · rename_i hn
      refine ⟨_, rfl, ?_⟩
      subst hn
      simp [Stands, namedChars]
    · rename_i hn
      rcases h with h | ⟨c, hc⟩
      · exact absurd h hn
      · have hc' := characterNamed_iff.2 hc
        refine ⟨decide (ch = c), by simp [hc'], ?_⟩
        simp only [decide_eq_true_eq, Stands]
        constructor
        · rintro rfl; exact .inl hc
        · rintro (h | h)
          · have := characterNamed_iff.2 h
            rw [hc'] at this; injection this with this; exact this.symm
          · exact absurd h.1 hn
  | uRange lo hi => exact ⟨_, rfl, by simp [Stands]⟩
  | uProp p => exact uProp_spec env p ch h

theorem lexMatches_acceptance (env : LexEnv) (ch : Char) : lexMatches env acceptance ch = some false := by
  simp [lexMatches]

theorem lexRats_spec (env : LexEnv) (ch : Char) (pos : Nat) : ∀ {ts : List Term},
    (∀ t ∈ ts, GoodTerm t ∨ t = acceptance) → ∃ r, lexRats env ch pos ts = some r ∧
      ∀ q, q ∈ r ↔ q.1 ∈ ts ∧ Stands env ch q.1 ∧ q.2 = ⟨q.1, pos, pos + 1⟩ := by
  intro ts
  induction ts with
  | nil => intro _; exact ⟨[], rfl, by simp⟩
  | cons t ts ih =>
    intro h
    obtain ⟨r, h1, h2⟩ := ih (fun x hx => h x (List.mem_cons_of_mem _ hx))
    have hm : ∃ b, lexMatches env t ch = some b ∧ (b = true ↔ Stands env ch t) := by
      rcases h t List.mem_cons_self with hg | rfl
      · exact lexMatches_spec env ch hg
      · refine ⟨false, lexMatches_acceptance _ _, ?_⟩
        simp [Stands, acceptance, namedChars]
    obtain ⟨b, hb, hs⟩ := hm
    refine ⟨if b then (t, ⟨t, pos, pos + 1⟩) :: r else r, by simp [lexRats, hb, h1], ?_⟩
    rintro ⟨t', l⟩
    cases b with
    | true =>
      have hst := hs.1 rfl
      simp only [if_true, List.mem_cons, h2, _root_.Prod.mk.injEq]
      constructor
      · rintro (⟨rfl, rfl⟩ | ⟨a, b, c⟩)
        · exact ⟨.inl rfl, hst, rfl⟩
        · exact ⟨.inr a, b, c⟩
      · rintro ⟨rfl | a, b, c⟩
        · exact .inl ⟨rfl, c⟩
        · exact .inr ⟨a, b, c⟩
    | false =>
      simp only [Bool.false_eq_true, if_false, h2, List.mem_cons]
      constructor
      · rintro ⟨a, b, c⟩; exact ⟨.inr a, b, c⟩
      · rintro ⟨rfl | a, b, c⟩
        · exact absurd (hs.2 b) (by simp)
        · exact ⟨a, b, c⟩

theorem anyMatch_spec {α : Type} {f : α → Option Bool} {P : α → Prop} : ∀ {l : List α},
    (∀ a ∈ l, ∃ b, f a = some b ∧ (b = true ↔ P a)) →
    ∃ b, anyMatch f l = some b ∧ (b = true ↔ ∃ a ∈ l, P a) := by
  intro l
  induction l with
  | nil => intro _; exact ⟨false, rfl, by simp⟩
  | cons a l ih =>
    intro h
    obtain ⟨b, hb, hp⟩ := h a List.mem_cons_self
    obtain ⟨b', hb', hp'⟩ := ih (fun x hx => h x (List.mem_cons_of_mem _ hx))
    cases b with
    | true => exact ⟨true, by simp [anyMatch, hb], by simp [hp.1 rfl]⟩
    | false =>
      refine ⟨b', by simp [anyMatch, hb, hb'], ?_⟩
      rw [hp']
      have : ¬ P a := fun hh => absurd (hp.2 hh) (by simp)
      simp [this]

theorem anyMatch_congr_true {α : Type} {f : α → Option Bool} : ∀ {l : List α}, anyMatch f l = some false →
    ∀ a ∈ l, f a = some false := by
  intro l
  induction l with
  | nil => intro _ a ha; cases ha
  | cons x l ih =>
    intro h a ha
    simp only [anyMatch] at h
    split at h
    · cases h
    · cases h
    · rename_i hx
      rcases List.mem_cons.1 ha with rfl | ha
      · exact hx
      · exact ih h a ha

/-! ## Hexadecimal numerals -/

theorem hexDigit_iff {c : Char} {d : Nat} : hexDigit c = some d ↔ (c, d) ∈ hexTable := by
  have hof : ∀ n : Nat, c.toNat = n → c = Char.ofNat n := fun n h => by rw [← h, Char.ofNat_toNat]
  constructor
  · intro h
    rw [hexDigit] at h
    split at h
    · rename_i hc
      have h1 : 48 ≤ c.toNat := hc.1
      have h2 : c.toNat ≤ 57 := hc.2
      have h3 : c.toNat - 48 = d := Option.some.inj h
      have : c.toNat = 48 ∨ c.toNat = 49 ∨ c.toNat = 50 ∨ c.toNat = 51 ∨ c.toNat = 52 ∨ c.toNat = 53 ∨
        c.toNat = 54 ∨ c.toNat = 55 ∨ c.toNat = 56 ∨ c.toNat = 57 := by omega
      rcases this with e | e | e | e | e | e | e | e | e | e <;> rw [e] at h3 <;> rw [hof _ e, ← h3] <;> decide
    · split at h
      · rename_i hc
        have h1 : 97 ≤ c.toNat := hc.1
        have h2 : c.toNat ≤ 102 := hc.2
        have h3 : c.toNat - 97 + 10 = d := Option.some.inj h
        have : c.toNat = 97 ∨ c.toNat = 98 ∨ c.toNat = 99 ∨ c.toNat = 100 ∨ c.toNat = 101 ∨ c.toNat = 102 := by omega
        rcases this with e | e | e | e | e | e <;> rw [e] at h3 <;> rw [hof _ e, ← h3] <;> decide
      · split at h
        · rename_i hc
          have h1 : 65 ≤ c.toNat := hc.1
          have h2 : c.toNat ≤ 70 := hc.2
          have h3 : c.toNat - 65 + 10 = d := Option.some.inj h
          have : c.toNat = 65 ∨ c.toNat = 66 ∨ c.toNat = 67 ∨ c.toNat = 68 ∨ c.toNat = 69 ∨ c.toNat = 70 := by omega
          rcases this with e | e | e | e | e | e <;> rw [e] at h3 <;> rw [hof _ e, ← h3] <;> decide
        · cases h
  · intro h
    have : ∀ x ∈ hexTable, hexDigit x.1 = some x.2 := by decide
    exact this _ h

/-- One digit more. -/
def hexStep (acc : Option Nat) (c : Char) : Option Nat :=
  match acc, hexDigit c with
  | some v, some d => some (16 * v + d)
  | _, _ => none

theorem hexValue_eq (cs : List Char) : hexValue cs = if cs = [] then none else cs.foldl hexStep (some 0) := rfl

theorem hexFold_none (cs : List Char) : cs.foldl hexStep none = none := by
  induction cs with
  | nil => rfl
  | cons c cs ih => simp only [List.foldl_cons]; exact ih

theorem hexNumeral_ne {cs v} (h : HexNumeral cs v) : cs ≠ [] := by cases h <;> simp

theorem hexValue_of {cs v} (h : HexNumeral cs v) : hexValue cs = some v := by
  induction h with
  | one hd => simp [hexValue_eq, hexStep, hexDigit_iff.mpr hd]
  | snoc h hd ih =>
    rw [hexValue_eq, if_neg (hexNumeral_ne h)] at ih
    simp [hexValue_eq, ih, hexStep, hexDigit_iff.mpr hd]

theorem hexNumeral_of : ∀ (n : Nat) (cs : List Char) v, cs.length = n → hexValue cs = some v → HexNumeral cs v := by
  intro n
  induction n with
  | zero => intro cs v hl h; rw [List.length_eq_zero_iff.1 hl] at h; simp [hexValue_eq] at h
  | succ n ih =>
    intro cs v hl h
    rcases List.eq_nil_or_concat cs with rfl | ⟨ds, c, rfl⟩
    · simp at hl
    · rw [List.concat_eq_append] at *
      have hd : ds.length = n := by simpa using hl
      simp only [hexValue_eq, List.append_eq_nil_iff, List.cons_ne_nil, and_false, if_false,
        List.foldl_append, List.foldl_cons, List.foldl_nil] at h
      generalize hf : ds.foldl hexStep (some 0) = acc at h
      unfold hexStep at h
      split at h
      · rename_i v0 d hd'
        injection h with h; subst h
        by_cases hn : ds = []
        · subst hn
          simp at hf; subst hf
          simpa using HexNumeral.one (hexDigit_iff.mp hd')
        · exact .snoc (ih ds v0 hd (by rw [hexValue_eq, if_neg hn, hf])) (hexDigit_iff.mp hd')
      · cases h

theorem hexValue_iff {cs v} : hexValue cs = some v ↔ HexNumeral cs v :=
  ⟨fun h => hexNumeral_of _ cs v rfl h, hexValue_of⟩

/-! ## Constraints -/

theorem onlyIfTable_spec {c : String} :
    (∀ sym test, onlyIfTable c = some (sym, test) → ∃ test', (c, sym, test') ∈ onlyIfs ∧ ∀ v, test v = true ↔ test' v) ∧
    (∀ sym test', (c, sym, test') ∈ onlyIfs → ∃ test, onlyIfTable c = some (sym, test) ∧ ∀ v, test v = true ↔ test' v) := by
  constructor
  · intro sym test h
    unfold onlyIfTable at h
    split at h
    · rename_i hc
      injection h with h; injection h with h1 h2; subst h1 h2 hc
      exact ⟨fun v => v ≤ 0x10FFFF, by simp [onlyIfs], by simp⟩
    split at h
    · rename_i hc
      injection h with h; injection h with h1 h2; subst h1 h2 hc
      exact ⟨fun v => 0x10FFFF < v, by simp [onlyIfs], by simp⟩
    split at h
    · rename_i hc
      injection h with h; injection h with h1 h2; subst h1 h2 hc
      exact ⟨fun v => 0xD800 ≤ v ∧ v ≤ 0xDBFF, by simp [onlyIfs], by simp⟩
    split at h
    · rename_i hc
      injection h with h; injection h with h1 h2; subst h1 h2 hc
      exact ⟨fun v => 0xDC00 ≤ v ∧ v ≤ 0xDFFF, by simp [onlyIfs], by simp⟩
    split at h
    · rename_i hc
      injection h with h; injection h with h1 h2; subst h1 h2 hc
      exact ⟨fun v => v < 0xD800 ∨ 0xDFFF < v, by simp [onlyIfs], by intro v; simp [Nat.lt_iff_add_one_le] <;> omega⟩
    · cases h
  · intro sym test' h
    simp only [onlyIfs, List.mem_cons, _root_.Prod.mk.injEq, List.not_mem_nil, or_false] at h
    rcases h with ⟨rfl, rfl, rfl⟩ | ⟨rfl, rfl, rfl⟩ | ⟨rfl, rfl, rfl⟩ | ⟨rfl, rfl, rfl⟩ | ⟨rfl, rfl, rfl⟩
    · exact ⟨_, if_pos rfl, by simp⟩
    · exact ⟨_, by unfold onlyIfTable; rw [if_neg (by decide), if_pos rfl], by simp⟩
    · exact ⟨_, by unfold onlyIfTable; rw [if_neg (by decide), if_neg (by decide), if_pos rfl], by simp⟩
    · exact ⟨_, by unfold onlyIfTable; rw [if_neg (by decide), if_neg (by decide), if_neg (by decide), if_pos rfl], by simp⟩
    · exact ⟨_, by unfold onlyIfTable; rw [if_neg (by decide), if_neg (by decide), if_neg (by decide), if_neg (by decide), if_pos rfl], by intro v; simp [Nat.lt_iff_add_one_le] <;> omega⟩

theorem exMatches_spec (env : LexEnv) (ch : Char) {x : Ex} (h : match x with
    | .term t => GoodTerm t
    | .nt n => (env.charSet n).isSome = true) :
    ∃ b, exMatches env ch x = some b ∧ (b = true ↔ Excludes env ch x) := by
  cases x with
  | term t => exact lexMatches_spec env ch h
  | nt n =>
    obtain ⟨cs, hcs⟩ := Option.isSome_iff_exists.1 h
    refine ⟨decide (ch ∈ cs), by simp [exMatches, hcs], ?_⟩
    simp [Excludes, hcs]

theorem laMatches_spec (env : LexEnv) (ch : Char) {ts : List La} (h : ∃ t, ts = [La.term t] ∧ GoodTerm t) :
    ∃ b, laMatches env ch ts = some b ∧ (b = true ↔ ∃ t, ts = [La.term t] ∧ Stands env ch t) := by
  obtain ⟨t, rfl, hg⟩ := h
  obtain ⟨b, h1, h2⟩ := lexMatches_spec env ch hg
  refine ⟨b, h1, h2.trans ?_⟩
  constructor
  · intro h; exact ⟨t, rfl, h⟩
  · rintro ⟨t', he, h⟩
    injection he with he; injection he with he; subst he; exact h

/-- Checking a sensible constraint says whether it is satisfied. -/
theorem lexCheck_spec (env : LexEnv) (text : List Char) (pos : Nat) (prev : Option (Node LexLeaf)) {con : Con}
    (h : GoodCon env con) : lexCheck env text prev pos con = some true ↔ Satisfied env text pos prev con := by
  cases con with
  | noLT => exact h.elim
  | butNot b =>
    simp only [lexCheck, checkButNot, Satisfied]
    cases prev with
    | none => simp
    | some n =>
      dsimp only
      split
      · rename_i ch hch
        obtain ⟨v, h1, h2⟩ := anyMatch_spec (f := exMatches env ch) (P := Excludes env ch) (l := b)
          (fun x hx => exMatches_spec env ch (h x hx))
        rw [h1]
        simp only [Option.map_some, Option.some.injEq, Bool.not_eq_true', Option.some.injEq]
        constructor
        · intro hv
          refine ⟨n, ch, rfl, hch, ?_⟩
          intro x hx he
          have := h2.2 ⟨x, hx, he⟩
          rw [hv] at this; cases this
        · rintro ⟨n', ch', hn, hch', hall⟩
          subst hn
          rw [hch] at hch'; injection hch' with hch' _; subst hch'
          cases v with
          | false => rfl
          | true => obtain ⟨x, hx, he⟩ := h2.1 rfl; exact absurd he (hall x hx)
      · rename_i hno
        constructor
        · intro hh; cases hh
        · rintro ⟨n', ch', hn, hch', _⟩
          injection hn with hn; subst hn
          exact absurd hch' (hno ch')
  | butOnlyIf c =>
    simp only [lexCheck, checkOnlyIf, Satisfied]
    split
    · rename_i hc; simp [hc]
    · rename_i hc
      simp only [hc, false_or]
      obtain ⟨t1, t2⟩ := @onlyIfTable_spec c
      split
      · rename_i sym test n htab
        obtain ⟨test', hm, hiff⟩ := t1 sym test htab
        split
        · rename_i hs
          cases n with
          | leaf l => simp [hasSymbol] at hs
          | nt p bits s e cs =>
            simp only [hasSymbol, decide_eq_true_eq] at hs
            constructor
            · intro hh
              rw [Option.map_eq_some_iff] at hh
              obtain ⟨v, hv, ht⟩ := hh
              exact ⟨sym, test', p, bits, s, e, cs, v, hm, rfl, hs, hexValue_iff.1 hv, (hiff v).1 ht⟩
            · rintro ⟨sym', test'', p', bits', s', e', cs', v, hm', hn, hp, hv, ht⟩
              injection hn with hn; injection hn with e1 e2 e3 e4 e5; subst e1 e2 e3 e4 e5
              obtain ⟨test2, htab2, hiff2⟩ := t2 _ _ hm'
              rw [htab] at htab2; injection htab2 with htab2; injection htab2 with e1 e2; subst e1 e2
              rw [hexValue_iff.2 hv]
              simp [(hiff2 v).2 ht]
        · rename_i hs
          constructor
          · intro hh; cases hh
          · rintro ⟨sym', test'', p', bits', s', e', cs', v, hm', hn, hp, hv, ht⟩
            obtain ⟨test2, htab2, hiff2⟩ := t2 _ _ hm'
            rw [htab] at htab2; injection htab2 with htab2; injection htab2 with e1 e2; subst e1
            injection hn with hn; subst hn
            exact absurd (by simp [hasSymbol, hp]) hs
      · rename_i hno
        constructor
        · intro hh; cases hh
        · rintro ⟨sym', test'', p', bits', s', e', cs', v, hm', hn, hp, hv, ht⟩
          obtain ⟨test2, htab2, hiff2⟩ := t2 _ _ hm'
          exact absurd hn (hno _ _ _ htab2)
  | lookahead m tss =>
    simp only [lexCheck, checkLookahead]
    cases hp : text[pos]? with
    | none => cases m <;> simp [Satisfied, hp]
    | some ch =>
      obtain ⟨v, h1, h2⟩ := anyMatch_spec (f := laMatches env ch) (l := tss)
        (P := fun ts => ∃ t, ts = [La.term t] ∧ Stands env ch t) (fun x hx => laMatches_spec env ch (h x hx))
      dsimp only
      rw [h1]
      cases m with
      | true =>
        simp only [Satisfied, Option.map_some, if_true, Option.some.injEq]
        rw [h2]
        constructor
        · rintro ⟨ts, hts, t, rfl, hs⟩; exact ⟨ch, hp, t, hts, hs⟩
        · rintro ⟨ch', hch, t, hts, hs⟩
          rw [hp] at hch; injection hch with hch; subst hch
          exact ⟨_, hts, t, rfl, hs⟩
      | false =>
        simp only [Satisfied, Option.map_some, Bool.false_eq_true, if_false, Option.some.injEq, Bool.not_eq_true']
        constructor
        · intro hv ch' hch t hts hs
          rw [hp] at hch; injection hch with hch; subst hch
          have := h2.2 ⟨_, hts, t, rfl, hs⟩
          rw [hv] at this; cases this
        · intro hall
          cases v with
          | false => rfl
          | true => obtain ⟨ts, hts, t, rfl, hs⟩ := h2.1 rfl; exact absurd hs (hall ch hp t hts)

/-- Checking a sensible constraint that applies never fails. -/
theorem lexCheck_total (env : LexEnv) (text : List Char) (pos : Nat) (prev : Option (Node LexLeaf)) {con : Con}
    (h : GoodCon env con) (ha : Applies text prev con) : ∃ b, lexCheck env text prev pos con = some b := by
  cases con with
  | noLT => exact h.elim
  | butNot b =>
    obtain ⟨n, ch, rfl, hch⟩ := ha
    obtain ⟨v, h1, h2⟩ := anyMatch_spec (f := exMatches env ch) (P := Excludes env ch) (l := b)
      (fun x hx => exMatches_spec env ch (h x hx))
    exact ⟨!v, by simp [lexCheck, checkButNot, hch, h1]⟩
  | butOnlyIf c =>
    simp only [lexCheck, checkOnlyIf]
    rcases h with hc | ⟨sym, test', hm⟩
    · exact ⟨true, if_pos hc⟩
    · split
      · exact ⟨true, rfl⟩
      · rename_i hc
        rcases ha with ha | ha
        · exact absurd ha hc
        · obtain ⟨p, bits, s, e, cs, v, rfl, hp, hv⟩ := ha sym test' hm
          obtain ⟨test, htab, _⟩ := (@onlyIfTable_spec c).2 _ _ hm
          rw [htab]
          exact ⟨test v, by simp [hasSymbol, hp, hexValue_iff.2 hv]⟩
  | lookahead m tss =>
    simp only [lexCheck, checkLookahead]
    cases hp : text[pos]? with
    | none => exact ⟨_, rfl⟩
    | some ch =>
      obtain ⟨v, h1, h2⟩ := anyMatch_spec (f := laMatches env ch) (l := tss)
        (P := fun ts => ∃ t, ts = [La.term t] ∧ Stands env ch t) (fun x hx => laMatches_spec env ch (h x hx))
      exact ⟨_, by dsimp only; rw [h1]; rfl⟩

end Verif.Earley
