import Verif.CodePoints.Spec
/-!
# C92: A code point is matched by a nonterminal just if it can be derived from it
-/
namespace Verif.CodePoints

theorem rhss_iff {n : Str} {rs : List Rhs} : ∀ {g : Grammar}, OneEach g → (rhss g n = some rs ↔ (n, rs) ∈ g)
  | [], _ => by simp [rhss]
  | (m, ss) :: g, h => by
    have hn := List.nodup_cons.1 h
    have ih := rhss_iff (n := n) (rs := rs) (g := g) hn.2
    unfold rhss at ih ⊢
    rw [List.find?_cons]
    by_cases hm : m = n
    · subst hm
      have hx : ∀ x, (m, x) ∉ g := fun x hx => hn.1 (List.mem_map.2 ⟨_, hx, rfl⟩)
      simp [hx, eq_comm]
    · have : ¬ n = m := fun e => hm e.symm
      simp only [hm, decide_false, List.mem_cons, Prod.mk.injEq, this, false_and, false_or]
      exact ih

theorem idStart_iff (u : Ucd) (p : Nat) : idStart u p = true ↔ IdStart u p := by
  unfold idStart IdStart
  simp only [Bool.and_eq_true, Bool.or_eq_true, Bool.not_eq_true', List.contains_iff_mem, List.mem_cons, List.not_mem_nil, or_false, and_assoc, or_assoc]

/-- C92: ID_Start is what the Unicode standard says. -/
theorem c92_start (u : Ucd) (p : Nat) (b : Bool) : hasProperty u p "ID_Start".toList = some b ↔ (b = true ↔ IdStart u p) := by
  unfold hasProperty
  rw [if_pos rfl, ← idStart_iff]
  cases b <;> cases idStart u p <;> simp

/-- C92: ID_Continue is what the Unicode standard says. -/
theorem c92_continue (u : Ucd) (p : Nat) (b : Bool) : hasProperty u p "ID_Continue".toList = some b ↔ (b = true ↔ IdContinue u p) := by
  have h : ((idStart u p || ["Mn".toList, "Mc".toList, "Nd".toList, "Pc".toList].contains (u.category p) || u.otherContinue p) &&
      !u.syntax' p && !u.space p) = true ↔ IdContinue u p := by
    unfold IdContinue
    rw [← idStart_iff]
    simp only [Bool.and_eq_true, Bool.or_eq_true, Bool.not_eq_true', List.contains_iff_mem, List.mem_cons, List.not_mem_nil, or_false, and_assoc, or_assoc]
  unfold hasProperty
  rw [if_neg (by decide), if_pos rfl, ← h]
  generalize ((idStart u p || _ || _) && _ && _) = x
  cases b <;> cases x <;> simp

/-- C92: no other property is known. -/
theorem c92_unknown (u : Ucd) (p : Nat) (n : Str) : hasProperty u p n = none ↔ n ≠ "ID_Start".toList ∧ n ≠ "ID_Continue".toList := by
  unfold hasProperty
  by_cases h : n = "ID_Start".toList
  · rw [if_pos h]; simp [h]
  · rw [if_neg h]
    by_cases h' : n = "ID_Continue".toList
    · rw [if_pos h']; simp [h']
    · rw [if_neg h']; simp only [true_iff]; exact ⟨h, h'⟩

/-- What makes a line match. -/
inductive Hit (u : Ucd) (q : Str → Prop) (p : Nat) : Rhs → Prop where
  | char : Hit u q p ⟨true, [.backticked [p]]⟩
  | start : IdStart u p → Hit u q p ⟨true, [.uProp "ID_Start".toList]⟩
  | continue : IdContinue u p → Hit u q p ⟨true, [.uProp "ID_Continue".toList]⟩
  | zwnj : p = 0x200c → Hit u q p ⟨true, [.named "ZWNJ".toList]⟩
  | zwj : p = 0x200d → Hit u q p ⟨true, [.named "ZWJ".toList]⟩
  | nt (m : Str) : q m → Hit u q p ⟨true, [.gnt m 0]⟩

theorem named_iff (n : Str) (q : Nat) : namedChar n = some q ↔ n = "ZWNJ".toList ∧ q = 0x200c ∨ n = "ZWJ".toList ∧ q = 0x200d := by
  unfold namedChar
  by_cases h : n = "ZWNJ".toList
  · rw [if_pos h, h]
    constructor
    · intro e; exact .inl ⟨rfl, (Option.some.inj e).symm⟩
    · rintro (⟨_, rfl⟩ | ⟨e, _⟩)
      · rfl
      · exact absurd e (by decide)
  · rw [if_neg h]
    by_cases h' : n = "ZWJ".toList
    · rw [if_pos h']
      constructor
      · intro e; exact .inr ⟨h', (Option.some.inj e).symm⟩
      · rintro (⟨e, _⟩ | ⟨_, rfl⟩)
        · exact absurd e h
        · rfl
    · rw [if_neg h']
      constructor
      · intro e; exact nomatch e
      · rintro (⟨e, _⟩ | ⟨e, _⟩)
        · exact absurd e h
        · exact absurd e h'

theorem matchesRhs_iff {u : Ucd} {nt : Str → Option Bool} {q : Str → Prop} {p : Nat} (hq : ∀ m b, nt m = some b → (b = true ↔ q m))
    {r : Rhs} {b : Bool} (h : matchesRhs u nt p r = some b) : b = true ↔ Hit u q p r := by
  obtain ⟨l, is⟩ := r
  unfold matchesRhs at h
  dsimp only at h
  cases l with
  | false => exact nomatch h
  | true =>
    rw [if_pos rfl] at h
    split at h
    · rename_i n k
      by_cases hk : k = 0
      · subst hk
        rw [if_pos rfl] at h
        rw [hq n b h]
        exact ⟨fun hn => .nt n hn, fun hh => by cases hh; assumption⟩
      · rw [if_neg hk] at h; exact nomatch h
    · rename_i cs
      obtain rfl := Option.some.inj h
      rw [decide_eq_true_eq]
      exact ⟨fun e => e ▸ .char, fun hh => by cases hh; rfl⟩
    · rename_i n
      by_cases h1 : n = "ID_Start".toList
      · subst h1
        rw [(c92_start u p b).1 h]
        exact ⟨fun e => .start e, fun hh => by
          generalize hn : "ID_Start".toList = x at hh
          cases hh
          · assumption
          · exact absurd hn (by decide)⟩
      · by_cases h2 : n = "ID_Continue".toList
        · subst h2
          rw [(c92_continue u p b).1 h]
          exact ⟨fun e => .continue e, fun hh => by
            generalize hn : "ID_Continue".toList = x at hh
            cases hh
            · exact absurd hn (by decide)
            · assumption⟩
        · rw [(c92_unknown u p n).2 ⟨h1, h2⟩] at h; exact nomatch h
    · rename_i n
      cases hc : namedChar n with
      | none => rw [hc] at h; exact nomatch h
      | some c =>
        rw [hc] at h
        obtain rfl := Option.some.inj h
        rw [decide_eq_true_eq]
        rcases (named_iff n c).1 hc with ⟨rfl, rfl⟩ | ⟨rfl, rfl⟩
        · exact ⟨fun e => .zwnj e, fun hh => by
            generalize hn : "ZWNJ".toList = x at hh
            cases hh
            · assumption
            · exact absurd hn (by decide)⟩
        · exact ⟨fun e => .zwj e, fun hh => by
            generalize hn : "ZWJ".toList = x at hh
            cases hh
            · exact absurd hn (by decide)
            · assumption⟩
    · exact nomatch h

theorem anyRhs_iff {f : Rhs → Option Bool} {q : Rhs → Prop} (hf : ∀ r b, f r = some b → (b = true ↔ q r)) :
    ∀ {rs : List Rhs} {b : Bool}, anyRhs f rs = some b → (b = true ↔ ∃ r ∈ rs, q r)
  | [], b, h => by
    obtain rfl := Option.some.inj h
    simp
  | r :: rs, b, h => by
    unfold anyRhs at h
    cases hr : f r with
    | none => rw [hr] at h; exact nomatch h
    | some c =>
      rw [hr, Option.bind_some] at h
      have hc := hf r c hr
      cases c with
      | true =>
        obtain rfl := Option.some.inj h
        simp only [true_iff]
        exact ⟨r, .head _, hc.1 rfl⟩
      | false =>
        rw [anyRhs_iff hf (rs := rs) h]
        constructor
        · rintro ⟨s, hs, hq⟩; exact ⟨s, .tail _ hs, hq⟩
        · rintro ⟨s, hs, hq⟩
          rcases List.mem_cons.1 hs with rfl | hs
          · exact nomatch hc.2 hq
          · exact ⟨s, hs, hq⟩

theorem derives_iff {u : Ucd} {g : Grammar} {p : Nat} {n : Str} : Derives u g p n ↔ ∃ rs, (n, rs) ∈ g ∧ ∃ r ∈ rs, Hit u (Derives u g p) p r := by
  constructor
  · intro h
    cases h with
    | char h1 h2 => exact ⟨_, h1, _, h2, .char⟩
    | start h1 h2 h3 => exact ⟨_, h1, _, h2, .start h3⟩
    | «continue» h1 h2 h3 => exact ⟨_, h1, _, h2, .continue h3⟩
    | zwnj h1 h2 h3 => exact ⟨_, h1, _, h2, .zwnj h3⟩
    | zwj h1 h2 h3 => exact ⟨_, h1, _, h2, .zwj h3⟩
    | nt h1 h2 h3 => exact ⟨_, h1, _, h2, .nt _ h3⟩
  · rintro ⟨rs, h1, r, h2, h⟩
    cases h with
    | char => exact .char h1 h2
    | start h3 => exact .start h1 h2 h3
    | «continue» h3 => exact .continue h1 h2 h3
    | zwnj h3 => exact .zwnj h1 h2 h3
    | zwj h3 => exact .zwj h1 h2 h3
    | nt m h3 => exact .nt h1 h2 h3

/-- C92: if the test gives an answer, it is yes just if the code point can be derived from the nonterminal. -/
theorem c92_match {u : Ucd} {g : Grammar} (hg : OneEach g) (p : Nat) : ∀ (k : Nat) (n : Str) (b : Bool), matchesNt u g p k n = some b →
    (b = true ↔ Derives u g p n)
  | 0, _, _, h => nomatch h
  | k + 1, n, b, h => by
    unfold matchesNt at h
    cases hr : rhss g n with
    | none => rw [hr] at h; exact nomatch h
    | some rs =>
      rw [hr, Option.bind_some] at h
      rw [anyRhs_iff (fun r b hb => matchesRhs_iff (fun m c hc => c92_match hg p k m c hc) hb) h, derives_iff]
      constructor
      · intro hx; exact ⟨rs, (rhss_iff hg).1 hr, hx⟩
      · rintro ⟨ss, hs, hx⟩
        rw [(rhss_iff hg).2 hs] at hr
        obtain rfl := Option.some.inj hr
        exact hx

/-- C92: the condition of the early error holds just if the code point cannot be derived from the nonterminal. -/
theorem c92_not {u : Ucd} {g : Grammar} (hg : OneEach g) (p k : Nat) (n : Str) (b : Bool) (h : notMatched u g p k n = some b) :
    b = true ↔ ¬ Derives u g p n := by
  unfold notMatched at h
  cases hm : matchesNt u g p k n with
  | none => rw [hm] at h; exact nomatch h
  | some c =>
    rw [hm] at h
    obtain rfl := Option.some.inj h
    rw [← c92_match hg p k n c hm]
    cases c <;> simp

theorem anyRhs_total {f : Rhs → Option Bool} : ∀ {rs : List Rhs}, (∀ r ∈ rs, ∃ b, f r = some b) → ∃ b, anyRhs f rs = some b
  | [], _ => ⟨false, rfl⟩
  | r :: rs, h => by
    obtain ⟨c, hc⟩ := h r (.head _)
    unfold anyRhs
    rw [hc, Option.bind_some]
    cases c with
    | true => exact ⟨true, rfl⟩
    | false => exact anyRhs_total (fun s hs => h s (.tail _ hs))

/-- C92: there is an answer if all productions that can be reached are of the known kinds and lead to no nonterminal for ever. -/
theorem c92_total {u : Ucd} {g : Grammar} (hg : OneEach g) (p : Nat) : ∀ (k : Nat) (n : Str), Within g k n → ∃ b, matchesNt u g p k n = some b
  | 0, _, h => h.elim
  | k + 1, n, ⟨rs, h1, h2⟩ => by
    unfold matchesNt
    rw [(rhss_iff hg).2 h1, Option.bind_some]
    refine anyRhs_total (fun r hr => ?_)
    cases h2 r hr with
    | nt m hm => exact c92_total hg p k m hm
    | chars cs => exact ⟨_, rfl⟩
    | start => exact ⟨_, rfl⟩
    | «continue» => exact ⟨_, rfl⟩
    | zwnj => exact ⟨_, rfl⟩
    | zwj => exact ⟨_, rfl⟩

/-- C92: the answer does not depend on how deep the calls may go. -/
theorem c92_depth {u : Ucd} {g : Grammar} (hg : OneEach g) (p k k' : Nat) (n : Str) (b b' : Bool)
    (h : matchesNt u g p k n = some b) (h' : matchesNt u g p k' n = some b') : b = b' := by
  have := (c92_match hg p k n b h).trans (c92_match hg p k' n b' h').symm
  cases b <;> cases b' <;> simp_all

/-- C92: for a nonterminal whose first line is the nonterminal itself there is no answer, at whatever depth. -/
theorem c92_loop {u : Ucd} {g : Grammar} (hg : OneEach g) (p : Nat) {n : Str} {rs : List Rhs} (h : (n, ⟨true, [.gnt n 0]⟩ :: rs) ∈ g) :
    ∀ k, matchesNt u g p k n = none
  | 0 => rfl
  | k + 1 => by
    unfold matchesNt
    rw [(rhss_iff hg).2 h, Option.bind_some]
    unfold anyRhs
    have : matchesRhs u (matchesNt u g p k) p ⟨true, [.gnt n 0]⟩ = none := c92_loop hg p h k
    rw [this]
    rfl

/-! ## A case -/

/-- The productions for `IdentifierPartChar` and what it needs. -/
def idents : Grammar := [
  ("IdentifierPartChar".toList, [⟨true, [.gnt "UnicodeIDContinue".toList 0]⟩, ⟨true, [.backticked [0x24]]⟩, ⟨true, [.named "ZWNJ".toList]⟩, ⟨true, [.named "ZWJ".toList]⟩]),
  ("UnicodeIDContinue".toList, [⟨true, [.uProp "ID_Continue".toList]⟩])]

theorem one_idents : OneEach idents := by unfold OneEach; decide +kernel

theorem within_idents : Within idents 2 "IdentifierPartChar".toList := by
  refine ⟨_, .head _, fun r hr => ?_⟩
  rcases List.mem_cons.1 hr with rfl | hr
  · refine .nt _ ⟨_, .tail _ (.head _), fun s hs => ?_⟩
    rw [List.mem_singleton.1 hs]; exact .continue
  rcases List.mem_cons.1 hr with rfl | hr
  · exact .chars _
  rcases List.mem_cons.1 hr with rfl | hr
  · exact .zwnj
  · rw [List.mem_singleton.1 hr]; exact .zwj

/-- Data in which `a` is a letter, `1` a digit, and everything else punctuation; `$` is for syntax. -/
def data : Ucd where
  category p := if p = 0x61 then "Ll".toList else if p = 0x31 then "Nd".toList else "Po".toList
  otherStart _ := false
  otherContinue p := p == 0xb7
  syntax' p := p == 0x24
  space p := p == 0x20

example (p : Nat) : ∃ b, matchesNt data idents p 2 "IdentifierPartChar".toList = some b := c92_total one_idents p 2 _ within_idents
example : matchesNt data idents 0x31 2 "IdentifierPartChar".toList = some true := by decide +kernel
example : matchesNt data idents 0x24 2 "IdentifierPartChar".toList = some true := by decide +kernel
example : matchesNt data idents 0x200d 2 "IdentifierPartChar".toList = some true := by decide +kernel
example : notMatched data idents 0x21 2 "IdentifierPartChar".toList = some true := by decide +kernel
example : hasProperty data 0x31 "ID_Start".toList = some false := by decide +kernel
example : ¬ Derives data idents 0x20 "IdentifierPartChar".toList :=
  (c92_not one_idents 0x20 2 _ true (by decide +kernel)).1 rfl
example : ∀ k, matchesNt data [("A".toList, [⟨true, [.gnt "A".toList 0]⟩])] 0x61 k "A".toList = none :=
  c92_loop (by unfold OneEach; decide +kernel) 0x61 (.head _)

end Verif.CodePoints
