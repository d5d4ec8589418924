import Verif.Gram.PegTotal
/-! # The metagrammar is balanced and tame -/
namespace Verif.Gram

theorem Pat.size_le : ∀ (P : Pat) (s : List Char) (n : Nat), P.size s = some n → n ≤ s.length
  | .lit cs, s, n, h => by
    rw [Pat.size] at h
    split at h
    · next hp =>
      injection h with h; subst h
      exact (List.isPrefixOf_iff_prefix.mp hp).length_le
    · cases h
  | .one ok, [], n, h => by rw [Pat.size] at h; cases h
  | .one ok, c :: s, n, h => by
    rw [Pat.size] at h
    split at h
    · injection h with h; subst h; simp
    · cases h
  | .many ok, s, n, h => by
    rw [Pat.size] at h
    injection h with h; subst h
    exact (List.takeWhile_prefix _).length_le
  | .cat a b, s, n, h => by
    rw [Pat.size] at h
    split at h
    · cases h
    · next k hk =>
      split at h
      · cases h
      · next m hm =>
        injection h with h; subst h
        have h1 := Pat.size_le a s k hk
        have h2 := Pat.size_le b _ m hm
        rw [List.length_drop] at h2
        omega
  | .alt a b, s, n, h => by
    rw [Pat.size] at h
    split at h
    · next k hk => injection h with h; subst h; exact Pat.size_le a s k hk
    · exact Pat.size_le b s n h

/-- The pattern cannot match the empty text. -/
def Pat.solid : Pat → Bool
  | .lit cs => !cs.isEmpty
  | .one _ => true
  | .many _ => false
  | .cat a b => a.solid || b.solid
  | .alt a b => a.solid && b.solid

theorem Pat.size_pos : ∀ (P : Pat), P.solid = true → ∀ (s : List Char) (n : Nat), P.size s = some n → 0 < n
  | .lit cs, hs, s, n, h => by
    rw [Pat.size] at h
    split at h
    · injection h with h; subst h
      cases cs with
      | nil => cases hs
      | cons _ _ => simp
    · cases h
  | .one ok, _, [], n, h => by rw [Pat.size] at h; cases h
  | .one ok, _, c :: s, n, h => by
    rw [Pat.size] at h
    split at h
    · injection h with h; omega
    · cases h
  | .many ok, hs, _, _, _ => by cases hs
  | .cat a b, hs, s, n, h => by
    rw [Pat.size] at h
    split at h
    · cases h
    · next k hk =>
      split at h
      · cases h
      · next m hm =>
        injection h with h; subst h
        rw [Pat.solid, Bool.or_eq_true] at hs
        rcases hs with hs | hs
        · have := Pat.size_pos a hs s k hk; omega
        · have := Pat.size_pos b hs _ m hm; omega
  | .alt a b, hs, s, n, h => by
    rw [Pat.solid, Bool.and_eq_true] at hs
    rw [Pat.size] at h
    split at h
    · next k hk => injection h with h; subst h; exact Pat.size_pos a hs.1 s k hk
    · exact Pat.size_pos b hs.2 s n h

section
variable {isWord : Char → Bool} {text : List Char}

theorem matchText_some {g : MGoal} {p e : Nat} (h : matchText isWord text g p = some e) :
    ∃ n, (metaPattern isWord g).size (text.drop p) = some n ∧ e = p + n := by
  rw [matchText] at h
  split at h
  · cases h
  · next n hn => injection h with h; exact ⟨n, hn, h.symm⟩

theorem matchText_le {g : MGoal} {p e : Nat} (h : matchText isWord text g p = some e) : p ≤ e := by
  obtain ⟨n, _, rfl⟩ := matchText_some h
  omega

theorem matchText_inside {g : MGoal} {p e : Nat} (hp : p ≤ text.length) (h : matchText isWord text g p = some e) :
    p ≤ e ∧ e ≤ text.length := by
  obtain ⟨n, hn, rfl⟩ := matchText_some h
  have := Pat.size_le _ _ _ hn
  rw [List.length_drop] at this
  omega

theorem matchText_solid {g : MGoal} (hg : (metaPattern isWord g).solid = true) {p e : Nat}
    (h : matchText isWord text g p = some e) : p < e := by
  obtain ⟨n, hn, rfl⟩ := matchText_some h
  have := Pat.size_pos _ hg _ _ hn
  omega
end

open MGoal

/-- The change of indentation by each goal. -/
def metaEffect : MGoal → Int
  | INDENT => 2
  | OUTDENT => -2
  | _ => 0

/-- The height of each goal. -/
def metaRank : MGoal → Nat
  | EMU_GRAMMAR_CONTENT_1 => 13 | EMU_GRAMMAR_CONTENT_2 => 17 | BLOCK_PRODUCTIONS => 16 | BLOCK_PRODUCTION => 15
  | MULTILINE_PRODUCTION => 14 | OPTIONAL_COMMENT_LINE => 1 | MULTILINE_R => 13 | MULTILINE_ONE_OF => 3
  | LINES_OF_BACKTICKED_THINGS => 2 | U_ONELINE_PRODUCTION => 13 | ONELINE_PRODUCTION => 12 | ONELINE_R => 11
  | ONELINE_ONE_OF => 2 | BACKTICKED_THINGS => 1 | MULTILINE_RHSS => 12 | RHS_LINE => 11 | OPTIONAL_GUARD => 2
  | OPTIONAL_LABEL => 1 | RHS_BODY => 10 | RHS_ITEMS => 9 | RHS_ITEM => 8 | RHS_SYMBOL_QM => 5 | RHS_SYMBOL => 4
  | GNT => 3 | OPTIONAL_PARAMS => 2 | PARAMS => 1 | RHS_CONSTRAINT => 7 | LOOKAHEAD_CONSTRAINT => 6 | LAC_SINGLE => 5
  | LAC_SET => 5 | LAC_SET_OPERAND => 4 | SET_OF_TERMINAL_SEQ => 3 | TERMINAL_SEQ => 2 | TERMINAL_ITEM => 1
  | BUT_NOT => 4 | EXCLUSION => 3 | EXCLUDABLES => 2 | EXCLUDABLE => 1
  | _ => 0

/-- The goals that give a node. -/
def metaYields : MGoal → Bool
  | INDENT | OUTDENT | EOI | NLAI | OPTIONAL_COMMENT_LINE | pat _ => false
  | _ => true

/-- The goals that take up at least one character. -/
def metaConsumes : MGoal → Bool
  | INDENT | OUTDENT | EOI | OPTIONAL_COMMENT_LINE | OPTIONAL_GUARD | OPTIONAL_LABEL | OPTIONAL_PARAMS | pat _ => false
  | _ => true

variable {rx : MGoal → Nat → Option Nat}

/-- The rule of a goal that is not a pattern. -/
theorem ruleOf_named {g : MGoal} (hg : ∀ s, g ≠ pat s) : ruleOf (metaEnv rx) g = metagrammar g := by
  cases g <;> first | rfl | exact absurd (by first | rfl | trivial) (hg _)

theorem ruleOf_pat {s : List Char} {r : Rule MGoal} (h : ruleOf (metaEnv rx) (pat s) = some r) : r = .term .blank := by
  unfold ruleOf at h
  have : (metaEnv rx).grammar (pat s) = none := rfl
  rw [this] at h
  dsimp only at h
  split at h
  · cases h
  · injection h with h; exact h.symm

theorem meta_balanced : Balanced (metaEnv rx) metaEffect where
  term g rk h := by
    cases g <;> first
      | rfl
      | (rw [ruleOf_named (by intro s; nofun)] at h; cases h)
  alt g rk args h a ha := by
    cases g
    case pat s => cases ruleOf_pat h
    all_goals
      rw [ruleOf_named (by intro s; nofun)] at h
      cases h <;>
      · simp only [List.mem_cons, List.not_mem_nil, or_false] at ha
        rcases ha with rfl | rfl | rfl | rfl | rfl <;> rfl
  seq g rk args h := by
    cases g
    case pat s => cases ruleOf_pat h
    all_goals
      rw [ruleOf_named (by intro s; nofun)] at h
      cases h <;> rfl
  opt g rk args h := by
    cases g
    case pat s => cases ruleOf_pat h
    all_goals
      rw [ruleOf_named (by intro s; nofun)] at h
      cases h <;>
      · refine ⟨rfl, fun a ha => ?_⟩
        simp only [List.mem_cons, List.not_mem_nil, or_false] at ha
        rcases ha with rfl | rfl <;> rfl
  plus g e s l r h := by
    cases g
    case pat s => cases ruleOf_pat h
    all_goals
      rw [ruleOf_named (by intro s; nofun)] at h
      cases h <;> exact ⟨rfl, rfl, rfl⟩


theorem meta_tame {isWord : Char → Bool} {text : List Char} {rx : MGoal → Nat → Option Nat}
    (hrx : ∀ g p e, rx g p = some e → matchText isWord text g p = some e) :
    Tame (metaEnv rx) metaRank metaConsumes metaYields text.length where
  inside g p e hp h := matchText_inside hp (hrx g p e h)
  known g r h a ha := by
    cases g
    case pat s => rw [ruleOf_pat h] at ha; cases ha
    all_goals
      rw [ruleOf_named (by intro s; nofun)] at h
      cases h
      simp only [List.mem_cons, List.not_mem_nil, or_false, Option.toList, List.nil_append, List.append_nil,
        List.cons_append] at ha <;> first
      | (rcases ha with rfl | rfl | rfl | rfl | rfl | rfl <;> exact ⟨by decide, rfl⟩)
      | (rcases ha with rfl | rfl | rfl | rfl | rfl <;> exact ⟨by decide, rfl⟩)
      | (rcases ha with rfl | rfl | rfl | rfl <;> exact ⟨by decide, rfl⟩)
      | (rcases ha with rfl | rfl | rfl <;> exact ⟨by decide, rfl⟩)
      | (rcases ha with rfl | rfl <;> exact ⟨by decide, rfl⟩)
      | (rcases ha with rfl <;> exact ⟨by decide, rfl⟩)
  term g rk h := by
    cases g
    case pat s =>
      injection ruleOf_pat h with h1
      exact ⟨Or.inr ⟨h1, rfl⟩, fun hc => by cases hc⟩
    all_goals
      rw [ruleOf_named (by intro s; nofun)] at h
      cases h <;>
      · refine ⟨by first | exact Or.inl ⟨rfl, rfl⟩ | exact Or.inr ⟨rfl, rfl⟩, fun hc p e hx => ?_⟩
        first
        | cases hc; done
        | exact matchText_solid rfl (hrx _ _ _ hx)
  alt g rk args h := by
    cases g
    case pat s => cases ruleOf_pat h
    all_goals
      rw [ruleOf_named (by intro s; nofun)] at h
      cases h <;>
      · refine ⟨rfl, ?_, fun _ => ?_⟩ <;>
        · intro a ha
          simp only [List.mem_cons, List.not_mem_nil, or_false] at ha
          rcases ha with rfl | rfl | rfl | rfl | rfl <;> rfl
  seq g rk args h := by
    cases g
    case pat s => cases ruleOf_pat h
    all_goals
      rw [ruleOf_named (by intro s; nofun)] at h
      cases h <;>
      · refine ⟨rfl, by first | exact Or.inl rfl | exact Or.inr ⟨rfl, rfl⟩, fun _ => ?_⟩
        first
        | exact ⟨_, List.mem_cons_self .., rfl⟩
        | exact ⟨_, List.mem_cons_of_mem _ (List.mem_cons_self ..), rfl⟩
        | exact ⟨_, List.mem_cons_of_mem _ (List.mem_cons_of_mem _ (List.mem_cons_self ..)), rfl⟩
  opt g rk args h := by
    cases g
    case pat s => cases ruleOf_pat h
    all_goals
      rw [ruleOf_named (by intro s; nofun)] at h
      cases h <;>
      exact ⟨rfl, by first
        | exact Or.inl ⟨rfl, rfl⟩ | exact Or.inr (Or.inl ⟨rfl, rfl, rfl⟩) | exact Or.inr (Or.inr ⟨rfl, rfl⟩)⟩
  plus g e s l r h := by
    cases g
    case pat s => cases ruleOf_pat h
    all_goals
      rw [ruleOf_named (by intro s; nofun)] at h
      cases h <;> exact ⟨rfl, rfl⟩

end Verif.Gram
