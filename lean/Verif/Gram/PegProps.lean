import Verif.Gram.PegShape
/-!
# C26: parsing `emu-grammar` elements

The parser of `emu-grammar` elements against the meaning of its metagrammar as a parsing expression grammar
(`Parses`, PegSpec.lean).
-/
namespace Verif.Gram
variable {N : Type}

/-- C26.  If the parser returns a tree, that tree is the one that the parsing expression grammar gives; it is for
the text up to the end, and the indentation is back where it was.  `Balanced`: every goal of the
grammar changes the indentation by a fixed amount. -/
theorem c26_sound {W : PegEnv N} {effect : N → Int} (hB : Balanced W effect) {n : Nat} {g : N} {start hi : Nat} {i : Int}
    {r : Option (GNode N)} (h : simpleParse W n g start hi i = .ok (some r)) :
    Parses W hi (.goal g) start i (some (hi, i, [r])) := by
  rw [simpleParse] at h
  split at h
  · cases h
  · cases h
  · next q j node ha =>
    split at h
    · next hc =>
      injection h with h; injection h with h; subst h
      have := (attempt_sound hB n g start i _ ha).1
      rw [wrap_some, hc.1, hc.2] at this
      exact this
    · cases h

/-- C26.  If the parser reports a syntax error, then the parsing expression grammar finds nothing. -/
theorem c26_error {W : PegEnv N} {effect : N → Int} (hB : Balanced W effect) {n : Nat} {g : N} {start hi : Nat} {i : Int}
    (h : simpleParse W n g start hi i = .ok none) : Parses W hi (.goal g) start i none := by
  rw [simpleParse] at h
  split at h
  · cases h
  · next ha => exact (attempt_sound hB n g start i _ ha).1
  · split at h <;> cases h

/-- C26.  The parser finds what the parsing expression grammar finds, if given the time. -/
theorem c26_complete {W : PegEnv N} {effect : N → Int} (hB : Balanced W effect) {g : N} {start hi : Nat} {i : Int} :
    (∀ r, Parses W hi (.goal g) start i (some (hi, i, [r])) → ∃ n0, ∀ n, n0 ≤ n →
      simpleParse W n g start hi i = .ok (some r)) ∧
    (Parses W hi (.goal g) start i none → ∃ n0, ∀ n, n0 ≤ n → simpleParse W n g start hi i = .ok none) := by
  refine ⟨fun r h => ?_, fun h => ?_⟩
  · obtain ⟨n0, o, hw, ho⟩ := parses_claim hB h
    refine ⟨n0, fun n hn => ?_⟩
    rw [simpleParse, ho n hn]
    cases o with
    | none => cases hw
    | some x =>
      obtain ⟨q, j, c⟩ := x
      cases hw
      dsimp only
      rw [if_pos ⟨rfl, rfl⟩]
  · obtain ⟨n0, o, hw, ho⟩ := parses_claim hB h
    refine ⟨n0, fun n hn => ?_⟩
    rw [simpleParse, ho n hn]
    cases o with
    | none => rfl
    | some x => cases hw

/-- C26.  There is at most one thing to be found. -/
theorem c26_unique {W : PegEnv N} {effect : N → Int} (hB : Balanced W effect) {hi : Nat} {g : N} {p : Nat} {i : Int}
    {out out' : Found N} (h : Parses W hi (.goal g) p i out) (h' : Parses W hi (.goal g) p i out') : out = out' :=
  parses_unique hB h h'

/-- C26.  The tree lies within the text of the element; so do, in order and inside their parents, all its parts. -/
theorem c26_fits {W : PegEnv N} {effect : N → Int} (hB : Balanced W effect)
    (hx : ∀ g p e, W.rx g p = some e → p ≤ e) {n : Nat} {g : N} {start hi : Nat} {i : Int}
    {r : Option (GNode N)} (h : simpleParse W n g start hi i = .ok (some r)) : Fits start hi [r] :=
  parses_fits hx (c26_sound hB h) _ _ _ rfl

/-- C26.  The metagrammar is such a grammar: only INDENT and OUTDENT change the indentation, and everything else
undoes what it does. -/
theorem c26_metagrammar (rx : MGoal → Nat → Option Nat) :
    Balanced (metaEnv rx) (fun g => if g = .INDENT then 2 else if g = .OUTDENT then -2 else 0) := by
  have : (fun g : MGoal => if g = .INDENT then (2 : Int) else if g = .OUTDENT then -2 else 0) = metaEffect := by
    funext g; cases g <;> rfl
  rw [this]
  exact meta_balanced

/-- The parser for the content of an `emu-grammar` element of a text. -/
abbrev grammarEnv (isWord : Char → Bool) (text : List Char) : PegEnv MGoal := metaEnv (matchText isWord text)

/-- C26.  For every text and every element in it: given enough time, the parser reports a syntax
error, and rightly so; or returns a tree, the right one, that fits the element; or an assertion fails, because a
line is indented by an odd number of blanks or because what was found extends beyond the end of the element. -/
theorem c26_text (isWord : Char → Bool) (text : List Char) (g : MGoal)
    (hg : g = .EMU_GRAMMAR_CONTENT_1 ∨ g = .EMU_GRAMMAR_CONTENT_2) (start hi : Nat) (hs : start ≤ text.length) (i : Int) :
    ∃ n0, ∀ n, n0 ≤ n →
      (simpleParse (grammarEnv isWord text) n g start hi i = .ok none ∧
        Parses (grammarEnv isWord text) hi (.goal g) start i none) ∨
      (∃ node, simpleParse (grammarEnv isWord text) n g start hi i = .ok (some (some node)) ∧
        Parses (grammarEnv isWord text) hi (.goal g) start i (some (hi, i, [some node])) ∧ Fits start hi [some node]) ∨
      (simpleParse (grammarEnv isWord text) n g start hi i = .error .crash ∧
        (OddIndentation text start ∨
          ∃ q node, hi < q ∧ Parses (grammarEnv isWord text) hi (.goal g) start i (some (q, i, [some node])))) := by
  let rx' : MGoal → Nat → Option Nat := (evened (grammarEnv isWord text)).rx
  have hEq : evened (grammarEnv isWord text) = metaEnv rx' := rfl
  have hrx : ∀ g p e, rx' g p = some e → matchText isWord text g p = some e ∧ EvenLine (metaRole g) p e :=
    fun g p e h => evened_rx h
  have hT : Tame (metaEnv rx') metaRank metaConsumes metaYields text.length :=
    meta_tame (isWord := isWord) (fun g p e h => (hrx g p e h).1)
  have hmono : ∀ n g p i q j r, attempt (evened (grammarEnv isWord text)) hi n g p i = .ok (some (q, j, r)) → p ≤ q := by
    intro n g p i q j r h
    rw [hEq] at h
    exact (parses_fits (fun g p e h => matchText_le (hrx g p e h).1)
      (attempt_sound meta_balanced n g p i _ h).1 _ _ _ rfl).le
  have hr : (ruleOf (metaEnv rx') g).isSome = true := by rcases hg with rfl | rfl <;> rfl
  have hy : metaYields g = true := by rcases hg with rfl | rfl <;> rfl
  have he : metaEffect g = 0 := by rcases hg with rfl | rfl <;> rfl
  obtain ⟨out, ha⟩ := tame_total (hi := hi) hT (fun g p e h => (hrx g p e h).2) (metaRank g + 1) g (by omega) hr start i hs
  obtain ⟨n0, o, hw, ho⟩ := parses_claim meta_balanced ha.parses
  refine ⟨n0, fun n hn => ?_⟩
  rcases sim_attempt hmono n g start i (Nat.le_refl _) with h | ⟨h, hodd⟩
  · rw [hEq, ho n hn] at h
    have hs := attempt_sound meta_balanced n g start i _ h
    cases o with
    | none => exact Or.inl ⟨by rw [simpleParse, h], hs.1⟩
    | some x =>
      obtain ⟨q, j, c⟩ := x
      have hj := hs.2 q j c rfl
      rw [he] at hj
      have hj' : j = i := by omega
      subst hj'
      obtain ⟨c, hc⟩ := node_of hy hs.1
      injection hc with hc
      subst hc
      by_cases hq : q = hi
      · subst hq
        refine Or.inr (Or.inl ⟨c, ?_, hs.1, ?_⟩)
        · rw [simpleParse, h]; dsimp only; rw [if_pos ⟨rfl, rfl⟩]
        · exact parses_fits (fun g p e h => matchText_le h) hs.1 _ _ _ rfl
      · refine Or.inr (Or.inr ⟨?_, Or.inr ⟨q, c, ?_, hs.1⟩⟩)
        · rw [simpleParse, h]; dsimp only; rw [if_neg (fun hc => hq hc.1)]
        · have : hi ≤ q := by
            rcases hg with rfl | rfl
            · obtain ⟨rs', h1, _⟩ := seq_inv (rk := .up) (args := [.ONELINE_PRODUCTION, .EOI]) rfl hs.1
              obtain ⟨p1, i1, r1, rs1, k1, h1, e1⟩ := row_inv h1
              obtain ⟨p2, i2, r2, rs2, k2, h1, e2⟩ := row_inv h1
              exact eoi_end h1 k2
            · obtain ⟨rs', h1, _⟩ := seq_inv (rk := .up) (args := [.INDENT, .BLOCK_PRODUCTIONS, .OUTDENT, .NLAI, .EOI]) rfl hs.1
              obtain ⟨p1, i1, r1, rs1, k1, h1, e1⟩ := row_inv h1
              obtain ⟨p2, i2, r2, rs2, k2, h1, e2⟩ := row_inv h1
              obtain ⟨p3, i3, r3, rs3, k3, h1, e3⟩ := row_inv h1
              obtain ⟨p4, i4, r4, rs4, k4, h1, e4⟩ := row_inv h1
              obtain ⟨p5, i5, r5, rs5, k5, h1, e5⟩ := row_inv h1
              exact eoi_end h1 k5
          omega
  · exact Or.inr (Or.inr ⟨by rw [simpleParse, h], Or.inl (oddLine_text hodd)⟩)

/-- C26.  The tree of an element with one production on one line is the node of a production; the tree of an element of several
lines has the nodes of productions as its children. -/
theorem c26_productions {isWord : Char → Bool} {text : List Char} {n start hi : Nat} {i : Int} {r : Option (GNode MGoal)} :
    (simpleParse (grammarEnv isWord text) n .EMU_GRAMMAR_CONTENT_1 start hi i = .ok (some r) → IsProduction r) ∧
    (simpleParse (grammarEnv isWord text) n .EMU_GRAMMAR_CONTENT_2 start hi i = .ok (some r) →
      ∃ s e kids, r = some (.mk s e (.goal .BLOCK_PRODUCTIONS) kids) ∧ ∀ c ∈ kids, IsProduction c) := by
  refine ⟨fun h => ?_, fun h => ?_⟩
  · obtain ⟨s, e, kids, h1, h2⟩ := content1_shape (c26_sound meta_balanced h)
    injection h1 with h1
    subst h1
    exact h2
  · obtain ⟨s, e, kids, h1, h2⟩ := content2_shape (c26_sound meta_balanced h)
    injection h1 with h1
    exact ⟨s, e, kids, h1, h2⟩

/-! ## Cases -/

/-- `\w`, for the examples. -/
def exWord (c : Char) : Bool := isLetter c || isHex c

/-- ``A : B `c` `` -/
def exLine : List Char := ['A', ' ', ':', ' ', 'B', ' ', '`', 'c', '`']

example : simpleParse (grammarEnv exWord exLine) 20 .EMU_GRAMMAR_CONTENT_1 0 9 0 =
    .ok (some (some (.mk 0 9 (.goal .ONELINE_PRODUCTION)
      [some (.mk 0 1 (.goal .GNT) [some (.mk 0 1 (.goal .NT) []), some (.mk 1 1 .omitted [])]),
       some (.mk 2 3 (.goal .COLONS) []),
       some (.mk 4 9 (.goal .RHS_ITEMS)
        [some (.mk 4 5 (.goal .GNT) [some (.mk 4 5 (.goal .NT) []), some (.mk 5 5 .omitted [])]),
         some (.mk 6 9 (.goal .BACKTICKED_THING) [])])]))) := rfl

/-- Two alternatives, the second with a guard, and an indented end. -/
def exBlock : List Char :=
  ['\n', ' ', ' ', ' ', ' ', 'A', ' ', ':',
   '\n', ' ', ' ', ' ', ' ', ' ', ' ', 'B', '?',
   '\n', ' ', ' ', ' ', ' ', ' ', ' ', '[', '+', 'C', ']', ' ', '@',
   '\n', ' ', ' ', '<']

example : ∃ node, simpleParse (grammarEnv exWord exBlock) 30 .EMU_GRAMMAR_CONTENT_2 0 33 2 = .ok (some (some node)) :=
  ⟨_, rfl⟩

/-- A syntax error: the second alternative is not where it should be. -/
example : simpleParse (grammarEnv exWord
    ['\n', ' ', ' ', ' ', ' ', 'A', ' ', ':', '\n', ' ', ' ', ' ', ' ', 'B', '\n', ' ', ' ']) 30
    .EMU_GRAMMAR_CONTENT_2 0 17 2 = .ok none := rfl

/-- An odd line. -/
example : simpleParse (grammarEnv exWord ['\n', ' ', ' ', ' ', 'A', ' ', ':', ' ', 'B', '\n', ' ', ' ']) 30
    .EMU_GRAMMAR_CONTENT_2 0 12 2 = .error .crash := rfl

/-- The element ends at 6, but the closing quote comes later: ``A : `b</x>` ``. -/
example : simpleParse (grammarEnv exWord ['A', ' ', ':', ' ', '`', 'b', '<', '/', 'x', '>', '`']) 20
    .EMU_GRAMMAR_CONTENT_1 0 6 0 = .error .crash := rfl

/-- A grammar that is not balanced: `S` is an optional `INDENT x`, then nothing. -/
inductive Toy where
  | S | O | INDENT | X
deriving DecidableEq

/-- `S` → optional (INDENT X); there is no `X` in the text. -/
def toyEnv : PegEnv Toy where
  grammar g := match g with
    | .S => some (.seq .node [.O])
    | .O => some (.opt .blank [.INDENT, .X])
    | .INDENT => some (.term .blank)
    | .X => some (.term .blank)
  role g := match g with | .INDENT => .indent | _ => .plain
  looksLikeName _ := true
  rx g p := match g with | .INDENT => some p | _ => none

/-- C26.  For a grammar that is not balanced the parser is not right: giving up an optional part, it goes back to
the position before, but not to the indentation before.  Here the grammar accepts the empty text and the parser fails. -/
theorem c26_leak_witness :
    (∃ node, Parses toyEnv 0 (.goal .S) 0 0 (some (0, 0, [some node]))) ∧
    ∀ n, 3 ≤ n → simpleParse toyEnv n .S 0 0 0 = .error .crash := by
  refine ⟨⟨_, .seqNode (args := [.O]) rfl (.growRow (r := [none]) (rs := []) ?_ .endRow)⟩, fun n hn => ?_⟩
  · refine .omitted (rk := .blank) (args := [.INDENT, .X]) rfl ?_ (Or.inr (Or.inr ⟨rfl, rfl⟩))
    refine .breakRow (p' := 0) (i' := 2) (r := [none]) ?_ (.cutRow (.unmatched (rk := .blank) rfl rfl))
    exact .matched (rk := .blank) rfl rfl (by intro h; cases h) rfl (Or.inr ⟨rfl, rfl⟩)
  · obtain ⟨m, rfl⟩ : ∃ m, n = m + 3 := ⟨n - 3, by omega⟩
    rfl

end Verif.Gram
