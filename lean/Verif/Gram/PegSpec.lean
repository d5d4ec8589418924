import Verif.Gram.PegModel
/-!
# Parsing expression grammars

The meaning of the metagrammar: ordered choice, rows, optional rows, greedy lists with separators,
terminals.  When something is not there, position *and* indentation are as before.
-/
namespace Verif.Gram
variable {N : Type}

/-- The things that can be looked for. -/
inductive Expr (N : Type) where
  /-- one goal -/
  | goal (g : N)
  /-- the first of some goals that is there -/
  | choice (gs : List N)
  /-- some goals, one after the other -/
  | row (gs : List N)
  /-- one or more elements with separators between them -/
  | list (element separator : N)
  /-- the rest of a list after an element -/
  | rest (element separator : N)
  /-- a goal, or nothing -/
  | maybe (g : Option N)

/-- What was found: nothing; or something, ending at a position, with the indentation there, and the
results of its parts (a result may be absent). -/
abbrev Found (N : Type) := Option (Nat × Int × List (Option (GNode N)))

/-- The results that are not absent. -/
def present (rs : List (Option (GNode N))) : List (GNode N) := rs.filterMap id

/-- A terminal is good at `p`: what the indentation must be and becomes. -/
def Layout (role : Role) (p e : Nat) (hi : Nat) (i i' : Int) : Prop :=
  match role with
  | .indent => i' = i + 2
  | .outdent => i' = i - 2
  | .nlai => i' = i ∧ (e : Int) = p + 1 + i
  | .eoi => i' = i ∧ hi ≤ e
  | .plain => i' = i

/-- A line break shows a number of blanks that is even. -/
def EvenLine (role : Role) (p e : Nat) : Prop := role = .nlai → ((e : Int) - p - 1) % 2 = 0

/-- `Parses W hi x p i out`: looking for `x` at position `p` with indentation `i` gives `out`. -/
inductive Parses (W : PegEnv N) (hi : Nat) : Expr N → Nat → Int → Found N → Prop
  -- terminals
  | unmatched {g rk p i} : ruleOf W g = some (.term rk) → W.rx g p = none → Parses W hi (.goal g) p i none
  | misplaced {g rk p i e} : ruleOf W g = some (.term rk) → W.rx g p = some e → EvenLine (W.role g) p e →
      (∀ i', ¬ Layout (W.role g) p e hi i i') → Parses W hi (.goal g) p i none
  | matched {g rk p i e i' r} : ruleOf W g = some (.term rk) → W.rx g p = some e → EvenLine (W.role g) p e →
      Layout (W.role g) p e hi i i' →
      ((rk = .node ∧ r = some (.mk p e (.goal g) [])) ∨ (rk = .blank ∧ r = none)) →
      Parses W hi (.goal g) p i (some (e, i', [r]))
  -- ordered choice
  | choose {g args p i out} : ruleOf W g = some (.alt .up args) → Parses W hi (.choice args) p i out →
      Parses W hi (.goal g) p i out
  | exhausted {g rk args p i} : ruleOf W g = some (.alt rk args) → Parses W hi (.choice args) p i none →
      Parses W hi (.goal g) p i none
  | noChoice {p i} : Parses W hi (.choice []) p i none
  | first {g gs p i r} : Parses W hi (.goal g) p i (some r) → Parses W hi (.choice (g :: gs)) p i (some r)
  | next {g gs p i out} : Parses W hi (.goal g) p i none → Parses W hi (.choice gs) p i out →
      Parses W hi (.choice (g :: gs)) p i out
  -- rows
  | endRow {p i} : Parses W hi (.row []) p i (some (p, i, []))
  | cutRow {g gs p i} : Parses W hi (.goal g) p i none → Parses W hi (.row (g :: gs)) p i none
  | breakRow {g gs p i p' i' r} : Parses W hi (.goal g) p i (some (p', i', r)) → Parses W hi (.row gs) p' i' none →
      Parses W hi (.row (g :: gs)) p i none
  | growRow {g gs p i p' i' r p'' i'' rs} : Parses W hi (.goal g) p i (some (p', i', r)) →
      Parses W hi (.row gs) p' i' (some (p'', i'', rs)) →
      Parses W hi (.row (g :: gs)) p i (some (p'', i'', r ++ rs))
  | seqFails {g rk args p i} : ruleOf W g = some (.seq rk args) → Parses W hi (.row args) p i none →
      Parses W hi (.goal g) p i none
  | seqNode {g args p i p' i' rs} : ruleOf W g = some (.seq .node args) →
      Parses W hi (.row args) p i (some (p', i', rs)) →
      Parses W hi (.goal g) p i (some (p', i', [some (.mk p p' (.goal g) ((present rs).map some))]))
  | seqUp {g args p i p' i' rs c} : ruleOf W g = some (.seq .up args) →
      Parses W hi (.row args) p i (some (p', i', rs)) → present rs = [c] →
      Parses W hi (.goal g) p i (some (p', i', [some c]))
  -- optional rows
  | omitted {g rk args p i r} : ruleOf W g = some (.opt rk args) → Parses W hi (.row args) p i none →
      (rk = .node ∧ r = some (.mk p p (.goal g) []) ∨ rk = .up ∧ r = some (.mk p p .omitted []) ∨ rk = .blank ∧ r = none) →
      Parses W hi (.goal g) p i (some (p, i, [r]))
  | optNode {g args p i p' i' rs} : ruleOf W g = some (.opt .node args) →
      Parses W hi (.row args) p i (some (p', i', rs)) →
      Parses W hi (.goal g) p i (some (p', i', [some (.mk p p' (.goal g) ((present rs).map some))]))
  | optUp {g args p i p' i' rs c} : ruleOf W g = some (.opt .up args) →
      Parses W hi (.row args) p i (some (p', i', rs)) → present rs = [c] →
      Parses W hi (.goal g) p i (some (p', i', [some c]))
  | optBlank {g args p i p' i' rs} : ruleOf W g = some (.opt .blank args) →
      Parses W hi (.row args) p i (some (p', i', rs)) → Parses W hi (.goal g) p i (some (p', i', [none]))
  -- lists
  | notOne {e s p i} : Parses W hi (.goal e) p i none → Parses W hi (.list e s) p i none
  | elements {e s p i p' i' r p'' i'' rs} : Parses W hi (.goal e) p i (some (p', i', r)) →
      Parses W hi (.rest e s) p' i' (some (p'', i'', rs)) →
      Parses W hi (.list e s) p i (some (p'', i'', r ++ rs))
  | noSeparator {e s p i} : Parses W hi (.goal s) p i none → Parses W hi (.rest e s) p i (some (p, i, []))
  | loneSeparator {e s p i p' i' r} : Parses W hi (.goal s) p i (some (p', i', r)) → Parses W hi (.goal e) p' i' none →
      Parses W hi (.rest e s) p i (some (p, i, []))
  | another {e s p i p' i' r p'' i'' r' q j rs} : Parses W hi (.goal s) p i (some (p', i', r)) →
      Parses W hi (.goal e) p' i' (some (p'', i'', r')) → Parses W hi (.rest e s) p'' i'' (some (q, j, rs)) →
      Parses W hi (.rest e s) p i (some (q, j, r' ++ rs))
  | noDelim {p i} : Parses W hi (.maybe none) p i (some (p, i, []))
  | delim {g p i out} : Parses W hi (.goal g) p i out → Parses W hi (.maybe (some g)) p i out
  | noLeft {g e s l r p i} : ruleOf W g = some (.plus e s l r) → Parses W hi (.maybe l) p i none →
      Parses W hi (.goal g) p i none
  | noList {g e s l r p i p' i' x} : ruleOf W g = some (.plus e s l r) → Parses W hi (.maybe l) p i (some (p', i', x)) →
      Parses W hi (.list e s) p' i' none → Parses W hi (.goal g) p i none
  | noRight {g e s l r p i p' i' x p'' i'' rs} : ruleOf W g = some (.plus e s l r) →
      Parses W hi (.maybe l) p i (some (p', i', x)) → Parses W hi (.list e s) p' i' (some (p'', i'', rs)) →
      Parses W hi (.maybe r) p'' i'' none → Parses W hi (.goal g) p i none
  | delimited {g e s l r p i p' i' x p'' i'' rs q j y} : ruleOf W g = some (.plus e s l r) →
      Parses W hi (.maybe l) p i (some (p', i', x)) → Parses W hi (.list e s) p' i' (some (p'', i'', rs)) →
      Parses W hi (.maybe r) p'' i'' (some (q, j, y)) →
      Parses W hi (.goal g) p i (some (q, j, [some (.mk p q (.goal g) rs)]))

/-- What a terminal does to the indentation. -/
def Role.effect : Role → Int
  | .indent => 2
  | .outdent => -2
  | .nlai | .eoi | .plain => 0

/-- Every goal changes the indentation by a fixed amount, and what may be tried and given up (optional
rows; separators and elements of lists) changes it by none. -/
structure Balanced (W : PegEnv N) (effect : N → Int) : Prop where
  term : ∀ g rk, ruleOf W g = some (.term rk) → effect g = (W.role g).effect
  alt : ∀ g rk args, ruleOf W g = some (.alt rk args) → ∀ a ∈ args, effect a = effect g
  seq : ∀ g rk args, ruleOf W g = some (.seq rk args) → (args.map effect).sum = effect g
  opt : ∀ g rk args, ruleOf W g = some (.opt rk args) → effect g = 0 ∧ ∀ a ∈ args, effect a = 0
  plus : ∀ g e s l r, ruleOf W g = some (.plus e s l r) →
    effect e = 0 ∧ effect s = 0 ∧ ((l.toList ++ r.toList).map effect).sum = effect g

end Verif.Gram

namespace Verif.Gram
variable {N : Type}

/-- `Fits a b rs`: the results that are present lie one after the other between `a` and `b`, and the
same holds of their children in turn. -/
inductive Fits : Nat → Nat → List (Option (GNode N)) → Prop
  | nil {a b} : a ≤ b → Fits a b []
  | absent {a b rs} : Fits a b rs → Fits a b (none :: rs)
  | node {a b s e k kids rs} : a ≤ s → Fits s e kids → Fits e b rs → Fits a b (some (.mk s e k kids) :: rs)

/-- Conditions under which a grammar has an answer for every text of length `len`: every goal has a rule
that can be applied; goals only refer to goals of lower rank; elements of lists consume something; and it is
fixed which goals give a result. -/
structure Tame (W : PegEnv N) (rank : N → Nat) (consumes yields : N → Bool) (len : Nat) : Prop where
  inside : ∀ g p e, p ≤ len → W.rx g p = some e → p ≤ e ∧ e ≤ len
  known : ∀ g r, ruleOf W g = some r → ∀ a, a ∈ (match r with
      | .alt _ args => args | .seq _ args => args | .opt _ args => args
      | .plus e s l r => e :: s :: (l.toList ++ r.toList) | .term _ => []) →
      rank a < rank g ∧ (ruleOf W a).isSome = true
  term : ∀ g rk, ruleOf W g = some (.term rk) → (rk = .node ∧ yields g = true ∨ rk = .blank ∧ yields g = false) ∧
    (consumes g = true → ∀ p e, W.rx g p = some e → p < e)
  alt : ∀ g rk args, ruleOf W g = some (.alt rk args) → rk = .up ∧
    (∀ a ∈ args, yields a = yields g) ∧ (consumes g = true → ∀ a ∈ args, consumes a = true)
  seq : ∀ g rk args, ruleOf W g = some (.seq rk args) → yields g = true ∧
    (rk = .node ∨ rk = .up ∧ (args.filter yields).length = 1) ∧
    (consumes g = true → ∃ a ∈ args, consumes a = true)
  opt : ∀ g rk args, ruleOf W g = some (.opt rk args) → consumes g = false ∧
    (rk = .node ∧ yields g = true ∨ rk = .up ∧ yields g = true ∧ (args.filter yields).length = 1 ∨
      rk = .blank ∧ yields g = false)
  plus : ∀ g e s l r, ruleOf W g = some (.plus e s l r) → yields g = true ∧ consumes e = true

end Verif.Gram

namespace Verif.Gram

/-- At `lo` or later there is a line break followed by an odd number of blanks. -/
def OddIndentation (text : List Char) (lo : Nat) : Prop :=
  ∃ p k, lo ≤ p ∧ k % 2 = 1 ∧ text[p]? = some '\n' ∧ (∀ (j : Nat), j < k → text[p + 1 + j]? = some ' ') ∧
    text[p + 1 + k]? ≠ some ' '

/-- The node for a production: a left-hand side (a nonterminal with or without parameters), the colons and the
right-hand side. -/
def IsProduction (c : Option (GNode MGoal)) : Prop :=
  ∃ s e k gs ge nt ps pe pk pkids cs ce r,
    c = some (.mk s e (.goal k) [some (.mk gs ge (.goal .GNT) [some nt, some (.mk ps pe pk pkids)]),
      some (.mk cs ce (.goal .COLONS) []), some r]) ∧
    (k = .MULTILINE_PRODUCTION ∨ k = .ONELINE_PRODUCTION) ∧ (pk = .omitted ∨ pk = .goal .PARAMS)

end Verif.Gram
