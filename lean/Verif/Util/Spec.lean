import Verif.Util.Model
/-! # Specifications for the registry, the scanner and the section scanner -/
namespace Verif.Util

/-- What a registry history says about key `k`: the value first registered. -/
def firstRegistered {K F} [DecidableEq K] (ops : List (DfdOp K F)) (k : K) : Option F :=
  ops.findSome? (fun op => match op with
    | .set k' f => if k' = k then some f else none
    | .get _ => none)

/-- The number of lookups of `k` that come after a registration of `k`. -/
def successfulLookups {K F} [DecidableEq K] (k : K) : List (DfdOp K F) → Bool → Nat
  | [], _ => 0
  | .set k' _ :: ops, known => successfulLookups k ops (known || decide (k' = k))
  | .get k' :: ops, known => (if k' = k ∧ known then 1 else 0) + successfulLookups k ops known

/-- `len` is the length of the unique longest match at `offset`, found by spec `i`. -/
def LongestAt {T} (specs : List (TokSpec T)) (line : List Char) (offset i len : Nat) (s : TokSpec T) : Prop :=
  specs[i]? = some s ∧ s.reo line offset = some len ∧
  ∀ (j : Nat) s' len', specs[j]? = some s' → s'.reo line offset = some len' → j ≠ i → len' < len

/-- `Munch offset pieces tokens`: from `offset` the line falls into the given pieces
(spec, offset, length), each the unique longest match at its place, and `tokens` are made from
the pieces whose spec has a response. -/
inductive Munch {T} (specs : List (TokSpec T)) (line : List Char) :
    Nat → List (Nat × Nat × Nat) → List T → Prop
  | done {o} : line.length ≤ o → Munch specs line o [] []
  | skip {o i len s ps ts} : o < line.length → LongestAt specs line o i len s → s.response = none →
      Munch specs line (o + len) ps ts → Munch specs line o ((i, o, len) :: ps) ts
  | token {o i len s f ps ts} : o < line.length → LongestAt specs line o i len s → s.response = some f →
      Munch specs line (o + len) ps ts → Munch specs line o ((i, o, len) :: ps) (f line o len :: ts)

/-- From offset `o`, longest matches lead to offset `o'`. -/
inductive Leads {T} (specs : List (TokSpec T)) (line : List Char) : Nat → Nat → Prop
  | refl (o) : Leads specs line o o
  | step {o i len s o'} : o < line.length → LongestAt specs line o i len s →
      Leads specs line (o + len) o' → Leads specs line o o'

/-- The piece of the line that a match covers. -/
def pieceText (line : List Char) (p : Nat × Nat × Nat) : List Char := (line.drop p.2.1).take p.2.2

/-- A unit's pattern matches a stretch of nodes: same length, atom by atom. -/
inductive PatternMatches : List Atom → List HNode → Prop
  | nil : PatternMatches [] []
  | name {s as n ns} : n.elementName = s → PatternMatches as ns → PatternMatches (.name s :: as) (n :: ns)
  | content {s re as n ns} : n.elementName = s → re n.innerText = true → PatternMatches as ns →
      PatternMatches (.content s re :: as) (n :: ns)

/-- Unit `i` (with value `u`) is the first that matches some first stretch of `nodes`; `m` is the
stretch, `rest` what follows. -/
def FirstMatch {R} (units : List (NUnit R)) (nodes : List HNode) (i : Nat) (u : NUnit R)
    (m rest : List HNode) : Prop :=
  units[i]? = some u ∧ nodes = m ++ rest ∧ PatternMatches u.pattern m ∧
  ∀ (j : Nat) u', j < i → units[j]? = some u' → ∀ m' rest', nodes = m' ++ rest' → ¬ PatternMatches u'.pattern m'

/-- `Chopped nodes used rs rest`: `nodes` starts with the stretches `used`, each taken by the first
unit that matches there, contributing the results `rs`; `rest` is what remains. -/
inductive Chopped {R} (units : List (NUnit R)) :
    List HNode → List (Nat × List HNode) → List R → List HNode → Prop
  | nil (nodes) : Chopped units nodes [] [] nodes
  | cons {nodes i u m rest used rs end_} : nodes ≠ [] → FirstMatch units nodes i u m rest →
      Chopped units rest used rs end_ →
      Chopped units nodes ((i, m) :: used) (u.processor m ++ rs) end_

end Verif.Util
