import Verif.Defs.Model
/-!
# What it means that the definitions of the grammar are checked (C55)

Only the types of the model are used here.
-/
namespace Verif.Defs.Spec
open Verif.Defs

/-- The defining productions in the order of the document, each with its section. -/
def prodns (doc : List Block) : List (Sec × Prodn) := doc.flatMap (fun b => b.prods.map (fun p => (b.sec, p)))

/-- The arena of a section: the section on the notation has examples, the sections of annex B have numbers that start with B. -/
inductive IsArena (s : Sec) : Arena → Prop where
  | examples : s.title = "Grammar Notation".toList → IsArena s .E
  | annexB : s.title ≠ "Grammar Notation".toList → (∃ r, s.num = 'B' :: r) → IsArena s .B
  | main : s.title ≠ "Grammar Notation".toList → (¬∃ r, s.num = 'B' :: r) → IsArena s .A

/-- The production number `i` of the document defines the nonterminal `n` in the arena `a`. -/
def Defines (doc : List Block) (i : Nat) (a : Arena) (n : Str) (p : Prodn) : Prop :=
  ∃ s, (prodns doc)[i]? = some (s, p) ∧ p.lhs.name = n ∧ IsArena s a

/-- The nonterminal is defined somewhere. -/
def Defined (doc : List Block) (n : Str) : Prop := ∃ i a p, Defines doc i a n p

/-- The production that counts for `n` in the arena `a`: the definition in that arena, or else that of the main body. -/
def Counts (doc : List Block) (a : Arena) (n : Str) (i : Nat) (p : Prodn) : Prop :=
  Defines doc i a n p ∨ ((¬∃ j q, Defines doc j a n q) ∧ Defines doc i .A n p)

/-- The sections of annex B whose productions add to those of the main body. -/
def Adds (s : Sec) : Prop :=
  IsArena s .B ∧ (s.title = "FunctionDeclarations in IfStatement Statement Clauses".toList ∨ s.title = "Initializers in ForIn Statement Heads".toList)

/-- An upper-case letter, and so on, of ASCII. -/
def Upper (c : Char) : Prop := 'A' ≤ c ∧ c ≤ 'Z'
def Lower (c : Char) : Prop := 'a' ≤ c ∧ c ≤ 'z'
def Digit (c : Char) : Prop := '0' ≤ c ∧ c ≤ '9'

/-- The names that a nonterminal can have: an upper-case letter and one or more letters and digits; in the section on URIs, `uri`, alone or before
a capitalized word. -/
def GoodName (s : Sec) (n : Str) : Prop :=
  (s.title = "URI Syntax and Semantics".toList ∧
    (n = "uri".toList ∨ ∃ c w, n = "uri".toList ++ c :: w ∧ Upper c ∧ w ≠ [] ∧ ∀ x ∈ w, Lower x)) ∨
  (s.title ≠ "URI Syntax and Semantics".toList ∧
    ∃ c w, n = c :: w ∧ Upper c ∧ w ≠ [] ∧ ∀ x ∈ w, Lower x ∨ Upper x ∨ Digit x)

/-- Nothing stops the first pass: the elements are blocks of definitions in clauses or annexes, the productions have several lines and good names, and
two productions for the same nonterminal have the same number of colons and are in different arenas. -/
structure LeftOk (doc : List Block) : Prop where
  blocks : ∀ b ∈ doc, b.isDef = true ∧ b.isBlock = true
  prodn : ∀ s p, (s, p) ∈ prodns doc →
    p.multi = true ∧ (s.element = "emu-clause".toList ∨ s.element = "emu-annex".toList) ∧ GoodName s p.lhs.name
  colons : ∀ i j a b n p q, Defines doc i a n p → Defines doc j b n q → p.colons = q.colons
  once : ∀ i j a n p q, Defines doc i a n p → Defines doc j a n q → i = j

/-- The nonterminal `g`, with or without a `?`, is an item of the line `r` of a production, whose guard is `guard`. -/
def Mentions (r : Rhs) (guard : List Param) (g : Gnt) : Prop :=
  ∃ is label, r = .line guard (.items is) label ∧ (Item.plain (.gnt g) ∈ is ∨ Item.qm (.gnt g) ∈ is)

/-- Something in the right-hand sides of a production stops the second pass: a guard is about something that isn't a parameter or has no `+` or `~`, a
right-hand side is not one of a production with several lines, a nonterminal is mentioned which is defined, but neither in this arena nor in the
main body, or the production adds to one that isn't in the main body. -/
inductive RightStops (doc : List Block) (s : Sec) (p : Prodn) : Prop where
  | guard (guard body label x) : Rhs.line guard body label ∈ p.rhss → x ∈ guard →
      (x.sign ≠ .plus ∧ x.sign ≠ .tilde) ∨ x.name ∉ p.lhs.args.map Param.name → RightStops doc s p
  | bare (is) : Rhs.bare is ∈ p.rhss → RightStops doc s p
  | elsewhere (r guard g a) : r ∈ p.rhss → Mentions r guard g → IsArena s a → Defined doc g.name →
      (¬∃ i q, Counts doc a g.name i q) → RightStops doc s p
  | nothingToAddTo : Adds s → (¬∃ i q, Defines doc i .A p.lhs.name q) → RightStops doc s p

/-- The faults in the mention of `g`, in a line with the guard `guard`, in a production `p` in the arena `a`, and where they are shown. -/
inductive FaultIn (doc : List Block) (a : Arena) (p : Prodn) (guard : List Param) (g : Gnt) : Msg → Prop where
  /-- An argument has none of the three signs. -/
  | noSign (x) : x ∈ g.args → x.sign = .bare → FaultIn doc a p guard g ⟨x.pos, .noSign⟩
  /-- There is no such nonterminal. -/
  | undefinedNt : ¬Defined doc g.name → FaultIn doc a p guard g ⟨g.pos, .undefinedNt⟩
  /-- The arguments are not the parameters of the nonterminal, though there are as many. -/
  | argOrder (i q) : Counts doc a g.name i q → g.args.length = q.lhs.args.length →
      g.args.map Param.name ≠ q.lhs.args.map Param.name →
      FaultIn doc a p guard g ⟨g.argsPos, .argOrder (g.args.map Param.name) (q.lhs.args.map Param.name)⟩
  /-- There are more or fewer arguments than parameters. -/
  | argCount (i q) : Counts doc a g.name i q → g.args.length ≠ q.lhs.args.length →
      FaultIn doc a p guard g ⟨g.argsPos, .argCount g.name (q.lhs.args.map Param.name) (g.args.map Param.name)⟩
  /-- An argument is about a parameter of the production, but is not passed on with `?`; unless the guard says the same. -/
  | expectQuery (x) : Defined doc g.name → x ∈ g.args → x.name ∈ p.lhs.args.map Param.name → x.sign ≠ .query →
      (∀ y ∈ guard, ¬(y.sign = x.sign ∧ y.name = x.name)) → FaultIn doc a p guard g ⟨x.pos, .expectQuery p.lhs.name x.name⟩
  /-- An argument with `?` is not about a parameter of the production. -/
  | notOnLhs (x) : Defined doc g.name → x ∈ g.args → x.name ∉ p.lhs.args.map Param.name → x.sign = .query →
      FaultIn doc a p guard g ⟨p.pos, .notOnLhs x.name⟩

/-- A fault of the document. -/
def Fault (doc : List Block) (m : Msg) : Prop :=
  ∃ s p r guard g a, (s, p) ∈ prodns doc ∧ IsArena s a ∧ r ∈ p.rhss ∧ Mentions r guard g ∧ FaultIn doc a p guard g m

/-- The right-hand sides that a production ends up with: those of the main body come first if it adds to them. -/
def FinalRhss (doc : List Block) (i : Nat) (rs : List Rhs) : Prop :=
  ∃ s p, (prodns doc)[i]? = some (s, p) ∧
    ((¬Adds s ∧ rs = p.rhss) ∨ (Adds s ∧ ∃ j q, Defines doc j .A p.lhs.name q ∧ rs = q.rhss ++ p.rhss))

/-- The level of a nonterminal: syntactic if its productions have one colon; and three others. -/
def Syntactic (n : Str) (p : Prodn) : Prop :=
  p.colons = 1 ∨ n = "ReservedWord".toList ∨ n = "NullLiteral".toList ∨ n = "BooleanLiteral".toList

/-- The name occurs in a right-hand side: as a nonterminal, as an excluded one, or in a lookahead constraint. -/
def OccursIn (n : Str) (r : Rhs) : Prop :=
  ∃ is, ((∃ guard label, r = .line guard (.items is) label) ∨ r = .bare is) ∧
    ∃ s, (Item.plain s ∈ is ∨ Item.qm s ∈ is) ∧
      ((∃ g, s = .gnt g ∧ g.name = n) ∨ ∃ k text nts, s = .other k text nts ∧ n ∈ nts)

/-- The order of strings by code points. -/
def Before (s t : Str) : Prop :=
  ∃ k : Nat, s.take k = t.take k ∧ ((s.length = k ∧ k < t.length) ∨ ∃ c d, s[k]? = some c ∧ t[k]? = some d ∧ c.toNat < d.toNat)

/-- Strictly increasing. -/
def Increasing (ns : List Str) : Prop := ns.Pairwise Before

end Verif.Defs.Spec
