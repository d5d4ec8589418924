import Verif.Refs.Model
import Verif.Defs.Spec
/-!
# What it means that references to nonterminals are checked (C57)

`Verif.Defs.Spec` says what the definitions are.  Of the model only the types are used.
-/
namespace Verif.Refs.Spec
open Verif.Refs
open Verif.Defs (Str Arena Block)
open Verif.Defs.Spec (Defines Defined Counts Before)

/-! ## Annex A -/

/-- Reference number `k` is to the whole production of `n`. -/
def Whole (rs : List ProdRef) (k : Nat) (n : Str) : Prop := ∃ r, rs[k]? = some r ∧ r.name = some n ∧ r.alt = false

/-- Reference number `k` stops the check: it has no name, what it names has no definition in the main body, or it is to a part of a production and no
reference to the whole comes before. -/
inductive StopsAt (doc : List Block) (rs : List ProdRef) (k : Nat) : Prop where
  | noName (r) : rs[k]? = some r → r.name = none → StopsAt doc rs k
  | undefinedNt (r n) : rs[k]? = some r → r.name = some n → (¬∃ i p, Defines doc i .A n p) → StopsAt doc rs k
  | alone (r n) : rs[k]? = some r → r.name = some n → r.alt = true → (¬∃ j : Nat, j < k ∧ Whole rs j n) → StopsAt doc rs k

/-- Reference number `k` is to a whole production and isn't the first. -/
def Second (rs : List ProdRef) (k : Nat) : Prop := ∃ n, Whole rs k n ∧ ∃ j : Nat, j < k ∧ Whole rs j n

/-- The pairs of a place and a name in order. -/
def InOrder (l : List (Nat × Str)) : Prop := l.Pairwise (fun a b => a.1 < b.1 ∨ (a.1 = b.1 ∧ Before a.2 b.2))

/-! ## References in the text -/

/-- At `p` there is a bar, a character of words and more, and a bar; `b` is between the bars. -/
def RefAt (word : Char → Bool) (text : Str) (p : Nat) (b : Str) : Prop :=
  ∃ before after, text = before ++ '|' :: (b ++ '|' :: after) ∧ before.length = p ∧ '|' ∉ b ∧ ∃ c w, b = c :: w ∧ word c = true ∧ w ≠ []

/-- The list of references: they are from left to right and don't overlap, and whatever else looks like one overlaps with one before it. -/
structure Refs (word : Char → Bool) (text : Str) (l : List (Nat × Str)) : Prop where
  sound : ∀ x ∈ l, RefAt word text x.1 x.2
  apart : l.Pairwise (fun x y => x.1 + x.2.length + 2 ≤ y.1)
  complete : ∀ p b, RefAt word text p b → (p, b) ∈ l ∨ ∃ x ∈ l, x.1 < p ∧ p < x.1 + x.2.length + 2

/-- A well-formed reference: a name, arguments in brackets on one line or none, and possibly a question mark. -/
inductive Parts (word : Char → Bool) : Str → Str → Option Str → Prop where
  | plain (nt opt) : nt ≠ [] → (∀ c ∈ nt, word c = true) → (opt = [] ∨ opt = ['?']) → Parts word (nt ++ opt) nt none
  | args (nt a opt) : nt ≠ [] → (∀ c ∈ nt, word c = true) → (opt = [] ∨ opt = ['?']) → a ≠ [] → '\n' ∉ a →
      Parts word (nt ++ '[' :: (a ++ ']' :: opt)) nt (some a)

/-- The arguments: they are separated by a comma and all spaces that follow it. -/
inductive Pieces : Str → List Str → Prop where
  | last (a) : ',' ∉ a → Pieces a [a]
  | more (a k rest as) : ',' ∉ a → rest.head? ≠ some ' ' → Pieces rest as → Pieces (a ++ ',' :: (List.replicate k ' ' ++ rest)) (a :: as)

/-- One of the three signs of arguments. -/
def IsSign (c : Char) : Prop := c = '?' ∨ c = '+' ∨ c = '~'

/-- The arguments, the names in them, which come after the signs, and the arguments that have no sign; none is empty. -/
inductive Args : List Str → List Str → List Str → Prop where
  | nil : Args [] [] []
  | signed {c n as ns bs} : IsSign c → Args as ns bs → Args ((c :: n) :: as) (n :: ns) bs
  | bare {c n as ns bs} : ¬IsSign c → Args as ns bs → Args ((c :: n) :: as) ((c :: n) :: ns) ((c :: n) :: bs)

/-- The first occurrence of the mark of annex B is at `b`. -/
def MarkAt (text : Str) (b : Nat) : Prop :=
  (∃ x y, text = x ++ "namespace=\"annexB\"".toList ++ y ∧ x.length = b) ∧
  ∀ x y, text = x ++ "namespace=\"annexB\"".toList ++ y → b ≤ x.length

/-- The arena of a place: what is before the mark of annex B is the main body. -/
def Place (text : Str) (p : Nat) : Arena → Prop
  | .A => ∃ b, MarkAt text b ∧ p < b
  | .B => ¬∃ b, MarkAt text b ∧ p < b
  | .E => False

/-- The reference at `p` stops the check: the nonterminal is defined and there are arguments, but one of them is empty, or the nonterminal has no
definition that counts here. -/
def Stops (word : Char → Bool) (doc : List Block) (text : Str) (p : Nat) (b : Str) : Prop :=
  ∃ nt a as, Parts word b nt (some a) ∧ Defined doc nt ∧ Pieces a as ∧
    ([] ∈ as ∨ ∃ x, Place text p x ∧ ¬∃ i q, Counts doc x nt i q)

/-- What is said on the reference at `p`. -/
inductive Says (word : Char → Bool) (doc : List Block) (text : Str) (p : Nat) (b : Str) : List Msg → Prop where
  /-- It isn't well-formed. -/
  | malformed : (¬∃ nt a, Parts word b nt a) → Says word doc text p b [⟨p, .malformed⟩]
  /-- There is no such nonterminal. -/
  | unrecognized (nt a) : Parts word b nt a → ¬Defined doc nt → Says word doc text p b [⟨p, .unrecognized nt⟩]
  /-- Without arguments there is nothing else to check. -/
  | plain (nt) : Parts word b nt none → Defined doc nt → Says word doc text p b []
  /-- The arguments without signs are listed, and the names are those of the parameters. -/
  | agree (nt a as bare ns x i q) : Parts word b nt (some a) → Pieces a as → Args as ns bare → Place text p x → Counts doc x nt i q → ns = q.lhs.args.map (·.name) →
      Says word doc text p b (bare.map (fun s => ⟨p, .noPrefix s⟩))
  /-- The names are not those of the parameters. -/
  | differ (nt a as bare ns x i q) : Parts word b nt (some a) → Pieces a as → Args as ns bare → Place text p x → Counts doc x nt i q → ns ≠ q.lhs.args.map (·.name) →
      Says word doc text p b (bare.map (fun s => ⟨p, .noPrefix s⟩) ++ [⟨p, .mismatch a (q.lhs.args.map (·.name))⟩])

end Verif.Refs.Spec
