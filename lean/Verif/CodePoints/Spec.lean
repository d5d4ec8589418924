import Verif.CodePoints.Model
/-!
# What the code points of a property and of a nonterminal are (C92)
-/
namespace Verif.CodePoints

/-- The grammar has one production for each nonterminal. -/
def OneEach (g : Grammar) : Prop := (g.map (·.1)).Nodup

/-- ID_Start of the Unicode standard: letters, letter numbers and Other_ID_Start, without Pattern_Syntax and Pattern_White_Space. -/
def IdStart (u : Ucd) (p : Nat) : Prop :=
  (u.category p = "Lu".toList ∨ u.category p = "Ll".toList ∨ u.category p = "Lt".toList ∨ u.category p = "Lm".toList ∨
    u.category p = "Lo".toList ∨ u.category p = "Nl".toList ∨ u.otherStart p = true) ∧ u.syntax' p = false ∧ u.space p = false

/-- ID_Continue of the Unicode standard: ID_Start, marks, digits, connectors and Other_ID_Continue, without Pattern_Syntax and Pattern_White_Space. -/
def IdContinue (u : Ucd) (p : Nat) : Prop :=
  (IdStart u p ∨ u.category p = "Mn".toList ∨ u.category p = "Mc".toList ∨ u.category p = "Nd".toList ∨ u.category p = "Pc".toList ∨
    u.otherContinue p = true) ∧ u.syntax' p = false ∧ u.space p = false

/-- The code point can be derived from the nonterminal: one of its lines consists of one item, which is the code point, a property that it has, or a nonterminal from which it can be derived. -/
inductive Derives (u : Ucd) (g : Grammar) (p : Nat) : Str → Prop where
  | char {n : Str} {rs : List Rhs} : (n, rs) ∈ g → ⟨true, [.backticked [p]]⟩ ∈ rs → Derives u g p n
  | start {n : Str} {rs : List Rhs} : (n, rs) ∈ g → ⟨true, [.uProp "ID_Start".toList]⟩ ∈ rs → IdStart u p → Derives u g p n
  | continue {n : Str} {rs : List Rhs} : (n, rs) ∈ g → ⟨true, [.uProp "ID_Continue".toList]⟩ ∈ rs → IdContinue u p → Derives u g p n
  | zwnj {n : Str} {rs : List Rhs} : (n, rs) ∈ g → ⟨true, [.named "ZWNJ".toList]⟩ ∈ rs → p = 0x200c → Derives u g p n
  | zwj {n : Str} {rs : List Rhs} : (n, rs) ∈ g → ⟨true, [.named "ZWJ".toList]⟩ ∈ rs → p = 0x200d → Derives u g p n
  | nt {n m : Str} {rs : List Rhs} : (n, rs) ∈ g → ⟨true, [.gnt m 0]⟩ ∈ rs → Derives u g p m → Derives u g p n

/-- A right-hand side of the kinds that are known; its nonterminal, if it has one, is good. -/
inductive Good (ok : Str → Prop) : Rhs → Prop where
  | nt (m : Str) : ok m → Good ok ⟨true, [.gnt m 0]⟩
  | chars (cs : List Nat) : Good ok ⟨true, [.backticked cs]⟩
  | start : Good ok ⟨true, [.uProp "ID_Start".toList]⟩
  | continue : Good ok ⟨true, [.uProp "ID_Continue".toList]⟩
  | zwnj : Good ok ⟨true, [.named "ZWNJ".toList]⟩
  | zwj : Good ok ⟨true, [.named "ZWJ".toList]⟩

/-- The nonterminal has productions of the known kinds only, to the depth `k` below which there are none with nonterminals. -/
def Within (g : Grammar) : Nat → Str → Prop
  | 0, _ => False
  | k + 1, n => ∃ rs, (n, rs) ∈ g ∧ ∀ r ∈ rs, Good (Within g k) r

end Verif.CodePoints
