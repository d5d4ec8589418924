/-!
# Model of the test whether a code point is matched by a nonterminal of the lexical grammar (pseudocode_semantics.py:3630-3692, 4123-4155, 4482-4487)

A code point is a number, since Python's characters include the surrogates.
Texts are lists of them.
-/
namespace Verif.CodePoints

abbrev Str := List Char

/-- The Unicode data: `unicodedata.category`, and the four sets of unicode_contributory_properties.py:2-5.
A parameter of the model. -/
structure Ucd where
  category : Nat → Str
  otherStart : Nat → Bool
  otherContinue : Nat → Bool
  syntax' : Nat → Bool
  space : Nat → Bool

/-- The first return of `unicode_character_has_property` (pseudocode_semantics.py:3652-3662). -/
def idStart (u : Ucd) (p : Nat) : Bool :=
  (["Lu".toList, "Ll".toList, "Lt".toList, "Lm".toList, "Lo".toList, "Nl".toList].contains (u.category p) || u.otherStart p) &&
    !u.syntax' p && !u.space p

/-- `unicode_character_has_property` (pseudocode_semantics.py:3630-3692); `none` for a property that it does not know (line 3692). -/
def hasProperty (u : Ucd) (p : Nat) (name : Str) : Option Bool :=
  if name = "ID_Start".toList then some (idStart u p)
  else if name = "ID_Continue".toList then
    some ((idStart u p || ["Mn".toList, "Mc".toList, "Nd".toList, "Pc".toList].contains (u.category p) || u.otherContinue p) &&
      !u.syntax' p && !u.space p)
  else none

/-- An item of a right-hand side (pseudocode_semantics.py:4133-4155): a nonterminal with the number of its parameters, a text in backticks, a Unicode property, a named character, or anything else. -/
inductive Item where
  | gnt (name : Str) (params : Nat)
  | backticked (chars : List Nat)
  | uProp (name : Str)
  | named (name : Str)
  | other
deriving DecidableEq

/-- A right-hand side: whether it is a line (`RHS_LINE`), and its items (pseudocode_semantics.py:4131-4133). -/
structure Rhs where
  line : Bool
  items : List Item
deriving DecidableEq

/-- The productions of the lexical grammar (pseudocode_semantics.py:4124-4125). -/
abbrev Grammar := List (Str × List Rhs)

/-- `g.prodn_for_lhs_[nt_name]._rhss` (pseudocode_semantics.py:4125); `none` is a KeyError. -/
def rhss (g : Grammar) (n : Str) : Option (List Rhs) := (g.find? (fun p => p.1 = n)).map (·.2)

/-- The table of named characters (pseudocode_semantics.py:4148-4151); `none` is a KeyError. -/
def namedChar (n : Str) : Option Nat :=
  if n = "ZWNJ".toList then some 0x200c else if n = "ZWJ".toList then some 0x200d else none

/-- `pychar_matches_rhs` (pseudocode_semantics.py:4130-4155); `nt` is what is done for a nonterminal, and `none` a failure. -/
def matchesRhs (u : Ucd) (nt : Str → Option Bool) (p : Nat) (r : Rhs) : Option Bool :=
  if r.line then
    match r.items with
    | [.gnt n k] => if k = 0 then nt n else none
    | [.backticked cs] => some (decide ([p] = cs))
    | [.uProp n] => hasProperty u p n
    | [.named n] => (namedChar n).map (fun q => decide (p = q))
    | _ => none
  else none

/-- The loop over the right-hand sides (pseudocode_semantics.py:4125-4128). -/
def anyRhs (f : Rhs → Option Bool) : List Rhs → Option Bool
  | [] => some false
  | r :: rs => (f r).bind (fun b => if b then some true else anyRhs f rs)

/-- `pychar_matches_lexical_nonterminal` (pseudocode_semantics.py:4123-4128).
The number is how deep the calls may go; Python too fails at some depth. -/
def matchesNt (u : Ucd) (g : Grammar) (p : Nat) : Nat → Str → Option Bool
  | 0, _ => none
  | k + 1, n => (rhss g n).bind (anyRhs (matchesRhs u (matchesNt u g p k) p))

/-- The condition "is not some Unicode code point matched by the … lexical grammar production" (pseudocode_semantics.py:4483-4487), without the evaluation of its operand. -/
def notMatched (u : Ucd) (g : Grammar) (p : Nat) (k : Nat) (n : Str) : Option Bool := (matchesNt u g p k n).map (!·)

end Verif.CodePoints
