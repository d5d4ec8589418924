/-!
# Escape sequences in names

`ES_UnicodeCodePoints.replace_backslashUniEscapeSeqs` (pseudocode_semantics.py:3730-3738).  A text is a list of code points, since `chr` can give a surrogate, which is no `Char`.
-/
namespace Verif.Unesc

abbrev Text := List Nat

/-- The value of a character that `[\da-fA-F]` matches, as `int(…, 16)` has it (pseudocode_semantics.py:3734-3735).
In a pattern for texts, `\d` matches the decimal digits of all scripts, and `int` knows them; `nd` gives the value of those beyond ASCII. -/
def hexOf (nd : Nat → Option Nat) (c : Nat) : Option Nat :=
  if 48 ≤ c ∧ c ≤ 57 then some (c - 48)
  else if 97 ≤ c ∧ c ≤ 102 then some (c - 87)
  else if 65 ≤ c ∧ c ≤ 70 then some (c - 55)
  else if 128 ≤ c then nd c
  else none

/-- `int(hexdigits, 16)` (pseudocode_semantics.py:3734); `acc` is the value so far. -/
def intOf (nd : Nat → Option Nat) : Text → Nat → Nat
  | [], acc => acc
  | c :: cs, acc => intOf nd cs (16 * acc + (hexOf nd c).getD 0)

/-- The second alternative of the pattern, `\\u([\da-fA-F]{4})`, after `\u` (pseudocode_semantics.py:3735): the value and the length of the match. -/
def four (nd : Nat → Option Nat) (cs : Text) : Option (Nat × Nat) :=
  if (cs.take 4).length = 4 ∧ (cs.take 4).all (fun c => (hexOf nd c).isSome) = true then some (intOf nd (cs.take 4) 0, 6) else none

/-- The match of the pattern at the start of a text, if there is one (pseudocode_semantics.py:3735).
The digits between the braces are taken greedily; since a brace is no digit, there is nothing to be tried again. -/
def matchAt (nd : Nat → Option Nat) : Text → Option (Nat × Nat)
  | 92 :: 117 :: 123 :: cs =>
    if cs.takeWhile (fun c => (hexOf nd c).isSome) ≠ [] ∧ (cs.dropWhile (fun c => (hexOf nd c).isSome)).head? = some 125
    then some (intOf nd (cs.takeWhile (fun c => (hexOf nd c).isSome)) 0, (cs.takeWhile (fun c => (hexOf nd c).isSome)).length + 4)
    else four nd (123 :: cs)
  | 92 :: 117 :: cs => four nd cs
  | _ => none

/-- `re.sub` with `replfunc` (pseudocode_semantics.py:3732-3735); `k` is the number of characters that belong to the match before.
None if `chr` raises an exception, since the number is too large. -/
def sub (nd : Nat → Option Nat) : Nat → Text → Option Text
  | _, [] => some []
  | k + 1, _ :: cs => sub nd k cs
  | 0, c :: cs => match matchAt nd (c :: cs) with
    | some (v, n) => if v < 1114112 then (sub nd (n - 1) cs).map (v :: ·) else none
    | none => (sub nd 0 cs).map (c :: ·)

/-- `replace_backslashUniEscapeSeqs` (pseudocode_semantics.py:3730-3738). -/
def replaceEscapes (nd : Nat → Option Nat) (text : Text) : Option Text :=
  if 92 ∈ text then sub nd 0 text else some text

end Verif.Unesc
