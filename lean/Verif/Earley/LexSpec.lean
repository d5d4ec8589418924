import Verif.Earley.Spec
import Verif.Earley.LexModel
/-!
# Specification: a text as the input of a lexical derivation

Which characters a terminal stands for, and when a constraint is satisfied, said directly.
-/
namespace Verif.Earley

/-- The named characters of the lexical grammar. -/
def namedChars : List (String × Char) :=
  [("TAB", '\u0009'), ("VT", '\u000b'), ("FF", '\u000c'), ("ZWNBSP", '\ufeff'),
   ("LF", '\u000a'), ("CR", '\u000d'), ("LS", '\u2028'), ("PS", '\u2029')]

/-- Letters and letter numbers. -/
def letterCats : List String := ["Lu", "Ll", "Lt", "Lm", "Lo", "Nl"]
/-- Marks, digits and connectors, which may continue an identifier. -/
def markCats : List String := ["Mn", "Mc", "Nd", "Pc"]

/-- The character `ch` is an instance of the terminal `t`. -/
def Stands (env : LexEnv) (ch : Char) : Term → Prop
  | .lit s => s.toList = [ch]
  | .named n => (n, ch) ∈ namedChars ∨ (n = "USP" ∧ env.category ch = "Zs")
  | .uRange lo hi => lo ≤ ch.toNat ∧ ch.toNat ≤ hi
  | .uProp p =>
    (p = "ID_Start" ∧ (env.category ch ∈ letterCats ∨ ch ∈ otherIdStart)) ∨
    (p = "ID_Continue" ∧ ch ≠ '\u2e2f' ∧ (env.category ch ∈ letterCats ++ markCats ∨ ch ∈ otherIdStart ++ otherIdContinue))

/-- A terminal that makes sense in the lexical grammar: a single character, a known name, a range or a
known property. -/
def GoodTerm : Term → Prop
  | .lit s => ∃ ch, s.toList = [ch]
  | .named n => n = "USP" ∨ ∃ ch, (n, ch) ∈ namedChars
  | .uRange _ _ => True
  | .uProp p => p = "ID_Start" ∨ p = "ID_Continue"

/-- The character `ch` is excluded by an exception. -/
def Excludes (env : LexEnv) (ch : Char) : Ex → Prop
  | .term t => Stands env ch t
  | .nt n => ∃ cs, env.charSet n = some cs ∧ ch ∈ cs

/-- The "but only if" conditions: the symbol they are about and what they require of its value. -/
def onlyIfs : List (String × String × (Nat → Prop)) :=
  [("the MV of |HexDigits| &le; 0x10FFFF", "HexDigits", fun v => v ≤ 0x10FFFF),
   ("the MV of |HexDigits| > 0x10FFFF", "HexDigits", fun v => 0x10FFFF < v),
   ("the MV of |Hex4Digits| is in the inclusive interval from 0xD800 to 0xDBFF", "Hex4Digits",
     fun v => 0xD800 ≤ v ∧ v ≤ 0xDBFF),
   ("the MV of |Hex4Digits| is in the inclusive interval from 0xDC00 to 0xDFFF", "Hex4Digits",
     fun v => 0xDC00 ≤ v ∧ v ≤ 0xDFFF),
   ("the MV of |Hex4Digits| is not in the inclusive interval from 0xD800 to 0xDFFF", "Hex4Digits",
     fun v => v < 0xD800 ∨ 0xDFFF < v)]

/-- The hexadecimal digits with their values. -/
def hexTable : List (Char × Nat) :=
  [('0', 0), ('1', 1), ('2', 2), ('3', 3), ('4', 4), ('5', 5), ('6', 6), ('7', 7), ('8', 8), ('9', 9),
   ('a', 10), ('b', 11), ('c', 12), ('d', 13), ('e', 14), ('f', 15),
   ('A', 10), ('B', 11), ('C', 12), ('D', 13), ('E', 14), ('F', 15)]

/-- `cs` is the hexadecimal numeral of `v`. -/
inductive HexNumeral : List Char → Nat → Prop
  | one {c d} : (c, d) ∈ hexTable → HexNumeral [c] d
  | snoc {cs v c d} : HexNumeral cs v → (c, d) ∈ hexTable → HexNumeral (cs ++ [c]) (16 * v + d)

/-- The constraint `con` is satisfied at position `pos` of the text, after the node `prev`. The
condition on capturing groups is not enforced by the parser. -/
def Satisfied (env : LexEnv) (text : List Char) (pos : Nat) (prev : Option (Node LexLeaf)) : Con → Prop
  | .butNot b => ∃ n ch, prev = some n ∧ nodeText text n = [ch] ∧ ∀ x ∈ b, ¬ Excludes env ch x
  | .butOnlyIf c => c = unchecked ∨ ∃ sym test p bits s e cs v, (c, sym, test) ∈ onlyIfs ∧
      prev = some (.nt p bits s e cs) ∧ p.ogLhs = sym ∧ HexNumeral (nodeText text (.nt p bits s e cs)) v ∧ test v
  | .lookahead true tss => ∃ ch, text[pos]? = some ch ∧ ∃ t, [La.term t] ∈ tss ∧ Stands env ch t
  | .lookahead false tss => ∀ ch, text[pos]? = some ch → ∀ t, [La.term t] ∈ tss → ¬ Stands env ch t
  | .noLT => False

/-- A constraint that makes sense in the lexical grammar. -/
def GoodCon (env : LexEnv) : Con → Prop
  | .butNot b => ∀ x ∈ b, match x with
    | .term t => GoodTerm t
    | .nt n => (env.charSet n).isSome = true
  | .butOnlyIf c => c = unchecked ∨ ∃ sym test, (c, sym, test) ∈ onlyIfs
  | .lookahead _ tss => ∀ ts ∈ tss, ∃ t, ts = [La.term t] ∧ GoodTerm t
  | .noLT => False

/-- The text from position `start` on, as the input of a derivation: place `k` is position `start + k`,
and the terminals are single characters. -/
def textWorld (env : LexEnv) (text : List Char) (start : Nat) : World LexLeaf where
  scan k t l := ∃ ch, text[start + k]? = some ch ∧ Stands env ch t ∧ l = ⟨t, start + k, start + k + 1⟩
  holds k prev con := Satisfied env text (start + k) prev con
  «at» k p := p = start + k
  first l := l.s
  last l := l.e

/-- The node just before a constraint, when `pre` has been derived with children `cs`: none if the
constraint comes first or after another constraint. -/
def prevOf {L : Type} (pre : List Rthing) (cs : List (Node L)) : Option (Node L) :=
  match pre.getLast? with
  | some (.nt _) => cs.getLast?
  | some (.term _) => cs.getLast?
  | _ => none

/-- What a constraint needs of the node before it: "but not" applies to a single character, "but only
if" to the symbol it is about, written in hexadecimal digits. -/
def Applies (text : List Char) (prev : Option (Node LexLeaf)) : Con → Prop
  | .butNot _ => ∃ n ch, prev = some n ∧ nodeText text n = [ch]
  | .butOnlyIf c => c = unchecked ∨ ∀ sym test, (c, sym, test) ∈ onlyIfs → ∃ p bits s e cs v,
      prev = some (.nt p bits s e cs) ∧ p.ogLhs = sym ∧ HexNumeral (nodeText text (.nt p bits s e cs)) v
  | _ => True

/-- A lexical grammar that the parser can handle: finite, with every production filed under its own
name, every nonterminal defined, and sensible terminals and constraints. -/
structure LexGrammar (env : LexEnv) (G : Grammar) : Prop where
  filed : Filed G
  closed : Closed G
  terms : ∀ n ps p t, G n = some ps → p ∈ ps → Rthing.term t ∈ p.rhs → GoodTerm t
  cons : ∀ n ps p k, G n = some ps → p ∈ ps → Rthing.con k ∈ p.rhs → GoodCon env k

/-- Wherever a constraint is reached in the text, it applies to the node before it. -/
def ConsApply (env : LexEnv) (G : Grammar) (text : List Char) (start : Nat) : Prop :=
  ∀ n ps p pre k post i j cs, G n = some ps → p ∈ ps → p.rhs = pre ++ .con k :: post →
    Derives G (textWorld env text start) pre none i j cs → Applies text (prevOf pre cs) k

end Verif.Earley
