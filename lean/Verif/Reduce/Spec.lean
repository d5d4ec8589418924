import Verif.Reduce.Model
/-!
# What the parser of pseudocode may deliver (C105)
-/
namespace Verif.Reduce

/-- The name of a nonterminal or of a token, in braces. -/
def Braced (t : Str) : Prop := ∃ s : Str, t = '{' :: s ++ ['}']

/-- The names of the three tokens that stand for the layout: a new line at the same indentation, a deeper one, and a shallower one. -/
def Layout (t : Str) : Prop := t = "{nlai}".toList ∨ t = "{_indent_}".toList ∨ t = "{_outdent_}".toList

instance (t : Str) : Decidable (Layout t) := by unfold Layout; infer_instance

/-- A terminal of the grammar fits a token: by the name of the token, as an article, or as a word. -/
inductive Fits (tok : Tok) : Str → Prop where
  | name {t} : Braced t → tok.lhs = t → Fits tok t
  | article : tok.text = "a".toList ∨ tok.text = "an".toList → Fits tok "an?".toList
  | word {t} : ¬ Braced t → t ≠ "an?".toList → tok.text = t → Fits tok t

/-- What a parse can make of the tokens from `i` up to `k`, in any order of steps: tokens are matched, and stretches are reduced by any productions. -/
inductive Built (toks : List Tok) : Nat → Nat → List (Option Node) → Prop where
  | nil (i) : Built toks i i []
  | token {i k tok t n rs} : toks[i]? = some tok → matchToken tok t = some n → Built toks (i + 1) k rs → Built toks i k (n :: rs)
  | reduce {i j k lhs pieces rs' r rs} : Built toks i j rs' → reducer toks lhs pieces rs' i j = some r → Built toks j k rs → Built toks i k (r :: rs)

/-- The nodes stand one after the other between `a` and `b`, and so do the children of each of them within its extent. -/
inductive InOrder : Nat → Nat → List Node → Prop where
  | nil {a b} : a ≤ b → InOrder a b []
  | text {a b t ns} : InOrder a b ns → InOrder a b (.text t :: ns)
  | node {a b lhs cs s e ns} : a ≤ s → InOrder s e cs → InOrder e b ns → InOrder a b (.node lhs cs s e :: ns)

/-- The tokens stand one after the other. -/
def TokensInOrder (toks : List Tok) : Prop :=
  (∀ tok ∈ toks, tok.s ≤ tok.e) ∧ ∀ i a b, toks[i]? = some a → toks[i + 1]? = some b → a.e ≤ b.s

/-- `Unit n m`: from `n` one comes to `m` by going to only children. -/
inductive Unit : Node → Node → List Str → Prop where
  | refl (lhs cs s e) : Unit (.node lhs cs s e) (.node lhs cs s e) []
  | step {lhs c s e m ls} : Unit c m ls → Unit (.node lhs [c] s e) m (lhs :: ls)

end Verif.Reduce
