import Verif.Earley.ExpandModel
/-!
# Specification: grammatical parameters

What the spec's notation means: a production with parameters stands for one plain production for each
setting of the parameters that its guard admits.
-/
namespace Verif.Earley

/-- A setting gives each parameter a sign. -/
def IsSetting (params : List String) (σ : Setting) : Prop := σ.map (·.2) = params

/-- A guard admits a setting if the setting has every sign that it asks for. -/
def Admits (guard : List (Sign × String)) (σ : Setting) : Prop := ∀ g ∈ guard, g ∈ σ

/-- The sign that an argument passes on: `?p` that of `p` in the setting, `+p` and `~p` their own. -/
def Passes (σ : Setting) : Arg → Sign → Prop
  | (none, p), s => (s, p) ∈ σ
  | (some s', _), s => s = s'

/-- `args` in the setting `σ` amount to the setting `τ`. -/
def Resolved (σ : Setting) : List Arg → Setting → Prop
  | [], τ => τ = []
  | a :: r, τ => ∃ s τ', τ = (s, a.2) :: τ' ∧ Passes σ a s ∧ Resolved σ r τ'

/-- The plain items that an item stands for. -/
inductive Stand (env : GEnv) (σ : Setting) : GItem → List Rthing → Prop
  | nt {name args τ} : Resolved σ args τ → env.isTerminal name = some false →
      Stand env σ (.nt name args) [.nt (name ++ suffix τ)]
  | named {name args τ} : Resolved σ args τ → env.isTerminal name = some true →
      Stand env σ (.nt name args) [.term (.named (name ++ suffix τ))]
  | optNt {name args τ} : Resolved σ args τ → Stand env σ (.optNt name args) [.nt (name ++ suffix τ ++ "?")]
  | optLit {c} : Stand env σ (.optLit c) [.nt (c ++ "?")]
  | lit {c} : (env.lexical = false ∨ c.toList.length ≤ 1) → Stand env σ (.lit c) [.term (.lit c)]
  | exploded {c} : env.lexical = true → 1 < c.toList.length →
      Stand env σ (.lit c) (c.toList.map (fun ch => .term (.lit (String.ofList [ch]))))
  | namedChar {n} : Stand env σ (.namedChar n) [.term (.named n)]
  | uProp {p} : Stand env σ (.uProp p) [.term (.uProp p)]
  | uRange {lo hi} : Stand env σ (.uRange lo hi) [.term (.uRange lo hi)]
  | uAny : Stand env σ .uAny [.term (.uRange 0 0x10FFFF)]
  | con {c} : Stand env σ (.con c) [.con c]

/-- The plain right-hand side that a list of items stands for. -/
inductive Stands' (env : GEnv) (σ : Setting) : List GItem → List Rthing → Prop
  | nil : Stands' env σ [] []
  | cons {x xs ts ts'} : Stand env σ x ts → Stands' env σ xs ts' → Stands' env σ (x :: xs) (ts ++ ts')

/-- The plain productions that right-hand sides stand for in a setting: one for each that admits the
setting, in order. -/
inductive Expands (env : GEnv) (σ : Setting) (lhs : String) : List GRhs → List Prod → Prop
  | nil : Expands env σ lhs [] []
  | skip {r rs ps} : ¬ Admits r.guard σ → Expands env σ lhs rs ps → Expands env σ lhs (r :: rs) ps
  | keep {r rs ps p} : Admits r.guard σ → Stands' env σ r.items p.rhs → p.lhs = lhs ++ suffix σ → p.ogLhs = lhs →
      p.ogReduced = r.reduced → p.ogParams = settingStrings σ →
      Expands env σ lhs rs ps → Expands env σ lhs (r :: rs) (p :: ps)

/-- The item is an optional symbol: the name without `?`, and the symbol itself. -/
def OptionalIn (σ : Setting) : GItem → String → Rthing → Prop
  | .optNt name args, base, thing => ∃ τ, Resolved σ args τ ∧ base = name ++ suffix τ ∧ thing = .nt base
  | .optLit c, base, thing => base = c ∧ thing = .term (.lit c)
  | _, _, _ => False

/-- `base?` stands for the optional `thing` somewhere in the expanded grammar. -/
def OptionalUsed (prods : List GProd) (base : String) (thing : Rthing) : Prop :=
  ∃ gp ∈ prods, ∃ σ, IsSetting gp.params σ ∧ ∃ r ∈ gp.rhss, Admits r.guard σ ∧ ∃ x ∈ r.items, OptionalIn σ x base thing

/-- Names have none of the characters that are used to build expanded names. -/
def PlainName (s : String) : Prop := '+' ∉ s.toList ∧ '~' ∉ s.toList ∧ '?' ∉ s.toList

/-- Names are plain, each nonterminal has one entry, and its parameters are distinct. -/
structure NamesOk (prods : List GProd) : Prop where
  lhs : ∀ gp ∈ prods, PlainName gp.lhs ∧ gp.lhs ≠ "InputElement_common"
  params : ∀ gp ∈ prods, gp.params.Nodup ∧ ∀ p ∈ gp.params, PlainName p
  once : (prods.map (·.lhs)).Nodup

/-- The two productions of an optional symbol. -/
def OptPair (base : String) (thing : Rthing) (ps : List Prod) : Prop :=
  ∃ o σ, ps = [⟨base ++ "?", [thing], o ++ "?", o, σ⟩, ⟨base ++ "?", [], o ++ "?", "", σ⟩]

/-- The productions of `InputElement_common`. -/
def commonProds : List Prod :=
  ["WhiteSpace", "LineTerminator", "Comment", "CommonToken"].map (fun n => ⟨"InputElement_common", [.nt n], "InputElement_common", n, []⟩)

/-- Every right-hand side that a setting admits makes sense in it. -/
def Sensible (env : GEnv) (gp : GProd) : Prop :=
  ∀ σ, IsSetting gp.params σ → ∀ r ∈ gp.rhss, Admits r.guard σ → ∃ rhs, Stands' env σ r.items rhs

end Verif.Earley
