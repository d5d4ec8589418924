import Verif.Validate.Model
/-!
# What the validation of the markup has to report
-/
namespace Verif.Validate
open Verif.HTML (Str Attrs Node litName commentName)

variable (cfg : Cfg) (text : Str)

/-- `n` is in the tree, with `anc` around it, innermost first. -/
inductive At (doc : Node) : List Node → Node → Prop
  | root : At doc [] doc
  | kid {anc n c} : At doc anc n → nName n ≠ litName → c ∈ nKids n → At doc (n :: anc) c

/-- A maximal run of `k` spaces at `p`, in the stretch from `a` to `b`. -/
structure SpaceRun (a b p k : Nat) : Prop where
  lo : a ≤ p
  hi : p + k ≤ b
  spaces : ∀ (i : Nat), p ≤ i → i < p + k → text[i]? = some ' '
  before : p = a ∨ text[p - 1]? ≠ some ' '
  after : p + k = b ∨ text[p + k]? ≠ some ' '

/-- An entity at `p`: `&`, perhaps `#`, one or more word characters and `;`. -/
def EntityAt (a b p : Nat) (e : Str) : Prop :=
  a ≤ p ∧ p + e.length ≤ b ∧ (∀ (i : Nat), i < e.length → text[p + i]? = e[i]?) ∧
  ∃ h w, e = '&' :: (h ++ w ++ [';']) ∧ (h = [] ∨ h = ['#']) ∧ w ≠ [] ∧ ∀ c ∈ w, cfg.word c = true

/-- A cell for which spaces don't matter: the nearest table is lightweight. -/
def Loose (chain : List Node) : Prop :=
  ∃ x rest, chain = x :: rest ∧ (nName x = thName ∨ nName x = tdName) ∧
    ∃ pre t post, chain = pre ++ t :: post ∧ (∀ y ∈ pre, nName y ≠ tableName) ∧ nName t = tableName ∧
      (nAttrs t).lookup className = some (some lightName)

/-- A cell with no table around it. -/
def Stray (chain : List Node) : Prop :=
  ∃ x rest, chain = x :: rest ∧ (nName x = thName ∨ nName x = tdName) ∧ ∀ y ∈ chain, nName y ≠ tableName

/-- A run of two or more spaces that isn't indentation. -/
def WideGap (a b p k : Nat) : Prop :=
  SpaceRun text a b p k ∧ 2 ≤ k ∧
    ¬ (if p = 0 then text.getLast? = some '\n' else text[p - 1]? = some '\n')

/-- Non-empty, and all white. -/
def White (s : Str) : Prop := s ≠ [] ∧ ∀ c ∈ s, cfg.white c = true

/-- A literal of white space only. -/
def WhiteNode (c : Node) : Prop := nName c = litName ∧ White cfg (slice text (nStart c) (nStop c))

/-- A child that counts as inline: inline-level, or text that isn't white. -/
def InlineKid (c : Node) : Prop :=
  (nName c = litName ∧ ¬ WhiteNode cfg text c) ∨
  (nName c ≠ litName ∧ nName c ≠ commentName ∧ cfg.kind (nName c) = some .inline)

/-- A child that counts as a block. -/
def BlockKid (c : Node) : Prop :=
  nName c ≠ litName ∧ nName c ≠ commentName ∧ cfg.kind (nName c) = some .block

/-- Names where each white, comment, white is replaced by white, from left to right and without overlap. -/
inductive Replaced : List Str → List Str → Prop
  | nil : Replaced [] []
  | hit {r r'} : Replaced r r' → Replaced (wsTok :: commentName :: wsTok :: r) (wsTok :: r')
  | miss {a r r'} : (∀ r₀, a :: r ≠ wsTok :: commentName :: wsTok :: r₀) → Replaced r r' → Replaced (a :: r) (a :: r')

/-- The content of an element as a list of names: text is `#TEXT` if some child is inline, and otherwise `#WS`. -/
def Names (n : Node) (ts : List Str) : Prop :=
  (∃ c ∈ nKids n, InlineKid cfg text c) ∧
    ts = (nKids n).map (fun c => if nName c = litName then textTok else nName c) ∨
  (¬ ∃ c ∈ nKids n, InlineKid cfg text c) ∧
    ts = (nKids n).map (fun c => if nName c = litName then wsTok else nName c)

/-- The pattern for the value of an attribute: the one for this element, or else the one for all. -/
def PatternFor (name attr : Str) (p : Option (Str → Bool)) : Prop :=
  cfg.pattern (name ++ '.' :: attr) = some p ∨
  cfg.pattern (name ++ '.' :: attr) = none ∧ cfg.pattern attr = some p

/-- What there is to report at a node. -/
inductive Fault (anc : List Node) (n : Node) : Msg → Prop
  | spaces {p k} : nName n = litName → WideGap text (nStart n) (nStop n) p k → ¬ Loose anc → Fault anc n ⟨p, .spaces k⟩
  | entity {p e parent rest} : nName n = litName → anc = parent :: rest → EntityAt cfg text (nStart n) (nStop n) p e →
      (∀ c, (e, c) ∉ cfg.entities (nName parent)) → Fault anc n ⟨p, .entity e⟩
  | literal {p c parent rest} : nName n = litName → anc = parent :: rest → nStart n ≤ p → p < nStop n → text[p]? = some c →
      c ≠ '\n' → (∃ e, (e, some c) ∈ cfg.entities (nName parent)) →
      (¬ ∃ q e, EntityAt cfg text (nStart n) (nStop n) q e ∧ q ≤ p ∧ p < q + e.length) → Fault anc n ⟨p, .literal c⟩
  | startsSpace {a b} : nName n ≠ litName → nInner n = some (a, b) → ¬ Loose (n :: anc) →
      (∃ y, slice text a b = ' ' :: y) → Fault anc n ⟨a, .startsSpace (nName n)⟩
  | endsSpace {a b} : nName n ≠ litName → nInner n = some (a, b) → ¬ Loose (n :: anc) →
      (∃ y, slice text a b = y ++ [' ']) →
      (¬ ∃ y k, slice text a b = y ++ '\n' :: List.replicate k ' ') → Fault anc n ⟨b, .endsSpace (nName n)⟩
  | missing {req opt l} : nName n ≠ litName → cfg.attrs (nName n) = some (req, opt) →
      l = req.filter (fun a => decide (a ∉ (nAttrs n).map (·.1))) → l ≠ [] → Fault anc n ⟨nStart n, .missing l⟩
  | unexpected {req opt l} : nName n ≠ litName → cfg.attrs (nName n) = some (req, opt) →
      l = ((nAttrs n).map (·.1)).filter (fun a => decide (a ∉ req ∧ a ∉ opt)) → l ≠ [] → Fault anc n ⟨nStart n, .unexpected l⟩
  | unknown {a v} : nName n ≠ litName → (a, v) ∈ nAttrs n → (¬ ∃ p, PatternFor cfg (nName n) a p) → Fault anc n ⟨nStart n, .unknown a⟩
  | noValue {a v} : nName n ≠ litName → (a, some v) ∈ nAttrs n → PatternFor cfg (nName n) a none → Fault anc n ⟨nStart n, .noValue a v⟩
  | needValue {a p} : nName n ≠ litName → (a, none) ∈ nAttrs n → PatternFor cfg (nName n) a (some p) → Fault anc n ⟨nStart n, .needValue a⟩
  | badValue {a v p} : nName n ≠ litName → (a, some v) ∈ nAttrs n → PatternFor cfg (nName n) a (some p) → p v = false →
      Fault anc n ⟨nStart n, .badValue a v⟩
  | kindless {c} : nName n ≠ litName → c ∈ nKids n → nName c ≠ commentName → nName c ≠ litName → cfg.kind (nName c) = none →
      Fault anc n ⟨nStart c, .kindless (nName c)⟩
  | mixed : nName n ≠ litName → (∃ c ∈ nKids n, BlockKid cfg c) → (∃ c ∈ nKids n, InlineKid cfg text c) → Fault anc n ⟨nStart n, .mixed⟩
  | noModel : nName n ≠ litName → cfg.model (nName n) = none → Fault anc n ⟨nStart n, .noModel (nName n)⟩
  | content {m ts ts'} : nName n ≠ litName → cfg.model (nName n) = some m → Names cfg text n ts → Replaced ts ts' → m ts' = false →
      Fault anc n ⟨nStart n, .content ts'⟩

/-- Where the validation fails: at a closed cell with no table around it, or at a wide gap in a literal of such a cell. -/
inductive Fatal (anc : List Node) (n : Node) : Prop
  | cell : nName n ≠ litName → nInner n ≠ none → Stray (n :: anc) → Fatal anc n
  | gap {p k} : nName n = litName → WideGap text (nStart n) (nStop n) p k → Stray anc → Fatal anc n
  | orphan : nName n = litName → anc = [] → Fatal anc n

end Verif.Validate
