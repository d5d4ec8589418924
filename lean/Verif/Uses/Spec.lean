import Verif.Uses.Model
import Verif.Gram.RhsSpec
import Verif.Defs.Spec
/-!
# What it means that the uses of productions are checked against the definitions (C56)

`Verif.Defs.Spec` says what the definitions are, and `Verif.Gram.RhsSpec` what annotations and symbols are.
-/
namespace Verif.Uses.Spec
open Verif.Uses
open Verif.Defs (Str Prodn Rhs Arena Block)
open Verif.Gram (Item Sym IKind Optionality SameSym Annotation BitsOk)
open Verif.Defs.Spec (IsArena Defined Counts FinalRhss)

/-! ## The items of a right-hand side -/

/-- Two lists of the same length whose members are related one by one. -/
inductive Each {α β : Type} (r : α → β → Prop) : List α → List β → Prop
  | nil : Each r [] []
  | cons {a b as bs} : r a b → Each r as bs → Each r (a :: as) (b :: bs)

/-- A parameter or an argument, as it is written. -/
inductive Written : Defs.Param → Str → Prop
  | bare {i n} : Written ⟨i, .bare, n⟩ n
  | plus {i n} : Written ⟨i, .plus, n⟩ ('+' :: n)
  | tilde {i n} : Written ⟨i, .tilde, n⟩ ('~' :: n)
  | query {i n} : Written ⟨i, .query, n⟩ ('?' :: n)

/-- The texts with a comma and a space between them. -/
inductive Commas : List Str → Str → Prop
  | one {s} : Commas [s] s
  | more {s ss t} : Commas ss t → Commas (s :: ss) (s ++ [',', ' '] ++ t)

/-- The kinds of symbols and annotations. -/
inductive IsKind : Defs.Kind → IKind → Prop
  | backticked : IsKind .backticked .BACKTICKED_THING
  | namedChar : IsKind .namedChar .NAMED_CHAR
  | lacSingle : IsKind .lacSingle .LAC_SINGLE
  | lacSet : IsKind .lacSet .LAC_SET
  | nlth : IsKind .nlth .NLTH
  | butOnly : IsKind .butOnly .BUT_ONLY
  | butNot : IsKind .butNot .BUT_NOT

inductive IsSym : Defs.Sym → Sym → Prop
  | nonterminal {g ps} : Each Written g.args ps → IsSym (.gnt g) (.gnt g.name ps)
  | other {k k' text nts} : IsKind k k' → IsSym (.other k text nts) (.other k' text)

inductive IsItem : Defs.Item → Item → Prop
  | plain {s s'} : IsSym s s' → IsItem (.plain s) (.plain s')
  | optional {s s'} : IsSym s s' → IsItem (.qm s) (.qm s')

inductive IsBody : Defs.Body → List Item → Prop
  | empty : IsBody .empty []
  | characters {text} : IsBody (.unicode text) [.plain (.other .U_ANY text)]
  | items {is is'} : Each IsItem is is' → IsBody (.items is) is'

/-- The guard, in brackets, if there is one. -/
inductive IsGuard : List Defs.Param → List Item → Prop
  | none : IsGuard [] []
  | some {ps ss text} : Each Written ps ss → Commas ss text → IsGuard ps [.plain (.other .PARAMS (['['] ++ text ++ [']']))]

/-- The label, if there is one. -/
inductive IsLabel : Str → List Item → Prop
  | none : IsLabel [] []
  | some {label} : label ≠ [] → IsLabel label [.plain (.other .LABEL label)]

/-- The items of a right-hand side. -/
inductive IsRhs : Rhs → List Item → Prop
  | line {guard body label gs bs ls} : IsGuard guard gs → IsBody body bs → IsLabel label ls → IsRhs (.line guard body label) (gs ++ bs ++ ls)
  | thing {text} : IsRhs (.thing text) [.plain (.other .BACKTICKED_THING text)]
  | bare {is is'} : Each IsItem is is' → IsRhs (.bare is) is'

/-! ## How a use is laid against a definition -/

/-- An item of a use is as one of a definition: it is the same symbol, and `?` is there only if it is in the definition. -/
def Same (u d : Item) : Prop :=
  match u, d with
  | .plain a, .plain b => SameSym a b
  | .plain a, .qm b => SameSym a b
  | .qm a, .qm b => SameSym a b
  | .qm _, .plain _ => False

/-- An item of a definition that a use need not have: an annotation, or something with `?`. -/
def CanLeave : Item → Prop
  | .plain s => Annotation s
  | .qm _ => True

/-- What becomes of an item of a definition: it is kept as some item of the use, or left out. -/
inductive Step where
  | kept (u d : Item)
  | left (d : Item)

/-- `Match us ds steps`: the items of the use are, in order, as items of the definition, each being taken for the first that it can be. -/
inductive Match : List Item → List Item → List Step → Prop
  | done : Match [] [] []
  | keep {u d us ds st} : Same u d → Match us ds st → Match (u :: us) (d :: ds) (.kept u d :: st)
  | skip {u d us ds st} : ¬Same u d → CanLeave d → Match (u :: us) ds st → Match (u :: us) (d :: ds) (.left d :: st)
  | rest {d ds st} : CanLeave d → Match [] ds st → Match [] (d :: ds) (.left d :: st)

/-- Item number `i` of the use, which is `u`, is compared with the item `d` of the definition, whether all matches in the end or not. -/
inductive Meets : List Item → List Item → Nat → Item → Item → Prop
  | here {u d us ds} : Meets (u :: us) (d :: ds) 0 u d
  | keep {u d us ds i x y} : Same u d → Meets us ds i x y → Meets (u :: us) (d :: ds) (i + 1) x y
  | skip {u d us ds i x y} : ¬Same u d → CanLeave d → Meets (u :: us) ds i x y → Meets (u :: us) (d :: ds) i x y

/-- What is done with the optional symbols of the definition. -/
def treatment : Step → Option Optionality
  | .kept (.plain _) (.qm _) => some .required
  | .kept (.qm _) (.qm _) => some .either
  | .left (.qm _) => some .omitted
  | _ => none

/-- The nonterminal, if the definition has arguments for it and so has the use. -/
def keptArgs : Step → Option Str
  | .kept u d => match u.sym, d.sym with
    | .gnt n up, .gnt _ dp => if dp ≠ [] ∧ up ≠ [] then some n else none
    | _, _ => none
  | .left _ => none

/-- The nonterminal, if the definition has arguments for it and the use has none. -/
def droppedArgs : Step → Option Str
  | .kept u d => match u.sym, d.sym with
    | .gnt n up, .gnt _ dp => if dp ≠ [] ∧ up = [] then some n else none
    | _, _ => none
  | .left _ => none

/-- The text of a lookahead constraint or a `[no LineTerminator here]` that is kept. -/
def keptText : Step → Option Str
  | .kept u _ => match u.sym with
    | .other k text => if k = .LAC_SINGLE ∨ k = .LAC_SET ∨ k = .NLTH then some text else none
    | .gnt _ _ => none
  | .left _ => none

/-- The text of an annotation that is left out. -/
def leftText : Step → Option Str
  | .left (.plain (.other _ text)) => some text
  | _ => none

/-! ## The report on a production -/

/-- A use and its definition: where the use is, and the production itself; the parameters, the right-hand sides and the number of colons of the definition. -/
structure Case where
  sec : Defs.Sec
  id : Option Str
  lhs : Str
  uColons : Nat
  dColons : Nat
  uParams : List Str
  dParams : List Str
  uss : List (List Item)
  dss : List (List Item)

/-- Right-hand side number `r` of the use matches number `j` of the definition. -/
def Case.Hit (c : Case) (r j : Nat) : Prop := ∃ us ds st, c.uss[r]? = some us ∧ c.dss[j]? = some ds ∧ Match us ds st

/-- The numbers are listed in increasing order. -/
def Increasing (ns : List Nat) : Prop := ns.Pairwise (· < ·)

/-- The pairs are listed in increasing order, first by the first number. -/
def LexIncreasing (ms : List (Nat × Nat)) : Prop := ms.Pairwise (fun a b => a.1 < b.1 ∨ (a.1 = b.1 ∧ a.2 < b.2))

/-- The kinds of annotations that are unusual in a use. -/
def UnusualKind (k : IKind) : Prop := k = .LAC_SINGLE ∨ k = .LAC_SET ∨ k = .NLTH ∨ k = .PARAMS ∨ k = .LABEL

/-- The exceptions: the section on semicolons needs some annotations, and so do a few nonterminals. -/
def Excepted (title lhs : Str) (k : IKind) : Prop :=
  (title = "Rules of Automatic Semicolon Insertion".toList ∧ (k = .NLTH ∨ k = .PARAMS ∨ k = .LABEL)) ∨
  (lhs = "NotEscapeSequence".toList ∧ (k = .LAC_SET ∨ k = .LAC_SINGLE)) ∨ (lhs = "CharacterEscape".toList ∧ k = .LAC_SET) ∨
  (lhs = "ClassAtomNoDash".toList ∧ k = .LAC_SINGLE) ∨ (lhs = "ExtendedAtom".toList ∧ k = .LAC_SINGLE)

/-- The sections where the parameters may be repeated. -/
def MayRepeat (id : Str) : Prop :=
  id = "sec-rules-of-automatic-semicolon-insertion".toList ∨ id = "sec-identifiers-static-semantics-early-errors".toList ∨
  id = "sec-primary-expression".toList ∨ id = "sec-static-semantics-template-early-errors".toList ∨ id = "sec-arrow-function-definitions".toList

/-- The list of what is suppressed: first the nonterminal on the left, if the use leaves out its parameters. -/
def Case.suppressed (c : Case) (st : List Step) : List Str :=
  (if c.dParams ≠ [] ∧ c.uParams = [] then [c.lhs] else []) ++ st.filterMap droppedArgs

/-- The list of what is intact. -/
def Case.intact (c : Case) (st : List Step) : List Str :=
  (if c.dParams ≠ [] ∧ c.uParams ≠ [] then [c.lhs] else []) ++ st.filterMap keptArgs

/-- The messages that are due. -/
inductive Case.Due (c : Case) : Msg → Prop where
  | colons : c.uColons ≠ c.dColons → c.Due (.colons c.uColons c.dColons)
  | params : c.uParams ≠ [] → c.dParams ≠ [] → c.uParams ≠ c.dParams → c.Due (.params c.uParams c.dParams)
  | unusualParams : c.uParams ≠ [] → c.uParams = c.dParams → (∀ i, c.id = some i → ¬MayRepeat i) → c.Due (.unusualParams c.uParams)
  | paramsNone : c.uParams ≠ [] → c.dParams = [] → c.Due .paramsNone
  | annotation (r i us k text) : c.uss[r]? = some us → us[i]? = some (.plain (.other k text)) → UnusualKind k → ¬Excepted c.sec.title c.lhs k →
      c.Due (.annotation r i)
  /-- A nonterminal of the use is compared with one of the same name, but they have different arguments. -/
  | args (r i us ds u d n up dp) : c.uss[r]? = some us → ds ∈ c.dss → Meets us ds i u d → Same u d → u.sym = .gnt n up → d.sym = .gnt n dp →
      up ≠ [] → dp ≠ [] → up ≠ dp → c.Due (.args r i up dp)
  | argsNone (r i us ds u d n up) : c.uss[r]? = some us → ds ∈ c.dss → Meets us ds i u d → Same u d → u.sym = .gnt n up → d.sym = .gnt n [] →
      up ≠ [] → c.Due (.argsNone r i)
  /-- Some arguments are left out, others are not. -/
  | argsMixed (us ds st) : us ∈ c.uss → ds ∈ c.dss → Match us ds st → c.suppressed st ≠ [] → c.intact st ≠ [] →
      c.Due (.argsMixed (c.suppressed st) (c.intact st))
  /-- Some annotations are left out, others are not. -/
  | annsMixed (us ds st) : us ∈ c.uss → ds ∈ c.dss → Match us ds st → st.filterMap leftText ≠ [] → st.filterMap keptText ≠ [] →
      c.Due (.annsMixed (st.filterMap leftText) (st.filterMap keptText))
  | noMatch (r) : r < c.uss.length → (∀ j, ¬c.Hit r j) → c.Due (.noMatch r)
  | manyMatch (r js) : Increasing js → (∀ j, j ∈ js ↔ c.Hit r j) → 2 ≤ js.length → c.Due (.manyMatch r js.length)
  /-- A later right-hand side of the use matches an earlier one of the definition. -/
  | outOfOrder (ms r r' j j') : LexIncreasing ms → (∀ r j, (r, j) ∈ ms ↔ c.Hit r j) → c.Hit r j → c.Hit r' j' → r < r' → j' < j →
      c.Due (.outOfOrder (ms.map (fun m => m.2 + 1)))
  | same (j rs) : Increasing rs → (∀ r, r ∈ rs ↔ c.Hit r j) → 2 ≤ rs.length → c.Due (.same (rs.map (· + 1)) (j + 1))

/-- The order of the messages: by what they are about. -/
def stage : Msg → Nat
  | .undefinedLhs => 0
  | .colons .. => 1
  | .params .. | .unusualParams .. | .paramsNone => 2
  | .annotation .. => 3
  | .args .. | .argsNone .. | .argsMixed .. | .annsMixed .. => 4
  | .noMatch .. | .manyMatch .. => 5
  | .outOfOrder .. => 6
  | .same .. => 7

/-- The place that a message is about, as far as it orders the messages of the same kind. -/
def place : Msg → Nat × Nat
  | .annotation r i => (r, i)
  | .noMatch r => (r, 0)
  | .manyMatch r _ => (r, 0)
  | .same _ d => (d, 0)
  | _ => (0, 0)

/-- One message is given before the other; those on comparisons of arguments and annotations can be given repeatedly. -/
def Earlier (a b : Msg) : Prop :=
  stage a < stage b ∨ (stage a = stage b ∧
    (stage a = 4 ∨ (place a).1 < (place b).1 ∨ ((place a).1 = (place b).1 ∧ (place a).2 < (place b).2)))

/-- The report is right. -/
structure Case.Right (c : Case) (rep : Report) : Prop where
  msgs : ∀ m, m ∈ rep.msgs ↔ c.Due m
  order : rep.msgs.Pairwise Earlier
  /-- A production use key for each match, and each way of resolving the optional symbols that the use allows. -/
  puks : ∀ l red bits, (l, red, bits) ∈ rep.puks ↔
    l = c.lhs ∧ ∃ us ds st, us ∈ c.uss ∧ ds ∈ c.dss ∧ Match us ds st ∧ red = reduce ds ∧ BitsOk (st.filterMap treatment) bits
  /-- Each right-hand side is linked to the first that it matches, if any. -/
  found : ∃ fs : List (Option Nat), rep.found = some fs ∧ fs.length = c.uss.length ∧
    ∀ (r : Nat), r < c.uss.length →
      (∀ j, fs[r]? = some (some j) ↔ c.Hit r j ∧ ∀ k, c.Hit r k → j ≤ k) ∧ (fs[r]? = some none ↔ ∀ j, ¬c.Hit r j)

/-- `c` is the case of the production `p` of the element `el`, where `doc` are the defining elements: it is compared with the production that counts for its nonterminal in
the part of the document where it is. -/
def IsCase (doc : List Block) (el : Element) (p : Prodn) (c : Case) : Prop :=
  ∃ a i q rs uss dss, IsArena el.sec a ∧ Counts doc a p.lhs.name i q ∧ FinalRhss doc i rs ∧ Each IsRhs p.rhss uss ∧ Each IsRhs rs dss ∧
    c = { sec := el.sec, id := el.id, lhs := p.lhs.name, uColons := p.colons, dColons := q.colons, uParams := p.params, dParams := q.params,
          uss := uss, dss := dss }

/-- The check can't get through the production: its nonterminal is defined, but neither where it is nor in the main body; or the section has no `id`, which is asked for if
the parameters are repeated; or there is a description of characters or a `but only if` on the right. -/
inductive Stops (doc : List Block) (el : Element) (p : Prodn) : Prop where
  | elsewhere (a) : IsArena el.sec a → Defined doc p.lhs.name → (¬∃ i q, Counts doc a p.lhs.name i q) → Stops doc el p
  | noId (c) : IsCase doc el p c → c.uParams ≠ [] → c.uParams = c.dParams → el.id = none → Stops doc el p
  | odd (c us k text) : IsCase doc el p c → us ∈ c.uss → Item.plain (.other k text) ∈ us →
      k = .BUT_ONLY ∨ k = .U_RANGE ∨ k = .U_PROP ∨ k = .U_ANY → Stops doc el p

/-! ## Reduced right-hand sides -/

/-- What a right-hand side is apart from annotations and arguments: texts, and whether there is a `?`. -/
def core : List Item → List (Str × Bool)
  | [] => []
  | .plain (.gnt n _) :: is => (n, false) :: core is
  | .plain (.other k text) :: is =>
    if k = .BACKTICKED_THING ∨ k = .NAMED_CHAR ∨ k = .U_ANY ∨ k = .U_PROP ∨ k = .U_RANGE then (text, false) :: core is else core is
  | .qm (.gnt n _) :: is => (n, true) :: core is
  | .qm (.other _ text) :: is => (text, true) :: core is

/-- The texts are words, and none ends in a question mark. -/
def Words (ws : List (Str × Bool)) : Prop := ∀ w ∈ ws, w.1 ≠ [] ∧ ' ' ∉ w.1 ∧ w.1.getLast? ≠ some '?'

end Verif.Uses.Spec
