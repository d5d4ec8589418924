import Verif.Common
/-!
# Model of the processing of the productions that define the grammar (emu_grammars.py:616-735, 811-904, 1714-1815)

The trees of the grammar notation are given with the shape that the metagrammar prescribes (emu_grammars.py:305-374): `Param`, `Gnt`, `Sym`,
`Item`, `Body`, `Rhs` and `Prodn` are the nodes of the kinds `PARAM`, `GNT`, `RHS_SYMBOL` and `RHS_CONSTRAINT`, `RHS_ITEM`, `RHS_BODY`, `RHS_LINE` or
`BACKTICKED_THING`, and `MULTILINE_PRODUCTION` or `ONELINE_PRODUCTION`.  How the text is parsed is C26.  A failed assertion, and an attribute asked of
`None`, is `none`.  The copy of the productions to the file `def_prodns` and the lines of the log are left out.
-/
namespace Verif.Defs

abbrev Str := List Char

/-- The prefix of a parameter: the first group of `([~+?]?)([A-Z][a-zA-Z]*)` (emu_grammars.py:362). -/
inductive Sign where
  | bare | plus | tilde | query
deriving DecidableEq, Repr

/-- A `PARAM` node: where it starts, and its groups (emu_grammars.py:362). -/
structure Param where
  pos : Nat
  sign : Sign
  name : Str
deriving DecidableEq, Repr

/-- A `GNT` node: where its `NT` and its `OPTIONAL_PARAMS` start, its `_nt_name` and the parameters (emu_grammars.py:267-271, 333-334). -/
structure Gnt where
  pos : Nat
  argsPos : Nat
  name : Str
  args : List Param
deriving DecidableEq, Repr

/-- The kinds of items that are neither nonterminals nor have a `?` (emu_grammars.py:330, 337-354). -/
inductive Kind where
  | backticked | namedChar | lacSingle | lacSet | nlth | butOnly | butNot
deriving DecidableEq, Repr

/-- An item without its `?`: a `GNT`, or something else with its source text and the names of the `NT` nodes inside it, which can be excluded symbols or
the operand of a lookahead constraint (emu_grammars.py:327-354). -/
inductive Sym where
  | gnt (g : Gnt)
  | other (kind : Kind) (text : Str) (nts : List Str)
deriving DecidableEq, Repr

/-- An item of a right-hand side: `RHS_SYMBOL_QM` is `qm` (emu_grammars.py:327-330). -/
inductive Item where
  | plain (s : Sym)
  | qm (s : Sym)
deriving DecidableEq, Repr

/-- `RHS_BODY`: `EMPTY`, a `U_RANGE`, `U_PROP` or `U_ANY`, or `RHS_ITEMS` (emu_grammars.py:325). -/
inductive Body where
  | empty
  | unicode (text : Str)
  | items (is : List Item)
deriving DecidableEq, Repr

/-- An element of `_rhss` (emu_grammars.py:153-213): an `RHS_LINE` with its guard, body and label, a `BACKTICKED_THING` of a `one of`, or the body
of a production on one line (where `EMPTY` has no items). -/
inductive Rhs where
  | line (guard : List Param) (body : Body) (label : Str)
  | thing (text : Str)
  | bare (is : List Item)
deriving DecidableEq, Repr

/-- A production: where it starts, whether it is a `MULTILINE_PRODUCTION`, its left-hand side (`_lhs_symbol`, and `_param_names` is from the
parameters), `_num_colons` and `_rhss` (emu_grammars.py:123-218). -/
structure Prodn where
  pos : Nat
  multi : Bool
  lhs : Gnt
  colons : Nat
  rhss : List Rhs
deriving DecidableEq, Repr

/-- `_param_names`: the second groups; whatever the prefixes are, for `check_param_prefix` looks for nodes of a kind that there isn't
(emu_grammars.py:136-145, 288-295). -/
def Prodn.params (p : Prodn) : List Str := p.lhs.args.map Param.name

/-- What is used of a section (emu_grammars.py:677-694, 908-914). -/
structure Sec where
  element : Str
  title : Str
  num : Str
deriving DecidableEq, Repr

/-- An `<emu-grammar>` element: whether its `type` is "definition", the section, whether its node is `BLOCK_PRODUCTIONS`, and the productions
(emu_grammars.py:627-649). -/
structure Block where
  isDef : Bool
  sec : Sec
  isBlock : Bool
  prods : List Prodn
deriving DecidableEq, Repr

/-- The arenas: the main body, annex B, and the examples (emu_grammars.py:908-914). -/
inductive Arena where
  | A | B | E
deriving DecidableEq, Repr

/-- `get_grammar_arena_for_section` (emu_grammars.py:908-914). -/
def arenaOf (s : Sec) : Arena :=
  if s.title = "Grammar Notation".toList then .E
  else if s.num.head? = some 'B' then .B
  else .A

/-- The sections of annex B whose productions add to those of the main body (emu_grammars.py:677-680). -/
def augmenting : List Str :=
  ["FunctionDeclarations in IfStatement Statement Clauses".toList, "Initializers in ForIn Statement Heads".toList]

/-- A production with what is noted on it: `doc_i`, `_arena` and `_augments` (emu_grammars.py:648, 670-682). -/
structure DProd where
  docI : Nat
  arena : Arena
  augments : Bool
  prod : Prodn
deriving DecidableEq, Repr

/-- `NonterminalInfo` (emu_grammars.py:698-735); `level` isn't used. -/
structure Info where
  colons : Nat
  occs : List (Arena × DProd)
deriving DecidableEq, Repr

/-- `info_for_nt_`, in the order of insertion. -/
abbrev Table := List (Str × Info)

/-- `d[k] = v` on a dict. -/
def put {α β : Type} [DecidableEq α] (k : α) (v : β) : List (α × β) → List (α × β)
  | [] => [(k, v)]
  | (k', v') :: d => if k' = k then (k, v) :: d else (k', v') :: put k v d

def isUpper (c : Char) : Bool := 'A' ≤ c && c ≤ 'Z'
def isLower (c : Char) : Bool := 'a' ≤ c && c ≤ 'z'
def isDigit (c : Char) : Bool := '0' ≤ c && c ≤ '9'

/-- `^uri([A-Z][a-z]+)?$` (emu_grammars.py:691); `$` would also match before a newline at the end, which no name has. -/
def uriName (name : Str) : Bool :=
  match name with
  | 'u' :: 'r' :: 'i' :: [] => true
  | 'u' :: 'r' :: 'i' :: c :: d :: ds => isUpper c && (d :: ds).all isLower
  | _ => false

/-- `^[A-Z][a-zA-Z0-9]+$` (emu_grammars.py:693). -/
def plainName (name : Str) : Bool :=
  match name with
  | c :: d :: ds => isUpper c && (d :: ds).all (fun x => isLower x || isUpper x || isDigit x)
  | _ => false

/-- The check of the name, which differs in the section on URIs (emu_grammars.py:690-694). -/
def nameOk (title name : Str) : Bool :=
  if title = "URI Syntax and Semantics".toList then uriName name else plainName name

/-- The assertions on the production alone (emu_grammars.py:665-666, 694). -/
def leftOk (s : Sec) (p : Prodn) : Bool :=
  p.multi && (s.element = "emu-clause".toList || s.element = "emu-annex".toList) && nameOk s.title p.lhs.name

/-- The production with what is noted on it (emu_grammars.py:648, 670-682). -/
def noted (s : Sec) (i : Nat) (p : Prodn) : DProd := ⟨i, arenaOf s, arenaOf s = .B && s.title ∈ augmenting, p⟩

/-- `defining_production_check_left` (emu_grammars.py:664-713). -/
def checkLeft (t : Table) (s : Sec) (i : Nat) (p : Prodn) : Option Table :=
  if leftOk s p then
    match t.lookup p.lhs.name with
    | none => some (put p.lhs.name ⟨p.colons, [(arenaOf s, noted s i p)]⟩ t)
    | some info =>
      if p.colons = info.colons ∧ info.occs.lookup (arenaOf s) = none then
        some (put p.lhs.name ⟨info.colons, put (arenaOf s) (noted s i p) info.occs⟩ t)
      else none
  else none

/-- The loop over the productions of an element (emu_grammars.py:647-649). -/
def leftProds (s : Sec) : List Prodn → Nat → Table → Option (Nat × Table)
  | [], i, t => some (i, t)
  | p :: ps, i, t => match checkLeft t s i p with
    | none => none
    | some t' => leftProds s ps (i + 1) t'

/-- The first loop over the elements (emu_grammars.py:627-649). -/
def leftBlocks : List Block → Nat → Table → Option (Nat × Table)
  | [], i, t => some (i, t)
  | b :: bs, i, t =>
    if b.isDef ∧ b.isBlock then
      match leftProds b.sec b.prods i t with
      | none => none
      | some (i', t') => leftBlocks bs i' t'
    else none

/-- `get_appropriate_def_occ` (emu_grammars.py:727-735). -/
def appropriate (info : Info) (a : Arena) : Option DProd :=
  match info.occs.lookup a with
  | some d => some d
  | none => info.occs.lookup .A

/-- The messages of the check of right-hand sides (emu_grammars.py:843-895). -/
inductive Say where
  | noSign
  | undefinedNt
  | argOrder (args params : List Str)
  | argCount (nt : Str) (params args : List Str)
  | expectQuery (lhs arg : Str)
  | notOnLhs (arg : Str)
deriving DecidableEq, Repr

/-- A message and where it is given. -/
structure Msg where
  pos : Nat
  say : Say
deriving DecidableEq, Repr

/-- `if prefix not in ['+', '~', '?']` (emu_grammars.py:841-845). -/
def signMsgs (args : List Param) : List Msg :=
  args.flatMap (fun a => if a.sign = .bare then [⟨a.pos, .noSign⟩] else [])

/-- The comparison of the arguments with the parameters (emu_grammars.py:860-868). -/
def shapeMsgs (g : Gnt) (params : List Str) : List Msg :=
  let names := g.args.map Param.name
  if names.length = params.length then
    if names ≠ params then [⟨g.argsPos, .argOrder names params⟩] else []
  else [⟨g.argsPos, .argCount g.name params names⟩]

/-- The check of one argument (emu_grammars.py:872-897). -/
def oddArg (p : Prodn) (guards : List (Sign × Str)) (a : Param) : List Msg :=
  if a.name ∈ p.params then
    if a.sign = .query then []
    else if (a.sign, a.name) ∈ guards then []
    else [⟨a.pos, .expectQuery p.lhs.name a.name⟩]
  else if a.sign = .query then [⟨p.pos, .notOnLhs a.name⟩]
  else []

/-- What is done for a nonterminal of a right-hand side (emu_grammars.py:836-897). -/
def gntMsgs (t : Table) (d : DProd) (guards : List (Sign × Str)) (g : Gnt) : Option (List Msg) :=
  match t.lookup g.name with
  | none => some (signMsgs g.args ++ [⟨g.pos, .undefinedNt⟩])
  | some info =>
    match appropriate info d.arena with
    | none => none
    | some e => some (signMsgs g.args ++ shapeMsgs g e.prod.params ++ g.args.flatMap (oddArg d.prod guards))

/-- The item itself, or the symbol before the `?`, if that is a `GNT` (emu_grammars.py:830-834). -/
def Item.gnt? : Item → Option Gnt
  | .plain (.gnt g) => some g
  | .qm (.gnt g) => some g
  | _ => none

/-- The loop over the items (emu_grammars.py:827-897). -/
def itemsMsgs (t : Table) (d : DProd) (guards : List (Sign × Str)) : List Item → Option (List Msg)
  | [] => some []
  | i :: is =>
    match i.gnt? with
    | none => itemsMsgs t d guards is
    | some g =>
      match gntMsgs t d guards g with
      | none => none
      | some ms => (itemsMsgs t d guards is).map (ms ++ ·)

/-- `assert prefix in ['+', '~']` and `assert param_name in production_n._param_names` (emu_grammars.py:818-821). -/
def guardOk (p : Prodn) (a : Param) : Bool := (a.sign = .plus || a.sign = .tilde) && a.name ∈ p.params

/-- The body of a line (emu_grammars.py:827-897). -/
def bodyMsgs (t : Table) (d : DProd) (guards : List (Sign × Str)) : Body → Option (List Msg)
  | .items is => itemsMsgs t d guards is
  | .empty => some []
  | .unicode _ => some []

/-- The loop over the right-hand sides, `defining_production_check_right` (emu_grammars.py:811-904). -/
def rhssMsgs (t : Table) (d : DProd) : List Rhs → Option (List Msg)
  | [] => some []
  | .line guard body _ :: rs =>
    if guard.all (guardOk d.prod) then
      match bodyMsgs t d (guard.map (fun a => (a.sign, a.name))) body with
      | none => none
      | some ms => (rhssMsgs t d rs).map (ms ++ ·)
    else none
  | .thing _ :: rs => rhssMsgs t d rs
  | .bare _ :: _ => none

/-- `production_n._rhss = base_production_n._rhss + production_n._rhss`: the change to the production of annex B, in the table that holds it
(emu_grammars.py:656-660). -/
def augment (t : Table) (n : Str) : Option Table :=
  match t.lookup n with
  | none => none
  | some info =>
    match info.occs.lookup .A, info.occs.lookup .B with
    | some base, some d =>
      some (put n { info with occs := put .B { d with prod := { d.prod with rhss := base.prod.rhss ++ d.prod.rhss } } info.occs } t)
    | _, _ => none

/-- What the second loop does for a production (emu_grammars.py:653-660). -/
def right1 (s : Sec) (t : Table) (i : Nat) (p : Prodn) : Option (List Msg × Table) :=
  match rhssMsgs t (noted s i p) p.rhss with
  | none => none
  | some ms => if (noted s i p).augments then (augment t p.lhs.name).map (fun t' => (ms, t')) else some (ms, t)

/-- The second loop over the productions of an element (emu_grammars.py:653-660). -/
def rightProds (s : Sec) : List Prodn → Nat → Table → Option (List Msg × Nat × Table)
  | [], i, t => some ([], i, t)
  | p :: ps, i, t => match right1 s t i p with
    | none => none
    | some (ms, t') => (rightProds s ps (i + 1) t').map (fun r => (ms ++ r.1, r.2))

/-- The second loop over the elements (emu_grammars.py:651-660). -/
def rightBlocks : List Block → Nat → Table → Option (List Msg × Nat × Table)
  | [], i, t => some ([], i, t)
  | b :: bs, i, t => match rightProds b.sec b.prods i t with
    | none => none
    | some (ms, i', t') => (rightBlocks bs i' t').map (fun r => (ms ++ r.1, r.2))

/-- `process_defining_emu_grammars` (emu_grammars.py:616-660): the messages, and `info_for_nt_`. -/
def process (doc : List Block) : Option (List Msg × Table) :=
  match leftBlocks doc 0 [] with
  | none => none
  | some (_, t) => (rightBlocks doc 0 t).map (fun r => (r.1, r.2.2))

/-! ## The grammars -/

/-- The two levels of the grammars (emu_grammars.py:1716). -/
inductive Level where
  | lexical | syntactic
deriving DecidableEq, Repr

/-- The symbols that are moved from the lexical to the syntactic grammar (emu_grammars.py:1727-1733). -/
def moved : List Str := ["ReservedWord".toList, "NullLiteral".toList, "BooleanLiteral".toList]

/-- `grammar_level` (emu_grammars.py:1724-1733). -/
def levelOf (n : Str) (info : Info) : Level :=
  if info.colons = 1 then .syntactic
  else if n ∈ moved then .syntactic
  else .lexical

/-- Python's `<` on strings: by code points, and a proper prefix is less. -/
def strLt : Str → Str → Bool
  | [], [] => false
  | [], _ :: _ => true
  | _ :: _, [] => false
  | c :: s, d :: t => if c = d then strLt s t else c.toNat < d.toNat

/-- Insertion into a sorted list of things with names. -/
def insertBy {α : Type} (key : α → Str) (x : α) : List α → List α
  | [] => [x]
  | y :: ys => if strLt (key x) (key y) then x :: y :: ys else y :: insertBy key x ys

/-- `sorted(…)` on things with different names (emu_grammars.py:1720, 1780, 1792, 1803). -/
def sortBy {α : Type} (key : α → Str) : List α → List α
  | [] => []
  | x :: xs => insertBy key x (sortBy key xs)

/-- `Grammar.add_prodn` (emu_grammars.py:1760-1763). -/
def addProdn (g : List (Str × DProd)) (d : DProd) : Option (List (Str × DProd)) :=
  match g.lookup d.prod.lhs.name with
  | some _ => none
  | none => some (put d.prod.lhs.name d g)

/-- The part of `make_grammars` that makes one of the four grammars: `prodn_for_lhs_` of the grammar of a level and an arena
(emu_grammars.py:1714-1739).  The code fills the four at once; they don't affect each other. -/
def makeGrammar (l : Level) (a : Arena) : List (Str × Info) → List (Str × DProd) → Option (List (Str × DProd))
  | [], g => some g
  | (n, info) :: r, g =>
    if levelOf n info = l then
      match appropriate info a with
      | none => makeGrammar l a r g
      | some d => match addProdn g d with
        | none => none
        | some g' => makeGrammar l a r g'
    else makeGrammar l a r g

/-- `make_grammars`, for one of the four (emu_grammars.py:1714-1739). -/
def grammarOf (t : Table) (l : Level) (a : Arena) : Option (List (Str × DProd)) :=
  makeGrammar l a (sortBy Prod.fst t) []

/-- The names that `visit` adds for a symbol: the traversal doesn't go into a `GNT` (emu_grammars.py:1783-1789). -/
def symNames : Sym → List Str
  | .gnt g => [g.name]
  | .other _ _ nts => nts

def itemNames : Item → List Str
  | .plain s => symNames s
  | .qm s => symNames s

/-- The names for a right-hand side (emu_grammars.py:1783-1789). -/
def rhsNames : Rhs → List Str
  | .line _ (.items is) _ => is.flatMap itemNames
  | .line _ _ _ => []
  | .thing _ => []
  | .bare is => is.flatMap itemNames

/-- `set.add` for a list of names. -/
def addAll (s : List Str) (ns : List Str) : List Str := ns.foldl (fun s n => if n ∈ s then s else s ++ [n]) s

/-- What `do_left_right_stuff` leaves (emu_grammars.py:1775-1808). -/
structure LeftRight where
  goals : List Str
  namedTerminals : List Str
deriving DecidableEq, Repr

/-- The name of a grammar: `level + arena` (emu_grammars.py:1755). -/
def nameOf (l : Level) (a : Arena) : Str :=
  (match l with | .lexical => "lexical".toList | .syntactic => "syntactic".toList) ++
  (match a with | .A => ['A'] | .B => ['B'] | .E => ['E'])

/-- `do_left_right_stuff` (emu_grammars.py:1775-1808), without the file. -/
def leftRight (l : Level) (a : Arena) (g : List (Str × DProd)) : LeftRight :=
  let gs := sortBy Prod.fst g
  let lhs := addAll [] (gs.map Prod.fst)
  let rhs := addAll [] (gs.flatMap (fun x => x.2.prod.rhss.flatMap rhsNames))
  let goals := sortBy id (lhs.filter (fun n => !(n ∈ rhs)))
  { goals := if nameOf l a = "syntactic".toList then "ArrowFormalParameters".toList :: goals else goals,
    namedTerminals := sortBy id (rhs.filter (fun n => !(n ∈ lhs))) }

end Verif.Defs
