/-!
# Model of the Earley parser in `es_parser.py`

Models `_Earley.run` (es_parser.py:457-956) with its local classes `Point`, `Item`, `EarleySet`,
and the result nodes `ES_ParseNode` (es_parser.py:1944-2030) as far as their shape goes.
The object that hands out terminals (`tip`) is a parameter here; `LexicalTIP` and `SyntacticTIP`
are modelled in `Verif.Earley.LexModel` and `Verif.Earley.SynModel`.
-/
namespace Verif.Earley

/-- A terminal symbol. Models `T_lit`, `T_u_p`, `T_u_r`, `T_named` (es_parser.py:48-51). -/
inductive Term
  | lit (c : String)
  | uProp (p : String)
  | uRange (lo hi : Nat)
  | named (n : String)
deriving DecidableEq, Repr

/-- es_parser.py:59 `END_OF_INPUT`. -/
def endOfInput : Term := .named "_EOI_"
/-- es_parser.py:60 `ACCEPTANCE`. -/
def acceptance : Term := .named "_ACCEPTANCE_"

/-- An element of a terminal sequence in a lookahead constraint (es_parser.py:299-312). -/
inductive La
  | term (t : Term)
  | noLT
deriving DecidableEq, Repr

/-- Something excluded by a "but not" (es_parser.py:353-386). -/
inductive Ex
  | nt (n : String)
  | term (t : Term)
deriving DecidableEq, Repr

/-- A constraint. Models `C_but_only_if`, `C_but_not`, `C_no_LT_here`, `C_lookahead`
(es_parser.py:52-55). -/
inductive Con
  | butOnlyIf (c : String)
  | butNot (b : List Ex)
  | noLT
  | lookahead (isMatch : Bool) (tss : List (List La))
deriving DecidableEq, Repr

/-- A thing that can occur in a right-hand side (es_parser.py:82-89). -/
inductive Rthing
  | nt (n : String)
  | term (t : Term)
  | con (c : Con)
deriving DecidableEq, Repr

/-- An expanded production. Models `ExProd` (es_parser.py:409). -/
structure Prod where
  lhs : String
  rhs : List Rthing
  ogLhs : String
  ogReduced : String
  ogParams : List String
deriving DecidableEq, Repr

/-- `productions_with_lhs_` as a dictionary (es_parser.py:453). The entry under `'*START*'` that
`run` writes into it (es_parser.py:806) is left out: it is never looked up, because no right-hand
side mentions that name. -/
abbrev Grammar := String → Option (List Prod)

/-- A parse node. Models `ES_ParseNode` (es_parser.py:1944-2030): a terminal instance supplied by
the TIP, or a nonterminal with its production, option bits, extent and children. The option bits
are kept as the list of digits that the code concatenates. Python compares nodes by identity; the
model compares them by content. `parent`, `puk`, `direct_chain` are not modelled. -/
inductive Node (L : Type) where
  | leaf (l : L)
  | nt (p : Prod) (bits : List Nat) (s e : Nat) (children : List (Node L))

namespace Node
mutual
/-- Equality of parse nodes, by content. -/
def beq {L} [DecidableEq L] : Node L → Node L → Bool
  | .leaf a, .leaf b => decide (a = b)
  | .nt p b s e cs, .nt p' b' s' e' cs' =>
    decide (p = p') && decide (b = b') && decide (s = s') && decide (e = e') && beqList cs cs'
  | _, _ => false
/-- Equality of lists of parse nodes. -/
def beqList {L} [DecidableEq L] : List (Node L) → List (Node L) → Bool
  | [], [] => true
  | a :: as, b :: bs => beq a b && beqList as bs
  | _, _ => false
end

mutual
theorem beq_eq {L} [DecidableEq L] : ∀ {a b : Node L}, beq a b = true ↔ a = b
  | .leaf a, .leaf b => by simp [beq]
  | .nt p b s e cs, .nt p' b' s' e' cs' => by
    simp [beq, beqList_eq (a := cs) (b := cs'), and_assoc]
  | .leaf _, .nt .. => by simp [beq]
  | .nt .., .leaf _ => by simp [beq]
theorem beqList_eq {L} [DecidableEq L] : ∀ {a b : List (Node L)}, beqList a b = true ↔ a = b
  | [], [] => by simp [beqList]
  | a :: as, b :: bs => by simp [beqList, beq_eq (a := a) (b := b), beqList_eq (a := as) (b := bs)]
  | [], _ :: _ => by simp [beqList]
  | _ :: _, [] => by simp [beqList]
end

instance {L} [DecidableEq L] : DecidableEq (Node L) := fun _ _ => decidable_of_iff _ beq_eq
end Node

/-- How a run can fail: `raise ParseError`, a failed assertion, or (in the model only) running out
of fuel, which stands for not having returned yet. -/
inductive Err
  | parse | crash | fuel
deriving DecidableEq, Repr

/-- The "ASI kludge" handed to the TIP (es_parser.py:856-866). -/
inductive Kludge
  | emptyStatement | doWhile
deriving DecidableEq, Repr

/-- A terminal instance provider (es_parser.py:1122-1125): a state, `get_next_terminal_instances`
(possibly changing the state) and `check_constraint`. `leafStart`, `leafEnd` and `isEoi` read
`start_posn`, `end_posn` and `symbol == END_OF_INPUT` off a terminal instance. -/
structure Tip (σ L : Type) where
  next : σ → Nat → List Term → Option Kludge → Except Err (Option (List (Term × L) × Nat) × σ)
  check : σ → Option (Node L) → Nat → Con → Except Err Bool
  leafStart : L → Nat
  leafEnd : L → Nat
  isEoi : L → Bool

section
variable {σ L : Type}

/-- `start_posn` of a node. -/
def Node.start (tip : Tip σ L) : Node L → Nat
  | .leaf l => tip.leafStart l
  | .nt _ _ s _ _ => s

/-- `end_posn` of a node. -/
def Node.stop (tip : Tip σ L) : Node L → Nat
  | .leaf l => tip.leafEnd l
  | .nt _ _ _ e _ => e

/-- es_parser.py:525 `Item`. An item is the chain `item, item.cause, item.cause.cause, …` back to
an item whose cause is an `EarleySet` (or `None` for the initial item). All items on the chain have
the same production, and each has its dot one further than its cause; so the chain is given by the
production, the index of the originating set, and the list of `transit_node`s on the way. -/
structure Item (L : Type) where
  origin : Option Nat
  prod : Prod
  trans : List (Option (Node L))

/-- Equality of items, by content. -/
def Item.beq {L : Type} [DecidableEq L] (a b : Item L) : Bool :=
  decide (a.origin = b.origin) && decide (a.prod = b.prod) && decide (a.trans = b.trans)

theorem Item.beq_eq {L : Type} [DecidableEq L] {a b : Item L} : Item.beq a b = true ↔ a = b := by
  cases a; cases b; simp [Item.beq, and_assoc]

instance {L : Type} [DecidableEq L] : DecidableEq (Item L) := fun _ _ => decidable_of_iff _ Item.beq_eq

/-- es_parser.py:535-540, 499-506 `Item.get_rthing_after_dot`; `none` is `X_eor`. -/
def Item.after (x : Item L) : Option Rthing := x.prod.rhs[x.trans.length]?

/-- es_parser.py:530-533, 508-514 `Item.advance`. -/
def Item.advance (x : Item L) (n : Option (Node L)) : Item L := { x with trans := x.trans ++ [n] }

/-- es_parser.py:622-629: the `child_nodes` popped off the chain. -/
def Item.kids (x : Item L) : List (Node L) := x.trans.filterMap id

/-- es_parser.py:572: `item.transit_node` (that of the initial item is `None`). -/
def Item.transit (x : Item L) : Option (Node L) := (x.trans.getLast?).getD none

/-- The digit that a child contributes to `option_bits` (es_parser.py:638-642). -/
def optBit : Node L → Option Nat
  | .leaf _ => none
  | .nt p _ _ _ cs => if p.ogLhs.toList.getLast? = some '?' then some cs.length else none

/-- es_parser.py:637-648 with 1989-2022: the node built when an item is reduced. -/
def mkNode (tip : Tip σ L) (pos : Nat) (p : Prod) (kids : List (Node L)) : Node L :=
  .nt p (kids.filterMap optBit)
    ((kids.head?.map (Node.start tip)).getD pos)
    ((kids.getLast?.map (Node.stop tip)).getD pos)
    kids

/-- A finished `EarleySet` (es_parser.py:680-687): its position and its items in order of addition.
`items_with_dot_before_[x]` is the sublist of items with `x` after the dot. -/
structure ESet (L : Type) where
  pos : Nat
  items : List (Item L)

/-- The set under construction: items and `nullables` (es_parser.py:680-687). -/
structure CSt (L : Type) where
  items : List (Item L)
  nullables : List (String × Node L)

/-- es_parser.py:735-738 `get_items_expecting_symbol`, without its assertion. -/
def expecting (r : Rthing) (items : List (Item L)) : List (Item L) :=
  items.filter (fun x => decide (x.after = some r))

/-- What `_add_and_recurse` (es_parser.py:703-720) still has to do. Its recursion, and the
generators `get_derived_items` and `reduce` that it consumes, are represented by an explicit stack
of suspended calls and loops. A loop over a list that grows while it is being traversed is kept as
an index into that list, as Python does.
* `add x` : the call `_add_and_recurse(x)`;
* `nulls x i` : the loop at 713, about to look at `nullables[i]`;
* `derive x` : the loop at 719, not yet entered;
* `predict ps` : the loop at 557, with `ps` left;
* `complete b n t i` : the loop at 670 over the items of set `b` expecting `n`, about to look at the
  one with index `i`. -/
inductive Task (L : Type)
  | add (x : Item L)
  | nulls (x : Item L) (i : Nat)
  | derive (x : Item L)
  | predict (ps : List Prod)
  | complete (back : Nat) (n : String) (node : Node L) (i : Nat)

/-- What is fixed while one set is being closed: grammar, TIP and its state, the finished sets and
the position of the set being built (whose index is `done.length`). -/
structure Ctx (σ L : Type) where
  G : Grammar
  tip : Tip σ L
  st : σ
  done : List (ESet L)
  pos : Nat

/-- The items of the set with the given index, finished or under construction. -/
def Ctx.itemsOf (c : Ctx σ L) (s : CSt L) (back : Nat) : List (Item L) :=
  if back = c.done.length then s.items else ((c.done[back]?).map ESet.items).getD []

variable [DecidableEq L]

/-- es_parser.py:703-711: the body of `_add_and_recurse` up to its loops. -/
def stepAdd (x : Item L) (rest : List (Task L)) (s : CSt L) : List (Task L) × CSt L :=
  if x ∈ s.items then (rest, s)
  else (.nulls x 0 :: .derive x :: rest, { s with items := s.items ++ [x] })

/-- es_parser.py:713-717: one round of the loop over `nullables`. -/
def stepNulls (x : Item L) (i : Nat) (rest : List (Task L)) (s : CSt L) : List (Task L) × CSt L :=
  match s.nullables[i]? with
  | none => (rest, s)
  | some (n, node) =>
    if x.after = some (.nt n) then (.add (x.advance (some node)) :: .nulls x (i + 1) :: rest, s)
    else (.nulls x (i + 1) :: rest, s)

/-- es_parser.py:617-668 `Item.reduce`, up to its loop. -/
def stepReduce (c : Ctx σ L) (x : Item L) (rest : List (Task L)) (s : CSt L) :
    Except Err (List (Task L) × CSt L) :=
  match x.origin with
  | none => .error .crash
  | some back =>
    let node := mkNode c.tip c.pos x.prod x.kids
    if (expecting (.nt x.prod.lhs) (c.itemsOf s back)).isEmpty then .error .crash
    else
      .ok (.complete back x.prod.lhs node 0 :: rest,
        if back = c.done.length then { s with nullables := s.nullables ++ [(x.prod.lhs, node)] } else s)

/-- es_parser.py:542-577 `Item.get_derived_items`, up to its loops; with 469-477. -/
def stepDerive (c : Ctx σ L) (x : Item L) (rest : List (Task L)) (s : CSt L) :
    Except Err (List (Task L) × CSt L) :=
  match x.after with
  | none => stepReduce c x rest s
  | some (.nt n) =>
    match c.G n with
    | none => .error .parse
    | some ps => .ok (.predict ps :: rest, s)
  | some (.term _) => .ok (rest, s)
  | some (.con k) =>
    match c.tip.check c.st x.transit c.pos k with
    | .error e => .error e
    | .ok true => .ok (.add (x.advance none) :: rest, s)
    | .ok false => .ok (rest, s)

/-- es_parser.py:557-558: one round of the predictor's loop. -/
def stepPredict (c : Ctx σ L) (ps : List Prod) (rest : List (Task L)) (s : CSt L) :
    List (Task L) × CSt L :=
  match ps with
  | [] => (rest, s)
  | p :: ps => (.add ⟨some c.done.length, p, []⟩ :: .predict ps :: rest, s)

/-- es_parser.py:670-676: one round of the completer's loop. -/
def stepComplete (c : Ctx σ L) (back : Nat) (n : String) (node : Node L) (i : Nat)
    (rest : List (Task L)) (s : CSt L) : List (Task L) × CSt L :=
  match (expecting (.nt n) (c.itemsOf s back))[i]? with
  | none => (rest, s)
  | some b => (.add (b.advance (some node)) :: .complete back n node (i + 1) :: rest, s)

/-- One step of closing a set. -/
def step (c : Ctx σ L) (t : Task L) (rest : List (Task L)) (s : CSt L) :
    Except Err (List (Task L) × CSt L) :=
  match t with
  | .add x => .ok (stepAdd x rest s)
  | .nulls x i => .ok (stepNulls x i rest s)
  | .derive x => stepDerive c x rest s
  | .predict ps => .ok (stepPredict c ps rest s)
  | .complete back n node i => .ok (stepComplete c back n node i rest s)

/-- Run the stack until it is empty. -/
def closeLoop (c : Ctx σ L) : Nat → List (Task L) → CSt L → Except Err (CSt L)
  | _, [], s => .ok s
  | 0, _ :: _, _ => .error .fuel
  | f + 1, t :: rest, s =>
    match step c t rest s with
    | .error e => .error e
    | .ok (ts, s') => closeLoop c f ts s'

/-- es_parser.py:697-701 `EarleySet.close`. -/
def close (c : Ctx σ L) (fuel : Nat) (kernel : List (Item L)) : Except Err (CSt L) :=
  closeLoop c fuel (kernel.map .add) ⟨[], []⟩

/-- One round of es_parser.py:725-732. -/
def addExpected (acc : List Term) (x : Item L) : List Term :=
  match x.after with
  | some (.term t) => if t ∈ acc then acc else acc ++ [t]
  | _ => acc

/-- es_parser.py:722-733 `get_expected_terminals`. The dictionary lists its keys in the order in
which they were first used, which is the order of the first item with each key. -/
def expectedTerminals (items : List (Item L)) : List Term := items.foldl addExpected []

/-- One round of es_parser.py:858-866; `none` is a failed assertion. -/
def kludgeStep (acc : Option (Option Kludge)) (x : Item L) : Option (Option Kludge) :=
  match acc with
  | none => none
  | some k =>
    if x.prod.lhs = "EmptyStatement" then (if k = none then some (some .emptyStatement) else none)
    else if x.prod.lhs.startsWith "DoWhileStatement" then
      (if k = none then some (some .doWhile) else none)
    else some k

/-- es_parser.py:856-866: the computation of `ASI_kludge`. -/
def kludgeOf (syntactic : Bool) (items : List (Item L)) : Option (Option Kludge) :=
  if syntactic then (expecting (.term (.lit ";")) items).foldl kludgeStep (some none) else some none

/-- What is fixed during a run: grammar, TIP, whether the parser is the syntactic one, whether it
must consume all its input, and the goal symbol (es_parser.py:443-461). -/
structure Cfg (σ L : Type) where
  G : Grammar
  tip : Tip σ L
  syntactic : Bool
  all : Bool
  goal : String

/-- es_parser.py:787-794. -/
def Cfg.final (c : Cfg σ L) : Term := if c.all then endOfInput else acceptance

/-- es_parser.py:796-805. The text of `og_rhs_reduced` (a message) is left out. -/
def Cfg.startProd (c : Cfg σ L) : Prod :=
  ⟨"*START*", [.nt c.goal, .term c.final], "*START*", "", []⟩

/-- es_parser.py:742-773 `cannot_continue`. -/
def cannotContinue (c : Cfg σ L) (latest : Option (Item L)) : Except Err (Node L) :=
  if c.all then .error .parse
  else match latest with
    | none => .error .parse
    | some x =>
      match x.transit with
      | some (.nt p b s e cs) => if p.lhs = c.goal then .ok (.nt p b s e cs) else .error .crash
      | _ => .error .crash

/-- es_parser.py:932-938: the goal node behind an item that has consumed the end of the input. The
assertion comparing its symbol with the goal's name stripped of parameters (937) is left out. -/
def goalOf (x : Item L) : Option (Node L) := (x.trans.dropLast.getLast?).getD none

/-- es_parser.py:839-852: the latest accepting item, after looking at one more set. -/
def newLatest (c : Cfg σ L) (items : List (Item L)) (latest : Option (Item L)) : Option (Item L) :=
  if c.all then none
  else match expecting (.term acceptance) items with
    | [] => latest
    | x :: _ => some x

/-- es_parser.py:905-914: the items advanced over one terminal instance; `none` when the assertion at
737 fails. -/
def scanOne (items : List (Item L)) (r : Term × L) : Option (List (Item L)) :=
  if (expecting (.term r.1) items).isEmpty ∧ r.1 ≠ acceptance then none
  else some ((expecting (.term r.1) items).map (fun x => x.advance (some (.leaf r.2))))

/-- es_parser.py:903-914: the kernel of the next set. -/
def nextKernel (items : List (Item L)) (rats : List (Term × L)) : Option (List (Item L)) :=
  (rats.mapM (scanOne items)).map List.flatten

/-- es_parser.py:928: is this the end of the input? -/
def atEnd (tip : Tip σ L) (rats : List (Term × L)) : Bool :=
  match rats with
  | [(_, l)] => tip.isEoi l
  | _ => false

/-- es_parser.py:928-952: pick the result. The choice among several trees is the first. -/
def finish (kernel : List (Item L)) : Except Err (Node L) :=
  match kernel.mapM goalOf with
  | some (t :: _) => .ok t
  | _ => .error .crash

/-- es_parser.py:903-954: what happens after the TIP has answered with some terminals. -/
def afterNext (c : Cfg σ L) (go : List (ESet L) → σ → Nat → List (Item L) → Option (Item L) →
      Except Err (Node L))
    (done : List (ESet L)) (pos : Nat) (items : List (Item L)) (latest : Option (Item L))
    (rats : List (Term × L)) (pos' : Nat) (st' : σ) : Except Err (Node L) :=
  if pos' < pos then .error .crash
  else match nextKernel items rats with
    | none => .error .crash
    | some [] => .error .crash
    | some (k :: ks) =>
      if atEnd c.tip rats then finish (k :: ks)
      else go (done ++ [⟨pos, items⟩]) st' pos' (k :: ks) latest

/-- es_parser.py:826-881: what happens after a set has been closed. -/
def afterClose (c : Cfg σ L) (go : List (ESet L) → σ → Nat → List (Item L) → Option (Item L) →
      Except Err (Node L))
    (done : List (ESet L)) (st : σ) (pos : Nat) (items : List (Item L)) (latest : Option (Item L)) :
    Except Err (Node L) :=
  if (expectedTerminals items).isEmpty then cannotContinue c latest
  else
    match kludgeOf c.syntactic items with
    | none => .error .crash
    | some k =>
      match c.tip.next st pos (expectedTerminals items) k with
      | .error e => .error e
      | .ok (none, _) => cannotContinue c (newLatest c items latest)
      | .ok (some (rats, pos'), st') =>
        afterNext c go done pos items (newLatest c items latest) rats pos' st'

/-- es_parser.py:815-954: the main loop. The fuel bounds both the number of sets and the number of
steps spent on each of them. -/
def loop (c : Cfg σ L) : Nat → List (ESet L) → σ → Nat → List (Item L) → Option (Item L) →
    Except Err (Node L)
  | 0, _, _, _, _, _ => .error .fuel
  | f + 1, done, st, pos, kernel, latest =>
    match close ⟨c.G, c.tip, st, done, pos⟩ f kernel with
    | .error e => .error e
    | .ok s => afterClose c (loop c f) done st pos s.items latest

/-- es_parser.py:457-956 `_Earley.run`. -/
def run (c : Cfg σ L) (fuel : Nat) (st : σ) (start : Nat) : Except Err (Node L) :=
  loop c fuel [] st start [⟨none, c.startProd, []⟩] none
end
end Verif.Earley
