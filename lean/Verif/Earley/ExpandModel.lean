import Verif.Earley.Model
/-!
# Model of `simplify_grammar` in `es_parser.py`

How the grammar of the spec, with its parameters, guards and optional symbols, becomes the plain
productions that the Earley parser works with (es_parser.py:95-409). The grammar file is taken as
parsed: constraints are given as the code converts them (es_parser.py:291-386).
-/
namespace Verif.Earley

/-- `+` or `~`. -/
inductive Sign
  | plus | tilde
deriving DecidableEq, Repr

/-- The character written for it. -/
def Sign.str : Sign → String
  | .plus => "+"
  | .tilde => "~"

/-- A setting of grammatical parameters: the list of strings `'+p'`, `'~q'`, … (es_parser.py:134-137),
kept as pairs. -/
abbrev Setting := List (Sign × String)

/-- `''.join(params_setting)` (es_parser.py:202). -/
def suffix : Setting → String
  | [] => ""
  | (s, p) :: r => s.str ++ p ++ suffix r

/-- An argument of a nonterminal in a right-hand side: `?p` (no sign), `+p` or `~p`
(es_parser.py:183). -/
abbrev Arg := Option Sign × String

/-- An item of a right-hand side, by kind (es_parser.py:223-389). -/
inductive GItem
  | nt (name : String) (args : List Arg)
  | optNt (name : String) (args : List Arg)
  | optLit (chars : String)
  | lit (chars : String)
  | namedChar (n : String)
  | uProp (p : String)
  | uRange (lo hi : Nat)
  | uAny
  | con (c : Con)
deriving DecidableEq, Repr

/-- A right-hand side: guard, items, `_reduced`. One that is just a `BACKTICKED_THING` has no guard. -/
structure GRhs where
  guard : List (Sign × String)
  items : List GItem
  reduced : String
deriving DecidableEq, Repr

/-- An entry of `prodn_for_lhs_`: name, `_param_names`, `_rhss`. -/
structure GProd where
  lhs : String
  params : List String
  rhss : List GRhs
deriving DecidableEq, Repr

/-- `get_name_kind` (emu_grammars.py) says whether a name is a nonterminal or a named terminal; the
level tells the lexical grammar from the syntactic one. -/
structure GEnv where
  isTerminal : String → Option Bool
  lexical : Bool

/-- es_parser.py:139-177 `each_boolean_vector_of_length`. -/
def boolVectors : Nat → Option (List (List Bool))
  | 0 => some [[]]
  | 1 => some [[false], [true]]
  | 2 => some [[false, false], [false, true], [true, false], [true, true]]
  | 3 => some [[false, false, false], [false, false, true], [false, true, false], [false, true, true],
      [true, false, false], [true, false, true], [true, true, false], [true, true, true]]
  | 4 => some [[false, false, false, false], [false, false, false, true], [false, false, true, false],
      [false, false, true, true], [false, true, false, false], [false, true, false, true],
      [false, true, true, false], [false, true, true, true], [true, false, false, false],
      [true, false, false, true], [true, false, true, false], [true, false, true, true],
      [true, true, false, false], [true, true, false, true], [true, true, true, false],
      [true, true, true, true]]
  | _ => none

/-- es_parser.py:129-137 `each_params_setting`. -/
def eachSetting (params : List String) : Option (List Setting) :=
  (boolVectors params.length).map (fun vs => vs.map (fun bs =>
    (bs.zip params).map (fun q => (if q.1 then Sign.plus else Sign.tilde, q.2))))

/-- es_parser.py:184-191: the first setting of the parameter with that name. -/
def lookupParam (p : String) : Setting → Option Sign
  | [] => none
  | (s, q) :: r => if q = p then some s else lookupParam p r

/-- es_parser.py:179-197 `expand_nt_wrt_params_setting`. -/
def expandName (σ : Setting) : String → List Arg → Option String
  | result, [] => some result
  | result, (none, p) :: r =>
    match lookupParam p σ with
    | none => none
    | some s => expandName σ (result ++ (s.str ++ p)) r
  | result, (some s, p) :: r => expandName σ (result ++ (s.str ++ p)) r

/-- The strings of a setting, as stored in a production. -/
def settingStrings (σ : Setting) : List String := σ.map (fun q => q.1.str ++ q.2)

/-- es_parser.py:403-407 `add_exp_prod1`. -/
def addProd (D : Grammar) (p : Prod) : Grammar :=
  fun n => if n = p.lhs then some ((D n).getD [] ++ [p]) else D n

/-- es_parser.py:264-271: define an optional symbol, unless it is there already. -/
def addOptional (D : Grammar) (σ : Setting) (expBase oBase : String) (thing : Rthing) : Grammar :=
  if (D (expBase ++ "?")).isSome then D
  else addProd (addProd D ⟨expBase ++ "?", [thing], oBase ++ "?", oBase, settingStrings σ⟩)
    ⟨expBase ++ "?", [], oBase ++ "?", "", settingStrings σ⟩

/-- es_parser.py:223-389: one item of a right-hand side. -/
def expandItem (env : GEnv) (σ : Setting) (D : Grammar) : GItem → Option (Grammar × List Rthing)
  | .nt name args =>
    match expandName σ name args, env.isTerminal name with
    | some x, some false => some (D, [.nt x])
    | some x, some true => some (D, [.term (.named x)])
    | _, _ => none
  | .optNt name args =>
    match expandName σ name args with
    | some x => some (addOptional D σ x name (.nt x), [.nt (x ++ "?")])
    | none => none
  | .optLit chars => some (addOptional D σ chars chars (.term (.lit chars)), [.nt (chars ++ "?")])
  | .lit chars =>
    if env.lexical && decide (1 < chars.toList.length) then
      some (D, chars.toList.map (fun ch => .term (.lit (String.ofList [ch]))))
    else some (D, [.term (.lit chars)])
  | .namedChar n => some (D, [.term (.named n)])
  | .uProp p => some (D, [.term (.uProp p)])
  | .uRange lo hi => some (D, [.term (.uRange lo hi)])
  | .uAny => some (D, [.term (.uRange 0 0x10FFFF)])
  | .con c => some (D, [.con c])

/-- es_parser.py:221-389: the loop over the items. -/
def expandItems (env : GEnv) (σ : Setting) : Grammar → List GItem → Option (Grammar × List Rthing)
  | D, [] => some (D, [])
  | D, x :: r =>
    match expandItem env σ D x with
    | none => none
    | some (D', ts) =>
      match expandItems env σ D' r with
      | none => none
      | some (D'', ts') => some (D'', ts ++ ts')

/-- es_parser.py:201-391 `simplify_prod`. -/
def simplifyProd (env : GEnv) (σ : Setting) (lhs : String) (D : Grammar) (r : GRhs) : Option Grammar :=
  if r.guard.all (fun g => decide (g ∈ σ)) then
    match expandItems env σ D r.items with
    | none => none
    | some (D', rhs) => some (addProd D' ⟨lhs ++ suffix σ, rhs, lhs, r.reduced, settingStrings σ⟩)
  else some D

/-- es_parser.py:118-119: all right-hand sides, for one setting. -/
def simplifyRhss (env : GEnv) (σ : Setting) (lhs : String) : Grammar → List GRhs → Option Grammar
  | D, [] => some D
  | D, r :: rs =>
    match simplifyProd env σ lhs D r with
    | none => none
    | some D' => simplifyRhss env σ lhs D' rs

/-- es_parser.py:117-119: all settings. -/
def simplifySettings (env : GEnv) (lhs : String) (rhss : List GRhs) : Grammar → List Setting → Option Grammar
  | D, [] => some D
  | D, σ :: r =>
    match simplifyRhss env σ lhs D rhss with
    | none => none
    | some D' => simplifySettings env lhs rhss D' r

/-- es_parser.py:110-119: all productions, in the order of their names. -/
def simplifyAll (env : GEnv) : Grammar → List GProd → Option Grammar
  | D, [] => some D
  | D, gp :: r =>
    match eachSetting gp.params with
    | none => none
    | some σs =>
      match simplifySettings env gp.lhs gp.rhss D σs with
      | none => none
      | some D' => simplifyAll env D' r

/-- es_parser.py:395-399 `make_InputElement_common`. -/
def makeCommon (D : Grammar) : Grammar :=
  ["WhiteSpace", "LineTerminator", "Comment", "CommonToken"].foldl
    (fun D n => addProd D ⟨"InputElement_common", [.nt n], "InputElement_common", n, []⟩) D

/-- es_parser.py:96-125 `simplify_grammar`. -/
def simplifyGrammar (env : GEnv) (prods : List GProd) : Option Grammar :=
  (simplifyAll env (fun _ => none) prods).map (fun D => if env.lexical then makeCommon D else D)

end Verif.Earley
