import Verif.Common
/-!
# Model of the facts about intrinsic objects (intrinsics.py)
-/
namespace Verif.Intrin

/-- A Python dictionary with its items in the order of insertion. -/
abbrev Dict := List (String × String)

/-- `d[k]`, none for a `KeyError`. -/
def Dict.get (d : Dict) (k : String) : Option String :=
  match d with
  | [] => none
  | (n, v) :: d => if n = k then some v else Dict.get d k

/-- A dictionary from names, as a function, with one entry changed. -/
def upd {V : Type} (d : String → V) (x : String) (v : V) : String → V := fun y => if y = x then v else d y

/-- `propAttrs_a == propAttrs_b`: the order does not count. -/
def Dict.same (a b : Dict) : Bool :=
  decide (a.length = b.length) && a.all (fun x => decide (Dict.get b x.1 = some x.2))

/-- The loop of `merge_propAttrs` (intrinsics.py:725-731). -/
def mergeLoop : Dict → Dict → Option Dict
  | m, [] => some m
  | m, (n, v) :: b =>
    match Dict.get m n with
    | some w => if v = w then mergeLoop m b else none
    | none => mergeLoop (m ++ [(n, v)]) b

/-- `merge_propAttrs` (intrinsics.py:722-731). -/
def mergeAttrs (a b : Dict) : Option Dict := if a.same b then some a else mergeLoop a b

/-- `S_Intrinsic` (intrinsics.py:398-410): `slots` as a function; `keys` are the keys of `properties` in order, `attrs` the
attributes of the properties with these keys. -/
structure Intr where
  name : String
  kind : Option String
  slots : String → Option String
  keys : List String
  attrs : String → Option Dict

/-- `S_Intrinsic.__init__` (intrinsics.py:402-410). -/
def Intr.new (name : String) : Intr := ⟨name, none, fun _ => none, [], fun _ => none⟩

/-- `ensure_property` (intrinsics.py:453-460). -/
def ensureProperty (x : Intr) (k : String) (attrs : Dict) : Option Intr :=
  match x.attrs k with
  | none => some { x with keys := x.keys ++ [k], attrs := upd x.attrs k (some attrs) }
  | some old => match mergeAttrs old attrs with
    | none => none
    | some m => some { x with attrs := upd x.attrs k (some m) }

/-- What a fact says about the intrinsic on its left (`intrinsic_facts_cooked`). -/
inductive Verb where
  | exists
  | is (kind : String)
  | hasSlot (name value : String)
  | hasProp (key : String) (attrs : Dict)
deriving DecidableEq, Repr

/-- A fact. -/
structure Fact where
  left : String
  verb : Verb
deriving DecidableEq, Repr

/-- One fact (intrinsics.py:247-289); `fix` is `.replace('prose in', 'emu-alg in')`. -/
def learn (fix : String → String) (x : Intr) : Verb → Option Intr
  | .exists => some x
  | .is kind =>
    match x.kind with
    | none => some { x with kind := some kind }
    | some k =>
      if k = kind then some x
      else if k = "a constructor" ∧ kind = "a function object" ∨ k = "a function object" ∧ kind = "a constructor" then
        some { x with kind := some "a constructor" }
      else none
  | .hasSlot name value =>
    match x.slots name with
    | none => some { x with slots := upd x.slots name (some value) }
    | some cur =>
      if cur = value then some x
      else if name = "[[ccb]]" then some { x with slots := upd x.slots name (some (fix cur)) }
      else none
  | .hasProp key attrs => ensureProperty x key attrs

/-- `all_intrinsics`, by name, and `intrinsic_named_`. -/
structure World where
  names : List String
  info : String → Intr

/-- Before the first fact. -/
def World.empty : World := ⟨[], Intr.new⟩

/-- `ensure_intrinsic_named` (intrinsics.py:391-394) and one fact. -/
def learnFact (fix : String → String) (w : World) (f : Fact) : Option World :=
  match learn fix (if f.left ∈ w.names then w.info f.left else Intr.new f.left) f.verb with
  | none => none
  | some x => some ⟨if f.left ∈ w.names then w.names else w.names ++ [f.left], upd w.info f.left x⟩

/-- `coalesce_intrinsic_facts` (intrinsics.py:238-289). -/
def coalesce (fix : String → String) : World → List Fact → Option World
  | w, [] => some w
  | w, f :: fs => match learnFact fix w f with
    | none => none
    | some w' => coalesce fix w' fs

/-! ## Defaults -/

/-- What `apply_defaults` takes from elsewhere: the default `[[Value]]` of `length`, from the number of plain parameters in the
section named in `[[ccb]]` (intrinsics.py:557-581), and that of `name`, from the intrinsic's name (623-630); none if the look-up fails. -/
structure Defaults where
  length : String → String → Option String
  name : String → Option String

/-- `S_Property.kind` (intrinsics.py:215-225); none if the assertion fails. -/
def propKind (attrs : Dict) : Option String :=
  let data := (attrs.get "[[Value]]").isSome || (attrs.get "[[Writable]]").isSome
  let accessor := (attrs.get "[[Getter]]").isSome || (attrs.get "[[Setter]]").isSome
  if data && accessor then none
  else if data then some "data"
  else if accessor then some "accessor"
  else some "unknown"

/-- The loop of `apply_defaults_for_property` (intrinsics.py:692-701). -/
def fillIn : Dict → Dict → Dict
  | attrs, [] => attrs
  | attrs, (n, v) :: defaults =>
    match attrs.get n with
    | some _ => fillIn attrs defaults
    | none => fillIn (attrs ++ [(n, v)]) defaults

/-- `apply_defaults_for_property` (intrinsics.py:687-704). -/
def applyTo (x : Intr) (k : String) (defaults : Dict) : Option Intr :=
  match x.attrs k with
  | some attrs => some { x with attrs := upd x.attrs k (some (fillIn attrs defaults)) }
  | none => ensureProperty x k defaults

/-- The kinds that are expected (intrinsics.py:478-485). -/
def kinds : List String :=
  ["an ordinary object", "a function object", "a constructor", "a String exotic object", "an Array exotic object",
   "an immutable prototype exotic object whose other internal methods are ordinary"]

/-- The global object (intrinsics.py:467) and the value of `Array.prototype[%Symbol.unscopables%]` (472, 527). -/
def globalName : String := "%(global)%"
def unscopables : String := "%Array.prototype[%Symbol.unscopables%]%"

/-- The kind (intrinsics.py:467-485). -/
def defaultKind (x : Intr) : Option Intr :=
  if x.name = globalName then
    if x.kind = none then some { x with kind := some "host-defined non-function" } else none
  else if x.name = unscopables then
    if x.kind = none then some { x with kind := some "an ordinary object" } else none
  else match x.kind with
    | none => none
    | some k => if k ∈ kinds then some x else none

/-- `self.kind in ['a function object', 'a constructor']` -/
def isFunction (x : Intr) : Bool := decide (x.kind = some "a function object") || decide (x.kind = some "a constructor")

/-- The slots (intrinsics.py:498-533). -/
def defaultSlots (x : Intr) : Option Intr :=
  let x1 : Intr := match x.slots "[[Extensible]]" with
    | some _ => x
    | none => { x with slots := upd x.slots "[[Extensible]]" (some "*true*") }
  match x1.slots "[[Prototype]]" with
  | some _ => some x1
  | none =>
    if isFunction x1 then some { x1 with slots := upd x1.slots "[[Prototype]]" (some "%Function.prototype%") }
    else if x1.name = unscopables then some { x1 with slots := upd x1.slots "[[Prototype]]" (some "*null*") }
    else none

/-- The defaults for `length` and `name` of a function (intrinsics.py:583-588, 632-637). -/
def functionDefaults (value : String) : Dict :=
  [("[[Value]]", value), ("[[Writable]]", "*false*"), ("[[Enumerable]]", "*false*"), ("[[Configurable]]", "*true*")]

/-- The two properties of functions (intrinsics.py:538-639). -/
def defaultFunction (E : Defaults) (x : Intr) : Option Intr :=
  if isFunction x then
    match x.slots "[[ccb]]" with
    | none => none
    | some ccb => match E.length x.name ccb with
      | none => none
      | some length => match applyTo x "*\"length\"*" (functionDefaults length) with
        | none => none
        | some x1 => match E.name x.name with
          | none => none
          | some name => applyTo x1 "*\"name\"*" (functionDefaults name)
  else some x

/-- The defaults for a property of a kind (intrinsics.py:669-679). -/
def kindDefaults (kind : String) : Dict :=
  if kind = "data" then [("[[Writable]]", "*true*"), ("[[Enumerable]]", "*false*"), ("[[Configurable]]", "*true*")]
  else if kind = "accessor" then [("[[Enumerable]]", "*false*"), ("[[Configurable]]", "*true*")]
  else []

/-- The loop over the properties (intrinsics.py:663-683). -/
def defaultProps : List String → Intr → Option Intr
  | [], x => some x
  | k :: ks, x =>
    if (k = "*\"length\"*" ∨ k = "*\"name\"*") ∧ isFunction x then defaultProps ks x
    else match x.attrs k with
      | none => none
      | some attrs => match propKind attrs with
        | none => none
        | some kind => match applyTo x k (kindDefaults kind) with
          | none => none
          | some x' => defaultProps ks x'

/-- `S_Intrinsic.apply_defaults` (intrinsics.py:462-683). -/
def applyDefaults (E : Defaults) (x : Intr) : Option Intr :=
  match defaultKind x with
  | none => none
  | some x1 => match defaultSlots x1 with
    | none => none
    | some x2 => match defaultFunction E x2 with
      | none => none
      | some x3 => defaultProps x3.keys x3

/-! ## The order of creation -/

/-- How a look-up of a rank ends badly. -/
inductive RankErr where
  /-- `KeyError` -/
  | crash
  /-- the fuel of the model has run out -/
  | fuel
deriving DecidableEq, Repr

/-- `get_creation_rank` (intrinsics.py:708-718); `memo` are the attributes `creation_rank`, the first number is fuel. -/
def rank (w : World) : Nat → (String → Option Nat) → String → Except RankErr ((String → Option Nat) × Nat)
  | 0, _, _ => .error .fuel
  | n + 1, memo, x =>
    match memo x with
    | some r => .ok (memo, r)
    | none =>
      match (w.info x).slots "[[Prototype]]" with
      | none => .error .crash
      | some proto =>
        if proto = "*null*" ∨ proto = "host-defined" then .ok (upd memo x (some 0), 0)
        else if proto ∈ w.names then
          match rank w n memo proto with
          | .error e => .error e
          | .ok (memo', r) => .ok (upd memo' x (some (1 + r)), 1 + r)
        else .error .crash

/-- `intrinsics_in_rank_[rank].append(intrinsic)` -/
def addToRank (d : List (Nat × List String)) (r : Nat) (x : String) : List (Nat × List String) :=
  match d with
  | [] => [(r, [x])]
  | (q, xs) :: d => if q = r then (q, xs ++ [x]) :: d else (q, xs) :: addToRank d r x

/-- The first loop of `determine_creation_order` (intrinsics.py:309-312). -/
def rankLoop (w : World) (n : Nat) : List String → (String → Option Nat) → List (Nat × List String) →
    Except RankErr (List (Nat × List String))
  | [], _, d => .ok d
  | x :: xs, memo, d =>
    match rank w n memo x with
    | .error e => .error e
    | .ok (memo', r) => rankLoop w n xs memo' (addToRank d r x)

/-- `determine_creation_order` (intrinsics.py:308-317); `le` compares names.  The ranks differ, so the sort never looks at the
lists. -/
def creationOrder (w : World) (le : String → String → Bool) (n : Nat) : Except RankErr (List String) :=
  match rankLoop w n w.names (fun _ => none) [] with
  | .error e => .error e
  | .ok d => .ok ((d.mergeSort (fun a b => decide (a.1 ≤ b.1))).flatMap (fun g => g.2.mergeSort le))

end Verif.Intrin
