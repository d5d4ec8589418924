import Verif.Deps.Model
/-!
# Model of the registry of algorithms (algos.py)
-/
namespace Verif.Algs
open Deps (startsWith)

/-- `AlgParam` (algos.py:139-144). -/
structure Param where
  name : String
  punct : String
  nature : String
deriving DecidableEq

/-- A section: its number and title, and the titles of the sections around it, from the inside out. -/
structure Sect where
  num : String
  title : String
  above : List String
deriving DecidableEq

/-- An `AlgHeader` before `finish_initialization` (algos.py:148-158); of the node for the return value only whether there is one. -/
structure Raw where
  species : String
  name : String
  forPhrase : Option String
  params : Option (List Param)
  ret : Bool
  paras : List String
  sect : Sect

/-- An `AlgHeader` afterwards. -/
structure Header where
  species : String
  nameWithMarkup : String
  name : String
  forPhrase : Option String
  params : List Param
  ret : Bool
  description : String
  sect : Sect
deriving DecidableEq

/-! ### `finish_initialization` (algos.py:189-233) -/

/-- `[^<>]` -/
def plain (c : Char) : Bool := c != '<' && c != '>'

/-- The name without markup (algos.py:192-196): the pattern `<dfn [^<>]+>([^<>]+)</dfn>`. -/
def unmark (cs : List Char) : Option (List Char) :=
  if "<".toList.isPrefixOf cs then
    if "<dfn ".toList.isPrefixOf cs then
      if ((cs.drop 5).takeWhile plain).isEmpty then none
      else match (cs.drop 5).dropWhile plain with
      | '>' :: r => if (r.takeWhile plain).isEmpty then none else if r.dropWhile plain = "</dfn>".toList then some (r.takeWhile plain) else none
      | _ => none
    else none
  else some cs

/-- The nature of a parameter of a built-in function (algos.py:208-214). -/
def fillNature (p : Param) : Param :=
  if p.nature = "unknown" then
    { p with nature := if p.punct = "..." then "a List of ECMAScript language values" else "an ECMAScript language value" }
  else p

/-- `re.sub(r'^(A|B|C) ', '', s)` for words of which none starts another. -/
def stripWord (ws : List (List Char)) (s : List Char) : List Char :=
  match ws.find? (fun w => (w ++ [' ']).isPrefixOf s) with
  | some w => s.drop (w.length + 1)
  | none => s

/-- `s.replace(p, n)`; the number is that of the characters that are still to be skipped. -/
def replace (p n : List Char) : Nat → List Char → List Char
  | _, [] => []
  | k + 1, _ :: cs => replace p n k cs
  | 0, c :: cs => if p.isPrefixOf (c :: cs) then n ++ replace p n (p.length - 1) cs else c :: replace p n 0 cs

/-- `' '.join(...)`. -/
def joinSpaces : List (List Char) → List Char
  | [] => []
  | [s] => s
  | s :: ss => s ++ ' ' :: joinSpaces ss

/-- The description (algos.py:218-226). -/
def describe (paras : List String) : String :=
  let d := joinSpaces (paras.map String.toList)
  let d := stripWord ["!OP".toList, "!FUNC".toList, "!CM".toList] d
  let d := stripWord ["It".toList, "This operation".toList, "The job".toList] d
  let d := replace "!OP".toList "This operation".toList 0 d
  String.ofList (replace "!FUNC".toList "This function".toList 0 d)

/-- The part of `finish_initialization` before the registration (algos.py:189-229). -/
def finish (r : Raw) : Option Header := do
  let name ← unmark r.name.toList
  let ps ← r.params
  if (ps.filter (fun p => p.punct = "...")).length ≥ 2 then none
  else some ⟨r.species, r.name, String.ofList name, r.forPhrase, if startsWith "bif:" r.species then ps.map fillNature else ps, r.ret, describe r.paras, r.sect⟩

/-! ### The registry -/

/-- `Alg` (algos.py:106-117). -/
structure Alg where
  species : String
  headers : List Header
deriving DecidableEq

/-- `spec.alg_info_` (algos.py:88): dicts in the order of insertion. -/
structure Reg where
  ops : List (String × Alg)
  bifs : List (String × Alg)
deriving DecidableEq

/-- `ensure_alg` on one of the dicts (algos.py:94-102), and the change that the caller makes to the entry (algos.py:231-232). -/
def ensure (species name : String) (hs : List Header) : List (String × Alg) → Option (List (String × Alg))
  | [] => some [(name, ⟨species, hs⟩)]
  | (n, a) :: t => if n = name then if a.species = species then some ((n, { a with headers := a.headers ++ hs }) :: t) else none else (ensure species name hs t).map ((n, a) :: ·)

/-- `ensure_alg` (algos.py:92-104). -/
def ensureAlg (reg : Reg) (species name : String) (hs : List Header) : Option Reg :=
  if startsWith "bif:" species then (ensure species name hs reg.bifs).map (fun t => { reg with bifs := t })
  else (ensure species name hs reg.ops).map (fun t => { reg with ops := t })

/-- What the rest of the program does with the registry. -/
inductive Event where
  | ensure (species name : String)
  | header (r : Raw)

def step (reg : Reg) : Event → Option Reg
  | .ensure s n => ensureAlg reg s n []
  | .header r => match finish r with
    | none => none
    | some h => ensureAlg reg h.species h.name [h]

def run (evs : List Event) : Option Reg := evs.foldlM step ⟨[], []⟩

/-! ### `check_alg_consistency` (algos.py:284-451) -/

inductive Msg where
  | forPhrase (h : Header) (expected : String)
  | paramCount (h : Header) (alg : String) (expected : Nat)
  | noReturnInFirst (h : Header)
  | returnInLater (h : Header)
  | noReturn (h : Header) (alg : String)
deriving DecidableEq

/-- `re.fullmatch(r'Implementation of .*Module Record Abstract Methods', title)` (algos.py:314). -/
def isImplementation (t : List Char) : Bool :=
  let a := "Implementation of ".toList
  let b := "Module Record Abstract Methods".toList
  a.isPrefixOf t && b.isSuffixOf (t.drop a.length) && ((t.drop a.length).take ((t.drop a.length).length - b.length)).all (· != '\n')

/-- algos.py:316-320. -/
def byGrandparent : List (String × String) :=
  [("Cyclic Module Records", "a Cyclic Module Record _module_"), ("Source Text Module Records", "a Source Text Module Record _module_"),
   ("Synthetic Module Records", "a Synthetic Module Record _module_")]
/-- algos.py:323-341. -/
def byParent : List (String × String) :=
  [("Declarative Environment Records", "a Declarative Environment Record _envRecord_"), ("Object Environment Records", "an Object Environment Record _envRecord_"),
   ("Function Environment Records", "a Function Environment Record _envRecord_"), ("Global Environment Records", "a Global Environment Record _envRecord_"),
   ("Module Environment Records", "a Module Environment Record _envRecord_"),
   ("Ordinary Object Internal Methods and Internal Slots", "an ordinary object _obj_"), ("ECMAScript Function Objects", "an ECMAScript function object _func_"),
   ("Built-in Function Objects", "a built-in function object _func_"), ("Bound Function Exotic Objects", "a bound function exotic object _func_"),
   ("Array Exotic Objects", "an Array exotic object _array_"), ("String Exotic Objects", "a String exotic object _string_"),
   ("Arguments Exotic Objects", "an arguments exotic object _args_"), ("TypedArray Exotic Objects", "a TypedArray _obj_"),
   ("Module Namespace Exotic Objects", "a module namespace exotic object _obj_"), ("Immutable Prototype Exotic Objects", "an immutable prototype exotic object _obj_"),
   ("Proxy Object Internal Methods and Internal Slots", "a Proxy exotic object _obj_")]

/-- `expected_for_phrase` (algos.py:314-341); `none` is a missing key or a section that is not there. -/
def expected (s : Sect) : Option String :=
  match s.above with
  | [] => none
  | p :: up =>
    if isImplementation p.toList then match up with
      | [] => none
      | g :: _ => byGrandparent.lookup g
    else byParent.lookup p

/-- algos.py:342-347. -/
def forMsg (h : Header) : Option (List Msg) :=
  match expected h.sect with
  | none => none
  | some e => some (if h.forPhrase = some e then [] else [.forPhrase h e])

/-- algos.py:307-371. -/
def forMsgs (a : Alg) : Option (List Msg) :=
  if a.species = "shorthand" then if a.headers.isEmpty then some [] else none
  else if startsWith "op: discriminated by type:" a.species then match a.headers.mapM forMsg with
    | none => none
    | some mss => if (a.headers.map (·.forPhrase)).Nodup then some mss.flatten else none
  else if startsWith "op: discriminated by syntax:" a.species || startsWith "op: singular" a.species || startsWith "bif:" a.species then
    if a.headers.all (fun h => h.forPhrase.isNone) then some [] else none
  else none

/-- algos.py:389-399. -/
def paramMsg (name : String) (ps : List Param) (h : Header) : Option (List Msg) :=
  if (h.params.zip ps).all (fun e => e.1.name == e.2.name && e.1.punct == e.2.punct && e.1.nature == e.2.nature) then
    some (if h.params.length ≠ ps.length then [.paramCount h name ps.length] else [])
  else none

/-- algos.py:376-399. -/
def paramMsgs (name : String) (a : Alg) : Option (List Msg) :=
  match a.headers with
  | [] => some []
  | h :: hs => (hs.mapM (paramMsg name h.params)).map List.flatten

/-- algos.py:404-444. -/
def retMsgs (name : String) (a : Alg) : Option (List Msg) :=
  if startsWith "bif:" a.species || a.species == "op: discriminated by syntax: early error" then
    if a.headers.all (fun h => !h.ret) then some [] else none
  else if a.species = "op: discriminated by syntax: steps" ∧ a.headers.length > 1 then
    some (match a.headers with
      | [] => []
      | h :: hs => (if h.ret then [] else [.noReturnInFirst h]) ++ hs.flatMap (fun h => if h.ret then [.returnInLater h] else []))
  else if startsWith "op: discriminated by type:" a.species then some []
  else some (a.headers.flatMap (fun h => if h.ret then [] else [.noReturn h name]))

/-- The body of the loop (algos.py:297-444). -/
def checkAlg (e : String × Alg) : Option (List Msg) :=
  if e.2.headers.all (fun h => h.name == e.1 && h.species == e.2.species) then do
    let a ← forMsgs e.2
    let b ← paramMsgs e.1 e.2
    let c ← retMsgs e.1 e.2
    some (a ++ b ++ c)
  else none

def insertAlg (a : String × Alg) : List (String × Alg) → List (String × Alg)
  | [] => [a]
  | b :: bs => if a.1 ≤ b.1 then a :: b :: bs else b :: insertAlg a bs

/-- `sorted(spec.alg_info_[...].items())`; the keys are different. -/
def sortAlgs (as : List (String × Alg)) : List (String × Alg) := as.foldr insertAlg []

def check (reg : Reg) : Option (List Msg) := ((sortAlgs reg.ops ++ sortAlgs reg.bifs).mapM checkAlg).map List.flatten

end Verif.Algs
