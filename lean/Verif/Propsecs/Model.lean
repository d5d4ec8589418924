import Verif.Objs.Model
import Verif.Paths.Model
/-!
# Model of what a section about a property or a constructor is about (Section.py:2359-2373, 2737-2939, 3307-3347)

`\w` is restricted to ASCII; `\S` is given by a parameter.
-/
namespace Verif.Propsecs
open Verif.Kinds (Rx full lit plus cat any w dot)
open Verif.Preambles (after)
open Verif.Wki (before)
open Verif.Titles (hasSub)
open Verif.Paths (splitPath stringLiteral confirms)
open Verif.Objs (Fact)

abbrev Str := List Char

/-- A section (Section.py:2762-2939): its `section_kind`, those of the sections it is in, from the inside, its title, those of its parent and of the parent of that, and the
names and texts of the elements in `block_children`. -/
structure Sec where
  kind : Str
  above : List Str
  title : Str
  parent : Str
  grand : Option Str
  blocks : List (String × Str)

/-! ## Which -/

/-- The branches of `extract_intrinsic_info` (Section.py:2363-2373). -/
inductive Way where
  | table
  | list
  | constructor
  | property
  | nothing
deriving DecidableEq

/-- The one that is taken (Section.py:2363-2373). -/
def way (s : Sec) : Way :=
  if s.title = "Well-Known Intrinsic Objects".toList ∨ s.title = "Additional Properties of the Global Object".toList then .table
  else if "intrinsic: info".toList.isPrefixOf s.kind then .list
  else if s.kind = "CallConstruct".toList then .constructor
  else if hasSub "_property".toList s.kind then .property
  else .nothing

/-- The loop over the section and those it is in (Section.py:2766-2774): whether the first that decides is about instances; None is an AttributeError. -/
def instances : List Str → Option Bool
  | [] => none
  | k :: ks =>
    if "instances:".toList.isPrefixOf k then some true
    else if "intrinsic:".toList.isPrefixOf k then some false
    else instances ks

/-! ## The property -/

/-- `re.sub(r' \(.*', '', s)` (Section.py:2782): the flag is whether something is being left out. -/
def bare : Bool → Str → Str
  | _, [] => []
  | true, c :: s => if c = '\n' then c :: bare false s else bare true s
  | false, ' ' :: '(' :: s => bare true s
  | false, c :: s => c :: bare false s

/-- The path, after `get` or `set` (Section.py:2784-2788). -/
def pathOf (i : Str) : Str :=
  match after "get " i with
  | some p => if p ≠ [] ∧ '\n' ∉ p then p else i
  | none => match after "set " i with
    | some p => if p ≠ [] ∧ '\n' ∉ p then p else i
    | none => i

/-- `endswith(' Properties of the Global Object')` (Section.py:2794-2796). -/
def globalTitle (t : Str) : Bool := " Properties of the Global Object".toList.isSuffixOf t

/-- `this_property` (Section.py:2790-2802): the container and the key; None is a failed assertion or an AttributeError. -/
def propertyOf (s : Sec) : Option (Str × Str) :=
  match splitPath (pathOf (bare false s.title)) with
  | none => none
  | some (some c, k) => some (c, k)
  | some (none, k) =>
    if globalTitle s.parent then some ("the global object".toList, k)
    else match s.grand with
      | some g => if globalTitle g then some ("the global object".toList, k) else none
      | none => none

/-- The section that just refers to another (Section.py:2815-2829): whether no assertion fails. -/
def refers (key : Str) : List (String × Str) → Bool
  | [(n, t)] =>
    n == "p" && match after "See <emu-xref href=\"#" t with
      | none => false
      | some r => match before "\"></emu-xref>." r with
        | none => false
        | some i => !i.isEmpty && !i.contains '"' && (key != "*\"WeakSet\"*".toList || i == "sec-weakset-objects".toList)
  | _ => false

/-- `Properties of the (\S+) X` and `Properties of the (_\w+_) Xs` with the phrases for them (Section.py:2851-2854, 2872-2875). -/
def phraseFor (space : Char → Bool) (one several what t : String) (title : Str) : Option Str :=
  match after t title with
  | none => none
  | some r => match before one r with
    | some x => if !x.isEmpty && x.all (fun c => !space c) then some ("the ".toList ++ x ++ what.toList) else none
    | none => match before several r with
      | some x => if full (cat [lit "_", plus w, lit "_"]) x then some ("each ".toList ++ x ++ what.toList) else none
      | none => none

/-- The other names of the container (Section.py:2850-2854). -/
def protoNames (space : Char → Bool) (parent container : Str) : List Fact :=
  if ".prototype".toList.isSuffixOf container then
    ((phraseFor space " Prototype Object" " Prototype Objects" " prototype object" "Properties of the " parent).map (Fact.aka · container)).toList
  else []

/-- The same for constructors (Section.py:2872-2875). -/
def constructorNames (space : Char → Bool) (parent container : Str) : List Fact :=
  ((phraseFor space " Constructor" " Constructors" " constructor" "Properties of the " parent).map (Fact.aka · container)).toList

/-- `The initial value of the \S+ property is %\S+%(, defined in .+)?\.` (Section.py:2909). -/
def elsewhereRx (space : Char → Bool) : Rx :=
  cat [lit "The initial value of the ", plus (.char (fun c => !space c)), lit " property is %", plus (.char (fun c => !space c)), lit "%",
    any [cat [lit ", defined in ", plus dot], .empty], lit "."]

/-- `section_defines_object` (Section.py:2894-2932); None is a failed assertion. -/
def definesObject (space : Char → Bool) (s : Sec) : Option Bool :=
  if s.kind = "accessor_property".toList then some true
  else if s.kind = "function_property".toList then some (!s.blocks.any (fun b => b.1 == "p" && full (elsewhereRx space) b.2))
  else if s.kind = "other_property".toList then some (decide (s.title = "Array.prototype [ %Symbol.unscopables% ]".toList))
  else none

/-- What is done for a section: nothing, or facts are put, and then its blocks are scanned or not (Section.py:2770, 2829, 2939). -/
inductive Out where
  | skipped
  | refers (facts : List Fact)
  | scanned (facts : List Fact) (property : Str × Str) (object : Option Str)
deriving DecidableEq

/-- `extract_intrinsic_info_from_property_section` (Section.py:2762-2939); None is a failed assertion or an AttributeError. -/
def read (space : Char → Bool) (s : Sec) : Option Out :=
  match instances (s.kind :: s.above) with
  | none => none
  | some true => some .skipped
  | some false => match propertyOf s with
    | none => none
    | some (c, k) =>
      if "_xref".toList.isSuffixOf s.kind then if refers k s.blocks then some (.refers [.prop c k []]) else none
      else match definesObject space s with
        | none => none
        | some b => some (.scanned ([.prop c k []] ++ protoNames space s.parent c ++ constructorNames space s.parent c) (c, k) (if b then some (bare false s.title) else none))

/-! ## Constructors -/

/-- `extract_intrinsic_info_from_CallConstruct_section` (Section.py:2737-2758): the fact, `this_property` and `this_object`; None is a failed assertion. -/
def callConstruct (space : Char → Bool) (nonGlobal : List Str) (title : Str) : Option (Fact × Option (Str × Str) × Str) :=
  let n := title.takeWhile (fun c => !space c)
  match after " (" (title.dropWhile (fun c => !space c)) with
  | none => none
  | some r => match before ")" r with
    | none => none
    | some x =>
      if n.isEmpty || x.isEmpty || x.contains '(' || x.contains ')' then none
      else if nonGlobal.contains n || nonGlobal.contains ('%' :: n ++ ['%']) then some (.is n "a constructor".toList, none, n)
      else if n.contains '"' then none
      else some (.is n "a constructor".toList, some ("the global object".toList, stringLiteral n), n)

/-! ## How a sentence speaks about the function -/

/-- The groups of a match that are used (Section.py:3307-3342): the second, the names, and what the function is called. -/
structure Ref where
  second : Option Str
  name1 : Option Str
  name2 : Option Str
  what1 : Option Str
  what3 : Option Str

inductive Msg where
  | byName
  | expectedMethod (got : Str)
  | unexpectedMethod
deriving DecidableEq

/-- The functions called methods although they are not in a prototype (Section.py:3329-3334). -/
def methodsToo : List Str := ["Array.from", "Array.of", "%TypedArray%.from", "%TypedArray%.of"].map String.toList

/-- `check_this_function` (Section.py:3307-3342): the messages; None is a failed assertion, or an AttributeError if `this_object` is asked for and not there. A group that takes
part in a match is not empty, so `or` gives the first that does. -/
def checkFunction (title : Str) (property : Option (Str × Str)) (object : Option Str) (r : Ref) : Option (List Msg) :=
  let byName : Option (List Msg) :=
    match r.name1.or r.name2 with
    | none => some []
    | some n =>
      if n = "It".toList then some []
      else if !confirms property n then none
      else if r.second = some "Each".toList then some [] else some [.byName]
  match byName with
  | none => none
  | some ms => match r.what1.or r.what3 with
    | none => some ms
    | some x =>
      let isMethod : Option Bool :=
        if (hasSub ".prototype".toList title || hasSub "Prototype%".toList title) && !"get ".toList.isPrefixOf title then some true
        else object.map methodsToo.contains
      match isMethod with
      | none => none
      | some true => if x = "method".toList then some ms else some (ms ++ [.expectedMethod x])
      | some false => if x = "method".toList then some (ms ++ [.unexpectedMethod]) else some ms

end Verif.Propsecs
