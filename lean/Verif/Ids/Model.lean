import Verif.Validate.Model
/-!
# Model of the checks of ids and terms (analyze_spec.py:338-563)

Nodes are compared by value; different nodes of a document have different extents.
-/
namespace Verif.Ids
open Verif.HTML (Str Attrs Node)
open Verif.Validate (nStart nStop nName nAttrs nInner nKids slice)

/-- What a message says; it is issued at a node. -/
inductive Say where
  | duplicate (x : Str)    -- "duplicate id"
  | wantPrefix (p : Str)   -- "Expected the id to start with"
  | oddPrefix              -- "Did not expect the id to start that way"
  | wantId (a : Str)       -- "Expected id=..." for an aoid
  | missing (x : Str)      -- "emu-xref refers to nonexistent id"
  | needless (x : Str)     -- "Unnecessary emu-xref element"
  | oddTarget              -- "unexpected defnode element-name"
  | unreferenced (x : Str) -- "id declared but not referenced"

/-- What isn't modelled: the ids found by `\bid="([^"]+)"` in the text of an algorithm (analyze_spec.py:403), and the `possibles` for a
prefix and an aoid (analyze_spec.py:392-398).  An algorithm without an end-tag has no text; HTML.py doesn't produce such nodes. -/
structure Cfg where
  text : Str
  stepIds : Node → List Str
  possibles : Str → Str → List Str

def sClause : Str := "emu-clause".toList
def sAnnex : Str := "emu-annex".toList
def sIntro : Str := "emu-intro".toList
def sEqn : Str := "emu-eqn".toList
def sFigure : Str := "emu-figure".toList
def sTable : Str := "emu-table".toList
def sAlg : Str := "emu-alg".toList
def sNote : Str := "emu-note".toList
def sXref : Str := "emu-xref".toList
def sDfn : Str := "dfn".toList
def aId : Str := "id".toList
def aAoid : Str := "aoid".toList
def aOldids : Str := "oldids".toList
def aHref : Str := "href".toList
def aVariants : Str := "variants".toList
def pSec : Str := "sec-".toList
def pEqn : Str := "eqn-".toList
def pFigure : Str := "figure-".toList
def pTable : Str := "table-".toList
def pStep : Str := "step-".toList

mutual
/-- The order in which the nodes are visited (analyze_spec.py:426-427, 499-500; HTML.py `each_descendant_named`). -/
def preorder : Node → List Node
  | .mk s e n a i kids => .mk s e n a i kids :: preorderL kids
def preorderL : List Node → List Node
  | [] => []
  | c :: cs => preorder c ++ preorderL cs
end

/-- `node.attrs.get`: the value may be None. -/
def attr (n : Node) (a : Str) : Option (Option Str) := (nAttrs n).lookup a

/-- `node.inner_source_text()`; None if the node has no end-tag. -/
def inner (cfg : Cfg) (n : Node) : Option Str := (nInner n).map (fun p => slice cfg.text p.1 p.2)

/-- `s.split(',')`. -/
def splitComma : Str → List Str
  | [] => [[]]
  | c :: cs =>
    if c = ',' then [] :: splitComma cs
    else match splitComma cs with
      | [] => [[c]]
      | l :: ls => (c :: l) :: ls

/-- `d[k] = v` in an ordered dict. -/
def put (d : List (Str × Node)) (x : Str) (n : Node) : List (Str × Node) :=
  match d with
  | [] => [(x, n)]
  | (y, m) :: r => if y = x then (x, n) :: r else (y, m) :: put r x n

/-- `node_with_id_`, `all_oldids` and the messages (analyze_spec.py:341-342). -/
structure St where
  dict : List (Str × Node)
  old : List Str
  msgs : List (Node × Say)

/-- analyze_spec.py:351-354 and 409-412. -/
def declare (x : Str) (n : Node) (st : St) : St :=
  { st with
    dict := put st.dict x n
    msgs := if x ∈ st.dict.map (·.1) then st.msgs ++ [(n, .duplicate x)] else st.msgs }

/-- `id_prefix_expectation` (analyze_spec.py:360-367). -/
def prefixFor (name : Str) : Option Str :=
  if name = sIntro ∨ name = sClause ∨ name = sAnnex then some pSec
  else if name = sEqn then some pEqn
  else if name = sFigure then some pFigure
  else if name = sTable then some pTable
  else none

/-- analyze_spec.py:368-378. -/
def prefixMsgs (n : Node) (x : Str) : List (Node × Say) :=
  match prefixFor (nName n) with
  | some p => if p.isPrefixOf x then [] else [(n, .wantPrefix p)]
  | none =>
    if pSec.isPrefixOf x ∨ pEqn.isPrefixOf x ∨ pFigure.isPrefixOf x ∨ pTable.isPrefixOf x then [(n, .oddPrefix)] else []

/-- analyze_spec.py:384-400. -/
def aoidMsgs (cfg : Cfg) (n : Node) (x : Str) : Option (List (Node × Say)) :=
  match attr n aAoid with
  | none => some []
  | some none => none
  | some (some a) =>
    if nName n = sClause ∨ nName n = sEqn then
      match prefixFor (nName n) with
      | none => none
      | some p => if x ∈ cfg.possibles p a then some [] else some [(n, .wantId a)]
    else none

/-- The part of `gather_def_ids` about the attribute `id` (analyze_spec.py:345-400). -/
def gatherId (cfg : Cfg) (n : Node) (st : St) : Option St :=
  match attr n aId with
  | none => some st
  | some none => none
  | some (some x) =>
    match aoidMsgs cfg n x with
    | none => none
    | some ms => some { declare x n st with msgs := (declare x n st).msgs ++ prefixMsgs n x ++ ms }

/-- The loop over ids of steps (analyze_spec.py:403-419). -/
def gatherSteps (n : Node) : List Str → St → Option St
  | [], st => some st
  | x :: xs, st => if pStep.isPrefixOf x then gatherSteps n xs (declare x n st) else none

/-- The loop over old ids (analyze_spec.py:421-424). -/
def gatherOld : List Str → St → Option St
  | [], st => some st
  | o :: os, st => if o ∈ st.old then none else gatherOld os { st with old := st.old ++ [o] }

/-- `gather_def_ids`, without the recursion (analyze_spec.py:344-424). -/
def gather1 (cfg : Cfg) (n : Node) (st : St) : Option St :=
  match gatherId cfg n st with
  | none => none
  | some st1 =>
    match gatherSteps n (if nName n = sAlg then cfg.stepIds n else []) st1 with
    | none => none
    | some st2 =>
      match attr n aOldids with
      | none => some st2
      | some none => none
      | some (some s) => gatherOld (splitComma s) st2

/-- `gather_def_ids` on the nodes in the order of the recursion. -/
def gatherAll (cfg : Cfg) : List Node → St → Option St
  | [], st => some st
  | n :: ns, st => match gather1 cfg n st with
    | none => none
    | some st' => gatherAll cfg ns st'

/-- The ids that are declared in imported files (analyze_spec.py:486-492). -/
def imported : List Str := ["table-binary-unicode-properties".toList, "table-nonbinary-unicode-properties".toList,
  "table-binary-unicode-properties-of-strings".toList, "table-unicode-general-category-values".toList,
  "table-unicode-script-values".toList]

/-- What a reference to a `dfn` gives (analyze_spec.py:464-481). -/
def dfnMsgs (cfg : Cfg) (ref d : Node) (x : Str) : Option (List (Node × Say)) :=
  match inner cfg d, inner cfg ref with
  | some dt, some rt =>
    if dt = [] then none
    else if rt = [] then some [(ref, .needless x)]
    else match attr d aVariants with
      | some none => none
      | some (some v) => some (if rt = dt ∨ rt ∈ splitComma v then [(ref, .needless x)] else [])
      | none => some (if rt = dt ∨ rt ∈ splitComma [] then [(ref, .needless x)] else [])
  | _, _ => none

/-- What a reference to an id gives (analyze_spec.py:459-497). -/
def refMsgs (cfg : Cfg) (dict : List (Str × Node)) (ref : Node) (x : Str) : Option (List (Node × Say)) :=
  match dict.lookup x with
  | some d =>
    if nName d ∈ [sClause, sAnnex, sTable, sAlg, sNote] then some []
    else if nName d = sDfn then dfnMsgs cfg ref d x
    else some [(d, .oddTarget)]
  | none => if x ∈ imported then some [] else some [(ref, .missing x)]

/-- `check_ref_ids`, without the recursion (analyze_spec.py:447-497): the id that is referred to, and the messages. -/
def ref1 (cfg : Cfg) (dict : List (Str × Node)) (n : Node) : Option (List Str × List (Node × Say)) :=
  if nName n = sXref then
    match attr n aHref with
    | some (some ('#' :: x)) => (refMsgs cfg dict n x).map (fun ms => ([x], ms))
    | _ => none
  else some ([], [])

/-- `check_ref_ids` on the nodes in the order of the recursion. -/
def refAll (cfg : Cfg) (dict : List (Str × Node)) : List Node → Option (List Str × List (Node × Say))
  | [] => some ([], [])
  | n :: ns => match ref1 cfg dict n with
    | none => none
    | some (xs, ms) => match refAll cfg dict ns with
      | none => none
      | some (ys, ks) => some (xs ++ ys, ms ++ ks)

/-- Ids that are referred to from the style sheet (analyze_spec.py:513). -/
def cssIds : List Str := ["metadata-block".toList, "ecma-logo".toList]

/-- The loop over declared ids (analyze_spec.py:508-534). -/
def unrefMsgs (refs : List Str) : List (Str × Node) → List (Node × Say)
  | [] => []
  | (x, d) :: r =>
    if x ∈ refs ∨ x ∈ cssIds ∨ nName d ∈ [sIntro, sClause, sAnnex] ∨ nName d ∈ [sFigure, sTable] ∨ nName d ∈ [sDfn, sEqn]
    then unrefMsgs refs r
    else (d, .unreferenced x) :: unrefMsgs refs r

/-- `check_ids` (analyze_spec.py:338-536): `node_with_id_`, the ids of the output file (before sorting, without repetitions), and the messages. -/
def checkIds (cfg : Cfg) (doc : Node) : Option (List (Str × Node) × List Str × List (Node × Say)) :=
  match gatherAll cfg (preorder doc) ⟨[], [], []⟩ with
  | none => none
  | some st =>
    if st.old.any (· ∈ st.dict.map (·.1)) then none
    else match refAll cfg st.dict (preorder doc) with
      | none => none
      | some (refs, ms) => some (st.dict, st.old ++ st.dict.map (·.1), st.msgs ++ ms ++ unrefMsgs refs st.dict)

/-! ## Terms -/

/-- The loop over variants (analyze_spec.py:559-563). -/
def addTerms (d : Node) : List Str → List (Str × Node) → Option (List (Str × Node))
  | [], t => some t
  | x :: xs, t => if x ∈ t.map (·.1) then none else addTerms d xs (t ++ [(x, d)])

/-- The terms of a `dfn`: its content and its variants (analyze_spec.py:553-563); an empty list of variants is passed over. -/
def termsOf (cfg : Cfg) (d : Node) : Option (List Str) :=
  match inner cfg d with
  | none => none
  | some t => match attr d aVariants with
    | some (some (c :: cs)) => some (t :: splitComma (c :: cs))
    | _ => some [t]

/-- `check_dfns` (analyze_spec.py:549-563): the dict `dfn_for_term_`. -/
def dfnsLoop (cfg : Cfg) : List Node → List (Str × Node) → Option (List (Str × Node))
  | [], t => some t
  | d :: ds, t => match termsOf cfg d with
    | none => none
    | some xs => match addTerms d xs t with
      | none => none
      | some t' => dfnsLoop cfg ds t'

def checkDfns (cfg : Cfg) (doc : Node) : Option (List (Str × Node)) :=
  dfnsLoop cfg ((preorder doc).filter (fun n => nName n = sDfn)) []

end Verif.Ids
