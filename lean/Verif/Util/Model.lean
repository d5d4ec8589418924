/-!
# Models of `DecoratedFuncDict.py`, `Tokenizer.py` and `NodeGrammar.py`
-/
namespace Verif.Util

/-! ## DecoratedFuncDict -/

/-- `DecoratedFuncDict` (DecoratedFuncDict.py:19-24): two dicts, insertion-ordered. -/
structure Dfd (K F : Type) where
  funcs : List (K × F)
  counts : List (K × Nat)

variable {K F : Type} [DecidableEq K]

/-- `__init__` (DecoratedFuncDict.py:19-21). -/
def Dfd.init : Dfd K F := ⟨[], []⟩

/-- `__setitem__`, also reached through `put` (DecoratedFuncDict.py:26-35): fails if the key is
present. -/
def Dfd.set (d : Dfd K F) (k : K) (f : F) : Option (Dfd K F) :=
  if (d.funcs.lookup k).isSome then none
  else some ⟨d.funcs ++ [(k, f)], d.counts ++ [(k, 0)]⟩

/-- `__contains__` (DecoratedFuncDict.py:37-38). -/
def Dfd.contains (d : Dfd K F) (k : K) : Bool := (d.funcs.lookup k).isSome

/-- `__getitem__` (DecoratedFuncDict.py:40-43): KeyError is `none`. -/
def Dfd.get (d : Dfd K F) (k : K) : Option (F × Dfd K F) :=
  match d.funcs.lookup k with
  | none => none
  | some f => some (f, { d with counts := d.counts.map (fun (k', n) => if k' = k then (k', n + 1) else (k', n)) })

/-- The calls on a `DecoratedFuncDict` that have an effect (DecoratedFuncDict.py:26-43). -/
inductive DfdOp (K F : Type) where
  | set (k : K) (f : F)
  | get (k : K)

/-- What a call gives its caller (DecoratedFuncDict.py:32-43): nothing, a value, or an exception. -/
inductive DfdOut (F : Type) where
  | ok
  | value (f : F)
  | error
deriving DecidableEq

/-- One call in a history (DecoratedFuncDict.py:32-43); a call that raises leaves the dict as it was (the failing statement
comes first in both methods). -/
def Dfd.step (d : Dfd K F) : DfdOp K F → DfdOut F × Dfd K F
  | .set k f => match d.set k f with
    | some d' => (.ok, d')
    | none => (.error, d)
  | .get k => match d.get k with
    | some (f, d') => (.value f, d')
    | none => (.error, d)

/-- A history of calls on a `DecoratedFuncDict` (DecoratedFuncDict.py:26-43): the outputs and the
final dict. -/
def Dfd.run (d : Dfd K F) : List (DfdOp K F) → List (DfdOut F) × Dfd K F
  | [] => ([], d)
  | op :: ops =>
    let r := d.step op
    let rest := Dfd.run r.2 ops
    (r.1 :: rest.1, rest.2)

/-! ## Tokenizer -/

/-- `TokenSpec` (Tokenizer.py:91-96).  The compiled regex is a parameter: given the line and an
offset it gives the length of its match there, if any.  `response` is what is made of a match
(`none` when the response is None, i.e. the match is skipped); the distinction between a
callable response and a label is not modelled. -/
structure TokSpec (T : Type) where
  reo : List Char → Nat → Option Nat
  response : Option (List Char → Nat → Nat → T)

/-- Outcome of `tokenize` (Tokenizer.py:17-74): the tokens, a TokenizationError, or no end. -/
inductive TokResult (T : Type) where
  | tokens (ts : List T) (used : List (Nat × Nat × Nat))
  | error (offset : Nat)
  | diverges
deriving Repr

/-- The list `matches` (Tokenizer.py:21-27), each with the index of its spec. -/
def tokMatches {T} (specs : List (TokSpec T)) (line : List Char) (offset : Nat) :
    List (Nat × Nat × TokSpec T) :=
  specs.zipIdx.filterMap (fun (s, i) => (s.reo line offset).map (fun len => (len, i, s)))

/-- The choice among the matches (Tokenizer.py:28-56). -/
def tokChoose {T} (ms : List (Nat × Nat × TokSpec T)) : Option (Nat × Nat × TokSpec T) :=
  match ms with
  | [] => none
  | [m] => some m
  | ms =>
    let maxlen := (ms.map (·.1)).foldl max 0
    match ms.filter (fun m => m.1 = maxlen) with
    | [m] => some m
    | _ => none

/-- The loop of `tokenize` (Tokenizer.py:17-74); `n` is fuel; `used` records, for each match, the
spec index, offset and length (the spec's `n_matches` is the number of its records). -/
def tokLoop {T} (specs : List (TokSpec T)) (line : List Char) :
    Nat → Nat → List T → List (Nat × Nat × Nat) → TokResult T
  | 0, _, _, _ => .diverges
  | n + 1, offset, tokens, used =>
    if offset < line.length then
      match tokChoose (tokMatches specs line offset) with
      | none => .error offset
      | some (len, i, s) =>
        tokLoop specs line n (offset + len)
          (match s.response with
            | none => tokens
            | some f => tokens ++ [f line offset len])
          (used ++ [(i, offset, len)])
    else .tokens tokens used

/-- `tokenize` (Tokenizer.py:17-74). -/
def tokenize {T} (specs : List (TokSpec T)) (line : List Char) (fuel : Nat) : TokResult T :=
  tokLoop specs line fuel 0 [] []

/-- `print_unused_paterns` (Tokenizer.py:76-89), the listed patterns (by index): the ones with
no match, unless no pattern at all was used. -/
def unusedPatterns (nSpecs : Nat) (used : List (Nat × Nat × Nat)) : List Nat :=
  let un := (List.range nSpecs).filter (fun i => (used.filter (fun u => u.1 = i)).length = 0)
  if un.length = nSpecs then [] else un

/-! ## NodeGrammar -/

/-- A compiled atom (NodeGrammar.py:38-46); the regex is a parameter telling whether it
full-matches. -/
inductive Atom where
  | name (s : String)
  | content (s : String) (fullmatch : List Char → Bool)

/-- The parts of an HNode that atoms look at (NodeGrammar.py:125, 141-152). -/
structure HNode where
  elementName : String
  innerText : List Char
  startPosn : Nat
deriving DecidableEq, Repr

/-- `node_matches_atom` (NodeGrammar.py:141-152). -/
def nodeMatchesAtom (node : HNode) : Atom → Bool
  | .name s => node.elementName == s
  | .content s re => node.elementName == s && re node.innerText

/-- `NodeGrammarUnit` (NodeGrammar.py:134-139).  `processor` is modelled as a function from the
matched nodes to the list of results it contributes (`None` processor or `None` result: no
results; a list: its elements; other: a singleton).  How captured groups become arguments is
not modelled. -/
structure NUnit (R : Type) where
  pattern : List Atom
  processor : List HNode → List R

/-- Whether a unit's pattern matches at the start of `nodes` (NodeGrammar.py:68-79). -/
def unitMatches {R} (u : NUnit R) (nodes : List HNode) : Bool :=
  if u.pattern.length > nodes.length then false
  else (nodes.zip u.pattern).all (fun p => nodeMatchesAtom p.1 p.2)

/-- Outcome of `scan_section` (NodeGrammar.py:53-127): returned results, the units used (index and nodes matched; a
unit's `counter` grows by the number of its entries), and the position of the message, if one
was issued. -/
structure ScanResult (R : Type) where
  results : List R
  used : List (Nat × List HNode)
  msg : Option Nat

/-- The `while` loop of `scan_section` (NodeGrammar.py:64-127); `none` when the fuel runs out. -/
def scanLoop {R} (units : List (NUnit R)) :
    Nat → List HNode → List R → List (Nat × List HNode) → Option (ScanResult R)
  | _, [], results, used => some ⟨results, used, none⟩
  | 0, _ :: _, _, _ => none
  | n + 1, node :: nodes, results, used =>
    match units.zipIdx.find? (fun (u, _) => unitMatches u (node :: nodes)) with
    | none => some ⟨[], used, some node.startPosn⟩
    | some (u, i) =>
      let k := u.pattern.length
      scanLoop units n ((node :: nodes).drop k) (results ++ u.processor ((node :: nodes).take k))
        (used ++ [(i, (node :: nodes).take k)])

/-- `scan_section` (NodeGrammar.py:53-127); the check of `section_kind` is not modelled. -/
def scanSection {R} (units : List (NUnit R)) (nodes : List HNode) (fuel : Nat) : Option (ScanResult R) :=
  scanLoop units fuel nodes [] []

/-- `each_unused_pattern` (NodeGrammar.py:129-132), as unit indices, after a number of scans whose
used units are `useds` (a unit's counter is the number of its entries there). -/
def unusedUnits {R} (units : List (NUnit R)) (useds : List (List (Nat × List HNode))) : List Nat :=
  (List.range units.length).filter (fun i => (useds.flatten.filter (fun u => u.1 = i)).length = 0)

end Verif.Util
