import Verif.Defs.Model
/-!
# Model of the checks of references to nonterminals in the text and in annex A (emu_grammars.py:1399-1433, 1659-1710)

`Verif.Defs.Table` is `info_for_nt_`.  `\w` is the parameter `word`.  A failed assertion, a missing key or attribute, and an index that is out of
range, is `none`.  The lines of the log and the comparison under `if 0:` are left out.
-/
namespace Verif.Refs
open Verif.Defs (Str Table Arena DProd)

/-! ## The references in annex A -/

/-- An `<emu-prodref>` element: where it is, its attribute `name`, and whether it has the attribute `a` (emu_grammars.py:1404-1411). -/
structure ProdRef where
  pos : Nat
  name : Option Str
  alt : Bool
deriving DecidableEq, Repr

/-- The loop over the elements, with `referenced_names` so far; the places of the warnings, and `referenced_names` at the end
(emu_grammars.py:1402-1420). -/
def refLoop (t : Table) : List ProdRef → List Str → Option (List Nat × List Str)
  | [], names => some ([], names)
  | r :: rs, names =>
    match r.name with
    | none => none
    | some n =>
      match t.lookup n with
      | none => none
      | some info =>
        match info.occs.lookup .A with
        | none => none
        | some _ =>
          if r.alt then
            if n ∈ names then refLoop t rs names else none
          else
            (refLoop t rs (names ++ [n])).map (fun x => ((if n ∈ names then [r.pos] else []) ++ x.1, x.2))

/-- `arena_A_names_with_posn`, before it is sorted (emu_grammars.py:1422-1428). -/
def mainNames (t : Table) : List (Nat × Str) :=
  t.filterMap (fun x => (x.2.occs.lookup .A).map (fun d => (d.prod.lhs.pos, x.1)))

/-- Python's `<` on the pairs. -/
def pairLt (a b : Nat × Str) : Bool := a.1 < b.1 || (a.1 = b.1 && Defs.strLt a.2 b.2)

/-- Insertion into a sorted list. -/
def insertPair (x : Nat × Str) : List (Nat × Str) → List (Nat × Str)
  | [] => [x]
  | y :: ys => if pairLt x y then x :: y :: ys else y :: insertPair x ys

/-- `arena_A_names_with_posn.sort()` (emu_grammars.py:1430). -/
def sortPairs : List (Nat × Str) → List (Nat × Str)
  | [] => []
  | x :: xs => insertPair x (sortPairs xs)

/-- What `check_emu_prodrefs` reports: where there are second references, and where there are productions without one. -/
structure ProdReport where
  second : List Nat
  missing : List Nat
deriving DecidableEq, Repr

/-- `check_emu_prodrefs` (emu_grammars.py:1399-1433). -/
def checkProdRefs (t : Table) (rs : List ProdRef) : Option ProdReport :=
  match refLoop t rs [] with
  | none => none
  | some (second, names) =>
    some ⟨second, (sortPairs (mainNames t)).flatMap (fun x => if x.2 ∈ names then [] else [x.1])⟩

/-! ## The references in the text -/

/-- The text starts with a match of `\|\w[^|]+\|`; what is between the bars (emu_grammars.py:1669). -/
def refHere (word : Char → Bool) : Str → Option Str
  | '|' :: s =>
    match s.takeWhile (· ≠ '|'), s.dropWhile (· ≠ '|') with
    | c :: d :: w, _ :: _ => if word c then some (c :: d :: w) else none
    | _, _ => none
  | _ => none

/-- `re.finditer`: the matches from left to right, each with the place where it starts; `skip` characters belong to the match before
(emu_grammars.py:1669). -/
def scan (word : Char → Bool) : Nat → Nat → Str → List (Nat × Str)
  | _, _, [] => []
  | p, skip + 1, _ :: s => scan word (p + 1) skip s
  | p, 0, c :: s =>
    match refHere word (c :: s) with
    | some b => (p, b) :: scan word (p + 1) (b.length + 1) s
    | none => scan word (p + 1) 0 s

/-- The second group of the pattern and what must follow it: `[` args `]` and possibly `?`; `.` is anything but a newline (emu_grammars.py:1672). -/
def argsOf (r : Str) : Option Str :=
  match r.reverse with
  | ']' :: a => if a ≠ [] ∧ '\n' ∉ a then some a.reverse else none
  | '?' :: ']' :: a => if a ≠ [] ∧ '\n' ∉ a then some a.reverse else none
  | _ => none

/-- `re.fullmatch(r'\|(\w+)(?:\[(.+?)\])?(\?)?\|', ref)`, of what is between the bars: the first two groups (emu_grammars.py:1672-1676). -/
def partsOf (word : Char → Bool) (b : Str) : Option (Str × Option Str) :=
  if b.takeWhile word = [] then none
  else match b.dropWhile word with
    | [] => some (b.takeWhile word, none)
    | ['?'] => some (b.takeWhile word, none)
    | '[' :: r => (argsOf r).map (fun a => (b.takeWhile word, some a))
    | _ => none

/-- `re.split(', *', args)`, with what there is of the current piece, and whether spaces are being skipped (emu_grammars.py:1686). -/
def splitGo : Bool → Str → Str → List Str
  | _, cur, [] => [cur]
  | skip, cur, c :: s =>
    if c = ',' then cur :: splitGo true [] s
    else if skip && c = ' ' then splitGo true cur s
    else splitGo false (cur ++ [c]) s

/-- The messages (emu_grammars.py:1674-1708). -/
inductive Say where
  | malformed
  | unrecognized (nt : Str)
  | noPrefix (arg : Str)
  | mismatch (args : Str) (params : List Str)
deriving DecidableEq, Repr

/-- A message and where it is given. -/
structure Msg where
  pos : Nat
  say : Say
deriving DecidableEq, Repr

/-- What is done with an argument: whether it has no prefix, and its `param_name` (emu_grammars.py:1687-1697). -/
def argName : Str → Option (Bool × Str)
  | [] => none
  | c :: r => if c = '?' ∨ c = '+' ∨ c = '~' then some (false, r) else some (true, c :: r)

/-- The loop over the arguments: the messages, and `param_names_in_args` (emu_grammars.py:1685-1698). -/
def argLoop (p : Nat) : List Str → Option (List Msg × List Str)
  | [] => some ([], [])
  | a :: as =>
    match argName a, argLoop p as with
    | some (bare, n), some (ms, ns) => some ((if bare then [⟨p, .noPrefix a⟩] else []) ++ ms, n :: ns)
    | _, _ => none

/-- `str.find`, where `none` is `-1` (emu_grammars.py:1664). -/
def find (pat : Str) : Nat → Str → Option Nat
  | p, [] => if pat.isPrefixOf [] then some p else none
  | p, c :: s => if pat.isPrefixOf (c :: s) then some p else find pat (p + 1) s

/-- The start of annex B (emu_grammars.py:1664). -/
def marker : Str := "namespace=\"annexB\"".toList

/-- `'A' if posn < B_start else 'B'` (emu_grammars.py:1700). -/
def arenaAt (text : Str) (p : Nat) : Arena :=
  match find marker 0 text with
  | some b => if p < b then .A else .B
  | none => .B

/-- What is done for a reference (emu_grammars.py:1670-1708). -/
def refMsgs (word : Char → Bool) (t : Table) (text : Str) (p : Nat) (b : Str) : Option (List Msg) :=
  match partsOf word b with
  | none => some [⟨p, .malformed⟩]
  | some (nt, args) =>
    match t.lookup nt with
    | none => some [⟨p, .unrecognized nt⟩]
    | some info =>
      match args with
      | none => some []
      | some a =>
        match argLoop p (splitGo false [] a), Defs.appropriate info (arenaAt text p) with
        | some (ms, ns), some d => some (ms ++ (if ns ≠ d.prod.params then [⟨p, .mismatch a d.prod.params⟩] else []))
        | _, _ => none

/-- `check_nonterminal_refs` (emu_grammars.py:1659-1710). -/
def checkRefs (word : Char → Bool) (t : Table) (text : Str) : Option (List Msg) :=
  ((scan word 0 0 text).mapM (fun x => refMsgs word t text x.1 x.2)).map List.flatten

end Verif.Refs
