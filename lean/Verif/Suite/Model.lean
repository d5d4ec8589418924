/-!
# The tests of the parser

`test_one` and `test_all_in_dir` of test_parser.py (44-213).
-/
namespace Verif.Suite

abbrev Str := List Char

/-- The outcomes of a test (test_parser.py:146, 182, 184). -/
inductive Outcome where
  | parseError
  | earlyError
  | noError
deriving DecidableEq

/-- `expectation_for_dirname` (test_parser.py:199-205); none for a `KeyError`. -/
def expectationFor (dirname : Str) : Option Outcome :=
  if dirname = "fail".toList then some .parseError
  else if dirname = "early".toList then some .earlyError
  else if dirname = "pass".toList then some .noError
  else if dirname = "pass-explicit".toList then some .noError
  else none

/-- What the tests work on (test_parser.py:111-184): the text of the file at a path (none if it cannot be read), the parser with the goal `Module` (true) or `Script` (false)
(none for a `ParseError`), whether there are early errors in a node, and the dict `corrections`. -/
structure World (Node : Type) where
  source : Str → Option Str
  parse : Bool → Str → Option Node
  early : Node → Bool
  corrections : Str → Option Str

/-- The result of `test_one` (test_parser.py:101-197): an exception, True, False, or None after a message about the outcome. -/
inductive Result where
  | crash
  | success
  | failure
  | told (o : Outcome)
deriving DecidableEq

/-- The counters `n_parse_calls` and `n_ee_calls` (test_parser.py:45-48). -/
structure Calls where
  parse : Nat
  early : Nat
deriving DecidableEq

/-- `text.split('/')` (test_parser.py:119). -/
def splitSlash : Str → List Str
  | [] => [[]]
  | c :: cs => match splitSlash cs with
    | [] => [[c]]
    | p :: ps => if c = '/' then [] :: p :: ps else (c :: p) :: ps

/-- The path of the file and the expectation (test_parser.py:111-126); none if there is an exception. `root` is `root_test_dirpath`. -/
def locate {Node : Type} (w : World Node) (root arg : Str) : Option (Str × Option Outcome) :=
  if ".js".toList.isSuffixOf arg then
    if arg.head? = some '/' then some (arg, none)
    else match splitSlash arg with
      | [dirname, _] => (expectationFor dirname).bind (fun e =>
          match w.corrections arg with
          | some d => (expectationFor d).map (fun e' => (root ++ '/' :: arg, some e'))
          | none => some (root ++ '/' :: arg, some e))
      | _ => none
  else none

/-- The last lines (test_parser.py:190-197), and the same for a `ParseError` (146-153) if there is an expectation. -/
def verdict (expectation : Option Outcome) (o : Outcome) : Result :=
  match expectation with
  | none => .told o
  | some e => if o = e then .success else .failure

/-- `test_one` (test_parser.py:101-197), with the counters.  What is printed about the test is not modelled, but for the outcome if there is no expectation.
After a `ParseError` for a test without expectation, the function goes on, and `node` (line 173) has no value. -/
def testOne {Node : Type} (w : World Node) (root arg : Str) (n : Calls) : Result × Calls :=
  match locate w root arg with
  | none => (.crash, n)
  | some (path, expectation) => match w.source path with
    | none => (.crash, n)
    | some text => match w.parse (".module.js".toList.isSuffixOf path) text with
      | none => match expectation with
        | none => (.crash, ⟨n.parse + 1, n.early⟩)
        | some _ => (verdict expectation .parseError, n)
      | some node => (verdict expectation (if w.early node then .earlyError else .noError), ⟨n.parse + 1, n.early + 1⟩)

/-- The loop of `test_all_in_dir` (test_parser.py:72-93): `names` is the sorted list of the entries, `swap` says which are temporary files.
The numbers of successes and failures, and the counters; none if there is an exception. -/
def loop {Node : Type} (w : World Node) (root dirname : Str) (swap : Str → Bool) : List Str → Nat → Nat → Calls → Option ((Nat × Nat) × Calls)
  | [], s, f, n => some ((s, f), n)
  | name :: names, s, f, n =>
    if swap name then loop w root dirname swap names s f n
    else match testOne w root (dirname ++ '/' :: name) n with
      | (.crash, _) => none
      | (.success, n') => loop w root dirname swap names (s + 1) f n'
      | (_, n') => loop w root dirname swap names s (f + 1) n'

/-- `test_all_in_dir` (test_parser.py:64-99). -/
def testAllInDir {Node : Type} (w : World Node) (root dirname : Str) (swap : Str → Bool) (names : List Str) (n : Calls) : Option ((Nat × Nat) × Calls) :=
  if ["fail".toList, "early".toList, "pass".toList, "pass-explicit".toList].contains dirname then loop w root dirname swap names 0 0 n else none

end Verif.Suite
