import Verif.Front.Model
/-!
# Tests and runs

What `test262.py` counts: the sections of a test file, the checks of its frontmatter, and the walk over the directories (test262.py:16-218).
The parser of the frontmatter is in `Verif.Front.Model`.
-/
namespace Verif.Runs

open Verif.Front

abbrev Str := List Char

/-- The starts of the matches that `finditer` gives for a literal text `m` (test262.py:80-81): from left to right, without overlaps.
`i` is the position, and `k` the number of characters that belong to the match before. -/
def finds (m : Str) : Nat → Nat → Str → List Nat
  | _, _, [] => []
  | i, k + 1, _ :: cs => finds m (i + 1) k cs
  | i, 0, c :: cs => if m.isPrefixOf (c :: cs) then i :: finds m (i + 1) (m.length - 1) cs else finds m (i + 1) 0 cs

/-- The marker before the frontmatter (test262.py:80). -/
def opening : Str := "\n/*---\n".toList
/-- The marker after it (test262.py:81). -/
def closing : Str := "\n---*/\n".toList

/-- The three sections (test262.py:80-85): copyright, frontmatter and body.  None if there is not just one match of each. -/
def sections (text : Str) : Option (Str × Str × Str) :=
  match finds opening 0 0 text, finds closing 0 0 text with
  | [a], [b] => some (text.take a, (text.drop (a + opening.length)).take (b - (a + opening.length)), text.drop (b + closing.length))
  | _, _ => none

/-- The test of the copyright section (test262.py:88-101); `path` is `file_relpath`. -/
def okCopyright (path copyright : Str) : Bool :=
  (splitNl copyright).all (fun l => "// ".toList.isPrefixOf l || l.isEmpty) ||
  "./language/comments/hashbang/".toList.isPrefixOf path || "language/comments/hashbang/".toList.isPrefixOf path ||
  "./annexB/language/comments/single-line-html-close-first-line-".toList.isPrefixOf path

/-- The items of a dict (test262.py:115). -/
abbrev Dict := List (Str × Val)

/-- `check(d, key, str)` (test262.py:134-136). -/
def checkStr (d : Dict) (key : Str) : Bool := match d.lookup key with
  | none => true
  | some (.scalar _) => true
  | some _ => false

/-- `x in […]` for a value that can be of any class (test262.py:147-148). -/
def among (v : Option Val) (l : List Str) : Bool := match v with
  | some (.scalar s) => l.contains s
  | _ => false

/-- The checks of `negative` (test262.py:143-148). -/
def okNegative (d : Dict) : Bool := match d.lookup "negative".toList with
  | none => true
  | some (.map neg) =>
    neg.all (fun p => p.1 = "type".toList || p.1 = "phase".toList) &&
    among (neg.lookup "type".toList) ["RangeError".toList, "ReferenceError".toList, "SyntaxError".toList, "Test262Error".toList, "TypeError".toList] &&
    among (neg.lookup "phase".toList) ["parse".toList, "resolution".toList, "runtime".toList]
  | some _ => false

/-- `re.fullmatch(r'[\w-]+\.js', inc)` (test262.py:156); `word` is `\w`. -/
def okInclude (word : Char → Bool) (s : Str) : Bool :=
  decide (4 ≤ s.length) && decide (s.drop (s.length - 3) = ".js".toList) && (s.take (s.length - 3)).all (fun c => word c || c = '-')

/-- The checks of `includes` (test262.py:150-156). -/
def okIncludes (word : Char → Bool) (d : Dict) : Bool := match d.lookup "includes".toList with
  | none => true
  | some (.list l) => !l.isEmpty && l.all (okInclude word)
  | some _ => false

/-- `len(set(l)) == len(l)` (test262.py:164, 193). -/
def noDups : List Str → Bool
  | [] => true
  | s :: l => !l.contains s && noDups l

/-- A truth value as a number (test262.py:179-185). -/
def num (b : Bool) : Nat := if b then 1 else 0

/-- The checks of `flags` (test262.py:160-185). -/
def okFlags (d : Dict) : Bool := match d.lookup "flags".toList with
  | none => true
  | some (.list l) => noDups l && decide (num (l.contains "onlyStrict".toList) + num (l.contains "noStrict".toList) + num (l.contains "raw".toList) ≤ 1)
  | some _ => false

/-- `flagset`, as a list (test262.py:163, 186-187). -/
def flagset (d : Dict) : List Str := match d.lookup "flags".toList with
  | some (.list l) => l
  | _ => []

/-- The checks of `features` (test262.py:189-193). -/
def okFeatures (d : Dict) : Bool := match d.lookup "features".toList with
  | none => true
  | some (.list l) => !l.isEmpty && noDups l
  | some _ => false

/-- All assertions about the frontmatter (test262.py:138-199). -/
def okDict (word : Char → Bool) (d : Dict) : Bool :=
  (d.lookup "description".toList).isSome && checkStr d "description".toList && checkStr d "esid".toList && checkStr d "info".toList &&
  okNegative d && okIncludes word d && checkStr d "author".toList && okFlags d && okFeatures d && checkStr d "es5id".toList && checkStr d "es6id".toList

/-- `n_runs_for_this_test` (test262.py:203-210). -/
def runs (d : Dict) : Nat :=
  if (flagset d).contains "onlyStrict".toList || (flagset d).contains "noStrict".toList || (flagset d).contains "raw".toList then 1 else 2

/-- What becomes of a file: an exception, a message and nothing more, or it is counted with a number of runs (test262.py:71-218). -/
inductive Outcome where
  | crash
  | refused
  | counted (runs : Nat)
deriving DecidableEq

/-- `test_one` (test262.py:71-218), for a file that exists.
The messages about keys and flags that are not known (lines 130-132 and 176-178) are not modelled: they change nothing. -/
def testOne (word space : Char → Bool) (path text : Str) : Outcome :=
  match sections text with
  | none => .crash
  | some (copyright, frontmatter, _) =>
    if okCopyright path copyright then
      match parseFrontmatter word space frontmatter with
      | none => .refused
      | some (.map d) => if okDict word d then .counted (runs d) else .crash
      | some _ => .crash
    else .refused

/-- An entry of a directory: a file with its text, a directory with its entries, or something else (a link, for instance) (test262.py:41-60). -/
inductive Entry where
  | file (name text : Str)
  | dir (name : Str) (entries : List Entry)
  | other

/-- What the patterns for names say (test262.py:45, 51, 57): a swap file, a file and a directory. -/
structure Names where
  swap : Str → Bool
  file : Str → Bool
  dir : Str → Bool

/-- `sub in name` (test262.py:52). -/
def hasSub (sub : Str) : Str → Bool
  | [] => sub.isEmpty
  | c :: cs => sub.isPrefixOf (c :: cs) || hasSub sub cs

/-- Whether a file is passed over without any check (test262.py:45-50). -/
def ignored (n : Names) (name : Str) : Bool := n.swap name || decide (name = "README.md".toList)

/-- The global counters `n_test_files` and `n_test_runs` (test262.py:16-17). -/
structure Totals where
  files : Nat
  runs : Nat
deriving DecidableEq

/-- `test_one` with the counters (test262.py:214-218).  None if there is an exception. -/
def count (word space : Char → Bool) (path text : Str) (t : Totals) : Option Totals :=
  match testOne word space path text with
  | .crash => none
  | .refused => some t
  | .counted r => some ⟨t.files + 1, t.runs + r⟩

/-- The loop over `scandir` (test262.py:41-60): false if there is an assertion that fails. -/
def okEntries (n : Names) : List Entry → Bool
  | [] => true
  | .file name _ :: es => (ignored n name || n.file name) && okEntries n es
  | .dir name _ :: es => n.dir name && okEntries n es
  | .other :: _ => false

mutual
/-- `test_all_in_dir` (test262.py:36-69).
The entries are taken in the order that sorting gives, so that files come before directories, and by name; the model has them in this order from the start. -/
def walk (n : Names) (word space : Char → Bool) (path : Str) : List Entry → Totals → Option Totals
  | [], t => some t
  | e :: es, t => (visit n word space path e t).bind (fun t' => walk n word space path es t')
/-- One round of the second loop (test262.py:64-69). -/
def visit (n : Names) (word space : Char → Bool) (path : Str) : Entry → Totals → Option Totals
  | .file name text, t =>
    if ignored n name || hasSub "_FIXTURE".toList name then some t
    else count word space (path ++ '/' :: name) text t
  | .dir name es, t => if okEntries n es then walk n word space (path ++ '/' :: name) es t else none
  | .other, _ => none
end

/-- `test_all_in_dir` for the directory itself (test262.py:36-69). -/
def testAllInDir (n : Names) (word space : Char → Bool) (path : Str) (es : List Entry) (t : Totals) : Option Totals :=
  if okEntries n es then walk n word space path es t else none

end Verif.Runs
