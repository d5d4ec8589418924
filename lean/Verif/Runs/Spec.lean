import Verif.Runs.Model
/-!
# What a test is, and which tests there are in a directory (C96)
-/
namespace Verif.Runs

open Verif.Front

/-- The text `m` is at the position `i` of `t`. -/
def Occ (m : Str) (i : Nat) (t : Str) : Prop := m <+: t.drop i

/-- The marker `m`, of length seven, is at the position `a` and nowhere else (but an occurrence that begins within it is not seen). -/
def Only (m : Str) (a : Nat) (t : Str) : Prop := Occ m a t ∧ ∀ i, Occ m i t → a ≤ i ∧ i < a + 7

/-- The text has the three sections, with the two markers between them, and neither marker is anywhere else (but an occurrence that begins within the marker is not seen). -/
structure Sectioned (text copyright frontmatter body : Str) : Prop where
  whole : text = copyright ++ (opening ++ (frontmatter ++ (closing ++ body)))
  opening : ∀ i, Occ opening i text → copyright.length ≤ i ∧ i < copyright.length + 7
  closing : ∀ i, Occ closing i text → copyright.length + 7 + frontmatter.length ≤ i ∧ i < copyright.length + 7 + frontmatter.length + 7

/-- The lines of the copyright section are comments or empty, but for some files. -/
def Copyright (path copyright : Str) : Prop :=
  (∀ l ∈ splitNl copyright, l = [] ∨ "// ".toList <+: l) ∨
  ∃ p ∈ ["./language/comments/hashbang/".toList, "language/comments/hashbang/".toList, "./annexB/language/comments/single-line-html-close-first-line-".toList], p <+: path

/-- The frontmatter is as it should be. -/
structure Valid (word : Char → Bool) (d : Dict) : Prop where
  description : ∃ s, d.lookup "description".toList = some (.scalar s)
  texts : ∀ k ∈ ["esid".toList, "info".toList, "author".toList, "es5id".toList, "es6id".toList], ∀ v, d.lookup k = some v → ∃ s, v = .scalar s
  negative : ∀ v, d.lookup "negative".toList = some v → ∃ neg, v = .map neg ∧ (∀ p ∈ neg, p.1 = "type".toList ∨ p.1 = "phase".toList) ∧
    (∃ s ∈ ["RangeError".toList, "ReferenceError".toList, "SyntaxError".toList, "Test262Error".toList, "TypeError".toList], neg.lookup "type".toList = some (.scalar s)) ∧
    (∃ s ∈ ["parse".toList, "resolution".toList, "runtime".toList], neg.lookup "phase".toList = some (.scalar s))
  includes : ∀ v, d.lookup "includes".toList = some v → ∃ l, v = .list l ∧ l ≠ [] ∧
    ∀ s ∈ l, ∃ stem, stem ≠ [] ∧ s = stem ++ ".js".toList ∧ ∀ c ∈ stem, word c = true ∨ c = '-'
  flags : ∀ v, d.lookup "flags".toList = some v → ∃ l, v = .list l ∧ l.Nodup ∧ ¬ ("onlyStrict".toList ∈ l ∧ "noStrict".toList ∈ l) ∧
    ¬ ("onlyStrict".toList ∈ l ∧ "raw".toList ∈ l) ∧ ¬ ("noStrict".toList ∈ l ∧ "raw".toList ∈ l)
  features : ∀ v, d.lookup "features".toList = some v → ∃ l, v = .list l ∧ l ≠ [] ∧ l.Nodup

/-- The test has the flag. -/
def Flag (d : Dict) (f : Str) : Prop := ∃ l, d.lookup "flags".toList = some (.list l) ∧ f ∈ l

/-- The test is run once: only in strict mode, never in strict mode, or as it is. -/
def Once (d : Dict) : Prop := Flag d "onlyStrict".toList ∨ Flag d "noStrict".toList ∨ Flag d "raw".toList

/-- The number of runs that are counted for a file, and the number of files. -/
def Outcome.runs : Outcome → Nat
  | .counted r => r
  | _ => 0
def Outcome.files : Outcome → Nat
  | .counted _ => 1
  | _ => 0

mutual
/-- The tests in a directory, at any depth, with their paths. -/
def testsIn (n : Names) (path : Str) : List Entry → List (Str × Str)
  | [] => []
  | e :: es => testsOf n path e ++ testsIn n path es
def testsOf (n : Names) (path : Str) : Entry → List (Str × Str)
  | .file name text => if n.swap name = true ∨ name = "README.md".toList ∨ hasSub "_FIXTURE".toList name = true then [] else [(path ++ '/' :: name, text)]
  | .dir name es => testsIn n (path ++ '/' :: name) es
  | .other => []
end

mutual
/-- All names in a directory are as they should be, and there is nothing but files and directories. -/
def Regular (n : Names) : List Entry → Prop
  | [] => True
  | e :: es => RegularEntry n e ∧ Regular n es
def RegularEntry (n : Names) : Entry → Prop
  | .file name _ => n.swap name = true ∨ name = "README.md".toList ∨ n.file name = true
  | .dir name es => n.dir name = true ∧ Regular n es
  | .other => False
end

end Verif.Runs
