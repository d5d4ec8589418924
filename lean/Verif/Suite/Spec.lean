import Verif.Suite.Model
/-!
# When a test of the parser succeeds (C100)
-/
namespace Verif.Suite

variable {Node : Type}

/-- What really comes of the text at a path: it is parsed as a module if its name says so. -/
inductive Comes (w : World Node) (path : Str) : Outcome → Prop where
  | parseError {text : Str} {goal : Bool} : w.source path = some text → (goal = true ↔ ".module.js".toList <:+ path) → w.parse goal text = none → Comes w path .parseError
  | earlyError {text : Str} {goal : Bool} {node : Node} : w.source path = some text → (goal = true ↔ ".module.js".toList <:+ path) → w.parse goal text = some node →
      w.early node = true → Comes w path .earlyError
  | noError {text : Str} {goal : Bool} {node : Node} : w.source path = some text → (goal = true ↔ ".module.js".toList <:+ path) → w.parse goal text = some node →
      w.early node = false → Comes w path .noError

/-- What the directories stand for. -/
inductive Dir : Str → Outcome → Prop where
  | fail : Dir "fail".toList .parseError
  | early : Dir "early".toList .earlyError
  | pass : Dir "pass".toList .noError
  | explicit : Dir "pass-explicit".toList .noError

/-- What is expected of a test, by the directory that it is in or the one that it should be in. -/
inductive Expected (w : World Node) (dirname name : Str) : Outcome → Prop where
  | corrected {d : Str} {o : Outcome} : w.corrections (dirname ++ '/' :: name) = some d → Dir d o → Expected w dirname name o
  | own {o : Outcome} : w.corrections (dirname ++ '/' :: name) = none → Dir dirname o → Expected w dirname name o

/-- The corrections name only directories that there are. -/
def Sane (w : World Node) : Prop := ∀ arg d, w.corrections arg = some d → ∃ o, Dir d o

/-- A name of a test that can be run. -/
def Runnable (w : World Node) (root dirname name : Str) : Prop :=
  '/' ∉ name ∧ ".js".toList <:+ (dirname ++ '/' :: name) ∧ ∃ text, w.source (root ++ '/' :: (dirname ++ '/' :: name)) = some text

end Verif.Suite
