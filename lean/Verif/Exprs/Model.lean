/-!
# The type of an expression

`tc_expr` (pseudocode_semantics.py:1906-2007) and `type_bracket_for` (1811-1847).
-/
namespace Verif.Exprs

abbrev Str := List Char

/-- An expression, as far as `tc_expr` looks at it (pseudocode_semantics.py:1907-1908, 1959-1973): its production, that of its parent, and its text. -/
structure Expr where
  prod : Str
  parent : Str
  text : Str
deriving DecidableEq

/-- What `tc_expr` uses (pseudocode_semantics.py:1906-2007): the types with their subtype test and the splitting by completion records, the variables of an environment, and the function `s_expr` of the
production (none for an exception), with the messages that it adds. -/
structure World (T E M : Type) where
  sub : T → T → Bool
  split : T → T × T
  top : T
  tbd : T
  zero : T
  notPassed : T
  throwOrEmpty : T
  vars : E → Str → Option T
  sExpr : Expr → E → Option ((T × E) × List M)

/-- The messages (pseudocode_semantics.py:1933-1937, 1945-1948, 1977-1980): those of the function for the production, and the three warnings. -/
inductive Msg (M : Type) where
  | inner (m : M)
  | odd
  | mixed
  | maybeNotPassed
deriving DecidableEq

variable {T E M : Type} [DecidableEq T]

/-- The places where a parameter can be used that is perhaps not passed (pseudocode_semantics.py:1959-1973). -/
def allowed (x : Expr) : Bool :=
  decide (x.prod = "{LOCAL_REF} : {SETTABLE}".toList) &&
    ["{CONDITION_1} : {LOCAL_REF} is present".toList, "{CONDITION_1} : {LOCAL_REF} is not present".toList].contains x.parent ||
  decide (x.prod = "{SETTABLE} : {var}".toList) &&
    ["{SMALL_COMMAND} : set {SETTABLE} to {EXPR}".toList, "{COMMAND} : Set {SETTABLE} to {EXPR}.".toList].contains x.parent

omit [DecidableEq T] in
/-- The last warning (pseudocode_semantics.py:1958-1980). -/
def passing (w : World T E M) (x : Expr) (t : T) : List (Msg M) :=
  if w.sub w.notPassed t then (if allowed x then [] else [.maybeNotPassed]) else []

/-- The first warning (pseudocode_semantics.py:1933-1937). -/
def oddity (w : World T E M) (t : T) : List (Msg M) := if t = w.top ∨ t = w.tbd ∨ t = w.zero then [.odd] else []

/-- The second warning (pseudocode_semantics.py:1939-1948); none if the assertion fails. -/
def mixing (w : World T E M) (x : Expr) (t : T) : Option (List (Msg M)) :=
  if (w.split t).1 ≠ w.zero ∧ (w.split t).2 ≠ w.zero then
    if ".[[EvaluationError]]".toList.isSuffixOf x.text then (if t = w.throwOrEmpty then some [] else none) else some [.mixed]
  else some []

/-- `tc_expr` (pseudocode_semantics.py:1906-2007), without the trace and without the part that is never run (1982-1998); the flag that the value is discarded is only handed on, and is left out. -/
def tcExpr (w : World T E M) (x : Expr) (env0 : E) : Option ((T × E) × List (Msg M)) :=
  match w.vars env0 x.text with
  | some t => some ((t, env0), passing w x t)
  | none => (w.sExpr x env0).bind (fun r =>
      (mixing w x r.1.1).map (fun m => (r.1, r.2.map Msg.inner ++ oddity w r.1.1 ++ m ++ passing w x r.1.1)))

/-- What `s_tb` gives for a description of a value (pseudocode_semantics.py:1830-1845): a type, two types, or something else. -/
inductive Tb (T : Type) where
  | exact (t : T)
  | between (inf sup : T)
  | other

omit [DecidableEq T] in
/-- `type_bracket_for` (pseudocode_semantics.py:1811-1847); none if an assertion fails.  The productions that are allowed (1812-1822) are those that have such an entry. -/
def typeBracket (w : World T E M) : Tb T → Option (T × T)
  | .exact t => some (t, t)
  | .between inf sup => if w.sub inf sup then some (inf, sup) else none
  | .other => none

omit [DecidableEq T] in
/-- `convert_nature_node_to_type` (pseudocode_semantics.py:1803-1807). -/
def natureType (w : World T E M) : Option (Tb T) → Option T
  | none => some w.tbd
  | some b => (typeBracket w b).map Prod.snd

end Verif.Exprs
