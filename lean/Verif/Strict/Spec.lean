import Verif.Strict.Model
/-!
# Specification of strict mode code and of places in parse trees

Independent of the functions of the model; from 11.2.1 and 11.2.2 of the ECMAScript specification.
-/
namespace Verif.Strict

/-- The nearest node of a symbol among a node, its only child, the only child of that, and so on. -/
inductive First (s : String) : PTree → PTree → Prop
  | here {t} : t.sym = some s → First s t t
  | step {t c u} : t.sym ≠ some s → t.kids = [c] → First s c u → First s t u

/-- The name of a symbol ends in a text. -/
def Ends (suffix : String) (sym : Option String) : Prop := ∃ p, sym.map String.toList = some (p ++ suffix.toList)

/-- The items of a list whose last item is its last child. -/
inductive Items : PTree → List PTree → Prop
  | one {l i} : Ends "List" l.sym → Ends "Item" i.sym → l.kids = [i] → Items l [i]
  | more {l l' i is} : Ends "List" l.sym → Ends "Item" i.sym → l.kids = [l', i] → Items l' is → Items l (is ++ [i])

/-- A statement that is just a string literal. -/
def StringStatement (i lit : PTree) : Prop :=
  i.sym = some "StatementListItem" ∧ ∃ e ex semi, First "ExpressionStatement" i e ∧ e.kids = [ex, semi] ∧ First "StringLiteral" ex lit

/-- The exact texts. -/
def UseStrict (lit : PTree) : Prop := lit.text = "\"use strict\"".toList ∨ lit.text = "'use strict'".toList

/-- Among the statements at the start that are just string literals, there is one that says to be strict. -/
def HasDirective (is : List PTree) : Prop :=
  ∃ pre i post lit, is = pre ++ i :: post ∧ (∀ j ∈ pre, ∃ l, StringStatement j l) ∧ StringStatement i lit ∧ UseStrict lit

/-- The code begins with such a directive. -/
def Directs (b : PTree) : Prop := ∃ l is, First "StatementList" b l ∧ Items l is ∧ HasDirective is

/-- The body of a function that can have directives.  (The grammar has no `AsynGeneratorMethod`: the program misspells a name there.) -/
inductive Body : PTree → PTree → Prop
  | function {n b brace pre s} : n.sym = some s → s ∈ ["FunctionDeclaration", "FunctionExpression", "GeneratorDeclaration", "GeneratorExpression",
      "AsyncFunctionDeclaration", "AsyncFunctionExpression", "AsyncGeneratorDeclaration", "AsyncGeneratorExpression"] → n.kids = pre ++ [b, brace] →
      b.sym = some "FunctionBody" ∨ b.sym = some "GeneratorBody" → Body n b
  | method {n b brace pre} : n.sym = some "MethodDefinition" → n.kids = pre ++ [b, brace] → b.sym = some "FunctionBody" → Body n b
  | inner {n c b brace pre s} : n.sym = some "MethodDefinition" → n.kids = [c] → c.sym = some s → s ∈ ["GeneratorMethod", "AsyncMethod", "AsynGeneratorMethod"] →
      c.kids = pre ++ [b, brace] → b.sym = some "GeneratorBody" → Body n b
  | arrow {n c b l r pre s s'} : n.sym = some s → s ∈ ["ArrowFunction", "AsyncArrowFunction"] → n.kids = pre ++ [c] → c.sym = some s' →
      s' ∈ ["ConciseBody", "AsyncConciseBody"] → c.kids = [l, b, r] → b.sym = some "FunctionBody" → Body n b

/-- What makes the code in it strict: modules and classes always, scripts and functions by a directive. -/
inductive MakesStrict : PTree → Prop
  | always {n s} : n.sym = some s → s ∈ ["ModuleBody", "ClassDeclaration", "ClassExpression"] → MakesStrict n
  | script {n} : n.sym = some "Script" → Directs n → MakesStrict n
  | function {n b} : Body n b → Directs b → MakesStrict n

/-- From a node in a tree to one of those it is in, itself included. -/
inductive Encloses : PTree → List Nat → PTree → Prop
  | self {t c p} : Encloses t (c :: p) t
  | end_ {t} : Encloses t [] t
  | step {t i p c n} : t.kids[i]? = some c → Encloses c p n → Encloses t (i :: p) n

/-- The place exists. -/
inductive There : PTree → List Nat → Prop
  | here {t} : There t []
  | step {t i p c} : t.kids[i]? = some c → There c p → There t (i :: p)

/-- The code that a place is in: the nodes around it in its tree, in the tree that was parsed again for it, and so on. -/
def Around (l : Loc) (n : PTree) : Prop := ∃ tp ∈ l, Encloses tp.1 tp.2 n

/-- Strict mode code. -/
def StrictCode (l : Loc) : Prop := ∃ n, Around l n ∧ MakesStrict n

/-! ## The shape of trees -/

/-- A statement as the grammar has it. -/
def GoodItem (i : PTree) : Prop := i.sym = some "StatementListItem" ∧ ∀ e, First "ExpressionStatement" i e → ∃ ex semi, e.kids = [ex, semi]

/-- Code as the grammar has it: its statements are a list. -/
def GoodCode (b : PTree) : Prop := ∀ l, First "StatementList" b l → ∃ is, Items l is ∧ ∀ i ∈ is, GoodItem i

/-- A node as the grammar has it, if it is a script or a function that is not asynchronous (but for arrow functions whose body is an expression). -/
inductive GoodNode : PTree → Prop
  | script {n} : n.sym = some "Script" → GoodCode n → GoodNode n
  | function {n b} : Body n b → GoodCode b → GoodNode n
  | expression {n c e pre s s'} : n.sym = some s → s ∈ ["ArrowFunction", "AsyncArrowFunction"] → n.kids = pre ++ [c] → c.sym = some s' →
      s' ∈ ["ConciseBody", "AsyncConciseBody"] → c.kids = [e] → e.sym = some "ExpressionBody" → GoodNode n
  | other {n} : n.sym ≠ some "Script" → (∀ s ∈ ["FunctionDeclaration", "FunctionExpression", "GeneratorDeclaration", "GeneratorExpression", "AsyncFunctionDeclaration",
      "AsyncFunctionExpression", "AsyncGeneratorDeclaration", "AsyncGeneratorExpression", "MethodDefinition", "ArrowFunction", "AsyncArrowFunction"], n.sym ≠ some s) → GoodNode n

/-- The code of asynchronous functions, generators and methods, as the grammar has it. -/
inductive AsyncNode : PTree → Prop
  | function {n b brace pre s s'} : n.sym = some s → s ∈ ["AsyncFunctionDeclaration", "AsyncFunctionExpression", "AsyncGeneratorDeclaration", "AsyncGeneratorExpression"] →
      n.kids = pre ++ [b, brace] → b.sym = some s' → s' ∈ ["AsyncFunctionBody", "AsyncGeneratorBody"] → AsyncNode n
  | method {n c b brace pre s s'} : n.sym = some "MethodDefinition" → n.kids = [c] → c.sym = some s → s ∈ ["AsyncMethod", "AsyncGeneratorMethod"] →
      c.kids = pre ++ [b, brace] → b.sym = some s' → s' ∈ ["AsyncFunctionBody", "AsyncGeneratorBody"] → AsyncNode n
  | arrow {n c b l r pre} : n.sym = some "AsyncArrowFunction" → n.kids = pre ++ [c] → c.sym = some "AsyncConciseBody" → c.kids = [l, b, r] →
      b.sym = some "AsyncFunctionBody" → AsyncNode n

/-! ## Nesting -/

/-- What ends the search outwards: functions and static blocks. -/
def Boundary (n : PTree) : Prop := ∃ s, n.sym = some s ∧ s ∈ ["FunctionDeclaration", "FunctionExpression", "GeneratorDeclaration", "GeneratorExpression",
  "AsyncFunctionDeclaration", "AsyncFunctionExpression", "AsyncGeneratorDeclaration", "AsyncGeneratorExpression", "MethodDefinition", "ArrowFunction",
  "AsyncArrowFunction", "ClassStaticBlock"]

/-- The nodes on the way from the root to a place, the place's own last. -/
inductive Way : PTree → List Nat → List PTree → Prop
  | here {t} : Way t [] [t]
  | step {t i p c w} : t.kids[i]? = some c → Way c p w → Way t (i :: p) (t :: w)

/-- Within one of the targets, with no boundary between. -/
def Within (targets : List String) (t : PTree) (p : List Nat) : Prop :=
  ∃ w a between n s, Way t p (w ++ a :: between ++ [n]) ∧ a.sym = some s ∧ s ∈ targets ∧ ∀ b ∈ between, ¬ Boundary b

/-! ## Property definitions -/

/-- The definitions in an object literal, in order. -/
inductive Definitions : PTree → List PTree → Prop
  | one {l d} : l.sym = some "PropertyDefinitionList" → l.kids = [d] → Definitions l [d]
  | more {l l' comma d ds} : l.sym = some "PropertyDefinitionList" → l.kids = [l', comma, d] → Definitions l' ds → Definitions l (ds ++ [d])

/-- Two places of a list have the property. -/
def Two {α : Type} (P : α → Prop) (xs : List α) : Prop := ∃ (i j : Nat) (a b : α), i < j ∧ xs[i]? = some a ∧ xs[j]? = some b ∧ P a ∧ P b

end Verif.Strict
