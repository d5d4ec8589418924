/-!
# Model of the traversal for early errors (pseudocode_semantics.py)

What a rule does is a program that may report errors, ask what a node covers, and ask for the early errors of a Pattern.  Fuel stands for Python's recursion.
-/
namespace Verif.Early

/-- A parse tree (`ES_ParseNode`).  `id` is the identity of the Python object, `puk` the key into the map of rules
(pseudocode_semantics.py:2863). -/
inductive Tree (P : Type) where
  | leaf
  | node (id : Nat) (sym : String) (puk : P) (kids : List (Tree P))

/-- What the rules of a definition do (pseudocode_semantics.py:3012-3023), as far as it matters here.  How conditions are evaluated is not modelled here but in `Verif.Exec`.
`cover`: the thing of this name that a node covers (5005-5066).  `nested`: `get_early_errors_in` for a parsed Pattern (12919). -/
inductive Prog (P E : Type) where
  | done
  | report (e : E) (k : Prog P E)
  | cover (id : Nat) (nt : String) (k : Option (Tree P) → Prog P E)
  | nested (t : Tree P) (k : List E → Prog P E)

/-- The parameters: `parse(pnode, ex_nt_name)` (pseudocode_semantics.py:5059), where the identity determines the node's text and grammatical parameters, and the rules
`spec.sdo_coverage_map['Early Errors']` for a node. -/
structure Lang (P E : Type) where
  parse : Nat → String → Option (Tree P)
  rules : P → Option (List (Tree P → Prog P E))

/-- The state: the attributes `covered_thing` of nodes, and `early_errors` and `saved_early_errors` of the agent, if it has them.  `visited` is not in the program:
it records the nodes whose rules have been applied. -/
structure St (P E : Type) where
  covered : List (Nat × Option (Tree P))
  errs : Option (List E)
  saved : Option (List E)
  visited : List Nat

section
variable {P E : Type}

def lookup : List (Nat × Option (Tree P)) → Nat → Option (Option (Tree P))
  | [], _ => none
  | (j, a) :: c, i => if j = i then some a else lookup c i

def Tree.sym? : Tree P → Option String
  | .leaf => none
  | .node _ s _ _ => some s

variable (L : Lang P E)

/-- `the_nonterminal_that_is_covered_by_pnode` (pseudocode_semantics.py:5051-5066). -/
def coverOf (i : Nat) (nt : String) (s : St P E) : Option (Option (Tree P) × St P E) :=
  match lookup s.covered i with
  | some a => some (a, s)
  | none => match L.parse i nt with
    | some t => if t.sym? = some nt then some (some t, { s with covered := s.covered ++ [(i, some t)] }) else none
    | none => some (none, { s with covered := s.covered ++ [(i, none)] })

/-- `it_is_a_syntax_error` (pseudocode_semantics.py:6970-6974). -/
def report (e : E) (s : St P E) : Option (St P E) :=
  match s.errs with
  | none => none
  | some l => some { s with errs := some (l ++ [e]) }

/-- What a rule does. -/
def runProg (get : Tree P → St P E → Option (List E × St P E)) : Prog P E → St P E → Option (St P E)
  | .done, s => some s
  | .report e k, s => match report e s with
    | none => none
    | some s' => runProg get k s'
  | .cover i nt k, s => match coverOf L i nt s with
    | none => none
    | some (a, s') => runProg get (k a) s'
  | .nested t k, s => match get t s with
    | none => none
    | some (es, s') => runProg get (k es) s'

/-- `for ee_rule in ee_rules: execute_alg_defn(ee_rule, focus_node=pnode)` (pseudocode_semantics.py:2870-2871). -/
def applyAll (get : Tree P → St P E → Option (List E × St P E)) (t : Tree P) : List (Tree P → Prog P E) → St P E → Option (St P E)
  | [], s => some s
  | r :: rs, s => match runProg L get (r t) s with
    | none => none
    | some s' => applyAll get t rs s'

/-- `get_early_errors_in` (pseudocode_semantics.py:2815-2849), given the traversal. -/
def getErrors (trav : Tree P → St P E → Option (St P E)) (t : Tree P) (s : St P E) : Option (List E × St P E) :=
  let start : Option (St P E) := match s.errs with
    | none => some s
    | some l => if t.sym? = some "Pattern" ∧ s.saved.isNone = true then some { s with saved := some l } else none
  match start with
  | none => none
  | some s1 => match trav t { s1 with errs := some [] } with
    | none => none
    | some s2 => match s2.errs with
      | none => none
      | some es => match s2.saved with
        | none => some (es, { s2 with errs := none })
        | some l => some (es, { s2 with errs := some l, saved := none })

/-- `for child in pnode.children: ...` (pseudocode_semantics.py:2874-2875). -/
def travAll (trav : Tree P → St P E → Option (St P E)) : List (Tree P) → St P E → Option (St P E)
  | [], s => some s
  | t :: ts, s => match trav t s with
    | none => none
    | some s' => travAll trav ts s'

/-- `traverse_for_early_errors` (pseudocode_semantics.py:2851-2875). -/
def traverse : Nat → Tree P → St P E → Option (St P E)
  | 0, _, _ => none
  | _ + 1, .leaf, s => some s
  | n + 1, .node i sym puk kids, s => match lookup s.covered i with
    | some (some u) => traverse n u s
    | some none => some s
    | none =>
      let s0 := { s with visited := s.visited ++ [i] }
      match applyAll L (getErrors (traverse n)) (.node i sym puk kids) ((L.rules puk).getD []) s0 with
      | none => none
      | some s' => travAll (traverse n) kids s'

end
end Verif.Early
