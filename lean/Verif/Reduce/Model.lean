/-!
# The nodes of parsed pseudocode

`matcher_for_gparse` and `reducer` (Pseudocode_Parser.py:279-330), and `ANode.is_a` (581-593).
-/
namespace Verif.Reduce

abbrev Str := List Char

/-- An `ANode` (Pseudocode_Parser.py:517-528), with the left-hand side of its production and its extent; a child can also be a text. -/
inductive Node where
  | text (s : Str)
  | node (lhs : Str) (children : List Node) (s e : Nat)

/-- A token (Pseudocode_Parser.py:281): the left-hand side of its production, its extent and its text. -/
structure Tok where
  lhs : Str
  s : Nat
  e : Nat
  text : Str

/-- `terminal.startswith('{') and terminal.endswith('}')` (Pseudocode_Parser.py:290). -/
def braced (t : Str) : Bool := t.head? == some '{' && t.getLast? == some '}'

/-- `{nlai}`, `{_indent_}` and `{_outdent_}` (Pseudocode_Parser.py:292). -/
def layout : List Str := ["{nlai}".toList, "{_indent_}".toList, "{_outdent_}".toList]

/-- The value of `match_token` (Pseudocode_Parser.py:288-302): the outer none is `False`, the inner one `None`. -/
def matchToken (tok : Tok) (t : Str) : Option (Option Node) :=
  if braced t then
    if tok.lhs = t then (if layout.contains t then some none else some (some (.node tok.lhs [.text tok.text] tok.s tok.e))) else none
  else if t = "an?".toList then (if ["a".toList, "an".toList].contains tok.text then some none else none)
  else if tok.text = t then some none else none

/-- `matcher_for_gparse` (Pseudocode_Parser.py:279-307); none if the assertion fails. -/
def matcher (toks : List Tok) (i : Nat) (terminals : List Str) : Option (List (Str × Nat × Option Node)) :=
  toks[i]?.map (fun tok => terminals.filterMap (fun t => (matchToken tok t).map (fun n => (t, i + 1, n))))

/-- The loop over the reductands (Pseudocode_Parser.py:318-324); none for an exception (a text has no production). -/
def kids : List (Option Node) → Option (List Node)
  | [] => some []
  | none :: rs => kids rs
  | some (.text _) :: _ => none
  | some (.node lhs cs s e) :: rs => if lhs = "{space}".toList then kids rs else (kids rs).map (fun ns => .node lhs cs s e :: ns)

/-- `reducer` (Pseudocode_Parser.py:309-330), for a production with this left-hand side and this number of pieces; the outer none is an exception.  The count of reductions is not modelled. -/
def reducer (toks : List Tok) (lhs : Str) (pieces : Nat) (rs : List (Option Node)) (i j : Nat) : Option (Option Node) :=
  if rs.length ≠ pieces then none
  else if "{_".toList.isPrefixOf lhs then some none
  else (kids rs).bind (fun ns =>
    match toks[i]?, toks[j]? with
    | some a, some b => some (some (.node lhs ns a.s b.s))
    | _, _ => none)

/-- `is_a` (Pseudocode_Parser.py:581-593). -/
def isA (lhs : Str) : Node → Option Node
  | .text _ => none
  | .node l cs s e =>
    if l = lhs then some (.node l cs s e)
    else match cs with
      | [c] => isA lhs c
      | _ => none

end Verif.Reduce
