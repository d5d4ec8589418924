import Verif.Validate.TreeLemmas
/-! # C50: the validation of the markup -/
namespace Verif.Validate
open Verif.HTML (Str Attrs Node litName commentName)

variable (cfg : Cfg) (text : Str)

/-- **C50.**  For every tree of nodes and every table of elements, attributes, content models and entities: if the validation
finishes, a message is issued exactly when there is a node of the tree at which there is that thing to report. -/
theorem c50_messages (hw : WordOk cfg) (doc : Node) (ms : List Msg) (h : validate cfg text [] doc = some ms) (m : Msg) :
    m ∈ ms ↔ ∃ anc n, At doc anc n ∧ Fault cfg text anc n m := by
  rw [(desc_validate hw doc []).2 ms h m]
  constructor
  · rintro ⟨a, n, hu, hf⟩; exact ⟨a, n, at_of_under hu .root, hf⟩
  · rintro ⟨a, n, hu, hf⟩; exact ⟨a, n, under_of_at hu, hf⟩

/-- It finishes unless the document is itself a literal, or a `th` or `td` has no table around it and either is closed or has a
gap of several spaces.  No assertion about the children fails. -/
theorem c50_finishes (hw : WordOk cfg) (doc : Node) :
    validate cfg text [] doc = none ↔ ∃ anc n, At doc anc n ∧ Fatal text anc n := by
  rw [(desc_validate hw doc []).1]
  constructor
  · rintro ⟨a, n, hu, hf⟩; exact ⟨a, n, at_of_under hu .root, hf⟩
  · rintro ⟨a, n, hu, hf⟩; exact ⟨a, n, under_of_at hu, hf⟩

/-- A document whose cells are all in tables is validated to the end, with no message exactly if it has no fault. -/
theorem c50_clean (hw : WordOk cfg) (doc : Node) (hdoc : nName doc ≠ litName)
    (hcells : ∀ anc n, At doc anc n → (nName n = thName ∨ nName n = tdName) → ∃ t ∈ anc, nName t = tableName) :
    ∃ ms, validate cfg text [] doc = some ms ∧ (ms = [] ↔ ∀ anc n m, At doc anc n → ¬ Fault cfg text anc n m) := by
  cases hv : validate cfg text [] doc with
  | none =>
    exfalso
    obtain ⟨anc, n, ha, hf⟩ := (c50_finishes cfg text hw doc).1 hv
    cases hf with
    | cell _ _ hs =>
      obtain ⟨x, rest, he, hx, hall⟩ := hs
      injection he with h1 h2; subst h1; subst h2
      obtain ⟨t, ht, htn⟩ := hcells _ _ ha hx
      exact hall t (List.mem_cons_of_mem _ ht) htn
    | gap _ _ hs =>
      obtain ⟨x, rest, he, hx, hall⟩ := hs
      subst he
      cases ha with
      | kid ha _ _ =>
        obtain ⟨t, ht, htn⟩ := hcells _ _ ha hx
        exact hall t (List.mem_cons_of_mem _ ht) htn
    | orphan hn he =>
      subst he
      cases ha with
      | root => exact hdoc hn
  | some ms =>
    refine ⟨ms, rfl, ?_⟩
    constructor
    · rintro rfl anc n m ha hf
      exact absurd ((c50_messages cfg text hw doc [] hv m).2 ⟨anc, n, ha, hf⟩) (by simp)
    · intro h
      apply List.eq_nil_iff_forall_not_mem.2
      intro m hm
      obtain ⟨anc, n, ha, hf⟩ := (c50_messages cfg text hw doc ms hv m).1 hm
      exact h anc n m ha hf

/-! ## Concrete cases -/

/-- Part of the tables. -/
def cfg0 : Cfg where
  word c := c.isAlphanum || c = '_'
  white c := c = ' ' || c = '\n'
  kind n :=
    if n ∈ [['p'], ['t','a','b','l','e'], ['t','r'], ['t','d'], ['t','h'], ['d','o','c']] then some .block
    else if n ∈ [['b'], ['i']] then some .inline
    else none
  attrs n :=
    if n = ['t','a','b','l','e'] then some ([], [['c','l','a','s','s']])
    else if n = ['p'] then some ([['i','d']], [])
    else some ([], [])
  pattern a :=
    if a = ['i','d'] then some (some (fun v => v.all Char.isAlphanum))
    else if a = ['t','a','b','l','e','.','c','l','a','s','s'] then some (some (fun _ => true))
    else none
  model n :=
    if n = ['p'] then some (fun ts => ts.all (fun t => t ∈ [textTok, ['b'], commentName]) && !ts.isEmpty)
    else if n = ['t','d'] then some (fun ts => ts = [textTok])
    else if n = ['t','r'] then some (fun ts => ts = [['t','d']])
    else if n = ['t','a','b','l','e'] then some (fun ts => ts = [wsTok, ['t','r'], wsTok])
    else if n = ['b'] then some (fun ts => ts = [textTok])
    else if n = ['d','o','c'] then some (fun ts => ts.all (fun t => t ∈ [wsTok, ['p'], ['t','a','b','l','e']]))
    else none
  entities _ := [(['&','a','m','p',';'], some '&'), (['&','g','t',';'], none)]

example : WordOk cfg0 := ⟨by decide, by decide, by decide⟩

/-- `<p id="a"> x  y &eq; & z<b>w</b></p>`, then a newline: a space at the start, a gap, an entity that isn't allowed and a character that should be one. -/
def text0 : Str := "<p id=\"a\"> x  y &eq; &amp; & z<b>w</b></p>\n".toList
def doc0 : Node := .mk 0 43 ['d','o','c'] [] none [
  .mk 0 42 ['p'] [(['i','d'], some ['a'])] (some (10, 38)) [
    .mk 10 30 litName [] none [],
    .mk 30 38 ['b'] [] (some (33, 34)) [.mk 33 34 litName [] none []]],
  .mk 42 43 litName [] none []]

example : validate cfg0 text0 [] doc0 = some [
    ⟨10, .startsSpace ['p']⟩, ⟨12, .spaces 2⟩, ⟨16, .entity ['&','e','q',';']⟩, ⟨27, .literal '&'⟩] := by decide +kernel

/-- A `p` with a missing attribute, an unknown one, and both a block and an inline item in it. -/
def text1 : Str := "<p class=\"a\"><p id=\"b c\">x</p>y</p>".toList
def doc1 : Node := .mk 0 35 ['d','o','c'] [] none [
  .mk 0 35 ['p'] [(['c','l','a','s','s'], some ['a'])] (some (13, 31)) [
    .mk 13 30 ['p'] [(['i','d'], some ['b',' ','c'])] (some (25, 26)) [.mk 25 26 litName [] none []],
    .mk 30 31 litName [] none []]]

example : validate cfg0 text1 [] doc1 = some [
    ⟨0, .missing [['i','d']]⟩, ⟨0, .unexpected [['c','l','a','s','s']]⟩, ⟨0, .unknown ['c','l','a','s','s']⟩, ⟨0, .mixed⟩,
    ⟨0, .content [['p'], textTok]⟩, ⟨13, .badValue ['i','d'] ['b',' ','c']⟩] := by decide +kernel

/-- In a lightweight table, spaces in cells don't matter; in another they do. -/
def text2 : Str := "<table class=\"lightweight-table\">\n<tr><td> x  y </td></tr>\n</table>".toList
def tree2 (cls : Str) : Node := .mk 0 67 ['d','o','c'] [] none [
  .mk 0 67 ['t','a','b','l','e'] [(['c','l','a','s','s'], some cls)] (some (33, 59)) [
    .mk 33 34 litName [] none [],
    .mk 34 58 ['t','r'] [] (some (38, 53)) [.mk 38 53 ['t','d'] [] (some (42, 48)) [.mk 42 48 litName [] none []]],
    .mk 58 59 litName [] none []]]

example : validate cfg0 text2 [] (tree2 lightName) = some [] := by decide +kernel
example : validate cfg0 text2 [] (tree2 []) = some [⟨42, .startsSpace ['t','d']⟩, ⟨48, .endsSpace ['t','d']⟩, ⟨44, .spaces 2⟩] := by
  decide +kernel

/-- **Departure.**  A cell that isn't in a table isn't reported: the validation fails. -/
theorem c50_stray_cell_witness :
    validate cfg0 "<td>x</td>".toList [] (.mk 0 10 ['d','o','c'] [] none [.mk 0 10 ['t','d'] [] (some (4, 5)) [.mk 4 5 litName [] none []]]) = none := by
  decide +kernel

/-- **Departure.**  A comment between white space doesn't count as content, but the second of two does: it is reported. -/
theorem c50_two_comments_witness :
    Replaced [wsTok, commentName, wsTok, ['t','r'], wsTok] [wsTok, ['t','r'], wsTok] ∧
    Replaced [wsTok, commentName, wsTok, commentName, wsTok, ['t','r'], wsTok] [wsTok, commentName, wsTok, ['t','r'], wsTok] := by
  refine ⟨.hit (.miss ?_ (.miss ?_ .nil)), .hit (.miss ?_ (.miss ?_ (.miss ?_ (.miss ?_ .nil))))⟩
  all_goals (intro r h; revert h; simp [wsTok, commentName])

end Verif.Validate
