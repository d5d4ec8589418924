import Verif.Heads.RuleLemmas
/-!
# C58: a heading, or a condition, means exactly the productions it shows
-/
namespace Verif.Heads
open Verif.Heads.Spec
open Verif.Sdo (Puk Tree NtDef label rulesFor ChainTo OnlyBelow Conf OptOk Needed analyze dispatch dispatchDefault coverageMap Outcome)
open Verif.Defs (Str Block Arena Table process)
open Verif.Uses (Element itemsOf)
open Verif.Uses.Spec (core Words)
open Verif.Gram (Item)

/-! ## Conditions on nodes -/

/-- The grammar of the coverage report is that of the main body of the document. -/
theorem c58_grammar (doc : List Block) (ms : List Defs.Msg) (t : Table) (h : process doc = some (ms, t)) (s : Str) (rhss : List (List Item)) :
    grammarA t s = .main rhss ↔ MainDef doc s rhss := grammarA_iff h s rhss

/-- "`_x_` is <emu-grammar>…": true just of the instances of the productions of the element. -/
theorem c58_is (doc : List Block) (ms : List Defs.Msg) (t : Table) (h : process doc = some (ms, t)) (el : Element) (hm : Main doc el) (ks : List Puk)
    (hk : elementKeys t el = some ks) (u : Tree) :
    (isOne ks u = some true ↔ Instance doc el u) ∧ (isOne ks u = none ↔ u = .leaf) := by
  rw [← keyIn_instance h hk hm]
  cases u with
  | leaf => simp [isOne, not_keyIn_leaf]
  | node s r b cs => simp [isOne, keyIn_node]

/-- What an instance is, if the node was made with the right-hand side `its`: it or another right-hand side with the same symbols is shown by the element. -/
theorem c58_instance (doc : List Block) (ms : List Defs.Msg) (t : Table) (h : process doc = some (ms, t)) (el : Element) (s : Str) (rhss : List (List Item))
    (hd : MainDef doc s rhss) (hw : ∀ x ∈ rhss, Words (core x)) (its : List Item) (hi : its ∈ rhss) (bits : List Char) (cs : List Tree) :
    (Instance doc el (.node s (label its) bits cs) ↔ ∃ x ∈ rhss, core x = core its ∧ Shows el s x bits) ∧
    ((∀ x ∈ rhss, core x = core its → x = its) → (Instance doc el (.node s (label its) bits cs) ↔ Shows el s its bits)) := by
  have key : Instance doc el (.node s (label its) bits cs) ↔ ∃ x ∈ rhss, core x = core its ∧ Shows el s x bits := by
    constructor
    · rintro ⟨s', rhss', x, bits', cs', e, h1, h2, h3⟩
      simp only [Tree.node.injEq] at e
      obtain ⟨rfl, e, rfl, rfl⟩ := e
      have := ((grammarA_iff h s rhss).2 hd).symm.trans ((grammarA_iff h s rhss').2 h1)
      cases this
      refine ⟨x, h2, ?_, h3⟩
      rw [← Uses.c56_reduced x its (hw x h2) (hw its hi), reduce_label, reduce_label, e]
    · rintro ⟨x, h1, h2, h3⟩
      refine ⟨s, rhss, x, bits, cs, ?_, hd, h1, h3⟩
      rw [← reduce_label, ← reduce_label, (Uses.c56_reduced x its (hw x h1) (hw its hi)).2 h2]
  refine ⟨key, fun hx => key.trans ?_⟩
  constructor
  · rintro ⟨x, h1, h2, h3⟩
    rw [← hx x h1 h2]
    exact h3
  · intro h3
    exact ⟨its, hi, rfl, h3⟩

/-- The node that is taken for an instance of the productions: the nearest, if one goes on from a node to its only child. -/
theorem c58_unit (doc : List Block) (ms : List Defs.Msg) (t : Table) (h : process doc = some (ms, t)) (el : Element) (hm : Main doc el) (ks : List Puk)
    (hk : elementKeys t el = some ks) (x : Tree) :
    (∀ u, unitKey ks x = some u ↔ Nearest (Instance doc el) x u) ∧ (unitKey ks x = none ↔ ∀ v, UnitTo x v → ¬Instance doc el v) := by
  have e : Instance doc el = KeyIn ks := funext fun u => propext (keyIn_instance h hk hm u).symm
  rw [e]
  exact walks_iff (unitKey_walks ks) x

/-- "`_x_` is <emu-grammar>…, …, or …": true just if an instance of a production of some element is `x` or an only child of … of `x`. -/
theorem c58_any (doc : List Block) (ms : List Defs.Msg) (t : Table) (h : process doc = some (ms, t)) (els : List Element) (hm : ∀ el ∈ els, Main doc el)
    (kss : List (List Puk)) (hk : els.mapM (elementKeys t) = some kss) (x : Tree) :
    isAny kss x = true ↔ ∃ el ∈ els, ∃ v, UnitTo x v ∧ Instance doc el v := by
  unfold isAny
  rw [List.any_eq_true]
  have one : ∀ el ∈ els, ∀ ks, elementKeys t el = some ks → ((unitKey ks x).isSome = true ↔ ∃ v, UnitTo x v ∧ Instance doc el v) := by
    intro el hel ks hks
    rw [← Option.not_isNone, Bool.not_eq_true', ← Bool.not_eq_true, Option.isNone_iff_eq_none, (c58_unit doc ms t h el (hm el hel) ks hks x).2]
    constructor
    · intro hn
      exact Classical.byContradiction fun k => hn (fun v hv hi => k ⟨v, hv, hi⟩)
    · rintro ⟨v, hv, hi⟩ hn
      exact hn v hv hi
  constructor
  · rintro ⟨ks, hin, hs⟩
    obtain ⟨el, hel, he⟩ := (mapM_mem hk ks).1 hin
    exact ⟨el, hel, (one el hel ks he).1 hs⟩
  · rintro ⟨el, hel, hv⟩
    obtain ⟨i, hi⟩ := List.mem_iff_getElem?.1 hel
    obtain ⟨ks, k1, k2⟩ := (Uses.mapM_at _ _ _ hk).2 i el hi
    exact ⟨ks, List.mem_of_getElem? k1, (one el hel ks k2).2 hv⟩

/-- "the number of <emu-grammar>… Parse Nodes contained within": how many places there are in the tree, including its root, whose node is an instance of the productions. -/
theorem c58_number (doc : List Block) (ms : List Defs.Msg) (t : Table) (h : process doc = some (ms, t)) (el : Element) (hm : Main doc el) (ks : List Puk)
    (hk : elementKeys t el = some ks) (x : Tree) (n : Nat) : countKeys ks x = n ↔ Number (Instance doc el) x n := by
  have e : ∀ u, hasKey ks u = true ↔ Instance doc el u := by
    intro u
    rw [← keyIn_instance h hk hm]
    cases u with
    | leaf => simp [hasKey, not_keyIn_leaf]
    | node s r b cs => simp [hasKey, keyIn_node]
  have := number_iff e x
  unfold countKeys
  rw [foldl_count, Nat.zero_add]
  constructor
  · rintro rfl; exact this
  · exact fun k => number_unique this k

/-- "contains" a nonterminal: some node of the tree, the root included, is for it; and "is a": the nearest node for it. -/
theorem c58_contains (n : Str) (x : Tree) :
    (containsA n x = true ↔ ∃ p u, nodeAt x p = some u ∧ IsA n u) ∧
    (∀ u, unitA n x = some u ↔ Nearest (IsA n) x u) ∧ (unitA n x = none ↔ ∀ v, UnitTo x v → ¬IsA n v) :=
  ⟨containsA_iff n x, walks_iff (unitA_walks n) x⟩

/-! ## Invocations -/

section
variable {R : Type} (doc : List Block) (ms : List Defs.Msg) (t : Table) (h : process doc = some (ms, t)) (heads : List (R × Head)) (defs : List (R × List Puk))
  (hr : rules t heads = some defs) (hm : ∀ hd ∈ heads, ∀ els, hd.2 = .uses els → ∀ el ∈ els, Main doc el)
include h hr hm

theorem chain_iff (hd : ∀ hd ∈ heads, hd.2 ≠ .default) {x u : Tree} : ChainTo defs x u ↔ Chain doc heads x u := by
  constructor
  · intro k
    induction k with
    | here => exact .here _
    | @next t' u v p h1 h2 h3 _ ih =>
      cases t' with
      | leaf => cases h1
      | node s r b cs =>
        cases h1
        exact .next ((rulesFor_nil_iff h hr hm (.inr hd)).1 h2) h3 ih
  · intro k
    induction k with
    | here => exact .here _
    | @next t' u v h2 h3 _ ih =>
      cases t' with
      | leaf => obtain ⟨_, _, _, _, e, _⟩ := h3; cases e
      | node s r b cs => exact .next rfl ((rulesFor_nil_iff h hr hm (.inr hd)).2 h2) h3 ih

/-- An invocation executes a definition just if its heading shows the node at which the chain arrives, and that is the first node on it that any heading shows, and only this
heading shows it. -/
theorem c58_invocation (hd : ∀ hd ∈ heads, hd.2 ≠ .default) (x : Tree) (hx : OptOk x) (u : Tree) (d : R) :
    dispatch (coverageMap defs) x = .rule u d ↔ Chain doc heads x u ∧ ∃ (i : Nat) (hd : Head), heads[i]? = some (d, hd) ∧ IsFor doc hd u ∧
      ∀ (j : Nat) (d' : R) (hd' : Head), heads[j]? = some (d', hd') → IsFor doc hd' u → j = i := by
  rw [Sdo.c48_dispatch (rules_nodup hr) hx, chain_iff doc ms t h heads defs hr hm hd]
  refine and_congr_right fun _ => ?_
  cases u with
  | leaf =>
    simp only [Sdo.Tree.puk?, reduceCtorEq, false_and, exists_false, false_iff]
    rintro ⟨i, hd', h1, h2, _⟩
    cases hd' with
    | default => exact h2
    | uses els =>
      obtain ⟨el, _, s, rhss, its, bits, cs, e, _⟩ := h2
      cases e
  | node s r b cs =>
    simp only [Sdo.Tree.puk?, Option.some.injEq]
    have := rulesFor_one_iff h hr hm (s := s) (r := r) (b := b) (cs := cs) (.inr hd) d
    constructor
    · rintro ⟨p, rfl, k⟩
      exact this.1 k
    · intro k
      exact ⟨_, rfl, this.2 k⟩

/-- An invocation finds the operation undefined ("SPEC BUG") just if no heading shows a node on the chain, and it ends at a node that has none or several nonterminals below. -/
theorem c58_undefined (hd : ∀ hd ∈ heads, hd.2 ≠ .default) (x : Tree) (hx : OptOk x) (u : Tree) :
    dispatch (coverageMap defs) x = .noRule u ↔
      Chain doc heads x u ∧ u ≠ .leaf ∧ (∀ hd ∈ heads, ¬IsFor doc hd.2 u) ∧ ∀ v, ¬OnlyBelow u v := by
  rw [Sdo.c48_undefined (rules_nodup hr) hx, chain_iff doc ms t h heads defs hr hm hd]
  refine and_congr_right fun _ => ?_
  cases u with
  | leaf => simp [Sdo.Tree.puk?]
  | node s r b cs =>
    have := rulesFor_nil_iff h hr hm (s := s) (r := r) (b := b) (cs := cs) (.inr hd)
    simp only [Sdo.Tree.puk?, Option.some.injEq, exists_eq_left', this, ne_eq, reduceCtorEq, not_false_eq_true, true_and]

/-- An operation with a default: the definition whose heading shows the node, if there is just one; if there is none, the default. -/
theorem c58_default (s : Str) (rhss : List (List Item)) (hs : MainDef doc s rhss) (r b : List Char) (cs : List Tree) (u : Tree) (d : R) :
    dispatchDefault (coverageMap defs) (.node s r b cs) = .rule u d ↔ u = .node s r b cs ∧
      ((∃ (i : Nat) (hd : Head), heads[i]? = some (d, hd) ∧ IsFor doc hd u ∧
          ∀ (j : Nat) (d' : R) (hd' : Head), heads[j]? = some (d', hd') → IsFor doc hd' u → j = i) ∨
        (∀ hd ∈ heads, ¬IsFor doc hd.2 u) ∧ ∃ i : Nat, heads[i]? = some (d, .default) ∧ ∀ (j : Nat) d', heads[j]? = some (d', .default) → j = i) := by
  have hne : s ≠ "*default*".toList := by
    rintro rfl
    obtain ⟨i, p, rs, hd, _⟩ := hs
    exact (name_chars h hd).2.1 (by decide)
  rw [Sdo.c48_default (rules_nodup hr)]
  refine and_congr_right fun e => ?_
  subst e
  have h1 := rulesFor_one_iff h hr hm (s := s) (r := r) (b := b) (cs := cs) (.inl hne) d
  have h2 := rulesFor_nil_iff h hr hm (s := s) (r := r) (b := b) (cs := cs) (.inl hne)
  simp only [Sdo.Tree.puk?, Option.some.injEq, exists_eq_left', h1, h2, rulesFor_default h hr hm d]
  rfl

/-- If the coverage report has no complaint, each invocation on a parse tree for one of the nonterminals executes one definition: that whose heading shows the first node of the chain
that any heading shows.  Only nonterminals are optional in the grammar, and no node on the chain is an exception. -/
theorem c58_covered (hd : ∀ hd ∈ heads, hd.2 ≠ .default)
    (ho : ∀ s rhss its k text, MainDef doc s rhss → its ∈ rhss → Item.qm (.other k text) ∉ its)
    (exc : Str → List Char → Bool) (roots : List Str) (fuel : Nat) (msgs : List Sdo.Msg) (ha : analyze (grammarA t) defs exc roots fuel = .ok msgs)
    (h1 : ∀ p, .needs p ∉ msgs) (h2 : ∀ p n, .multi p n ∉ msgs) (s : Str) (hs : s ∈ roots) (x : Tree) (hx : Conf (grammarA t) s x)
    (he : ∀ s r b cs, Chain doc heads x (.node s r b cs) → exc s r = false) :
    ∃ u d, dispatch (coverageMap defs) x = .rule u d ∧ Chain doc heads x u ∧ ∃ (i : Nat) (hd : Head), heads[i]? = some (d, hd) ∧ IsFor doc hd u ∧
      ∀ (j : Nat) (d' : R) (hd' : Head), heads[j]? = some (d', hd') → IsFor doc hd' u → j = i := by
  have hG := plain_grammar h ho
  obtain ⟨u, d, k⟩ := Sdo.c47_sound hG (rules_nodup hr) ha h1 h2 hs hx (by
    intro u p hc hp
    cases u with
    | leaf => cases hp
    | node s r b cs =>
      cases hp
      exact he s r b cs ((chain_iff doc ms t h heads defs hr hm hd).1 hc))
  exact ⟨u, d, k, (c58_invocation doc ms t h heads defs hr hm hd x (Sdo.conf_optOk hG hx) u d).1 k⟩

/-- A heading is reported as unused just if the operation isn't needed for its nonterminal: there are no headings for things that the grammar can't make. -/
theorem c58_unused (hd : ∀ hd ∈ heads, hd.2 ≠ .default) (exc : Str → List Char → Bool) (roots : List Str) (fuel : Nat) (msgs : List Sdo.Msg)
    (ha : analyze (grammarA t) defs exc roots fuel = .ok msgs) (p : Puk) :
    .unused p ∈ msgs ↔ (∃ hd ∈ heads, IsFor doc hd.2 (.node p.lhs p.reduced p.bits [])) ∧ ¬Needed (grammarA t) defs exc roots p.lhs := by
  rw [(Sdo.c47_report (rules_nodup hr) ha).2.2 p]
  have hp : (∃ d ∈ defs, p ∈ d.2) ↔ ∃ hd ∈ heads, IsFor doc hd.2 (.node p.lhs p.reduced p.bits []) := by
    have := rulesFor_nil_iff h hr hm (s := p.lhs) (r := p.reduced) (b := p.bits) (cs := []) (.inr hd)
    rw [rulesFor_nil] at this
    constructor
    · rintro ⟨d, hd', hin⟩
      obtain ⟨i, hi⟩ := List.mem_iff_getElem?.1 hd'
      refine Classical.byContradiction fun k => ?_
      exact this.2 (fun hd h1 h2 => k ⟨hd, h1, h2⟩) i d.1 d.2 hi hin
    · rintro ⟨hd, h1, h2⟩
      refine Classical.byContradiction fun k => ?_
      exact this.1 (fun j d' ks' hj hin => k ⟨_, List.mem_of_getElem? hj, hin⟩) hd h1 h2
  rw [hp]
  refine and_congr_right fun ⟨hd', hin, hf⟩ => not_congr ?_
  constructor
  · rintro ⟨s, ns, hn, rhss, its, _, _, e, _⟩
    rw [e]; exact hn
  · intro hn
    obtain ⟨d, hd'⟩ := hd'
    cases hd' with
    | default => exact absurd hf id
    | uses els =>
      obtain ⟨el, _, s, rhss, its, bits, cs, e, hmd, hi, q, _, _, r, _, us, st, _, hma, hb⟩ := hf
      simp only [Tree.node.injEq] at e
      obtain ⟨e1, e2, e3, _⟩ := e
      obtain ⟨ns, hns⟩ := match_instance hma hb
      refine ⟨p.lhs, ns, hn, rhss, its, ?_, hi, rfl, e2, ?_⟩
      · rw [e1]; exact (grammarA_iff h s rhss).2 hmd
      · rw [e3]; exact hns

end

/-! ## Cases -/

open Verif.Defs (clause nt arg tok ln)
open Verif.Uses (use el plainNt)

/-- `Stmt : `if` Expr Tail? | Expr `;` | `yield` Expr`, `Expr : `x``, `Tail : `else` Stmt`. -/
def small : List Block := [⟨true, clause "Statements" "14.1", true,
  [⟨100, true, nt 100 "Stmt" [arg 101 .bare "Yield"], 1,
    [ln [tok "`if`", .plain (.gnt (nt 110 "Expr" [])), .qm (.gnt (nt 115 "Tail" [arg 116 .query "Yield"]))],
     ln [.plain (.gnt (nt 120 "Expr" [])), tok "`;`"],
     ln [tok "`yield`", .plain (.other .nlth "[no LineTerminator here]".toList []), .plain (.gnt (nt 130 "Expr" []))] [arg 129 .plus "Yield"]]⟩,
   ⟨200, true, nt 200 "Expr" [], 1, [ln [tok "`x`"]]⟩,
   ⟨300, true, nt 300 "Tail" [arg 301 .bare "Yield"], 1, [ln [tok "`else`", .plain (.gnt (nt 310 "Stmt" [arg 311 .query "Yield"]))]]⟩]⟩]

def table : Table := match process small with
  | some (_, t) => t
  | none => []

theorem small_ok : process small = some ([], table) := by decide +kernel

/-- `Stmt : `if` Expr Tail`, with the tail. -/
def ifTail : Element := el [use "Stmt" [] [.bare [tok "`if`", plainNt "Expr", plainNt "Tail"]]]
/-- `Stmt : `if` Expr`, without it. -/
def ifOnly : Element := el [use "Stmt" [] [.bare [tok "`if`", plainNt "Expr"]]]
/-- Both others. -/
def rest : Element := el [use "Stmt" [] [ln [plainNt "Expr", tok "`;`"], ln [tok "`yield`", plainNt "Expr"]]]
/-- `Expr : `x``. -/
def exprX : Element := el [use "Expr" [] [.bare [tok "`x`"]]]

def xNode : Tree := .node "Expr".toList "`x`".toList [] [.leaf]
/-- `x ;` -/
def xStmt : Tree := .node "Stmt".toList "Expr `;`".toList [] [xNode, .leaf]
/-- `if x else x ;` -/
def ifStmt : Tree := .node "Stmt".toList "`if` Expr Tail?".toList "1".toList
  [.leaf, xNode, .node "Tail?".toList "Tail".toList [] [.node "Tail".toList "`else` Stmt".toList [] [.leaf, xStmt]]]

def keys (e : Element) : List Puk := (elementKeys table e).getD []

example : elementKeys table ifTail = some (keys ifTail) ∧ elementKeys table exprX = some (keys exprX) ∧ elementKeys table rest = some (keys rest) := by decide +kernel
example : isOne (keys ifTail) ifStmt = some true ∧ isOne (keys ifOnly) ifStmt = some false ∧ isOne (keys rest) ifStmt = some false := by decide +kernel
example : isOne (keys rest) xStmt = some true ∧ isOne (keys rest) .leaf = none := by decide +kernel
example : countKeys (keys exprX) ifStmt = 2 ∧ countKeys (keys rest) ifStmt = 1 ∧ countKeys (keys ifTail) ifStmt = 1 := by decide +kernel
example : containsA "Tail".toList ifStmt = true ∧ containsA "Tail".toList xStmt = false ∧ containsA "Stmt".toList xStmt = true := by decide +kernel
/-- A tree with an only child. -/
example : unitKey (keys exprX) (.node "Init".toList "Expr".toList [] [xNode]) = some xNode := rfl
example : unitKey (keys exprX) xStmt = none := rfl
example : unitA "Expr".toList (.node "Init".toList "Expr".toList [] [xNode]) = some xNode := rfl
example : isAny [keys rest, keys exprX] (.node "Init".toList "Expr".toList [] [xNode]) = true := by decide +kernel

theorem main_el (e : Element) (h : e.sec = clause "Evaluation" "14.2") : Main small e := by
  intro p _ a ha
  rw [h] at ha
  left
  have : Defs.arenaOf (clause "Evaluation" "14.2") = .A := by decide
  rw [← (Defs.arenaOf_iff _ a).2 ha, this]

/-- So the conditions mean what they show. -/
example : Instance small ifTail ifStmt ∧ ¬Instance small ifOnly ifStmt ∧ Nearest (Instance small exprX) (.node "Init".toList "Expr".toList [] [xNode]) xNode ∧
    Number (Instance small exprX) ifStmt 2 :=
  ⟨(c58_is _ _ _ small_ok ifTail (main_el _ rfl) (keys ifTail) (by decide +kernel) ifStmt).1.1 (by decide +kernel),
   fun k => absurd ((c58_is _ _ _ small_ok ifOnly (main_el _ rfl) (keys ifOnly) (by decide +kernel) ifStmt).1.2 k) (by decide +kernel),
   ((c58_unit _ _ _ small_ok exprX (main_el _ rfl) (keys exprX) (by decide +kernel) _).1 _).1 rfl,
   (c58_number _ _ _ small_ok exprX (main_el _ rfl) (keys exprX) (by decide +kernel) ifStmt 2).1 (by decide +kernel)⟩

/-- An operation with three definitions, one of them with two headings. -/
def heads : List (Nat × Head) := [(1, .uses [ifTail]), (2, .uses [ifOnly, rest]), (3, .uses [exprX])]

def defs : List (Nat × List Puk) := (rules table heads).getD []

example : rules table heads = some defs := by decide +kernel
example : defs.map (fun d => (d.1, d.2.length)) = [(1, 1), (2, 3), (3, 1)] := by decide +kernel

/-- The report has no complaint. -/
example : (analyze (grammarA table) defs (fun _ _ => false) ["Stmt".toList, "Expr".toList] 10).toOption = some [] := by decide +kernel

/-- Without the second heading of the second definition there is a complaint. -/
example : (analyze (grammarA table) ((rules table [(1, .uses [ifTail]), (2, .uses [ifOnly])]).getD []) (fun _ _ => false) ["Stmt".toList] 10).toOption =
    some [.needs ⟨"Expr".toList, "`x`".toList, []⟩] := by decide +kernel

example : dispatch (coverageMap defs) ifStmt = .rule ifStmt 1 := rfl
example : dispatch (coverageMap defs) xStmt = .rule xStmt 2 := rfl

theorem heads_main : ∀ hd ∈ heads, ∀ els, hd.2 = .uses els → ∀ e ∈ els, Main small e := by
  intro hd hin els e x hx
  simp only [heads, List.mem_cons, List.not_mem_nil, or_false] at hin
  rcases hin with rfl | rfl | rfl <;> cases e <;> simp only [List.mem_cons, List.not_mem_nil, or_false] at hx
  · subst hx; exact main_el _ rfl
  · rcases hx with rfl | rfl <;> exact main_el _ rfl
  · subst hx; exact main_el _ rfl

example : Chain small heads ifStmt ifStmt ∧ ∃ (i : Nat) (hd : Head), heads[i]? = some (1, hd) ∧ IsFor small hd ifStmt ∧
    ∀ (j : Nat) d' (hd' : Head), heads[j]? = some (d', hd') → IsFor small hd' ifStmt → j = i := by
  refine (c58_invocation small [] table small_ok heads defs (by decide +kernel) heads_main (by simp [heads]) ifStmt ?_ ifStmt 1).1 rfl
  have ox : OptOk xNode := .node (by simp [OptOk.leaf]) (by simp)
  have os : OptOk xStmt := .node (by simp [OptOk.leaf, ox]) (by
    intro s' r' b' gs hin hl
    simp only [xNode, List.mem_cons, Tree.node.injEq, reduceCtorEq, List.not_mem_nil, or_false] at hin
    obtain ⟨rfl, _⟩ := hin
    exact absurd hl (by decide))
  have ot : OptOk (.node "Tail".toList "`else` Stmt".toList [] [.leaf, xStmt]) := .node (by simp [OptOk.leaf, os]) (by
    intro s' r' b' gs hin hl
    simp only [xStmt, List.mem_cons, Tree.node.injEq, reduceCtorEq, List.not_mem_nil, or_false, false_or] at hin
    obtain ⟨rfl, _⟩ := hin
    exact absurd hl (by decide))
  refine .node ?_ ?_
  · intro c hc
    simp only [List.mem_cons, List.not_mem_nil, or_false] at hc
    rcases hc with rfl | rfl | rfl
    · exact .leaf
    · exact ox
    · refine .node (fun c hc => by rw [List.mem_singleton] at hc; rw [hc]; exact ot) ?_
      intro s' r' b' gs hin hl
      simp only [List.mem_cons, Tree.node.injEq, List.not_mem_nil, or_false] at hin
      obtain ⟨rfl, _⟩ := hin
      exact absurd hl (by decide)
  · intro s' r' b' gs hin hl
    simp only [xNode, List.mem_cons, Tree.node.injEq, reduceCtorEq, List.not_mem_nil, or_false, false_or] at hin
    rcases hin with ⟨rfl, _⟩ | ⟨rfl, _, _, rfl⟩
    · exact absurd hl (by decide)
    · decide

/-- The hypotheses of `c58_covered` are met. -/
theorem small_optional : ∀ s rhss its k text, MainDef small s rhss → its ∈ rhss → Item.qm (.other k text) ∉ its := by
  intro s rhss its k text hd hi hq
  have hg := (grammarA_iff small_ok s rhss).2 hd
  have all : ∀ x ∈ table, ∀ y ∈ x.2.occs, ∀ its ∈ y.2.prod.rhss.map itemsOf, ∀ it ∈ its, (match it with | .qm (.other _ _) => true | _ => false) = false := by
    decide +kernel
  have mem : ∀ {α β : Type} [BEq α] (l : List (α × β)) (a : α) (b : β), l.lookup a = some b → ∃ c, (c, b) ∈ l := by
    intro α β _ l
    induction l with
    | nil => intro a b h; cases h
    | cons x l ih =>
      intro a b h
      rw [List.lookup_cons] at h
      split at h
      · cases h; exact ⟨x.1, List.mem_cons_self ..⟩
      · obtain ⟨c, hc⟩ := ih a b h
        exact ⟨c, List.mem_cons_of_mem _ hc⟩
  unfold grammarA at hg
  cases hl : table.lookup s with
  | none => rw [hl] at hg; cases hg
  | some info =>
    simp only [hl] at hg
    cases ho : info.occs.lookup .A with
    | none => rw [ho] at hg; cases hg
    | some d =>
      simp only [ho, NtDef.main.injEq] at hg
      subst hg
      obtain ⟨c, hc⟩ := mem _ _ _ hl
      obtain ⟨c', hc'⟩ := mem _ _ _ ho
      have := all _ hc _ hc' its hi _ hq
      cases this

example : ∃ u d, dispatch (coverageMap defs) xStmt = .rule u d ∧ Chain small heads xStmt u ∧ ∃ (i : Nat) (hd : Head), heads[i]? = some (d, hd) ∧ IsFor small hd u ∧
    ∀ (j : Nat) d' (hd' : Head), heads[j]? = some (d', hd') → IsFor small hd' u → j = i := by
  have hx : Conf (grammarA table) "Expr".toList xNode :=
    Sdo.Conf.node (rhss := [[.plain (.other .BACKTICKED_THING "`x`".toList)]]) (its := [.plain (.other .BACKTICKED_THING "`x`".toList)]) rfl (by simp)
      (.terminals 1 .nil)
  refine c58_covered small [] table small_ok heads defs (by decide +kernel) heads_main (by simp [heads]) small_optional (fun _ _ => false)
    ["Stmt".toList, "Expr".toList] 10 [] rfl (by simp) (by simp) "Stmt".toList (by simp) xStmt ?_ (fun _ _ _ _ _ => rfl)
  exact Sdo.Conf.node (its := [.plain (.gnt "Expr".toList []), .plain (.other .BACKTICKED_THING "`;`".toList)]) rfl (by decide +kernel)
    (.nt hx (.terminals 1 .nil))

/-- With a default. -/
example : dispatchDefault (coverageMap ((rules table [(1, .uses [ifTail]), (0, .default)]).getD [])) ifStmt = .rule ifStmt 1 := rfl
example : dispatchDefault (coverageMap ((rules table [(1, .uses [ifTail]), (0, .default)]).getD [])) xStmt = .rule xStmt 0 := rfl

/-- Two right-hand sides with the same symbols have the same key: an instance of one is taken for an instance of the other, which differs in its guard. -/
theorem c58_guard_witness : ∃ (doc : List Block) (t : Table) (e : Element) (p : Puk) (its : List (List Item)), process doc = some ([], t) ∧ Main doc e ∧ MainDef doc p.lhs its ∧
    (∃ x ∈ its, p.reduced = label x ∧ ¬Shows e p.lhs x p.bits) ∧ Instance doc e (.node p.lhs p.reduced p.bits []) := by
  let d : List Block := [⟨true, clause "X" "1", true, [⟨1, true, nt 1 "Ab" [arg 2 .bare "Yy"], 1,
    [ln [tok "`a`"] [arg 3 .plus "Yy"], ln [tok "`a`"] [arg 4 .tilde "Yy"]]⟩]⟩]
  let e : Element := el [use "Ab" [] [ln [tok "`a`"] [arg 3 .plus "Yy"]]]
  let t : Table := match process d with
    | some (_, t) => t
    | none => []
  have hp : process d = some ([], t) := by decide +kernel
  have hm : Main d e := by
    intro p _ a ha
    left
    have : Defs.arenaOf (clause "Evaluation" "14.2") = .A := by decide
    rw [← (Defs.arenaOf_iff _ a).2 ha]
    exact this
  have hg : grammarA t "Ab".toList = .main [itemsOf (ln [tok "`a`"] [arg 3 .plus "Yy"]), itemsOf (ln [tok "`a`"] [arg 4 .tilde "Yy"])] := rfl
  refine ⟨d, t, e, ⟨"Ab".toList, "`a`".toList, []⟩, _, hp, hm, (grammarA_iff hp _ _).1 hg,
    ⟨itemsOf (ln [tok "`a`"] [arg 4 .tilde "Yy"]), by simp, by decide +kernel, ?_⟩, ?_⟩
  · rintro ⟨p, hpp, _, r, hrr, us, st, hus, hma, _⟩
    obtain rfl := (Uses.rhs_iff _ _).1 hus
    simp only [e, el, use, List.mem_singleton] at hpp
    subst hpp
    simp only [List.mem_singleton] at hrr
    subst hrr
    cases hma with
    | keep hs _ => revert hs; simp [Uses.Spec.Same, Gram.SameSym, Uses.paramsText, Uses.paramText, Uses.signText, arg]
    | skip _ hc hma =>
      cases hma with
      | keep hs _ => revert hs; simp [Uses.Spec.Same, Gram.SameSym, tok, Uses.itemOf, Uses.symOf, Uses.kindOf]
      | skip _ hc _ => revert hc; simp [Uses.Spec.CanLeave, Gram.Annotation, tok, Uses.itemOf, Uses.symOf, Uses.kindOf]
  · exact (c58_is d [] t hp e hm _ rfl _).1.1 (by decide +kernel)

end Verif.Heads
