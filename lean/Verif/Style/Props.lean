import Verif.Style.VdLemmas
/-!
# C61: the checks of style report exactly what they should
-/
namespace Verif.Style
open Annot (RNode RAt)

/-! ### The order of algorithms -/

theorem perm_insertAlg (a : Alg) : ∀ as : List Alg, (insertAlg a as).Perm (a :: as)
  | [] => .refl _
  | b :: bs => by
    rw [insertAlg]
    split
    · exact .refl _
    · exact ((perm_insertAlg a bs).cons b).trans (.swap a b bs)

theorem perm_sortAlgs : ∀ as : List Alg, (sortAlgs as).Perm as
  | [] => .refl _
  | a :: as => (perm_insertAlg a (sortAlgs as)).trans ((perm_sortAlgs as).cons a)

theorem sorted_insertAlg (a : Alg) : ∀ as : List Alg, as.Pairwise (fun a b => a.name ≤ b.name) → (insertAlg a as).Pairwise (fun a b => a.name ≤ b.name)
  | [], _ => by simp [insertAlg]
  | b :: bs, h => by
    rw [List.pairwise_cons] at h
    rw [insertAlg]
    split
    · rename_i hab
      refine List.pairwise_cons.2 ⟨fun c hc => ?_, List.pairwise_cons.2 h⟩
      rcases List.mem_cons.1 hc with rfl | hc
      · exact hab
      · exact String.le_trans hab (h.1 c hc)
    · rename_i hab
      refine List.pairwise_cons.2 ⟨fun c hc => ?_, sorted_insertAlg a bs h.2⟩
      rcases List.mem_cons.1 ((perm_insertAlg a bs).mem_iff.1 hc) with rfl | hc
      · exact (String.le_total ..).resolve_left hab
      · exact h.1 c hc

theorem byName_sort (as : List Alg) : ByName as (sortAlgs as) := by
  refine ⟨perm_sortAlgs as, ?_⟩
  induction as with
  | nil => exact .nil
  | cons a as ih => exact sorted_insertAlg a _ ih

theorem byName_unique {as xs ys : List Alg} (hn : (as.map (·.name)).Nodup) (hx : ByName as xs) (hy : ByName as ys) : xs = ys := by
  have hp : xs.Perm ys := hx.1.trans hy.1.symm
  refine hp.eq_of_pairwise (le := fun a b => a.name ≤ b.name) (fun a b ha hb h1 h2 => ?_) hx.2 hy.2
  have ha' := hx.1.mem_iff.1 ha
  have hb' := hy.1.mem_iff.1 hb
  have hname := String.le_antisymm h1 h2
  rw [List.nodup_iff_pairwise_ne, List.pairwise_map] at hn
  exact Classical.byContradiction fun hne => by
    have key : ∀ l : List Alg, l.Pairwise (fun a b => a.name ≠ b.name) → a ∈ l → b ∈ l → False := by
      intro l
      induction l with
      | nil => intro _ h; cases h
      | cons c l ih =>
        intro h h1 h2
        rw [List.pairwise_cons] at h
        rcases List.mem_cons.1 h1 with rfl | g1 <;> rcases List.mem_cons.1 h2 with rfl | g2
        · exact hne rfl
        · exact h.1 b g2 hname
        · exact h.1 a g1 hname.symm
        · exact ih h.2 g1 g2
    exact key as hn ha' hb'

/-! ### The theorems -/

/-- C61: the report on If-commands. -/
theorem c61_ifs (w : Char → Bool) (ops bifs : List Alg) (ho : (ops.map (·.name)).Nodup) (hb : (bifs.map (·.name)).Nodup) (ms : List IfMsg) :
    checkIfs w ops bifs = some ms ↔ ∃ sa sb mss, ByName ops sa ∧ ByName bifs sb ∧
      Pairs (IfReport w) ((sa ++ sb).flatMap (fun a => a.defns.flatMap (fun ts => ts.filterMap id))) mss ∧ ms = mss.flatten := by
  have hp : ∀ ts mss, Pairs (fun t m => checkIfTree w t = some m) ts mss ↔ Pairs (IfReport w) ts mss :=
    fun ts mss => pairs_congr (fun t _ m => checkIfTree_iff w t m)
  simp only [checkIfs, Option.map_eq_some_iff, mapM_pairs, hp]
  constructor
  · rintro ⟨mss, h, rfl⟩
    exact ⟨_, _, mss, byName_sort ops, byName_sort bifs, h, rfl⟩
  · rintro ⟨sa, sb, mss, h1, h2, h3, rfl⟩
    obtain rfl := byName_unique ho h1 (byName_sort ops)
    obtain rfl := byName_unique hb h2 (byName_sort bifs)
    exact ⟨mss, h3, rfl⟩

/-- C61: at an If-command, one thing is reported. -/
theorem c61_if_one {w : Char → Bool} {d : RNode} {ms ms' : List IfMsg} (h : IfSays w d ms) (h' : IfSays w d ms') : ms = ms' := by
  have hd : d.lhs = "{IF_OTHER}" ∨ d.lhs = "{IF_CLOSED}" := by
    cases h with
    | one h => exact Or.inl h
    | balanced h => exact Or.inl h
    | unbalanced h => exact Or.inl h
    | same h => exact Or.inr h
    | notSame h => exact Or.inr h
  rw [← checkIf_iff w d hd] at h h'
  rw [h] at h'; exact Option.some_inj.1 h'

/-- C61: of any strings, what is compared is the longest common prefix. -/
theorem c61_common (xs : List (List Char)) (hx : xs ≠ []) : ∃ pre, commonPrefix xs = some pre ∧ (∀ x ∈ xs, pre <+: x) ∧ ∀ ph, (∀ x ∈ xs, ph <+: x) → ph <+: pre := by
  obtain ⟨pre, h1, h2⟩ := commonPrefix_spec xs hx
  exact ⟨pre, h1, (h2 pre).1 (List.prefix_refl pre), fun ph => (h2 ph).2⟩

/-- The forms of If-commands in the grammar. -/
inductive TailOk : RNode → Prop
  | nothing {t} : TailOk (.node "{IF_TAIL}" "{EPSILON}" t [])
  | elseif {t r t' c x u} : x.lhs = "{IND_COMMANDS}" ∨ x.lhs = "{SMALL_COMMAND}" → TailOk u →
      TailOk (.node "{IF_TAIL}" "{_NL_N} {ELSEIF_PART}{IF_TAIL}" t [.node "{ELSEIF_PART}" r t' [c, x], u])
  | last {t r t' x} : x.lhs = "{IND_COMMANDS}" ∨ x.lhs = "{SMALL_COMMAND}" → TailOk (.node "{IF_TAIL}" "{_NL_N} {ELSE_PART}" t [.node "{ELSE_PART}" r t' [x]])

inductive IfOk : RNode → Prop
  | closed {r t c x y} : c.lhs = "{CONDITION}" → x.lhs = "{SMALL_COMMAND}" → y.lhs = "{SMALL_COMMAND}" → IfOk (.node "{IF_CLOSED}" r t [c, x, y])
  | other {t r t' c x u} : x.lhs = "{IND_COMMANDS}" ∨ x.lhs = "{SMALL_COMMAND}" → TailOk u →
      IfOk (.node "{IF_OTHER}" "{IF_OPEN}{IF_TAIL}" t [.node "{IF_OPEN}" r t' [c, x], u])

/-- C61: the check of If-commands completes for trees of the grammar. -/
theorem c61_if_completes (w : Char → Bool) (ops bifs : List Alg)
    (h : ∀ a ∈ ops ++ bifs, ∀ ts ∈ a.defns, ∀ t, some t ∈ ts → ∀ p d, RAt t p d → d.lhs = "{IF_OTHER}" ∨ d.lhs = "{IF_CLOSED}" → IfOk d) :
    checkIfs w ops bifs ≠ none := by
  have tail : ∀ u, TailOk u → ∃ xs, Arms u xs := by
    intro u hu
    induction hu with
    | nothing => exact ⟨_, .nothing⟩
    | elseif h1 _ ih =>
      obtain ⟨xs, hx⟩ := ih
      exact ⟨_, .elseif (.opening (Or.inr rfl) h1) hx⟩
    | last h1 => exact ⟨_, .last (.elsePart (ks := []) (h1.imp id Or.inl))⟩
  have one : ∀ d, IfOk d → ∃ ms, IfSays w d ms := by
    intro d hd
    cases hd with
    | @closed r t c x y h1 h2 h3 =>
      have ha : Arms (.node "{IF_CLOSED}" r t [c, x, y]) [x, y] := by
        have := Arms.closed (r := r) (t := t) (ks := [c, x, y]) (by
          intro z hz
          simp only [List.mem_cons, List.not_mem_nil, or_false] at hz
          rcases hz with rfl | rfl | rfl
          · exact Or.inr h1
          · exact Or.inl h2
          · exact Or.inl h3)
        rw [List.filter_cons_of_neg (by rw [h1]; decide), List.filter_cons_of_pos (by rw [h2]; decide), List.filter_cons_of_pos (by rw [h3]; decide)] at this
        exact this
      by_cases hs : SameThing w [x, y]
      · exact ⟨_, .same rfl ha (by simp) hs⟩
      · exact ⟨_, .notSame rfl ha (by simp) hs⟩
    | @other t r t' c x u h1 h2 =>
      obtain ⟨ys, hy⟩ := tail u h2
      have ha : Arms (.node "{IF_OTHER}" "{IF_OPEN}{IF_TAIL}" t [.node "{IF_OPEN}" r t' [c, x], u]) ([x] ++ ys) := .other (.opening (Or.inl rfl) h1) hy
      cases ys with
      | nil => exact ⟨_, .one rfl ha⟩
      | cons y ys =>
        by_cases hb : ∀ a ∈ [x] ++ y :: ys, ∀ b ∈ [x] ++ y :: ys, a.lhs = b.lhs
        · exact ⟨_, .balanced rfl ha (by simp) hb⟩
        · simp only [Classical.not_forall] at hb
          obtain ⟨a, h3, b, h4, h5⟩ := hb
          exact ⟨_, .unbalanced rfl ha h3 h4 h5⟩
  have allM : ∀ {α β : Type} (f : α → Option β) (xs : List α), (∀ x ∈ xs, f x ≠ none) → ∃ ys, xs.mapM f = some ys := by
    intro α β f xs
    induction xs with
    | nil => exact fun _ => ⟨[], rfl⟩
    | cons x xs ih =>
      intro H
      obtain ⟨ys, hy⟩ := ih (fun z hz => H z (by simp [hz]))
      cases hx : f x with
      | none => exact absurd hx (H x (by simp))
      | some y => exact ⟨y :: ys, by simp [List.mapM_cons, hx, hy]⟩
  obtain ⟨mss, hm⟩ := allM (checkIfTree w) (treesOf (sortAlgs ops ++ sortAlgs bifs)) (by
    intro t ht
    simp only [treesOf, List.mem_flatMap, List.mem_filterMap, id, exists_eq_right, List.mem_append] at ht
    obtain ⟨a, ha, ts, hts, ht⟩ := ht
    have ha' : a ∈ ops ++ bifs := by
      rw [List.mem_append]
      exact ha.imp (perm_sortAlgs ops).mem_iff.1 (perm_sortAlgs bifs).mem_iff.1
    obtain ⟨ms, hms⟩ := allM (fun e => checkIf w e.2) (Annot.rWalk t) (by
      rintro ⟨p, d⟩ he
      by_cases hd : d.lhs = "{IF_OTHER}" ∨ d.lhs = "{IF_CLOSED}"
      · obtain ⟨ms, hms⟩ := one d (h a ha' ts hts t ht p d (((Annot.rWalk_listing t).2 p d).1 he) hd)
        rw [(checkIf_iff w d hd ms).2 hms]; simp
      · rw [not_or] at hd
        simp [checkIf, hd.1, hd.2])
    rw [checkIfTree, hms]; simp)
  rw [checkIfs, hm]; simp

/-- C61: the report on descriptions of values. -/
theorem c61_descriptions (sp : Char → Bool) (d : Doc) (ms : List VdMsg) :
    checkVds sp d = some ms ↔ ∃ ts mss, Trees d ts ∧ Pairs (VdReport sp) ts mss ∧ ms = mss.flatten := by
  have hp : ∀ ts mss, Pairs (fun t m => checkVdTree sp t = some m) ts mss ↔ Pairs (VdReport sp) ts mss :=
    fun ts mss => pairs_congr (fun t _ m => checkVdTree_iff sp t m)
  simp only [checkVds, Option.map_eq_some_iff, mapM_pairs, hp, trees_iff]
  constructor
  · rintro ⟨mss, h, rfl⟩; exact ⟨_, mss, rfl, h, rfl⟩
  · rintro ⟨_, mss, rfl, h, rfl⟩; exact ⟨mss, h, rfl⟩

/-- C61: a description is not taken both for one value and for several. -/
theorem c61_letter {d : RNode} {c c' : Char} (h : Letter d c) (h' : Letter d c') : c = c' := by
  rw [← letter_iff] at h h'
  rw [h] at h'; exact Option.some_inj.1 h'

/-- C61: at most one choice of words is right. -/
theorem c61_words {g d : RNode} {sm : List Char} {s s' : String} (h : Should g d sm s) (h' : Should g d sm s') : s = s' := by
  rw [← preferred_iff] at h h'
  rw [h] at h'; exact Option.some_inj.1 h'

/-! ### Cases -/

def lf (l t : String) : RNode := .node l "x" t []
def exOpen (x : RNode) : RNode := .node "{IF_OPEN}" "x" "" [lf "{CONDITION}" "", x]
def exElseIf (x u : RNode) : RNode := .node "{IF_TAIL}" "{_NL_N} {ELSEIF_PART}{IF_TAIL}" "" [.node "{ELSEIF_PART}" "x" "" [lf "{CONDITION}" "", x], u]
def exElse (x : RNode) : RNode := .node "{IF_TAIL}" "{_NL_N} {ELSE_PART}" "" [.node "{ELSE_PART}" "x" "" [x]]
def exNone : RNode := .node "{IF_TAIL}" "{EPSILON}" "" []
def exOther (o u : RNode) : RNode := .node "{IF_OTHER}" "{IF_OPEN}{IF_TAIL}" "" [o, u]
def exClosed (x y : String) : RNode := .node "{IF_CLOSED}" "If {CONDITION}, {SMALL_COMMAND}; else {SMALL_COMMAND}." "" [lf "{CONDITION}" "", lf "{SMALL_COMMAND}" x, lf "{SMALL_COMMAND}" y]
def small : RNode := lf "{SMALL_COMMAND}" "return 1"
def ind : RNode := lf "{IND_COMMANDS}" ""
def exW (c : Char) : Bool := c.isAlphanum || c == '_'

/-- What is reported, in a form that can be compared. -/
def ifShown (d : RNode) : Option (List (List String)) := (checkIf exW d).map (List.map (fun m => match m with
  | .unbalanced _ ks => ks
  | .notSame _ => ["not the same"]))

example : ifShown (exOther (exOpen small) exNone) = some [] := by decide +kernel
example : ifShown (exOther (exOpen ind) (exElseIf ind (exElse ind))) = some [] := by decide +kernel
example : ifShown (exOther (exOpen ind) (exElseIf small (exElse ind))) = some [["{IND_COMMANDS}", "{SMALL_COMMAND}", "{IND_COMMANDS}"]] := by decide +kernel
example : ifShown (exOther (exOpen small) (exElse ind)) = some [["{SMALL_COMMAND}", "{IND_COMMANDS}"]] := by decide +kernel
example : ifShown (exClosed "return 1" "return 2") = some [] := by decide +kernel
example : ifShown (exClosed "let _x_ be 1" "let _x_ be 2") = some [] := by decide +kernel
example : ifShown (exClosed "let _x_ be 1" "let _y_ be 2") = some [["not the same"]] := by decide +kernel
example : ifShown (exClosed "set _x_y_ to 1" "set _x_y_ to 2") = some [] := by decide +kernel
example : ifShown (exClosed "set __ to 1" "set __ to 2") = some [["not the same"]] := by decide +kernel
example : ifShown (exClosed "return true" "set _x_ to 2") = some [["not the same"]] := by decide +kernel
example : ifShown (exClosed "return" "return 2") = some [["not the same"]] := by decide +kernel
example : ifShown (exOther (exOpen (lf "{COMMAND}" "")) exNone) = none := by decide +kernel

def exAlg : Alg := ⟨"Foo", [[none, some (.node "{COMMANDS}" "x" "" [exOther (exOpen small) (exElse ind), exClosed "return 1" "let _y_ be 2"])], []]⟩
def exAlg2 : Alg := ⟨"Bar", [[some (exOther (exOpen ind) (exElse small))]]⟩

/-- The messages come in the order of names. -/
example : (checkIfs exW [exAlg, exAlg2] []).map (List.map (fun m => match m with
    | .unbalanced _ ks => ks
    | .notSame _ => ["not the same"])) =
    some [["{IND_COMMANDS}", "{SMALL_COMMAND}"], ["{SMALL_COMMAND}", "{IND_COMMANDS}"], ["not the same"]] := by decide +kernel
example : ([exAlg, exAlg2].map (·.name)).Nodup := by decide
example : IfOk (exOther (exOpen ind) (exElseIf small (exElse ind))) := .other (Or.inl rfl) (.elseif (Or.inr rfl) (.last (Or.inl rfl)))

def vd (r : String) : RNode := .node "{VAL_DESC}" r r []
def exVd (pre : String) (gl gr : String) (ds : List String) : RNode :=
  .node gl gr "" [.node "{VALUE_DESCRIPTION}" (pre ++ "{VAL_DESC_DISJUNCTION}") "" [.node "{VAL_DESC_DISJUNCTION}" "x" "" (ds.map vd)]]
def exProse (pre : String) (ds : List String) : RNode := exVd pre "{CONDITION_1}" "{EX} is {VALUE_DESCRIPTION}" ds
def exDecl (pre : String) (ds : List String) : RNode := exVd pre "{PARAMETER_DECL}" "x" ds

def vdShown (t : RNode) : Option (List (String × String)) := (checkVds (· == ' ') (.node none [.node (some t) [], .node none []])).map (List.map (fun m => match m with
  | .order _ s => ("order", s)
  | .pre _ s i => (s, i)))

example : vdShown (exProse "either " ["a String", "{LITERAL}"]) = some [] := by decide +kernel
example : vdShown (exProse "either " ["{LITERAL}", "a String"]) = some [("order", "SM")] := by decide +kernel
example : vdShown (exProse "" ["{LITERAL}", "a String"]) = some [("order", "SM"), ("either", "")] := by decide +kernel
example : vdShown (exProse "one of " ["{LITERAL}", "-1", "{LITERAL}"]) = some [] := by decide +kernel
example : vdShown (exProse "either " ["{LITERAL}", "-1", "{LITERAL}"]) = some [("one of", "either")] := by decide +kernel
example : vdShown (exProse "one of " ["{LITERAL}", "-1"]) = some [("either", "one of")] := by decide +kernel
example : vdShown (exProse "one of " ["any value", "{LITERAL}", "-1"]) = some [("either", "one of")] := by decide +kernel
example : vdShown (exDecl "" ["a String", "{LITERAL}"]) = some [] := by decide +kernel
example : vdShown (exDecl "either " ["a String", "{LITERAL}"]) = some [("", "either")] := by decide +kernel
example : vdShown (exDecl "" ["a normal completion containing {VALUE_DESCRIPTION}", "a throw completion"]) = some [("either", "")] := by decide +kernel
example : vdShown (exVd "" "{VAL_DESC}" "a Record with fields {dsb_word} ({VALUE_DESCRIPTION})" ["a String", "{LITERAL}"]) = some [] := by decide +kernel
example : vdShown (exVd "" "{EXPR}" "x" ["a String", "{LITERAL}"]) = none := by decide +kernel
example : vdShown (exProse "" ["something else", "{LITERAL}"]) = none := by decide +kernel
example : vdShown (.node "{VAL_DESC_DISJUNCTION}" "x" "" []) = none := by decide +kernel

end Verif.Style
