import Verif.Annot.TreeLemmas
/-!
# C60: which operations the steps of an algorithm invoke, and which elements they embed
-/
namespace Verif.Annot
open Deps (Before)

/-- C60: the annotation of a node: the operations with the arguments exactly for an invocation, nothing exactly for a node that is none. -/
theorem c60_names (d : RNode) :
    (∀ ns args, note d = some (some (ns, args)) ↔ Invokes d ns args) ∧ (note d = some none ↔ Silent d) :=
  ⟨note_iff d, note_none_iff d⟩

/-- C60: a node is not taken in two ways. -/
theorem c60_one_reading {d : RNode} {ns ns' : List String} {args args' : List RNode} (h : Invokes d ns args) :
    ¬ Silent d ∧ (Invokes d ns' args' → ns' = ns ∧ args' = args) := by
  rw [← note_iff] at h
  constructor
  · rw [← note_none_iff, h]; simp
  · rw [← note_iff, h]
    intro h'
    simp only [Option.some_inj, Prod.mk.injEq] at h'
    exact ⟨h'.1.symm, h'.2.symm⟩

/-- C60: which element a node is connected to. -/
theorem c60_connect (h : HNode) (t : RNode) (m : List (List Nat × HNode)) :
    connect h t = some m ↔ ∃ hs as, Elements h hs ∧ Nodes t as ∧ Correspond hs as ∧
      m.map (·.1) = as.map (·.1) ∧ m.map (·.2) = hs.map (·.2) := by
  have hl : ∀ (hs : List (List Nat × HNode)) (as : List (List Nat × RNode)), hs.length = as.length →
      (link hs as).map (·.1) = as.map (·.1) ∧ (link hs as).map (·.2) = hs.map (·.2) := by
    intro hs as hl
    simp only [link, List.map_map, Function.comp_def]
    have h2 := List.map_snd_zip (l₁ := hs) (l₂ := as) (by omega)
    have h1 := List.map_fst_zip (l₁ := hs) (l₂ := as) (by omega)
    constructor
    · conv => rhs; rw [← h2]
      rw [List.map_map]; rfl
    · conv => rhs; rw [← h1]
      rw [List.map_map]; rfl
  rw [connect_iff]
  constructor
  · rintro ⟨hc, rfl⟩
    exact ⟨_, _, elems_spec h, nodes_spec t, hc, (hl _ _ hc.1).1, (hl _ _ hc.1).2⟩
  · rintro ⟨hs, as, h1, h2, h3, h4, h5⟩
    obtain rfl := elems_unique h1 (elems_spec h)
    obtain rfl := nodes_unique h2 (nodes_spec t)
    refine ⟨h3, ?_⟩
    have hz : ∀ l l' : List (List Nat × HNode), l.map (·.1) = l'.map (·.1) → l.map (·.2) = l'.map (·.2) → l = l' := by
      intro l
      induction l with
      | nil => intro l' h _; cases l' with
        | nil => rfl
        | cons _ _ => simp at h
      | cons a l ih =>
        intro l' h h'
        cases l' with
        | nil => simp at h
        | cons b l' =>
          simp only [List.map_cons, List.cons.injEq] at h h'
          rw [ih l' h.2 h'.2]
          congr 1
          exact Prod.ext h.1 h'.1
    exact hz _ _ (h4.trans (hl _ _ h3.1).1.symm) (h5.trans (hl _ _ h3.1).2.symm)

/-- Trees with the same nodes at the places of `t` are equal. -/
theorem tree_ext : ∀ (t : RNode) (P : List Nat → RNode → Deps.ANode → Prop)
    (_ : ∀ p d d1 d2, P p d d1 → P p d d2 → d1.attr = d2.attr ∧ d1.emb = d2.emb ∧ d1.kids.length = d.kids.length ∧ d2.kids.length = d.kids.length)
    (t1 t2 : Deps.ANode), (∀ p d, RAt t p d → ∃ d', KidAt t1 p d' ∧ P p d d') → (∀ p d, RAt t p d → ∃ d', KidAt t2 p d' ∧ P p d d') → t1 = t2
  | .node l r x ks, P, hP, .node a1 ks1 e1, .node a2 ks2 e2, h1, h2 => by
    obtain ⟨d1, k1, p1⟩ := h1 [] _ .here
    obtain ⟨d2, k2, p2⟩ := h2 [] _ .here
    cases k1
    cases k2
    obtain ⟨ha, he, hl1, hl2⟩ := hP _ _ _ _ p1 p2
    simp only [Deps.ANode.attr, Deps.ANode.emb, Deps.ANode.kids, RNode.kids] at ha he hl1 hl2
    subst ha he
    congr 1
    apply List.ext_getElem?
    intro i
    by_cases hi : i < ks.length
    · have hk : ks[i]? = some ks[i] := List.getElem?_eq_getElem hi
      have hk1 : ks1[i]? = some ks1[i] := List.getElem?_eq_getElem (by omega)
      have hk2 : ks2[i]? = some ks2[i] := List.getElem?_eq_getElem (by omega)
      have down : ∀ (kk : List Deps.ANode) (k' : Deps.ANode) a e, kk[i]? = some k' → (∀ p d, RAt (.node l r x ks) p d → ∃ d', KidAt (.node a kk e) p d' ∧ P p d d') →
          ∀ p d, RAt ks[i] p d → ∃ d', KidAt k' p d' ∧ P ((i + 1) :: p) d d' := by
        intro kk k' a e hkk H p d hp
        obtain ⟨d', h, h'⟩ := H _ _ (.kid hk hp)
        cases h with
        | kid h3 h4 => rw [hkk] at h3; cases h3; exact ⟨d', h4, h'⟩
      have hlt := List.sizeOf_lt_of_mem (List.getElem_mem hi)
      rw [hk1, hk2, tree_ext ks[i] (fun p => P ((i + 1) :: p)) (fun p d d1 d2 => hP _ d d1 d2) ks1[i] ks2[i] (down ks1 _ _ _ hk1 h1) (down ks2 _ _ _ hk2 h2)]
    · rw [List.getElem?_eq_none (by omega), List.getElem?_eq_none (by omega)]
termination_by t => sizeOf t
decreasing_by simp; omega

/-- C60: the annotation determines the tree. -/
theorem c60_unique {hs as} {t : RNode} {t1 t2 : Deps.ANode} (h1 : Annotated hs as t t1) (h2 : Annotated hs as t t2) : t1 = t2 := by
  refine tree_ext t (fun p d d' => d'.attr.lhs = d.lhs ∧ d'.attr.rhs = d.rhs ∧ d'.attr.text = d.text ∧ d'.kids.length = d.kids.length ∧
    (∀ ns, d'.attr.names = some ns ↔ ∃ args, Invokes d ns args) ∧
    ∀ e, d'.emb = some e ↔ ∃ (k : Nat) (q : List Nat) (h : HNode), hs[k]? = some (q, h) ∧ as[k]? = some (p, d) ∧ h.tree = some e) ?_ t1 t2 h1.same h2.same
  rintro p d ⟨a1, k1, e1⟩ ⟨a2, k2, e2⟩ ⟨b1, b2, b3, b4, b5, b6⟩ ⟨c1, c2, c3, c4, c5, c6⟩
  refine ⟨?_, Option.ext (fun e => (b6 e).trans (c6 e).symm), b4, c4⟩
  have hn : a1.names = a2.names := Option.ext (fun ns => (b5 ns).trans (c5 ns).symm)
  simp only [Deps.ANode.attr] at b1 b2 b3 c1 c2 c3 ⊢
  cases a1; cases a2
  simp only at b1 b2 b3 c1 c2 c3 hn
  subst b1 b2 b3 hn
  rw [c1, c2, c3]

/-- C60: when the tree is annotated, and how. -/
theorem c60_process (h : HNode) (t : RNode) (t' : Deps.ANode) : process h t = some t' ↔
    ∃ hs as, Elements h hs ∧ Nodes t as ∧ Correspond hs as ∧ (∀ p d, RAt t p d → Silent d ∨ ∃ ns args, Invokes d ns args) ∧ Annotated hs as t t' := by
  have key : ∀ t1, build (link (elems h) (nodes t)) [] t = some t1 → (∀ p d, RAt t p d → Silent d ∨ ∃ ns args, Invokes d ns args) ∧
      Annotated (elems h) (nodes t) t t1 := by
    intro t1 ht
    have H := build_at _ t [] t1 ht
    constructor
    · intro p d hp
      obtain ⟨_, _, _, _, _, _, ⟨x, hx, _⟩, _⟩ := H p d hp
      exact (note_fail_iff d).1 (by rw [hx]; simp)
    · refine ⟨fun p d hp => ?_⟩
      obtain ⟨d', hd, h1, h2, h3, h4, ⟨x, hx, h5⟩, h6⟩ := H p d hp
      refine ⟨d', hd, h1, h2, h3, h4, fun ns => ?_, fun e => ?_⟩
      · rw [h5]
        cases x with
        | none =>
          simp only [Option.map_none]
          refine ⟨fun h => (by cases h), ?_⟩
          rintro ⟨args, hi⟩
          rw [invokes_note hi] at hx; cases hx
        | some n =>
          simp only [Option.map_some, Option.some_inj]
          constructor
          · rintro rfl; exact ⟨n.2, (note_iff d n.1 n.2).1 hx⟩
          · rintro ⟨args, hi⟩
            rw [invokes_note hi] at hx; cases hx; rfl
      · rw [h6, List.nil_append, Option.bind_eq_some_iff]
        have hs := link_sorted (elems h) (nodes t) (nodes_spec t).1
        constructor
        · rintro ⟨y, hy, he⟩
          rw [mem_lookup_place _ _ _ hs, mem_link] at hy
          obtain ⟨k, q, d0, hk1, hk2⟩ := hy
          have hd0 := ((nodes_spec t).2 p d0).1 (List.mem_of_getElem? hk2)
          have : d0 = d := by
            have hw := (rWalk_listing t).2
            have e1 := (mem_lookup_place _ p d0 (rWalk_listing t).1).2 ((hw p d0).2 hd0.1)
            have e2 := (mem_lookup_place _ p d (rWalk_listing t).1).2 ((hw p d).2 hp)
            rw [e1] at e2; exact Option.some_inj.1 e2
          subst this
          exact ⟨k, q, y, hk1, hk2, he⟩
        · rintro ⟨k, q, y, hk1, hk2, he⟩
          exact ⟨y, (mem_lookup_place _ _ _ hs).2 ((mem_link _ _ _ _).2 ⟨k, q, d, hk1, hk2⟩), he⟩
  simp only [process, Option.bind_eq_bind, Option.bind_eq_some_iff]
  constructor
  · rintro ⟨m, hm, ht⟩
    rw [connect_iff] at hm
    obtain ⟨hc, rfl⟩ := hm
    exact ⟨_, _, elems_spec h, nodes_spec t, hc, key t' ht⟩
  · rintro ⟨hs, as, h1, h2, h3, h4, h5⟩
    obtain rfl := elems_unique h1 (elems_spec h)
    obtain rfl := nodes_unique h2 (nodes_spec t)
    refine ⟨_, (connect_iff h t _).2 ⟨h3, rfl⟩, ?_⟩
    obtain ⟨t1, ht1⟩ := build_some (link (elems h) (nodes t)) t [] (fun q d hd => (note_fail_iff d).2 (h4 q d hd))
    rw [ht1, c60_unique (key t1 ht1).2 h5]

/-- C60: annotation completes exactly if the elements and the nodes correspond, and every node has a known form. -/
theorem c60_completes (h : HNode) (t : RNode) : process h t ≠ none ↔
    ∃ hs as, Elements h hs ∧ Nodes t as ∧ Correspond hs as ∧ ∀ p d, RAt t p d → Silent d ∨ ∃ ns args, Invokes d ns args := by
  constructor
  · intro hp
    cases ht : process h t with
    | none => exact absurd ht hp
    | some t' =>
      obtain ⟨hs, as, h1, h2, h3, h4, _⟩ := (c60_process h t t').1 ht
      exact ⟨hs, as, h1, h2, h3, h4⟩
  · rintro ⟨hs, as, h1, h2, h3, h4⟩ hp
    obtain rfl := elems_unique h1 (elems_spec h)
    obtain rfl := nodes_unique h2 (nodes_spec t)
    obtain ⟨t1, ht1⟩ := build_some (link (elems h) (nodes t)) t [] (fun q d hd => (note_fail_iff d).2 (h4 q d hd))
    have : process h t = some t1 := by
      simp only [process, (connect_iff h t _).2 ⟨h3, rfl⟩]; exact ht1
    rw [hp] at this; cases this

/-- An invocation does not stand for an element. -/
theorem invokes_lhs {d : RNode} {ns : List String} {args : List RNode} (h : Invokes d ns args) (s : String) : ¬ Match s d.lhs := by
  have no : ∀ (l r x : String), l ++ " : " ++ r = x → (∃ c cs, x.toList = '{' :: c :: cs ∧ c ≠ 'h') → ¬ Match s l := by
    rintro l r x rfl ⟨c, cs, hx, hc⟩ hm
    have hl : ∃ cs', l.toList = '{' :: 'h' :: cs' := by cases hm <;> exact ⟨_, rfl⟩
    obtain ⟨cs', hl⟩ := hl
    rw [String.toList_append, String.toList_append, hl] at hx
    simp only [List.cons_append, List.cons.injEq, true_and] at hx
    exact hc hx.1.symm
  have no2 : ∀ (l : String), (∃ c cs, l.toList = '{' :: c :: cs ∧ c ≠ 'h') → ¬ Match s l := by
    rintro l ⟨c, cs, hx, hc⟩ hm
    have hl : ∃ cs', l.toList = '{' :: 'h' :: cs' := by cases hm <;> exact ⟨_, rfl⟩
    obtain ⟨cs', hl⟩ := hl
    rw [hl] at hx
    simp only [List.cons.injEq, true_and] at hx
    exact hc hx.1.symm
  cases h with
  | inline => exact no2 "{NAMED_OPERATION_INVOCATION}" ⟨_, _, rfl, by decide⟩
  | of => exact no2 "{NAMED_OPERATION_INVOCATION}" ⟨_, _, rfl, by decide⟩
  | ofWith => exact no2 "{NAMED_OPERATION_INVOCATION}" ⟨_, _, rfl, by decide⟩
  | job => exact no2 "{NAMED_OPERATION_INVOCATION}" ⟨_, _, rfl, by decide⟩
  | charSet => exact no2 "{NAMED_OPERATION_INVOCATION}" ⟨_, _, rfl, by decide⟩
  | contains => exact no2 "{NAMED_OPERATION_INVOCATION}" ⟨_, _, rfl, by decide⟩
  | paren => exact no2 "{PREFIX_PAREN}" ⟨_, _, rfl, by decide⟩
  | race _ _ h => exact no _ _ _ h ⟨_, _, rfl, by decide⟩
  | fields _ _ h => exact no _ _ _ h ⟨_, _, rfl, by decide⟩
  | abrupt _ _ h => exact no _ _ _ h ⟨_, _, rfl, by decide⟩

/-- No invocation embeds a tree, in the tree or in the trees embedded in it. -/
def Plain (t : Deps.ANode) : Prop := ∀ p d, Deps.At t p d → d.attr.names ≠ none → d.emb = none

/-- A place of the annotated tree is a place of the tree. -/
theorem kid_place {t : RNode} {t' : Deps.ANode} (hl : ∀ p d, RAt t p d → ∃ d', KidAt t' p d' ∧ d'.kids.length = d.kids.length) {p : List Nat} {d' : Deps.ANode}
    (h : KidAt t' p d') : ∃ d, RAt t p d := by
  induction h generalizing t with
  | here => exact ⟨t, .here⟩
  | @kid a e i k p d ks h1 _ ih =>
    obtain ⟨l, r, x, kk⟩ := t
    obtain ⟨d0, h3, h4⟩ := hl [] _ .here
    cases h3
    simp only [Deps.ANode.kids, RNode.kids] at h4
    have hi : i < kk.length := by rw [← h4]; exact (List.getElem?_eq_some_iff.1 h1).1
    have hk : kk[i]? = some kk[i] := List.getElem?_eq_getElem hi
    obtain ⟨d1, hd⟩ := ih (t := kk[i]) (fun p d hp => by
      obtain ⟨d', h5, h6⟩ := hl _ _ (.kid hk hp)
      cases h5 with
      | kid h7 h8 => rw [h1] at h7; cases h7; exact ⟨d', h8, h6⟩)
    exact ⟨d1, .kid hk hd⟩

/-- C60: an annotated tree is one that the report of C59 is about: no invocation embeds an algorithm. -/
theorem c60_plain {h : HNode} {t : RNode} {t' : Deps.ANode} (hp : process h t = some t') (he : ∀ p x e, HAt h p x → x.tree = some e → Plain e) : Plain t' := by
  obtain ⟨hs, as, h1, h2, _, _, h5⟩ := (c60_process h t t').1 hp
  have main : ∀ (u : Deps.ANode) p d, Deps.At u p d →
      (∀ q v, KidAt u q v → (v.attr.names ≠ none → v.emb = none) ∧ ∀ e, v.emb = some e → Plain e) → d.attr.names ≠ none → d.emb = none := by
    intro u p d hd
    induction hd with
    | here => intro H; exact (H [] _ .here).1
    | kid h3 _ ih => intro H; exact ih (fun q v hv => H _ v (.kid h3 hv))
    | emb h3 h4 _ =>
      intro H
      exact (H [] _ .here).2 _ rfl _ _ h4
  intro p d hd
  refine main t' p d hd (fun q v hv => ?_)
  obtain ⟨d0, hd0⟩ := kid_place (fun p d hp => by
    obtain ⟨d', k1, _, _, _, k2, _⟩ := h5.same p d hp
    exact ⟨d', k1, k2⟩) hv
  obtain ⟨v', hv', _, _, _, _, hn, hm⟩ := h5.same q d0 hd0
  obtain rfl := kidAt_unique hv hv'
  constructor
  · intro hnn
    cases hx : v.attr.names with
    | none => exact absurd hx hnn
    | some ns =>
      obtain ⟨args, hi⟩ := (hn ns).1 hx
      cases hemb : v.emb with
      | none => rfl
      | some e =>
        obtain ⟨k, q', y, _, hk2, _⟩ := (hm e).1 hemb
        obtain ⟨_, _, s, hs⟩ := (h2.2 q d0).1 (List.mem_of_getElem? hk2)
        exact absurd hs (invokes_lhs hi s)
  · intro e hemb
    obtain ⟨k, q', y, hk1, _, hy⟩ := (hm e).1 hemb
    exact he q' y e ((h1.2 q' y).1 (List.mem_of_getElem? hk1)).1 hy

/-! ### Cases -/

def lf (l t : String) : RNode := .node l "x" t []
/-- `Foo(_a_, _b_)` -/
def exCall : RNode := .node "{PREFIX_PAREN}" "{OPN_BEFORE_PAREN}({EXLIST_OPT})" "Foo(_a_, _b_)"
  [.node "{OPN_BEFORE_PAREN}" "{SIMPLE_OPERATION_NAME}" "Foo" [lf "{SIMPLE_OPERATION_NAME}" "Foo"],
   .node "{EXLIST_OPT}" "{EXLIST}" "_a_, _b_" [.node "{EXLIST}" "{EXLIST}, {EX}" "_a_, _b_" [.node "{EXLIST}" "{EX}" "_a_" [lf "{EX}" "_a_"], lf "{EX}" "_b_"]]]
/-- `the BoundNames of |X|` -/
def exOf : RNode := .node "{NAMED_OPERATION_INVOCATION}" "the {cap_word} of {LOCAL_REF}" "the BoundNames of |X|" [lf "{cap_word}" "BoundNames", lf "{LOCAL_REF}" "|X|"]
/-- `TV of |X| with argument _y_` -/
def exWith (r : String) : RNode := .node "{NAMED_OPERATION_INVOCATION}" "{cap_word} of {LOCAL_REF} {WITH_ARGS}" "TV of |X| with argument _y_"
  [lf "{cap_word}" "TV", lf "{LOCAL_REF}" "|X|", .node "{WITH_ARGS}" r "with argument _y_" [lf "{EX}" "_y_", lf "{EX}" "_z_"]]
def exClosure (v : String) : RNode := .node "{PREFIX_PAREN}" "{OPN_BEFORE_PAREN}({EXLIST_OPT})" (v ++ "()")
  [.node "{OPN_BEFORE_PAREN}" "{var}" v [lf "{var}" v], .node "{EXLIST_OPT}" "{EPSILON}" "" []]
def exDotting (f : String) : RNode := .node "{PREFIX_PAREN}" "{OPN_BEFORE_PAREN}({EXPR})" (f ++ "(1)")
  [.node "{OPN_BEFORE_PAREN}" "{DOTTING}" f [.node "{DOTTING}" "{EX}.{DSBN}" f [lf "{EX}" "_o_", lf "{DSBN}" f]], lf "{EXPR}" "1"]

/-- The algorithm of an element in the other algorithm. -/
def exInner : Deps.ANode := .node ⟨"{EMU_ALG_BODY}", "x", "inner", none⟩ [] none
def exH : HNode := .node "emu-alg" none [.node "var" none [.node "emu-alg" (some exInner) []], .node "emu-xref" none [], .node "a" none []]
def exT : RNode := .node "{EMU_ALG_BODY}" "{COMMANDS}" "..." [exCall, .node "{COMMAND}" "x" "..." [lf "{h_emu_alg}" "<emu-alg>"], exOf, lf "{h_a}" "<a>"]

theorem exCall_invokes : Invokes exCall ["Foo"] [lf "{EX}" "_a_", lf "{EX}" "_b_"] :=
  .paren (o' := .node "{OPN_BEFORE_PAREN}" "{SIMPLE_OPERATION_NAME}" "Foo" [lf "{SIMPLE_OPERATION_NAME}" "Foo"]) (Or.inl rfl) (.plain (by decide)) .simple
    (.list (.more .one))

/-- What is annotated, in a form that can be compared. -/
def shown (d : RNode) : Option (Option (List String × List String)) := (note d).map (Option.map (fun n => (n.1, n.2.map RNode.text)))

example : shown exCall = some (some (["Foo"], ["_a_", "_b_"])) := by decide +kernel
example : shown exOf = some (some (["BoundNames"], ["|X|"])) := by decide +kernel
example : shown (exWith "with arguments {EX} and {EX}") = some (some (["TV"], ["|X|", "_y_", "_z_"])) := by decide +kernel
example : shown (exWith "{PASSING} {EX}") = some (some (["TV"], ["|X|", "_z_"])) := by decide +kernel
example : shown (exClosure "_c_") = some none := by decide +kernel
example : shown (exClosure "_conversionOperation_") =
    some (some (["ToInt8", "ToUint8", "ToUint8Clamp", "ToInt16", "ToUint16", "ToInt32", "ToUint32", "ToBigInt64", "ToBigUint64"], [])) := by decide +kernel
example : shown (exClosure "_operation_") = none := by decide +kernel
example : shown (exDotting "[[Get]]") = some (some (["[[Get]]"], ["1"])) := by decide +kernel
example : shown (exDotting "[[ModifyOp]]") = some (some ([], ["1"])) := by decide +kernel
example : shown (.node "{NAMED_OPERATION_INVOCATION}" "{PREFIX_PAREN}" "Foo(_a_, _b_)" [exCall]) = some none := by decide +kernel
example : shown (.node "{NAMED_OPERATION_INVOCATION}" "{LOCAL_REF} Contains {var}" "|X| Contains _y_" [lf "{LOCAL_REF}" "|X|", lf "{var}" "_y_"]) =
    some (some (["Contains"], ["|X|", "_y_"])) := by decide +kernel
example : shown (.node "{NAMED_OPERATION_INVOCATION}" "something else" "" []) = none := by decide +kernel
example : shown (.node "{COMMAND}" "IfAbruptRejectPromise({var}, {var})." "" [lf "{var}" "_v_", lf "{var}" "_p_"]) =
    some (some (["IfAbruptRejectPromise"], ["_v_", "_p_"])) := by decide +kernel

/-- The example is annotated: the second element in the text goes to the second node, and the link is not connected to what is not in the list. -/
example : (process exH exT).isSome = true := by decide +kernel
example : (process exH exT).map (fun t => t.kids.map (fun k => k.attr.names)) = some [some ["Foo"], none, some ["BoundNames"], none] := by decide +kernel
example : (process exH exT).map (fun t => t.kids.map (fun k => k.kids.map (fun x => x.emb.map (fun e => e.attr.text)))) =
    some [[none, none], [some "inner"], [none, none], []] := by decide +kernel
example : (connect exH exT).map (List.map (fun x => (x.1, x.2.name))) = some [([2, 1], "emu-alg"), ([4], "a")] := by decide +kernel
/-- With the elements in the other order, an assert fails. -/
example : (connect (.node "emu-alg" none [.node "a" none [], .node "emu-alg" (some exInner) []]) exT).isSome = false := by decide +kernel
/-- The hypotheses of `c60_plain` hold. -/
example : ∃ t', process exH exT = some t' ∧ Plain t' := by
  cases h : process exH exT with
  | none => exact absurd (congrArg Option.isSome h) (by decide +kernel)
  | some t' =>
    refine ⟨t', rfl, c60_plain h ?_⟩
    have hi : Plain exInner := by
      intro p d hd hn
      cases hd with
      | here => rfl
      | kid h1 _ => simp at h1
    have all : ∀ e ∈ hWalk exH, ∀ x, e.2.tree = some x → x = exInner := by
      intro e he x hx
      simp only [hWalk, hWalks, exH, List.map_cons, List.map_nil, List.cons_append, List.nil_append, List.append_nil, List.mem_cons, List.not_mem_nil, or_false] at he
      rcases he with rfl | rfl | rfl | rfl | rfl <;> simp [HNode.tree] at hx
      exact hx.symm
    intro p x e hx he
    rw [all (p, x) (((hWalk_listing exH).2 p x).2 hx) e he]
    exact hi

end Verif.Annot
