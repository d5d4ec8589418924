import Verif.Dl.SayLemmas
/-! # C83: the list in a structured header, and what is checked of the description in it -/
namespace Verif.Dl
open Verif.Kinds.Spec (Line)
open Verif.Preambles (sentences splits_iff)
open Verif.Util (HNode)
open Spec

/-- The list is accepted if and only if terms and descriptions come in turn, and the terms are known and different; then its entries are all kept, in order. -/
theorem c83_entries (dl : List HNode) (es : List (Str × Str)) : dict dl = some es ↔ Entries dl es := dict_iff

/-- The variables that are found are the words with an underscore at both ends and something between, in order. -/
theorem c83_variables (s : Str) (vs : List Str) : vars s = vs ↔ Vars s vs := vars_iff

/-- Only the first variable in the text of `for` counts as a parameter. -/
theorem c83_params (params : List Str) (f : Option Str) (v : Str) : v ∈ names params f ↔ Param params f v := names_iff

/-- What is said to be returned is what follows the last `returns` or `returning` that has something on both sides. -/
theorem c83_returns (s a b : Str) : returning s = some (a, b) ↔ Returns s a b := returning_iff

theorem c83_no_returns (s : Str) : returning s = none ↔ ∀ a b, ¬ Parts s a b := by
  refine ⟨returning_none, ?_⟩
  intro h
  cases e : returning s with
  | none => rfl
  | some x => exact absurd (returning_some e).1 (h _ _)

/-- The answer whether a type is part of the return type is right if there is one, and there is one if all forms in the return type are foreseen; the answer no needs all of it to be foreseen. -/
theorem c83_offers (n : Str) (ret : Vd) : (sub n ret = some true → Offers n ret) ∧ (sub n ret = some false → Foreseen ret ∧ ¬ Offers n ret) ∧ (Foreseen ret → sub n ret ≠ none) := sub_spec n ret

theorem header_eq {op : String} {params : List Str} {ret : Vd} {dl : List HNode} {es : List (Str × Str)} (hd : dict dl = some es) :
    header op params ret dl = if (get "effects" es).any (· != "user-code".toList) then none
      else match get "description" es with
        | none => some (get "for" es, [])
        | some t => (checkAll op (names params (get "for" es)) ret (sentences (some false) t)).map fun ms => (get "for" es, ms) := by
  rw [header, hd]
  rfl

/-- Whatever comes of a header is right: the text of `for`, and the messages sentence by sentence. -/
theorem c83_sound (op : String) (params : List Str) (ret : Vd) (dl : List HNode) (f : Option Str) (ms : List Msg)
    (h : header op params ret dl = some (f, ms)) : Header op params ret dl f ms := by
  cases hd : dict dl with
  | none => rw [header, hd] at h; cases h
  | some es =>
    rw [header_eq hd] at h
    have he := dict_iff.mp hd
    have hn := he.2.2
    by_cases hx : (get "effects" es).any (· != "user-code".toList) = true
    · rw [if_pos hx] at h; cases h
    · rw [if_neg hx] at h
      have hf : f = get "for" es := by
        split at h
        · simp only [Option.some.injEq, Prod.mk.injEq] at h; exact h.1.symm
        · obtain ⟨x, _, hx⟩ := Option.map_eq_some_iff.mp h
          simp only [Prod.mk.injEq] at hx; exact hx.1.symm
      refine ⟨es, he, ?_, ?_, ?_, ?_⟩
      · intro t; rw [hf]; exact get_iff hn
      · intro t ht
        rw [(get_iff (k := "effects") hn).mpr ht] at hx
        simpa using hx
      · intro hno
        rw [(get_none hn).mpr hno] at h
        simp only [Option.some.injEq, Prod.mk.injEq] at h
        exact h.2.symm
      · intro t ht
        rw [(get_iff (k := "description") hn).mpr ht] at h
        obtain ⟨x, hc, hx⟩ := Option.map_eq_some_iff.mp h
        simp only [Prod.mk.injEq] at hx
        obtain ⟨rfl, rfl⟩ := hx
        exact ⟨_, splits_iff.mpr rfl, saysAll_of hc⟩

theorem header_unique {op : String} {params : List Str} {ret : Vd} {dl : List HNode} {f g : Option Str} {ms ns : List Msg}
    (h : Header op params ret dl f ms) (h' : Header op params ret dl g ns) : f = g ∧ ms = ns := by
  obtain ⟨es, h1, h2, _, h4, h5⟩ := h
  obtain ⟨es', h1', h2', _, h4', h5'⟩ := h'
  have e : es = es' := Option.some.inj ((dict_iff.mpr h1).symm.trans (dict_iff.mpr h1'))
  subst e
  have hf : f = g := by
    cases f with
    | none =>
      cases g with
      | none => rfl
      | some t => exact absurd ((h2 t).mpr ((h2' t).mp rfl)) (by simp)
    | some t => exact ((h2' t).mpr ((h2 t).mp rfl)).symm
  subst hf
  refine ⟨rfl, ?_⟩
  by_cases hd : ∃ t, ("description".toList, t) ∈ es
  · obtain ⟨t, ht⟩ := hd
    obtain ⟨ss, s1, s2⟩ := h5 t ht
    obtain ⟨ss', s1', s2'⟩ := h5' t ht
    have : ss = ss' := (splits_iff.mp s1).symm.trans (splits_iff.mp s1')
    subst this
    exact saysAll_unique s2 s2'
  · have hd' : ∀ t, ("description".toList, t) ∉ es := fun t ht => hd ⟨t, ht⟩
    rw [h4 hd', h4' hd']

/-- If all forms in the return type are foreseen, every correct header is accepted, and gives just what it should. -/
theorem c83_header (op : String) (params : List Str) (ret : Vd) (hr : Foreseen ret) (dl : List HNode) (f : Option Str) (ms : List Msg) :
    header op params ret dl = some (f, ms) ↔ Header op params ret dl f ms := by
  refine ⟨c83_sound _ _ _ _ _ _, ?_⟩
  intro h
  have h' := h
  obtain ⟨es, h1, _, h3, _⟩ := h'
  have hd := dict_iff.mpr h1
  have hn := h1.2.2
  have hx : ¬ (get "effects" es).any (· != "user-code".toList) = true := by
    cases e : get "effects" es with
    | none => simp
    | some t => rw [h3 t ((get_iff hn).mp e)]; simp
  have hs : ∃ r, header op params ret dl = some r := by
    rw [header_eq hd, if_neg hx]
    split
    · exact ⟨_, rfl⟩
    · rename_i t _
      cases e : checkAll op (names params (get "for" es)) ret (sentences (some false) t) with
      | none => exact absurd e (all_total hr _)
      | some x => exact ⟨_, rfl⟩
  obtain ⟨⟨g, ns⟩, hs⟩ := hs
  obtain ⟨e1, e2⟩ := header_unique h (c83_sound _ _ _ _ _ _ hs)
  rw [hs, e1, e2]

/-- A list that is not correct, or that names other effects, is not accepted. -/
theorem c83_stops (op : String) (params : List Str) (ret : Vd) (dl : List HNode)
    (h : ∀ es, Entries dl es → ∃ t, ("effects".toList, t) ∈ es ∧ t ≠ "user-code".toList) : header op params ret dl = none := by
  cases e : header op params ret dl with
  | none => rfl
  | some x =>
    obtain ⟨f, ms⟩ := x
    obtain ⟨es, h1, _, h3, _⟩ := c83_sound _ _ _ _ _ _ e
    obtain ⟨t, ht, hn⟩ := h es h1
    exact absurd (h3 t ht) hn

/-- In the sentences that are excepted, variables are not looked at either. -/
theorem c83_excepted (op : String) (params : List Str) (ret : Vd) (s a b : Str) (hr : Returns s a b) (he : Excepted a) : checkSentence op params ret s = some [] := by
  unfold checkSentence
  rw [returning_iff.mpr hr]
  simp only
  rw [if_pos (excepted_iff.mpr he)]

/-! ## Examples -/

def exNode (n t : String) : HNode := ⟨n, t.toList, 0⟩

/-- A return type: either a normal completion containing a Boolean or a throw completion. -/
def exRet : Vd := .node "{VALUE_DESCRIPTION} : either {VAL_DESC_DISJUNCTION}"
  [.node "{VAL_DESC_DISJUNCTION} : {VAL_DESC} or {VAL_DESC}"
    [.node "{VAL_DESC} : a normal completion containing {VALUE_DESCRIPTION}"
      [.node "{VALUE_DESCRIPTION} : {VAL_DESC}" [.node "{VAL_DESC} : a Boolean" [] "a Boolean".toList] "a Boolean".toList] "a normal completion containing a Boolean".toList,
     .node "{VAL_DESC} : a throw completion" [] "a throw completion".toList]
    "a normal completion containing a Boolean or a throw completion".toList]
  "either a normal completion containing a Boolean or a throw completion".toList

theorem exForeseen : Foreseen exRet := by
  refine .alternatives (.inl rfl) ?_
  simp only [List.mem_cons, List.not_mem_nil, or_false, forall_eq_or_imp, forall_eq]
  exact ⟨.through (.inr rfl) (.through (.inl rfl) (.whole (by simp [Disj]) (by simp [Through]) (.inl rfl))),
    .whole (by simp [Disj]) (by simp [Through]) (.inl rfl)⟩

def exDl : List HNode := [exNode "#LITERAL" "\n ", exNode "dt" "for", exNode "dd" "an Object _O_", exNode "#LITERAL" "\n ", exNode "dt" "description",
  exNode "#LITERAL" " ", exNode "dd" "It calls _F_ on _O_ and _V_.  It returns *true* if and only if _W_ is there. It returns 1 if _V_ is and 0 otherwise. It returns something."]

example : header "Op" ["_V_".toList] exRet exDl = some (some "an Object _O_".toList,
    [.variable "_F_".toList, .variable "_W_".toList, .nature "1".toList, .nature "0".toList, .wording]) := by decide +kernel

/-- The hypothesis and the right side of `c83_header` hold for it. -/
example : Foreseen exRet ∧ Header "Op" ["_V_".toList] exRet exDl (some "an Object _O_".toList)
    [.variable "_F_".toList, .variable "_W_".toList, .nature "1".toList, .nature "0".toList, .wording] :=
  ⟨exForeseen, c83_sound _ _ _ _ _ _ (by decide +kernel)⟩

/-- A term without a description, a term twice, and other effects. -/
example : header "Op" [] exRet [exNode "dt" "for"] = none ∧ header "Op" [] exRet [exNode "dt" "for", exNode "dd" "x", exNode "dt" "for", exNode "dd" "x"] = none ∧
    header "Op" [] exRet [exNode "dt" "effects", exNode "dd" "none"] = none := by decide +kernel

/-- The hypothesis of `c83_stops` for the last of them. -/
example : ∀ es, Entries [exNode "dt" "effects", exNode "dd" "none"] es → ∃ t, ("effects".toList, t) ∈ es ∧ t ≠ "user-code".toList := by
  intro es h
  have : es = [("effects".toList, "none".toList)] :=
    Option.some.inj ((dict_iff.mpr h).symm.trans (show dict [exNode "dt" "effects", exNode "dd" "none"] = _ by decide +kernel))
  subst this
  exact ⟨"none".toList, by simp, by decide⟩

/-- The hypotheses of `c83_excepted`: `_x_` is no parameter, and that is not said. -/
example : Returns "A record whose [[NextMethod]] returns _x_.".toList "A record whose [[NextMethod]]".toList "_x_.".toList ∧
    Excepted "A record whose [[NextMethod]]".toList ∧ Vars "A record whose [[NextMethod]] returns _x_.".toList ["_x_".toList] :=
  ⟨(c83_returns _ _ _).mp (by decide +kernel), .inl ⟨"A record ".toList, by decide⟩, (c83_variables _ _).mp (by decide +kernel)⟩

/-- The last verb counts, and the verb needs something after it. -/
example : returning "It returns what f returns now.".toList = some ("It returns what f".toList, "now.".toList) ∧ returning "It returns ".toList = none ∧
    (∀ a b, ¬ Parts "It returns ".toList a b) := ⟨by decide +kernel, by decide +kernel, (c83_no_returns _).mp (by decide +kernel)⟩

/-- A form that is not foreseen stops the question, unless the answer is found before it. -/
example : sub "x".toList (.node "{VALUE_DESCRIPTION} : {VAL_DESC_DISJUNCTION}" [.node "" [.node "?" [] "x".toList, .node "?" [exRet] "y".toList] []] []) = some true ∧
    sub "z".toList (.node "{VALUE_DESCRIPTION} : {VAL_DESC_DISJUNCTION}" [.node "" [.node "?" [] "x".toList, .node "?" [exRet] "y".toList] []] []) = none := by decide +kernel

end Verif.Dl
