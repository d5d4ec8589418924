import Verif.Preambles.CompareLemmas
/-! # C81: what the prose before the algorithm of a built-in function says -/
namespace Verif.Preambles
open Verif.Kinds.Spec (Some')
open Verif.Paths.Spec (Word)
open Spec

/-! ## Sentences -/

/-- A sentence that says nothing is dropped; one about an attribute is dropped, and says what parameters there are; any other goes on as it is written or rewritten, and says what the
function returns. -/
theorem c81_sentence {s : Str} (hs : s ≠ []) :
    (Silent s → apply singleRules s = ([], [])) ∧
    (∀ pl, Attribute s pl → apply singleRules s = ([("pl", pl), ("kind", "accessor property".toList)], [])) ∧
    (∀ s' pls, ¬ Silent s → (∀ pl, ¬ Attribute s pl) → Rewrite s s' pls →
      (apply singleRules s).2 = s' ∧ ∀ f, f ∈ (apply singleRules s).1 ↔ (∃ p ∈ pls, f = ("pl", p)) ∨ ∃ v, f = ("retn", v.toList) ∧ Returns s' v) := by
  refine ⟨single_silent, fun pl => single_attr, fun s' pls h1 h2 h3 => ?_⟩
  obtain ⟨rs, he, hm⟩ := single_other hs h1 h2 h3
  rw [he]
  refine ⟨rfl, fun f => ?_⟩
  rw [List.mem_append, hm, List.mem_map]
  constructor
  · rintro (⟨p, hp, rfl⟩ | h)
    · exact .inl ⟨p, hp, rfl⟩
    · exact .inr h
  · rintro (⟨p, hp, rfl⟩ | h)
    · exact .inl ⟨p, hp, rfl⟩
    · exact .inr h

example : apply singleRules "This method returns a String containing _x_.".toList = ([("retn", "a String".toList)], "!FUNC returns a String containing _x_.".toList) := by decide +kernel
example : apply singleRules "Given zero or more arguments, this function calls ToNumber on each.".toList =
    ([("pl", "zero or more arguments".toList)], "!FUNC calls ToNumber on each.".toList) := by decide +kernel
example : apply singleRules "It performs the following steps when called:".toList = ([], []) := by decide +kernel
example : apply singleRules "The value of the [[Get]] attribute is a built-in function that requires an argument _v_.".toList =
    ([("pl", "an argument _v_".toList), ("kind", "accessor property".toList)], []) := by decide +kernel
example : Rewrite "This method is fast.".toList "!FUNC is fast.".toList [] := .method (r := "is fast.".toList) ⟨by simp, by simp [Kinds.Spec.Line]⟩
example : Returns "!FUNC returns a Number between 0 and 1.".toList "a Number" :=
  .text (t := " returns a Number ") (by simp [resultTexts]) ⟨"!FUNC".toList, "between 0 and 1.".toList, ⟨by simp, by simp [Kinds.Spec.Line]⟩, ⟨by simp, by simp [Kinds.Spec.Line]⟩, by decide +kernel⟩

/-! ## Paragraphs -/

/-- A paragraph is broken into sentences at the spaces after points, and nowhere else. -/
theorem c81_split {s : Str} {ps : List Str} : sentences (some false) s = ps ↔ Splits s ps := splits_iff.symm

example : sentences (some false) "a.b c.  d. ".toList = ["a.b c.".toList, "d.".toList, []] := by decide +kernel

/-- The program stops at a preamble if and only if it has an element other than paragraphs, notes and `pre`, or a paragraph that is empty or has an empty sentence. -/
theorem c81_stops_reading {nodes : List (String × Str)} :
    extract nodes = none ↔ ∃ n ∈ nodes, (n.1 = "p" ∧ Blank n.2) ∨ (n.1 ≠ "p" ∧ n.1 ≠ "emu-note" ∧ n.1 ≠ "pre") := extract_none

example : extract [("ul", "x".toList)] = none := by decide +kernel
example : extract [("p", [])] = none := by decide +kernel
example : (extract [("emu-note", []), ("p", "x.".toList)]).isSome = true := by decide +kernel

/-- What is found in a preamble, apart from the description, is what its paragraphs say. -/
theorem c81_facts {nodes : List (String × Str)} {facts : List Fact} (h : extract nodes = some facts) (f : Fact) (hf : f.1 ≠ "desc") :
    f ∈ facts ↔ ∃ s, ("p", s) ∈ nodes ∧ ParaGives s f := (extract_some h).1 f hf

example : extract [("p", "`Map.size` is an accessor property whose set accessor function is *undefined*. Its get accessor function performs the following steps when called:".toList)] =
    some [("name", "get Map.size".toList), ("desc", " `Map.size` is an accessor property whose set accessor function is *undefined*.".toList)] := by decide +kernel
example : Whole ("`".toList ++ "Map.size".toList ++ "` is an accessor property whose set accessor function is *undefined*".toList ++ '.' ::
      " Its get accessor function performs the following steps when called:".toList)
    [("name", "get ".toList ++ "Map.size".toList)] (" `".toList ++ "Map.size".toList ++ "` is an accessor property whose set accessor function is *undefined*".toList ++ ['.']) :=
  .accessor (by simp) (by decide) (by decide)

/-- The descriptions that are found are, in order, those of the paragraphs that have one: the sentences that go on, with one space between them. -/
theorem c81_described {nodes : List (String × Str)} {facts : List Fact} (h : extract nodes = some facts) (ds : List Str) :
    (facts.filter (fun f => f.1 = "desc")).map Prod.snd = ds ↔ Described nodes ds := ((extract_some h).2 ds).symm

example : extract [("p", "This method is fast.   It performs the following steps when called:".toList), ("pre", "x".toList), ("p", "So.".toList)] =
    some [("desc", "!FUNC is fast.".toList), ("desc", "So.".toList)] := by decide +kernel
example : Describes "So.".toList "So.".toList := by
  refine ⟨_, _, _, _, .same ?_, .last ?_, .sentence ?_ ?_ (.plain ?_ ?_) .nil, .one⟩
  · intro fs l h
    have := whole_iff.mp h
    rw [show contents "So.".toList = none by decide +kernel, show accessor "So.".toList = none by decide +kernel] at this
    simp at this
  · intro a b h
    have := congrArg (fun l => ' ' ∈ l) h
    simp at this
  · intro h
    have := silent_head h
    simp at this
  · intro pl h
    have := attr_head h
    simp at this
  · intro r _ h
    have := congrArg List.head? h
    simp at this
  · intro r _ h
    have := congrArg List.head? h
    simp at this

/-! ## The head -/

/-- Each value counts once, at its first place. -/
theorem c81_field (facts : List Fact) (key : String) (ws : List Str) : field facts key = ws ↔ Says facts key ws := says_iff.symm

example : field [("retn", "a".toList), ("pl", "x".toList), ("retn", "b".toList), ("retn", "a".toList)] "retn" = ["a".toList, "b".toList] := by decide +kernel

/-- The comparison stops the program if and only if the kinds do not fit the species of the head, there are several names, what is said about parameters is not understood, nobody tells
the parameters, the names of the parameters differ, or the head has a description already. -/
theorem c81_stops (h : Head) {facts : List Fact} {kinds names pls : List Str} (hk : Says facts "kind" kinds) (hn : Says facts "name" names) (hp : Says facts "pl" pls) :
    compare h facts = none ↔ ¬ SpeciesFits h.species kinds ∨ 2 ≤ names.length ∨ (∀ r, ¬ Tells pls r) ∨ (h.params = none ∧ Tells pls none) ∨
      (∃ as ps, h.params = some as ∧ Tells pls (some ps) ∧ as.map Param.name ≠ ps.map Param.name) ∨ h.description ≠ [] := by
  unfold compare
  rw [says_iff.mp hk, says_iff.mp hn, says_iff.mp hp, ← species_iff, ← name_none]
  by_cases h1 : speciesOk h kinds = true
  · rw [if_pos h1]
    cases h2 : nameMsgs h names with
    | none => simp
    | some m1 =>
      simp only
      cases h3 : prParams pls with
      | none =>
        have : ∀ r, ¬ Tells pls r := fun r hr => by
          rw [tells_iff, h3] at hr
          cases hr
        simp [this]
      | some o =>
        obtain ⟨pr, m2⟩ := o
        have ht : ∀ r, Tells pls r ↔ pr = r := fun r => by
          rw [tells_iff, h3]
          simp
        simp only [ht]
        have h4 := merge_none (a := h.params) (b := pr)
        cases h5 : mergeParams h.params pr with
        | none =>
          rcases h4.mp h5 with ⟨e1, e2⟩ | ⟨as, bs, e1, e2, e3⟩
          · simp [e1, e2]
          · simp only [true_iff]
            exact .inr (.inr (.inr (.inr (.inl ⟨as, bs, e1, e2, e3⟩))))
        | some q =>
          obtain ⟨ps, m3⟩ := q
          rw [h5] at h4
          simp only [reduceCtorEq, false_iff, not_or] at h4
          simp only
          by_cases h6 : h.description = []
          · rw [if_pos h6]
            refine iff_of_false (by simp) ?_
            rintro (e | e | e | e | e | e)
            · exact e h1
            · cases e
            · exact e pr rfl
            · exact h4.1 e
            · exact h4.2 e
            · exact e h6
          · rw [if_neg h6]
            simp [h6]
  · rw [if_neg h1]
    simp [h1]

/-- In particular, if the names of the parameters differ the program stops, although a message about them was intended. -/
theorem c81_params_stop (h : Head) {facts : List Fact} {pls : List Str} {as ps : List Param} (hp : Says facts "pl" pls) (ha : h.params = some as) (ht : Tells pls (some ps))
    (hd : as.map Param.name ≠ ps.map Param.name) : compare h facts = none :=
  (c81_stops h (says_iff.mpr rfl) (says_iff.mpr rfl) hp).mpr (.inr (.inr (.inr (.inr (.inl ⟨as, ps, ha, ht, hd⟩)))))

example : compare ⟨"bif: intrinsic", "f".toList, some [⟨"_x_".toList, [], "a Number".toList⟩], []⟩ [("pl", "no arguments".toList)] = none := by decide +kernel
example : Tells ["an argument _x_".toList] (some [⟨"_x_".toList, [], "unknown".toList⟩]) := .one (x := "x".toList) ⟨by simp, by decide⟩ (.inl rfl)

/-- The head keeps its species and name, gets its description from the preamble, and its parameters from itself, or else from the preamble. -/
theorem c81_head {h h' : Head} {facts : List Fact} {ms : List Msg} {pls desc : List Str} (hp : Says facts "pl" pls) (hd : Says facts "desc" desc) (hc : compare h facts = some (h', ms)) :
    h'.species = h.species ∧ h'.name = h.name ∧ h'.description = desc ∧ ∃ ps, h'.params = some ps ∧ (h.params = some ps ∨ (h.params = none ∧ Tells pls (some ps))) := by
  unfold compare at hc
  rw [says_iff.mp hp, says_iff.mp hd] at hc
  split at hc
  · split at hc
    · cases hc
    · split at hc
      · cases hc
      · next pr m2 h3 =>
        split at hc
        · cases hc
        · next ps m3 h5 =>
          split at hc
          · cases hc
            refine ⟨rfl, rfl, rfl, ps, rfl, ?_⟩
            rcases (merge_some h5).1 with e | ⟨e1, e2⟩
            · exact .inl e
            · exact .inr ⟨e1, tells_iff.mpr (by rw [h3, ← e2]; rfl)⟩
          · cases hc
  · cases hc

/-- The messages are exactly: that the name does not fit; that several things are said about parameters; that the punctuation or nature of a parameter differs; and, sorted, the variables
that the description mentions and should not. -/
theorem c81_messages {h h' : Head} {facts : List Fact} {ms : List Msg} {names pls desc : List Str} {ps : List Param} (hn : Says facts "name" names) (hp : Says facts "pl" pls)
    (hd : Says facts "desc" desc) (hc : compare h facts = some (h', ms)) (hps : h'.params = some ps) (m : Msg) :
    m ∈ ms ↔ (∃ pr, m = .name pr ∧ names = [pr] ∧ ¬ NameFits h.name pr) ∨ (m = .multi pls ∧ 2 ≤ pls.length) ∨
      (∃ as bs, h.params = some as ∧ Tells pls (some bs) ∧ ∃ (i : Nat) (p q : Param), as[i]? = some p ∧ bs[i]? = some q ∧
        ((p.punct ≠ q.punct ∧ m = .punct p.name p.punct q.punct) ∨ (p.nature ≠ q.nature ∧ m = .nature p.name p.nature q.nature))) ∨
      (∃ vs, m = .vars vs ∧ vs ≠ [] ∧ vs.Pairwise (· < ·) ∧ ∀ v, v ∈ vs ↔ Stray h.name ps desc v) := by
  unfold compare at hc
  rw [says_iff.mp hn, says_iff.mp hp, says_iff.mp hd] at hc
  split at hc
  · split at hc
    · cases hc
    · next m1 h2 =>
      split at hc
      · cases hc
      · next pr m2 h3 =>
        split at hc
        · cases hc
        · next ps' m3 h5 =>
          split at hc
          · cases hc
            simp only [Option.some.injEq] at hps
            subst hps
            have ht : ∀ r, Tells pls r ↔ pr = r := fun r => by
              rw [tells_iff, h3]
              simp
            rw [List.mem_append, List.mem_append, List.mem_append, name_some h2, multi_iff h3, (merge_some h5).2]
            simp only [ht, or_assoc]
            refine or_congr Iff.rfl (or_congr Iff.rfl (or_congr Iff.rfl ?_))
            have hsort := (foldr_insert ((((desc.flatMap Titles.words).filter isVar).filter
              (fun v => decide (v ∉ ps'.map Param.name) && !(expectedVars.any (fun e => e.1.toList == h.name && e.2.toList == v)))))).1
            have hv : ∀ v, v ∈ otherVars h.name ps' desc ↔ Stray h.name ps' desc v := fun v => vars_iff
            have hs : (otherVars h.name ps' desc).Pairwise (· < ·) := hsort
            generalize otherVars h.name ps' desc = vs at *
            constructor
            · intro hm
              split at hm
              · cases hm
              · next hne =>
                rw [List.mem_singleton] at hm
                exact ⟨vs, hm, hne, hs, hv⟩
            · rintro ⟨us, rfl, hne, hu, hm⟩
              have : us = vs := by
                have hmem : ∀ v, v ∈ us ↔ v ∈ vs := fun v => (hm v).trans (hv v).symm
                have np : ∀ {l : List Str}, l.Pairwise (· < ·) → l.Nodup := fun hl =>
                  List.Pairwise.imp (R := (· < ·)) (S := (· ≠ ·)) (fun {a b} hab e => by subst e; exact List.lt_irrefl _ hab) hl
                have perm : us.Perm vs := (List.perm_ext_iff_of_nodup (np hu) (np hs)).mpr hmem
                exact perm.eq_of_pairwise (fun a b _ _ hab hba => absurd (List.lt_trans hab hba) (List.lt_irrefl _)) hu hs
              subst this
              rw [if_neg hne]
              simp
          · cases hc
  · cases hc

example : compare ⟨"bif: intrinsic", "Math.Exp".toList, some [⟨"_x_".toList, [], "unknown".toList⟩], []⟩
      [("name", "Math.exp".toList), ("pl", "an argument _x_".toList), ("desc", "!FUNC raises _e_ to _x_, not _z_ or _y_.".toList)] =
    some (⟨"bif: intrinsic", "Math.Exp".toList, some [⟨"_x_".toList, [], "unknown".toList⟩], ["!FUNC raises _e_ to _x_, not _z_ or _y_.".toList]⟩,
      [.vars ["_e_".toList, "_y_".toList, "_z_".toList]]) := by decide +kernel
example : compare ⟨"bif: intrinsic", "Map [ @@x ]".toList, none, []⟩ [("name", "Map[@@x]".toList), ("pl", "no arguments".toList)] =
    some (⟨"bif: intrinsic", "Map [ @@x ]".toList, some [], []⟩, []) := by decide +kernel
example : compare ⟨"bif: intrinsic", "f".toList, some [⟨"_x_".toList, "[]".toList, "a Number".toList⟩], []⟩ [("name", "g".toList), ("pl", "argument _x_".toList)] =
    some (⟨"bif: intrinsic", "f".toList, some [⟨"_x_".toList, "[]".toList, "a Number".toList⟩], []⟩,
      [.name "g".toList, .punct "_x_".toList "[]".toList [], .nature "_x_".toList "a Number".toList "unknown".toList]) := by decide +kernel
example : Stray "f".toList [] ["so _x_.".toList] "_x_".toList :=
  ⟨⟨_, List.mem_singleton.mpr rfl, "so ".toList, ".".toList, "x_".toList, by decide +kernel, rfl, ⟨by simp, by decide⟩,
    by intro c h; simp at h; subst h; rintro ⟨_, h⟩; exact absurd (h ' ' (by simp)) (by decide), by intro c h; simp at h; subst h; rintro ⟨_, h⟩; exact absurd (h '.' (by simp)) (by decide)⟩,
    by simp, by decide +kernel⟩

/-! ## The whole -/

/-- The prose is only read for the heads of built-in functions, of which there is some; then the description of the head is what the paragraphs have for it, each text once. -/
theorem c81_check {h h' : Head} {nodes : List (String × Str)} {ms : List Msg} {ds : List Str} (hc : check h nodes = some (h', ms)) (hd : Described nodes ds) :
    "bif:".toList <+: h.species.toList ∧ nodes ≠ [] ∧ Firsts ds h'.description := by
  unfold check at hc
  split at hc
  · next hb =>
    rw [Bool.and_eq_true, List.isPrefixOf_iff_prefix] at hb
    obtain ⟨facts, h1, h2⟩ := Option.bind_eq_some_iff.mp hc
    refine ⟨hb.1, by simpa using hb.2, ?_⟩
    rw [← (c81_described h1 ds).mpr hd]
    have := (c81_head (pls := field facts "pl") (desc := field facts "desc") (says_iff.mpr rfl) (says_iff.mpr rfl) h2).2.2.1
    rw [this]
    exact says_iff.mpr rfl
  · cases hc

/-- The program stops at other heads, and at preambles without anything. -/
theorem c81_not_read (h : Head) (nodes : List (String × Str)) (hb : ¬ "bif:".toList <+: h.species.toList ∨ nodes = []) : check h nodes = none := by
  unfold check
  rw [if_neg]
  rw [Bool.and_eq_true, List.isPrefixOf_iff_prefix]
  rintro ⟨h1, h2⟩
  rcases hb with hb | hb
  · exact hb h1
  · subst hb; cases h2

example : check ⟨"bif: intrinsic", "f".toList, some [], []⟩ [("p", "This method is fast. It performs the following steps when called:".toList), ("p", "This method is fast.".toList)] =
    some (⟨"bif: intrinsic", "f".toList, some [], ["!FUNC is fast.".toList]⟩, []) := by decide +kernel

end Verif.Preambles
