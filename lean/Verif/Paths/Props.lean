import Verif.Paths.PdnLemmas
import Verif.Paths.SplitLemmas
namespace Verif.Paths
open Verif.Sections (isWord)
open Spec (Base Key Path Word Phrase)

/-- C74: `get_pdn` gives every phrase that makes sense the name that it should have. -/
theorem c74_name {ph : Phrase} (h : ph.Ok) : getPdn ph.text = some ('%' :: ph.name ++ ['%']) := by
  cases ph with
  | pdn i => exact getPdn_pdn h
  | path p => exact getPdn_path h.1 h.2
  | accessor b p => exact getPdn_accessor h.1 h.2
  | thing w s => exact getPdn_thing h.1 h.2
  | proto a w o => exact getPdn_proto h
  | percentProto a w => exact getPdn_percentProto h
  | dotted w ws i => exact getPdn_dotted h.1 h.2
  | iterators w ws c => exact getPdn_iterators h.1 h.2
  | fixed i =>
    have hf : fixed (Phrase.fixed i).text = some (pc (Phrase.fixed i).name) := fixed_iff.2 ⟨i, h, rfl, rfl⟩
    have h1 : pdnInner (Phrase.fixed i).text = none := by
      have : ∀ i : Fin Spec.idioms.length, pdnInner (Spec.idioms[i]).1 = none := by decide +kernel
      have ht := fixed_text ⟨i, h⟩
      have := this ⟨i, h⟩
      rw [← ht] at this
      exact this
    exact pdn_fixed h1 hf

/-- C74: nothing else has a name. -/
theorem c74_only {s r : Str} (h : getPdn s = some r) : ∃ ph : Phrase, ph.Ok ∧ s = ph.text ∧ r = '%' :: ph.name ++ ['%'] := by
  cases h1 : pdnInner s with
  | some u =>
    obtain ⟨rfl, hu⟩ := pdnInner_iff.1 h1
    refine ⟨.pdn u, hu, rfl, ?_⟩
    have := (getPdn_pdn hu).symm.trans h
    exact (Option.some.inj this).symm
  | none =>
    cases h2 : fixed s with
    | some r' =>
      rw [pdn_fixed h1 h2] at h
      obtain ⟨i, hi, rfl, rfl⟩ := fixed_iff.1 h2
      exact ⟨.fixed i, hi, rfl, (Option.some.inj h).symm⟩
    | none =>
      cases h3 : iterators s with
      | some u =>
        rw [pdn_iterators h1 h2 h3, Option.bind_eq_some_iff] at h
        obtain ⟨rs, hm, e⟩ := h
        obtain ⟨hne, rfl⟩ := mapM_capital.1 hm
        obtain ⟨ws, e1, e2, e3, e4⟩ := splitWords_back u
        obtain ⟨-, hs⟩ := iterators_iff.1 h3
        have hok : Part (splitWords u).1 ∧ ∀ x ∈ ws, Part x.2 :=
          ⟨⟨hne _ (by simp), e3⟩, fun x hx => ⟨hne _ (by rw [e1]; exact List.mem_cons_of_mem _ (List.mem_map_of_mem hx)), e4 x hx⟩⟩
        have hn : r = pc (Spec.capital (splitWords u).1 ++ ws.flatMap (fun x => Spec.capital x.2) ++ "IteratorPrototype".toList) := by
          rw [← Option.some.inj e, e1]
          simp [List.flatMap, List.map_map, Function.comp_def]
        rcases hs with hs | hs
        · exact ⟨.iterators (splitWords u).1 ws false, hok, by rw [iterators_text, ← e2]; exact hs, hn⟩
        · exact ⟨.iterators (splitWords u).1 ws true, hok, by rw [iterators_text, ← e2]; exact hs, hn⟩
      | none =>
        cases h4 : percentProto s with
        | some w =>
          rw [pdn_percentProto h1 h2 h3 h4] at h
          obtain ⟨hw, a, rfl⟩ := percentProto_iff.1 h4
          exact ⟨.percentProto a w, hw, rfl, (Option.some.inj h).symm⟩
        | none =>
          cases h5 : proto s with
          | some w =>
            obtain ⟨hw, a, o, rfl⟩ := proto_iff.1 h5
            rw [pdn_proto h1 h2 h3 h4 h5, norm_proto hw] at h
            exact ⟨.proto a w o, hw, rfl, (Option.some.inj h).symm⟩
          | none =>
            rw [pdn_rest h1 h2 h3 h4 h5] at h
            cases h6 : thing s with
            | some w =>
              rw [h6] at h
              obtain ⟨hw, rfl | rfl⟩ := thing_iff.1 h6
              · exact ⟨.thing w .constructor, ⟨hw, by simp⟩, rfl, (Option.some.inj h).symm⟩
              · refine ⟨.thing w .object, ⟨hw, ?_⟩, rfl, (Option.some.inj h).symm⟩
                rintro ⟨-, rfl | rfl⟩
                · have : (fixed (Phrase.thing "global".toList .object).text).isSome = true := by decide +kernel
                  rw [h2] at this; cases this
                · have : (proto (Phrase.thing "prototype".toList .object).text).isSome = true := by decide +kernel
                  rw [h5] at this; cases this
            | none =>
              rw [h6] at h
              cases h7 : dotted s with
              | some u =>
                rw [h7] at h
                obtain ⟨w, ws, i, hw, rfl, rfl⟩ := dotted_iff.1 h7
                exact ⟨.dotted w ws i, hw, rfl, (Option.some.inj h).symm⟩
              | none =>
                rw [h7] at h
                cases h8 : theFunction s with
                | some w =>
                  rw [h8] at h
                  obtain ⟨hw, rfl⟩ := theFunction_iff.1 h8
                  exact ⟨.thing w .function, ⟨hw, by simp⟩, rfl, (Option.some.inj h).symm⟩
                | none =>
                  rw [h8] at h
                  cases h9 : accessor s with
                  | some x =>
                    obtain ⟨g, q⟩ := x
                    rw [h9] at h
                    have h : (normalize q).map (fun n => pc (n ++ ':' :: g)) = some r := h
                    rw [Option.map_eq_some_iff] at h
                    obtain ⟨n, hn, rfl⟩ := h
                    obtain ⟨p, hp, rfl, rfl⟩ := (normalize_ok _ _).1 hn
                    have hx : ∀ b : Bool, s = (Phrase.accessor b p).text → ¬ (p.base = .word "prototype".toList ∧ p.keys = []) := by
                      rintro b rfl ⟨hb, hk⟩
                      obtain ⟨b', ks⟩ := p
                      have hb' : b' = _ := hb
                      have hk' : ks = [] := hk
                      subst hb' hk'
                      have : ∀ b : Bool, (proto (Phrase.accessor b ⟨.word "prototype".toList, []⟩).text).isSome = true := by decide +kernel
                      have := this b
                      rw [h5] at this; cases this
                    obtain ⟨-, ⟨rfl, e⟩ | ⟨rfl, e⟩⟩ := accessor_iff.1 h9
                    · exact ⟨.accessor false p, ⟨hp, hx false e⟩, e, by rw [accessor_name]; rfl⟩
                    · exact ⟨.accessor true p, ⟨hp, hx true e⟩, e, by rw [accessor_name]; rfl⟩
                  | none =>
                    rw [h9] at h
                    have h : (normalize s).map pc = some r := h
                    rw [Option.map_eq_some_iff] at h
                    obtain ⟨n, hn, rfl⟩ := h
                    obtain ⟨p, hp, rfl, rfl⟩ := (normalize_ok _ _).1 hn
                    refine ⟨.path p, ⟨hp, ?_⟩, rfl, rfl⟩
                    rintro ⟨w, hb, hk⟩
                    obtain ⟨b, ks⟩ := p
                    cases ks with
                    | nil => cases hk
                    | cons k ks =>
                      cases hk
                      have ht : Path.text ⟨b, .symbol w :: ks⟩ = b.text ++ (" [ %Symbol.".toList ++ w ++ "% ]".toList ++ ks.flatMap Key.text) := rfl
                      rw [ht] at h9
                      rcases hb with hb | hb
                      · have hb' : b = _ := hb
                        subst hb'
                        have := (accessor_iff (s := (Base.word "get".toList).text ++ (" [ %Symbol.".toList ++ w ++ "% ]".toList ++ ks.flatMap Key.text)) (g := "get".toList)
                          (p := "[ %Symbol.".toList ++ w ++ "% ]".toList ++ ks.flatMap Key.text)).2 ⟨by simp, .inl ⟨rfl, rfl⟩⟩
                        rw [h9] at this; cases this
                      · have hb' : b = _ := hb
                        subst hb'
                        have := (accessor_iff (s := (Base.word "set".toList).text ++ (" [ %Symbol.".toList ++ w ++ "% ]".toList ++ ks.flatMap Key.text)) (g := "set".toList)
                          (p := "[ %Symbol.".toList ++ w ++ "% ]".toList ++ ks.flatMap Key.text)).2 ⟨by simp, .inr ⟨rfl, rfl⟩⟩
                        rw [h9] at this; cases this

/-- C74: so no phrase is ambiguous. -/
theorem c74_unambiguous {a b : Phrase} (ha : a.Ok) (hb : b.Ok) (h : a.text = b.text) : a.name = b.name := by
  have h1 := c74_name ha
  rw [h, c74_name hb] at h1
  simpa using h1.symm

/-- C74: different properties have different names. -/
theorem c74_distinct {p q : Path} (hp : p.Ok) (hq : q.Ok) : p.name = q.name ↔ p.base.name = q.base.name ∧ p.keys = q.keys := name_inj hp hq

private def look (s : String) : Option String := (getPdn s.toList).map String.ofList

example : look "Array.prototype [ %Symbol.iterator% ]" = some "%Array.prototype[%Symbol.iterator%]%" ∧ look "%TypedArray%.prototype.set" = some "%TypedArray.prototype.set%" ∧
    look "the prototype of generator objects.next" = some "%GeneratorPrototype.next%" := by decide +kernel
example : look "get Map.prototype.size" = some "%Map.prototype.size:get%" ∧ look "set Object.prototype.__proto__" = some "%Object.prototype.__proto__:set%" := by decide +kernel
example : look "the Array constructor" = some "%Array%" ∧ look "the Math object" = some "%Math%" ∧ look "the eval function" = some "%eval%" ∧ look "the global object" = some "%(global)%" := by decide +kernel
example : look "the Array prototype object" = some "%Array.prototype%" ∧ look "Array prototype" = some "%Array.prototype%" ∧ look "%Array% prototype object" = some "%Array.prototype%" := by decide +kernel
example : look "the %Array.prototype% intrinsic object" = some "%Array.prototype%" ∧ look "the prototype of async-from-sync iterator objects" = some "%AsyncFromSyncIteratorPrototype%" ∧
    look "the prototype of Array Iterator objects" = some "%ArrayIteratorPrototype%" := by decide +kernel
example : look "an Array" = none ∧ look "get [ %Symbol.species% ]" = none ∧ look "" = none ∧ look "the prototype of  iterator objects" = none := by decide +kernel
example : (Phrase.accessor false ⟨.percent "Array".toList, [.string "prototype".toList, .symbol "species".toList]⟩).Ok :=
  ⟨⟨wordy_iff.1 (by decide), by intro k hk; simp at hk; rcases hk with rfl | rfl <;> exact wordy_iff.1 (by decide)⟩, by simp⟩

/-- C74: but not all names are names of their names: names with symbols are refused. -/
theorem c74_symbol_witness : getPdn "Array.prototype [ %Symbol.iterator% ]".toList = some "%Array.prototype[%Symbol.iterator%]%".toList ∧
    getPdn "%Array.prototype[%Symbol.iterator%]%".toList = none := by decide +kernel

/-- C74: and the path of an object with a name of its own is not given that name. -/
theorem c74_generator_witness : getPdn "GeneratorFunction.prototype.prototype".toList = some "%GeneratorFunction.prototype.prototype%".toList ∧
    getPdn "%GeneratorFunction.prototype.prototype%".toList = some "%GeneratorPrototype%".toList := by decide +kernel

theorem base_name_ne {b : Base} (h : b.Ok) : b.name ≠ [] := by
  cases b with
  | word w => exact h.1
  | percent w => exact h.1
  | generators => decide +kernel
  | asyncGenerators => decide +kernel

/-- C74: all other names are their own names. -/
theorem c74_again {s r : Str} (h : getPdn s = some r) (hr : ∀ i, r = '%' :: i ++ ['%'] → '%' ∉ i)
    (hg : r ≠ "%GeneratorFunction.prototype.prototype%".toList ∧ r ≠ "%AsyncGeneratorFunction.prototype.prototype%".toList) : getPdn r = some r := by
  obtain ⟨ph, hok, -, rfl⟩ := c74_only h
  have hi : ph.name ≠ [] := by
    intro e
    have : getPdn ph.text = some "%%".toList := by rw [c74_name hok, e]; rfl
    cases ph with
    | pdn i =>
      have hn := pdn_name i
      rw [e] at hn
      split at hn
      · exact absurd hn (by decide +kernel)
      · split at hn
        · exact absurd hn (by decide +kernel)
        · exact hok.1 hn.symm
    | path p =>
      have hb := base_name_ne hok.1.1
      rw [path_name, Path.name] at e
      exact hb (List.append_eq_nil_iff.1 e).1
    | accessor b p => rw [accessor_name] at e; simp at e
    | thing w s => exact hok.1.1 e
    | proto a w o => rw [proto_name] at e; exact hok.1 (List.append_eq_nil_iff.1 e).1
    | percentProto a w => rw [percentProto_name] at e; exact hok.1 (List.append_eq_nil_iff.1 e).1
    | dotted w ws i => rw [dotted_name] at e; exact hok.1.1 (List.append_eq_nil_iff.1 e).1
    | iterators w ws c => rw [iterators_name] at e; exact absurd (List.append_eq_nil_iff.1 e).2 (by decide +kernel)
    | fixed i =>
      have : ∀ i : Fin Spec.idioms.length, (Phrase.fixed i).name ≠ [] := by decide +kernel
      exact this ⟨i, hok⟩ e
  have := getPdn_pdn ⟨hi, hr _ rfl⟩
  rw [pdn_name, if_neg, if_neg] at this
  · exact this
  · intro e; exact hg.2 (by rw [e]; decide +kernel)
  · intro e; exact hg.1 (by rw [e]; decide +kernel)

example : ∃ s r : Str, getPdn s = some r ∧ (∀ i, r = '%' :: i ++ ['%'] → '%' ∉ i) ∧ s ≠ r := by
  refine ⟨"get Map.prototype.size".toList, "%Map.prototype.size:get%".toList, by decide +kernel, ?_, by decide +kernel⟩
  intro i h
  have : i = "Map.prototype.size:get".toList := List.append_cancel_right ((List.cons.inj h).2.symm.trans (show _ = "Map.prototype.size:get".toList ++ ['%'] by decide +kernel))
  rw [this]; decide +kernel

/-! ## Splitting -/

/-- C75: `split_prop_path` finds the container and the key that a name of a property names, and fails for whatever does not name one. -/
theorem c75_split (s : Str) (c : Option Str) (k : Str) : splitPath s = some (c, k) ↔ Spec.Names s c k := splitPath_iff

/-- C75: a name of a property names one container and key only. -/
theorem c75_unique {s : Str} {c c' : Option Str} {k k' : Str} (h : Spec.Names s c k) (h' : Spec.Names s c' k') : c = c' ∧ k = k' := by
  have h1 := splitPath_iff.2 h
  rw [splitPath_iff.2 h'] at h1
  cases h1
  exact ⟨rfl, rfl⟩

/-- C75: a sentence about another property than the one of the section is noticed, with or without backticks. -/
theorem c75_confirm (container key s : Str) :
    confirms (some (container, key)) s = true ↔ ∀ c k, Spec.Names (s.filter (· != '`')) c k → k = key ∧ (c = none ∨ c = some container) := by
  rw [confirms, detick]
  cases h : splitPath (s.filter (· != '`')) with
  | none =>
    simp only [true_iff]
    intro c k hn
    rw [splitPath_iff.2 hn] at h; cases h
  | some x =>
    obtain ⟨c, k⟩ := x
    have hn := splitPath_iff.1 h
    simp only [Bool.and_eq_true, Bool.or_eq_true, beq_iff_eq, Option.isNone_iff_eq_none]
    constructor
    · rintro ⟨h1, h2⟩ c' k' hn'
      obtain ⟨rfl, rfl⟩ := c75_unique hn hn'
      exact ⟨h2, h1.symm⟩
    · intro h
      obtain ⟨h1, h2⟩ := h c k hn
      exact ⟨h2.symm, h1⟩

/-- C75: where a section is about no property, a sentence may only have a key. -/
theorem c75_confirm_none (s : Str) : confirms none s = true ↔ ∀ c k, Spec.Names (s.filter (· != '`')) c k → c = none := by
  rw [confirms, detick]
  cases h : splitPath (s.filter (· != '`')) with
  | none =>
    simp only [true_iff]
    intro c k hn
    rw [splitPath_iff.2 hn] at h; cases h
  | some x =>
    obtain ⟨c, k⟩ := x
    have hn := splitPath_iff.1 h
    simp only [Option.isNone_iff_eq_none]
    constructor
    · rintro rfl c' k' hn'
      exact (c75_unique hn hn').1.symm
    · exact fun h => h c k hn

private def cuts (s : String) : Option (Option String × String) := (splitPath s.toList).map (fun x => (x.1.map String.ofList, String.ofList x.2))

example : cuts "Array.prototype [ %Symbol.iterator% ]" = some (some "Array.prototype", "%Symbol.iterator%") ∧ cuts "Array.prototype[%Symbol.iterator% ]" = some (some "Array.prototype", "%Symbol.iterator%") ∧
    cuts "%TypedArray%.prototype.set" = some (some "%TypedArray%.prototype", "*\"set\"*") := by decide +kernel
example : cuts "eval" = some (none, "*\"eval\"*") ∧ cuts "*\"eval\"*" = some (none, "*\"eval\"*") ∧ cuts "%Symbol.iterator%" = some (none, "%Symbol.iterator%") ∧ cuts "%Array%" = none ∧
    cuts "Array.prototype  [ %Symbol.iterator% ]" = none := by decide +kernel
example : confirms (some ("Array.prototype".toList, "*\"at\"*".toList)) "`Array.prototype.at`".toList = true ∧ confirms (some ("Array.prototype".toList, "*\"at\"*".toList)) "`Array.prototype.of`".toList = false ∧
    confirms (some ("Array.prototype".toList, "*\"at\"*".toList)) "`Array.at`".toList = false ∧ confirms none "`Array.at`".toList = false := by decide +kernel

end Verif.Paths
