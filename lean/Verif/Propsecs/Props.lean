import Verif.Propsecs.Lemmas
/-!
# C87 and C88: what a section about a property or a constructor is about, and how its sentences speak about it
-/
namespace Verif.Propsecs
open Verif.Kinds (Rx full lit plus cat any w dot Matches full_iff m_cat m_cat_nil m_lit m_word m_any m_empty m_between m_before m_plus_chars m_line)
open Verif.Preambles (after after_iff)
open Verif.Wki (before before_iff)
open Verif.Titles (hasSub hasSub_iff takeWhile_all)
open Verif.Paths (splitPath stringLiteral confirms c75_split c75_confirm c75_confirm_none)
open Verif.Paths.Spec (Word Names)
open Verif.Kinds.Spec (Line Some')
open Verif.Objs (Fact)
open Spec

variable {space : Char → Bool}

theorem solid_iff (x : Str) : (!x.isEmpty && x.all (fun c => !space c)) = true ↔ Solid space x := by
  simp [Solid]

theorem phrase_iff (kind small : String) (hk : kind = "Prototype Object" ∨ kind = "Constructor") (parent p : Str) :
    phraseFor space (" " ++ kind) (" " ++ kind ++ "s") (" " ++ small) "Properties of the " parent = some p ↔ Phrase space kind small parent p := by
  have hends : ∀ r, Ends (" " ++ kind) r → ¬ Ends (" " ++ kind ++ "s") r := by
    rintro r ⟨a, rfl⟩ ⟨b, e⟩
    have := congrArg List.getLast? e
    rcases hk with rfl | rfl <;> simp at this
  unfold phraseFor
  constructor
  · intro h
    cases ha : after "Properties of the " parent with
    | none => rw [ha] at h; cases h
    | some r =>
      have hr := after_iff.1 ha
      rw [ha] at h
      dsimp only at h
      cases hb : before (" " ++ kind) r with
      | some x =>
        rw [hb] at h
        dsimp only at h
        by_cases hx : (!x.isEmpty && x.all (fun c => !space c)) = true
        · rw [if_pos hx] at h
          obtain rfl := Option.some.inj h
          obtain ⟨h1, h2⟩ := (solid_iff x).1 hx
          have := Phrase.one (kind := kind) (small := small) h1 h2
          rw [hr, before_iff.1 hb]
          simpa only [String.toList_append, List.append_assoc] using this
        · rw [if_neg hx] at h; cases h
      | none =>
        rw [hb] at h
        dsimp only at h
        cases hc : before (" " ++ kind ++ "s") r with
        | none => rw [hc] at h; cases h
        | some x =>
          rw [hc] at h
          dsimp only at h
          by_cases hx : full (cat [lit "_", plus w, lit "_"]) x = true
          · rw [if_pos hx] at h
            obtain rfl := Option.some.inj h
            obtain ⟨y, hy, rfl⟩ := (Objs.var_iff _).1 hx
            have := Phrase.several (space := space) (kind := kind) (small := small) hy
            rw [hr, before_iff.1 hc]
            simpa using this
          · rw [if_neg hx] at h; cases h
  · intro h
    cases h with
    | one h1 h2 =>
      rename_i x
      have e1 : "Properties of the ".toList ++ x ++ " ".toList ++ kind.toList = "Properties of the ".toList ++ (x ++ (" " ++ kind).toList) := by simp
      rw [e1, after_iff.2 rfl]
      dsimp only
      rw [before_iff.2 rfl]
      dsimp only
      rw [if_pos ((solid_iff x).2 ⟨h1, h2⟩)]
      simp
    | several hx =>
      rename_i x
      have e1 : "Properties of the _".toList ++ x ++ "_ ".toList ++ kind.toList ++ "s".toList = "Properties of the ".toList ++ ("_".toList ++ x ++ "_".toList ++ (" " ++ kind ++ "s").toList) := by simp
      rw [e1, after_iff.2 rfl]
      dsimp only
      have hn : before (" " ++ kind) ("_".toList ++ x ++ "_".toList ++ (" " ++ kind ++ "s").toList) = none :=
        before_none.2 (fun h => hends _ h ⟨_, rfl⟩)
      rw [hn]
      dsimp only
      rw [before_iff.2 rfl]
      dsimp only
      rw [if_pos ((Objs.var_iff _).2 ⟨x, hx, rfl⟩)]
      simp

theorem also_iff (kind small : String) (hk : kind = "Prototype Object" ∨ kind = "Constructor") (parent c : Str) (fs : List Fact) :
    fs = ((phraseFor space (" " ++ kind) (" " ++ kind ++ "s") (" " ++ small) "Properties of the " parent).map (Fact.aka · c)).toList ↔ Also space kind small parent c fs := by
  unfold Also
  cases h : phraseFor space (" " ++ kind) (" " ++ kind ++ "s") (" " ++ small) "Properties of the " parent with
  | none =>
    have hn : ¬ ∃ p, Phrase space kind small parent p := by
      rintro ⟨p, hp⟩
      rw [(phrase_iff kind small hk parent p).2 hp] at h; cases h
    constructor
    · intro e; exact .inr ⟨hn, e⟩
    · rintro (⟨p, hp, _⟩ | ⟨_, e⟩)
      · exact absurd ⟨p, hp⟩ hn
      · exact e
  | some q =>
    have hq := (phrase_iff kind small hk parent q).1 h
    constructor
    · intro e; exact .inl ⟨q, hq, e⟩
    · rintro (⟨p, hp, e⟩ | ⟨hn, _⟩)
      · rw [(phrase_iff kind small hk parent p).2 hp] at h
        obtain rfl := Option.some.inj h
        exact e
      · exact absurd ⟨q, hq⟩ hn

theorem proto_iff (parent c : Str) (fs : List Fact) : fs = protoNames space parent c ↔
    (Ends ".prototype" c ∧ Also space "Prototype Object" "prototype object" parent c fs) ∨ (¬ Ends ".prototype" c ∧ fs = []) := by
  unfold protoNames
  by_cases h : Ends ".prototype" c
  · rw [if_pos (ends_iff.2 h), ← also_iff "Prototype Object" "prototype object" (.inl rfl)]
    simp only [h, true_and, not_true_eq_false, false_and, or_false]
    rfl
  · rw [if_neg (fun e => h (ends_iff.1 e))]
    simp [h]

theorem constructor_iff (parent c : Str) (fs : List Fact) : fs = constructorNames space parent c ↔ Also space "Constructor" "constructor" parent c fs :=
  also_iff "Constructor" "constructor" (.inr rfl) parent c fs

theorem elsewhere_iff (t : Str) : full (elsewhereRx space) t = true ↔ Elsewhere space t := by
  rw [full_iff]
  unfold elsewhereRx Elsewhere Solid
  simp only [m_cat, m_cat_nil, m_lit, m_plus_chars, m_any, List.mem_cons, List.not_mem_nil, or_false, exists_eq_or_imp, exists_eq_left, m_empty, m_line, Bool.not_eq_true']
  constructor
  · rintro ⟨_, _, rfl, rfl, x, _, rfl, hx, _, _, rfl, rfl, y, _, rfl, hy, _, _, rfl, rfl, e, _, rfl, he, _, _, rfl, rfl, rfl⟩
    refine ⟨x, y, e, hx, hy, ?_, by simp⟩
    rcases he with ⟨_, _, rfl, rfl, z, _, rfl, hz, rfl⟩ | rfl
    · exact .inr ⟨z, hz, by simp⟩
    · exact .inl rfl
  · rintro ⟨x, y, e, hx, hy, he, rfl⟩
    refine ⟨"The initial value of the ".toList, x ++ (" property is %".toList ++ (y ++ ("%".toList ++ (e ++ ".".toList)))), by simp only [List.append_assoc], rfl, x, _, rfl, hx, _, _, rfl, rfl, y, _, rfl, hy,
      _, _, rfl, rfl, e, _, rfl, ?_, ".".toList, [], by simp, rfl, rfl⟩
    rcases he with rfl | ⟨z, hz, rfl⟩
    · exact .inr rfl
    · exact .inl ⟨_, _, rfl, rfl, z, [], by simp, hz, rfl⟩

theorem defines_iff (s : Sec) (b : Bool) : definesObject space s = some b ↔
    s.kind ∈ [("accessor_property").toList, ("function_property").toList, ("other_property").toList] ∧ (b = true ↔ Defines space s) := by
  have n1 : "accessor_property".toList ≠ "function_property".toList := by decide
  have n2 : "accessor_property".toList ≠ "other_property".toList := by decide
  have n3 : "function_property".toList ≠ "other_property".toList := by decide
  have hany : s.blocks.any (fun b => b.1 == "p" && full (elsewhereRx space) b.2) = true ↔ ∃ t, ("p", t) ∈ s.blocks ∧ Elsewhere space t := by
    simp only [List.any_eq_true, Bool.and_eq_true, beq_iff_eq, elsewhere_iff]
    constructor
    · rintro ⟨⟨n, t⟩, h1, rfl, h2⟩; exact ⟨t, h1, h2⟩
    · rintro ⟨t, h1, h2⟩; exact ⟨_, h1, rfl, h2⟩
  unfold definesObject
  by_cases h1 : s.kind = "accessor_property".toList
  · rw [if_pos h1]
    have : Defines space s := .accessor h1
    have hm : s.kind ∈ [("accessor_property").toList, ("function_property").toList, ("other_property").toList] := by rw [h1]; exact List.mem_cons_self
    constructor
    · intro e; obtain rfl := Option.some.inj e; exact ⟨hm, fun _ => this, fun _ => rfl⟩
    · rintro ⟨_, h⟩; rw [h.2 this]
  · rw [if_neg h1]
    by_cases h2 : s.kind = "function_property".toList
    · rw [if_pos h2]
      have hd : Defines space s ↔ ¬ ∃ t, ("p", t) ∈ s.blocks ∧ Elsewhere space t := by
        constructor
        · intro h
          cases h with
          | accessor h => exact absurd h h1
          | function _ h => exact h
          | unscopables h => exact absurd (h2.symm.trans h) n3
        · exact .function h2
      rw [hd, ← hany]
      have hm : s.kind ∈ [("accessor_property").toList, ("function_property").toList, ("other_property").toList] := by rw [h2]; exact .tail _ (.head _)
      generalize s.blocks.any (fun b => b.1 == "p" && full (elsewhereRx space) b.2) = a
      constructor
      · intro e; obtain rfl := Option.some.inj e; exact ⟨hm, by cases a <;> simp⟩
      · rintro ⟨_, h⟩; cases a <;> cases b <;> simp_all
    · rw [if_neg h2]
      by_cases h3 : s.kind = "other_property".toList
      · rw [if_pos h3]
        have hd : Defines space s ↔ s.title = "Array.prototype [ %Symbol.unscopables% ]".toList := by
          constructor
          · intro h
            cases h with
            | accessor h => exact absurd h h1
            | function h => exact absurd h h2
            | unscopables _ h => exact h
          · exact .unscopables h3
        rw [hd]
        have hm : s.kind ∈ [("accessor_property").toList, ("function_property").toList, ("other_property").toList] := by rw [h3]; exact .tail _ (.tail _ (.head _))
        generalize "Array.prototype [ %Symbol.unscopables% ]".toList = u
        constructor
        · intro e; obtain rfl := Option.some.inj e; exact ⟨hm, decide_eq_true_iff⟩
        · rintro ⟨_, h⟩
          congr 1
          rw [Bool.eq_iff_iff, h, decide_eq_true_iff]
      · rw [if_neg h3]
        constructor
        · intro e; cases e
        · rintro ⟨hm, _⟩
          rcases List.mem_cons.1 hm with h | hm
          · exact absurd h h1
          rcases List.mem_cons.1 hm with h | hm
          · exact absurd h h2
          rcases List.mem_cons.1 hm with h | hm
          · exact absurd h h3
          cases hm

/-! ## C87 -/

/-- C87: which sections are read, and how. -/
theorem c87_way (s : Sec) (x : Way) : way s = x ↔ Goes s x := by
  have hc1 : ¬ Starts "intrinsic: info" "CallConstruct".toList := by rintro ⟨r, e⟩; simp at e
  have hc2 : ¬ Has "_property" "CallConstruct".toList := by rw [← has_iff]; decide
  have ht : (s.title = "Well-Known Intrinsic Objects".toList ∨ s.title = "Additional Properties of the Global Object".toList) ↔ s.title ∈ tables := by simp [tables]
  unfold way
  rw [show (if s.title = "Well-Known Intrinsic Objects".toList ∨ s.title = "Additional Properties of the Global Object".toList then Way.table
    else if "intrinsic: info".toList.isPrefixOf s.kind then .list
    else if s.kind = "CallConstruct".toList then .constructor
    else if hasSub "_property".toList s.kind then .property
    else .nothing) = x ↔ _ from Iff.rfl]
  by_cases h1 : s.title ∈ tables
  · rw [if_pos (ht.2 h1)]
    constructor
    · rintro rfl; exact .table h1
    · intro h; cases h <;> first | rfl | contradiction
  · rw [if_neg (fun h => h1 (ht.1 h))]
    by_cases h2 : Starts "intrinsic: info" s.kind
    · rw [if_pos (starts_iff.2 h2)]
      constructor
      · rintro rfl; exact .list h1 h2
      · intro h
        cases h with
        | table h => exact absurd h h1
        | list => rfl
        | constructor _ h => rw [h] at h2; exact absurd h2 hc1
        | property _ h => exact absurd h2 h
        | nothing _ h => exact absurd h2 h
    · rw [if_neg (fun h => h2 (starts_iff.1 h))]
      by_cases h3 : s.kind = "CallConstruct".toList
      · rw [if_pos h3]
        constructor
        · rintro rfl; exact .constructor h1 h3
        · intro h
          cases h with
          | table h => exact absurd h h1
          | list _ h => exact absurd h h2
          | constructor => rfl
          | property _ _ h => rw [h3] at h; exact absurd h hc2
          | nothing _ _ h => exact absurd h3 h
      · rw [if_neg h3]
        by_cases h4 : Has "_property" s.kind
        · rw [if_pos (has_iff.2 h4)]
          constructor
          · rintro rfl; exact .property h1 h2 h4
          · intro h
            cases h with
            | table h => exact absurd h h1
            | list _ h => exact absurd h h2
            | constructor _ h => exact absurd h h3
            | property => rfl
            | nothing _ _ _ h => exact absurd h4 h
        · rw [if_neg (fun h => h4 (has_iff.1 h))]
          constructor
          · rintro rfl; exact .nothing h1 h2 h3 h4
          · intro h
            cases h with
            | table h => exact absurd h h1
            | list _ h => exact absurd h h2
            | constructor _ h => exact absurd h h3
            | property _ _ h => exact absurd h h4
            | nothing => rfl

theorem xref_kinds {k : Str} (h : k ∈ [("accessor_property").toList, ("function_property").toList, ("other_property").toList]) : ¬ Ends "_xref" k := by
  rw [← ends_iff]
  simp only [List.mem_cons, List.not_mem_nil, or_false] at h
  rcases h with rfl | rfl | rfl <;> decide

/-- C87: for a title on one line, the section is skipped, or gives just the facts that it should, and the property and object for the sentences in it. It stops otherwise. -/
theorem c87_property (space : Char → Bool) (s : Sec) (hl : Line s.title) (o : Out) : read space s = some o ↔ Gives space s o := by
  have hbare : Bare s.title (bare false s.title) := bare_spec hl
  unfold read
  constructor
  · intro h
    cases hi : instances (s.kind :: s.above) with
    | none => rw [hi] at h; cases h
    | some b =>
      have hf := (instances_iff _ _).1 hi
      rw [hi] at h
      cases b with
      | true =>
        obtain rfl := Option.some.inj h
        exact .skipped hf
      | false =>
        dsimp only at h
        cases hp : propertyOf s with
        | none => rw [hp] at h; cases h
        | some q =>
          obtain ⟨c, k⟩ := q
          have ha := (property_iff hl hbare).1 hp
          rw [hp] at h
          dsimp only at h
          by_cases hx : "_xref".toList.isSuffixOf s.kind = true
          · rw [if_pos hx] at h
            by_cases hr : refers k s.blocks = true
            · rw [if_pos hr] at h
              obtain rfl := Option.some.inj h
              exact .refers hf hbare ha (ends_iff.1 hx) ((refers_iff _ _).1 hr)
            · rw [if_neg hr] at h; cases h
          · rw [if_neg hx] at h
            cases hd : definesObject space s with
            | none => rw [hd] at h; cases h
            | some d =>
              rw [hd] at h
              dsimp only at h
              obtain rfl := Option.some.inj h
              obtain ⟨hk, hb⟩ := (defines_iff s d).1 hd
              have := Gives.scanned (space := space) hf hbare ha hk ((proto_iff s.parent c _).1 rfl) ((constructor_iff s.parent c _).1 rfl)
                (o := if d then some (bare false s.title) else none) (by
                  cases d with
                  | true => exact .inl ⟨hb.1 rfl, rfl⟩
                  | false => exact .inr ⟨fun h => (by have := hb.2 h; cases this), rfl⟩)
              simpa using this
  · intro h
    cases h with
    | skipped hf => rw [(instances_iff _ true).2 hf]
    | refers hf hb ha hx hr =>
      rw [(instances_iff _ false).2 hf]
      dsimp only
      rw [(property_iff hl hb).2 ha]
      dsimp only
      rw [if_pos (ends_iff.2 hx), if_pos ((refers_iff _ _).2 hr)]
    | scanned hf hb ha hk hfs hgs ho =>
      rename_i i c k fs gs o
      obtain rfl := (bare_iff hl).1 hb
      rw [(instances_iff _ false).2 hf]
      dsimp only
      rw [(property_iff hl hb).2 ha]
      dsimp only
      rw [if_neg (fun h => xref_kinds hk (ends_iff.1 h)), ← (proto_iff s.parent c fs).2 hfs, ← (constructor_iff s.parent c gs).2 hgs]
      rcases ho with ⟨hd, rfl⟩ | ⟨hd, rfl⟩
      · rw [(defines_iff s true).2 ⟨hk, by simp [hd]⟩]; simp
      · rw [(defines_iff s false).2 ⟨hk, by simp [hd]⟩]; simp

/-- C87: a section that is not skipped always says that its property is there, first. -/
theorem c87_exists (space : Char → Bool) (s : Sec) (hl : Line s.title) (o : Out) (h : read space s = some o) (hn : ¬ First "instances:" (s.kind :: s.above)) :
    ∃ i c k fs, Bare s.title i ∧ About s i c k ∧ (o = .refers (.prop c k [] :: fs) ∨ ∃ b, o = .scanned (.prop c k [] :: fs) (c, k) b) ∧ ∀ f ∈ fs, ∃ n, f = .aka n c := by
  have hg := (c87_property space s hl o).1 h
  cases hg with
  | skipped hf => exact absurd hf hn
  | refers _ hb ha => exact ⟨_, _, _, [], hb, ha, .inl rfl, by simp⟩
  | scanned _ hb ha _ hfs hgs _ =>
    refine ⟨_, _, _, _, hb, ha, .inr ⟨_, rfl⟩, fun f hf => ?_⟩
    rcases List.mem_append.1 hf with hf | hf
    · rcases hfs with ⟨_, ⟨p, _, rfl⟩ | ⟨_, rfl⟩⟩ | ⟨_, rfl⟩
      · exact ⟨p, by simpa using hf⟩
      · cases hf
      · cases hf
    · rcases hgs with ⟨p, _, rfl⟩ | ⟨_, rfl⟩
      · exact ⟨p, by simpa using hf⟩
      · cases hf

/-- C87: a section about a call of a constructor. -/
theorem c87_constructor (space : Char → Bool) (hs : space ' ' = true) (nonGlobal : List Str) (title : Str) (x : Fact × Option (Str × Str) × Str) :
    callConstruct space nonGlobal title = some x ↔ Constructs space nonGlobal title x := by
  have hng : ∀ n : Str, (nonGlobal.contains n || nonGlobal.contains ('%' :: n ++ ['%'])) = true ↔ (n ∈ nonGlobal ∨ "%".toList ++ n ++ "%".toList ∈ nonGlobal) := by
    intro n; simp
  unfold callConstruct
  constructor
  · intro h
    dsimp only at h
    have hsplit : title = title.takeWhile (fun c => !space c) ++ title.dropWhile (fun c => !space c) := List.takeWhile_append_dropWhile.symm
    have htake : ∀ c ∈ title.takeWhile (fun c => !space c), space c = false := by
      intro c hc
      have := List.all_eq_true.1 (List.all_takeWhile (l := title) (p := fun c => !space c)) c hc
      simpa using this
    generalize title.takeWhile (fun c => !space c) = n at h hsplit htake
    generalize title.dropWhile (fun c => !space c) = d at h hsplit
    cases ha : after " (" d with
    | none => rw [ha] at h; cases h
    | some r =>
      rw [ha] at h
      dsimp only at h
      cases hb : before ")" r with
      | none => rw [hb] at h; cases h
      | some y =>
        rw [hb] at h
        dsimp only at h
        have ht : title = n ++ " (".toList ++ y ++ ")".toList := by rw [hsplit, after_iff.1 ha, before_iff.1 hb]; simp
        by_cases h1 : (n.isEmpty || y.isEmpty || y.contains '(' || y.contains ')') = true
        · rw [if_pos h1] at h; cases h
        · rw [if_neg h1] at h
          simp only [Bool.or_eq_true, List.isEmpty_iff, List.contains_eq_mem, decide_eq_true_eq, not_or] at h1
          obtain ⟨⟨⟨e1, e2⟩, e3⟩, e4⟩ := h1
          by_cases h2 : (nonGlobal.contains n || nonGlobal.contains ('%' :: n ++ ['%'])) = true
          · rw [if_pos h2] at h
            obtain rfl := Option.some.inj h
            rw [ht]
            exact .other ⟨e1, htake⟩ e2 e3 e4 ((hng n).1 h2)
          · rw [if_neg h2] at h
            by_cases h3 : n.contains '"' = true
            · rw [if_pos h3] at h; cases h
            · rw [if_neg h3] at h
              obtain rfl := Option.some.inj h
              rw [ht]
              exact .global ⟨e1, htake⟩ e2 e3 e4 (fun h => h2 ((hng n).2 h)) (by simpa using h3)
  · intro h
    have key : ∀ n y : Str, Solid space n → (n ++ " (".toList ++ y ++ ")".toList).takeWhile (fun c => !space c) = n ∧
        (n ++ " (".toList ++ y ++ ")".toList).dropWhile (fun c => !space c) = " (".toList ++ (y ++ ")".toList) := by
      intro n y hn
      have := takeWhile_all (p := fun c => !space c) (w := n) (r := " (".toList ++ (y ++ ")".toList)) (fun c hc => by rw [hn.2 c hc]; rfl) (by simp [hs])
      simpa only [List.append_assoc] using this
    cases h with
    | other hn h2 h3 h4 h5 =>
      rename_i n y
      rw [(key n y hn).1, (key n y hn).2]
      dsimp only
      rw [after_iff.2 rfl]
      dsimp only
      rw [before_iff.2 rfl]
      dsimp only
      rw [if_neg (by simp [hn.1, h2, h3, h4]), if_pos ((hng n).2 h5)]
    | global hn h2 h3 h4 h5 h6 =>
      rename_i n y
      rw [(key n y hn).1, (key n y hn).2]
      dsimp only
      rw [after_iff.2 rfl]
      dsimp only
      rw [before_iff.2 rfl]
      dsimp only
      rw [if_neg (by simp [hn.1, h2, h3, h4]), if_neg (fun h => h5 ((hng n).1 h)), if_neg (by simpa using h6)]
      rfl

/-! ## C88 -/

theorem agrees_iff (property : Option (Str × Str)) (n : Str) : confirms property n = true ↔ Agrees property n := by
  cases property with
  | none => exact c75_confirm_none n
  | some q => obtain ⟨c, k⟩ := q; exact c75_confirm c k n

theorem named_iff (r : Ref) (n : Str) : Named r n ↔ r.name1.or r.name2 = some n ∧ n ≠ "It".toList := by
  unfold Named
  cases r.name1 <;> simp [and_comm]

theorem calls_iff (r : Ref) (x : Str) : Calls r x ↔ r.what1.or r.what3 = some x := by
  unfold Calls
  cases r.what1 <;> simp

/-- The message about the name, if no assertion fails. -/
def nameMsg (property : Option (Str × Str)) (r : Ref) : Option (List Msg) :=
  match r.name1.or r.name2 with
  | none => some []
  | some n =>
    if n = "It".toList then some []
    else if !confirms property n then none
    else if r.second = some "Each".toList then some [] else some [.byName]

theorem nameMsg_iff (property : Option (Str × Str)) (r : Ref) (ms : List Msg) : nameMsg property r = some ms ↔ NameMsg property r ms := by
  unfold nameMsg
  cases hn : r.name1.or r.name2 with
  | none =>
    have hno : ¬ ∃ n, Named r n := by rintro ⟨n, h⟩; rw [named_iff, hn] at h; cases h.1
    constructor
    · intro h; obtain rfl := Option.some.inj h; exact .unnamed hno
    · intro h
      cases h with
      | unnamed => rfl
      | each h => exact absurd ⟨_, h⟩ hno
      | named h => exact absurd ⟨_, h⟩ hno
  | some n =>
    dsimp only
    by_cases hit : n = "It".toList
    · rw [if_pos hit]
      have hno : ¬ ∃ n, Named r n := by
        rintro ⟨m, h⟩
        rw [named_iff, hn] at h
        obtain ⟨e, h⟩ := h
        exact h ((Option.some.inj e) ▸ hit)
      constructor
      · intro h; obtain rfl := Option.some.inj h; exact .unnamed hno
      · intro h
        cases h with
        | unnamed => rfl
        | each h => exact absurd ⟨_, h⟩ hno
        | named h => exact absurd ⟨_, h⟩ hno
    · rw [if_neg hit]
      have hyes : Named r n := (named_iff r n).2 ⟨hn, hit⟩
      have huniq : ∀ m, Named r m → m = n := by
        intro m h
        rw [named_iff, hn] at h
        exact (Option.some.inj h.1).symm
      by_cases hc : confirms property n = true
      · rw [hc, if_neg (by simp)]
        have ha := (agrees_iff property n).1 hc
        by_cases he : r.second = some "Each".toList
        · rw [if_pos he]
          constructor
          · intro h; obtain rfl := Option.some.inj h; exact .each hyes ha he
          · intro h
            cases h with
            | unnamed h => rfl
            | each => rfl
            | named _ _ h => exact absurd he h
        · rw [if_neg he]
          constructor
          · intro h; obtain rfl := Option.some.inj h; exact .named hyes ha he
          · intro h
            cases h with
            | unnamed h => exact absurd ⟨_, hyes⟩ h
            | each _ _ h => exact absurd h he
            | named => rfl
      · rw [if_pos (by simpa using hc)]
        constructor
        · intro h; cases h
        · intro h
          cases h with
          | unnamed h => exact absurd ⟨_, hyes⟩ h
          | each h1 h2 => exact absurd ((agrees_iff _ _).2 (huniq _ h1 ▸ h2)) hc
          | named h1 h2 => exact absurd ((agrees_iff _ _).2 (huniq _ h1 ▸ h2)) hc

/-- Whether the function is to be called a method. -/
def isMethod (title : Str) (object : Option Str) : Option Bool :=
  if (hasSub ".prototype".toList title || hasSub "Prototype%".toList title) && !"get ".toList.isPrefixOf title then some true
  else object.map methodsToo.contains

theorem method_iff (title : Str) (object : Option Str) (b : Bool) : isMethod title object = some b ↔ Method title object b := by
  have hp : ((hasSub ".prototype".toList title || hasSub "Prototype%".toList title) && !"get ".toList.isPrefixOf title) = true ↔ InPrototype title := by
    unfold InPrototype
    rw [Bool.and_eq_true, Bool.or_eq_true, has_iff, has_iff, Bool.not_eq_true', ← Bool.not_eq_true, starts_iff]
  have hm : ∀ o : Str, methodsToo.contains o = true ↔ ∃ t ∈ also, o = t.toList := by
    intro o
    unfold methodsToo also
    rw [List.contains_eq_mem, decide_eq_true_iff, List.mem_map]
    constructor
    · rintro ⟨t, h, e⟩; exact ⟨t, h, e.symm⟩
    · rintro ⟨t, h, e⟩; exact ⟨t, h, e.symm⟩
  unfold isMethod
  by_cases h : InPrototype title
  · rw [if_pos (hp.2 h)]
    constructor
    · intro e; obtain rfl := Option.some.inj e; exact .inside h
    · intro hmm
      cases hmm with
      | inside => rfl
      | outside hn => exact absurd h hn
  · rw [if_neg (fun e => h (hp.1 e))]
    constructor
    · intro e
      cases ho : object with
      | none => rw [ho] at e; cases e
      | some o =>
        rw [ho] at e
        obtain rfl := Option.some.inj e
        exact .outside h rfl _ (hm o)
    · intro hmm
      cases hmm with
      | inside hi => exact absurd hi h
      | outside _ ho _ hb =>
        rename_i o
        rw [ho, Option.map_some]
        congr 1
        rw [Bool.eq_iff_iff, hb, hm]

/-- The message about what it is called. -/
def whatMsg (title : Str) (object : Option Str) (r : Ref) : Option (List Msg) :=
  match r.what1.or r.what3 with
  | none => some []
  | some x => match isMethod title object with
    | none => none
    | some true => if x = "method".toList then some [] else some [.expectedMethod x]
    | some false => if x = "method".toList then some [.unexpectedMethod] else some []

theorem method_unique {title : Str} {object : Option Str} {a b : Bool} (h1 : Method title object a) (h2 : Method title object b) : a = b := by
  rw [← method_iff] at h1 h2
  exact Option.some.inj (h1.symm.trans h2)

theorem whatMsg_iff (title : Str) (object : Option Str) (r : Ref) (ms : List Msg) : whatMsg title object r = some ms ↔ WhatMsg title object r ms := by
  unfold whatMsg
  cases hx : r.what1.or r.what3 with
  | none =>
    have hno : ¬ ∃ x, Calls r x := by rintro ⟨x, h⟩; rw [calls_iff, hx] at h; cases h
    constructor
    · intro h; obtain rfl := Option.some.inj h; exact .uncalled hno
    · intro h
      cases h with
      | uncalled => rfl
      | fits h => exact absurd ⟨_, h⟩ hno
      | missing h => exact absurd ⟨_, h⟩ hno
      | wrong h => exact absurd ⟨_, h⟩ hno
  | some x =>
    have hyes : Calls r x := (calls_iff r x).2 hx
    have huniq : ∀ y, Calls r y → y = x := by
      intro y h; rw [calls_iff, hx] at h; exact (Option.some.inj h).symm
    dsimp only
    cases hm : isMethod title object with
    | none =>
      have hno : ∀ b, ¬ Method title object b := by intro b h; rw [← method_iff, hm] at h; cases h
      constructor
      · intro h; cases h
      · intro h
        cases h with
        | uncalled h => exact absurd ⟨_, hyes⟩ h
        | fits _ h => exact absurd h (hno _)
        | missing _ h => exact absurd h (hno _)
        | wrong _ h => exact absurd h (hno _)
    | some b =>
      have hb := (method_iff _ _ _).1 hm
      cases b with
      | true =>
        dsimp only
        by_cases he : x = "method".toList
        · rw [if_pos he]
          constructor
          · intro h; obtain rfl := Option.some.inj h; exact .fits hyes hb (by simp [he])
          · intro h
            cases h with
            | uncalled h => rfl
            | fits => rfl
            | missing h1 _ h => exact absurd he (huniq _ h1 ▸ h)
            | wrong _ h => exact absurd (method_unique hb h) (by decide)
        · rw [if_neg he]
          constructor
          · intro h; obtain rfl := Option.some.inj h; exact .missing hyes hb he
          · intro h
            cases h with
            | uncalled h => exact absurd ⟨_, hyes⟩ h
            | fits h1 h2 h3 =>
              obtain rfl := method_unique hb h2
              exact absurd (huniq _ h1 ▸ h3.1 rfl) he
            | missing h1 => rw [huniq _ h1]
            | wrong _ h => exact absurd (method_unique hb h) (by decide)
      | false =>
        dsimp only
        by_cases he : x = "method".toList
        · rw [if_pos he]
          constructor
          · intro h; obtain rfl := Option.some.inj h; exact .wrong (he ▸ hyes) hb
          · intro h
            cases h with
            | uncalled h => exact absurd ⟨_, hyes⟩ h
            | fits h1 h2 h3 =>
              obtain rfl := method_unique hb h2
              exact absurd (h3.2 (huniq _ h1 ▸ he)) (by decide)
            | missing _ h => exact absurd (method_unique hb h) (by decide)
            | wrong => rfl
        · rw [if_neg he]
          constructor
          · intro h; obtain rfl := Option.some.inj h; exact .fits hyes hb ⟨fun h => (by cases h), fun h => absurd h he⟩
          · intro h
            cases h with
            | uncalled h => rfl
            | fits => rfl
            | missing _ h => exact absurd (method_unique hb h) (by decide)
            | wrong h1 => exact absurd (huniq _ h1).symm he

theorem check_eq (title : Str) (property : Option (Str × Str)) (object : Option Str) (r : Ref) :
    checkFunction title property object r = (nameMsg property r).bind (fun a => (whatMsg title object r).map (a ++ ·)) := by
  have hn : checkFunction title property object r = match nameMsg property r with
      | none => none
      | some ms => match r.what1.or r.what3 with
        | none => some ms
        | some x => match isMethod title object with
          | none => none
          | some true => if x = "method".toList then some ms else some (ms ++ [.expectedMethod x])
          | some false => if x = "method".toList then some (ms ++ [.unexpectedMethod]) else some ms := rfl
  rw [hn]
  cases nameMsg property r with
  | none => rfl
  | some ms =>
    unfold whatMsg
    rw [Option.bind_some]
    dsimp only
    cases r.what1.or r.what3 with
    | none => simp
    | some x =>
      dsimp only
      cases isMethod title object with
      | none => rfl
      | some b => cases b <;> dsimp only <;> split <;> simp

/-- C88: the check goes through just if the sentence does not name another property, and it is known whether the function is a method in case that is needed; then there is a message just if
the function is named, otherwise than after `Each`, and one just if it is called a method and is none, or is a method and is called something else. -/
theorem c88_check (title : Str) (property : Option (Str × Str)) (object : Option Str) (r : Ref) (ms : List Msg) :
    checkFunction title property object r = some ms ↔ ∃ a b, NameMsg property r a ∧ WhatMsg title object r b ∧ ms = a ++ b := by
  rw [check_eq]
  simp only [Option.bind_eq_some_iff, Option.map_eq_some_iff, nameMsg_iff, whatMsg_iff]
  constructor
  · rintro ⟨a, ha, b, hb, rfl⟩; exact ⟨a, b, ha, hb, rfl⟩
  · rintro ⟨a, b, ha, hb, rfl⟩; exact ⟨a, ha, b, hb, rfl⟩

/-- C88: there is no message for a sentence that says `this method` about a method, or `this function` about another function. -/
theorem c88_quiet (title : Str) (property : Option (Str × Str)) (object : Option Str) (x : Str) (b : Bool) (hm : Method title object b) (hx : b = true ↔ x = "method".toList) :
    checkFunction title property object ⟨none, none, none, none, some x⟩ = some [] := by
  refine (c88_check _ _ _ _ _).2 ⟨[], [], .unnamed ?_, .fits (x := x) (.inr ⟨rfl, rfl⟩) hm hx, rfl⟩
  rintro ⟨n, _, h | ⟨_, h⟩⟩ <;> cases h

/-! ## Cases -/

def exSpace (c : Char) : Bool := c == ' ' || c == '\n'

def exSec : Sec :=
  { kind := "function_property".toList
    above := ["group".toList, "intrinsic: info".toList, "instances: x".toList]
    title := "Map.prototype.get ( _key_ )".toList
    parent := "Properties of the Map Prototype Object".toList
    grand := none
    blocks := [("p", "This method performs the following steps when called:".toList), ("emu-alg", [])] }

/-- A method in a prototype. -/
theorem ex_read : read exSpace exSec = some (.scanned
    [.prop "Map.prototype".toList "*\"get\"*".toList [], .aka "the Map prototype object".toList "Map.prototype".toList]
    ("Map.prototype".toList, "*\"get\"*".toList) (some "Map.prototype.get".toList)) := by decide +kernel

theorem ex_line : Line exSec.title := by unfold Line exSec; decide +kernel

example : Gives exSpace exSec (.scanned
    [.prop "Map.prototype".toList "*\"get\"*".toList [], .aka "the Map prototype object".toList "Map.prototype".toList]
    ("Map.prototype".toList, "*\"get\"*".toList) (some "Map.prototype.get".toList)) := (c87_property _ _ ex_line _).1 ex_read

/-- In a section about instances nothing is read; a function that is another one is not defined; a global property has to be where they are listed. -/
example : read exSpace { exSec with above := ["instances: x".toList, "intrinsic: info".toList] } = some .skipped ∧
    read exSpace { exSec with title := "Date.prototype.toGMTString ( )".toList, parent := [], blocks := [("p", "The initial value of the *\"toGMTString\"* property is %Date.prototype.toUTCString%.".toList)] } =
      some (.scanned [.prop "Date.prototype".toList "*\"toGMTString\"*".toList []] ("Date.prototype".toList, "*\"toGMTString\"*".toList) none) ∧
    read exSpace { exSec with title := "globalThis".toList, kind := "other_property".toList, parent := "Value Properties of the Global Object".toList } =
      some (.scanned [.prop "the global object".toList "*\"globalThis\"*".toList []] ("the global object".toList, "*\"globalThis\"*".toList) none) ∧
    read exSpace { exSec with title := "globalThis".toList, kind := "other_property".toList } = none := by decide +kernel

example : way exSec = .property ∧ way { exSec with kind := "CallConstruct".toList } = .constructor ∧ way { exSec with title := "Well-Known Intrinsic Objects".toList } = .table := by decide +kernel

example : callConstruct exSpace ["%AsyncFunction%".toList] "Map ( [ _iterable_ ] )".toList = some (.is "Map".toList "a constructor".toList, some ("the global object".toList, "*\"Map\"*".toList), "Map".toList) ∧
    callConstruct exSpace ["%AsyncFunction%".toList] "AsyncFunction ( _x_ )".toList = some (.is "AsyncFunction".toList "a constructor".toList, none, "AsyncFunction".toList) ∧
    callConstruct exSpace [] "Map".toList = none := ⟨rfl, rfl, rfl⟩

/-- A function that is named, and is called a function although it is a method. -/
example : checkFunction exSec.title (some ("Map.prototype".toList, "*\"get\"*".toList)) (some "Map.prototype.get".toList)
      ⟨some "The".toList, some "`Map.prototype.get`".toList, none, some "function".toList, none⟩ = some [.byName, .expectedMethod "function".toList] ∧
    checkFunction exSec.title (some ("Map.prototype".toList, "*\"get\"*".toList)) none ⟨some "The".toList, some "set".toList, none, none, none⟩ = none ∧
    checkFunction "Array.from ( x )".toList (some ("Array".toList, "*\"from\"*".toList)) (some "Array.from".toList) ⟨none, none, none, none, some "method".toList⟩ = some [] := by decide +kernel

end Verif.Propsecs
