import Verif.Preambles.HeadLemmas
/-! # Lemmas about preambles -/
namespace Verif.Preambles
open Verif.Kinds
open Verif.Paths.Spec (Word)
open Verif.Kinds.Spec (Line Some')
open Verif.Sections (isWord)
open Spec

/-! ## Paragraphs as a whole -/

theorem contents_iff {s : Str} {o : List Fact × Str} : contents s = some o ↔ ∃ c r, c ≠ '\n' ∧ Some' r ∧
    s = "This method returns a String value".toList ++ c :: " The contents of the String are ".toList ++ r ∧
    o = ([("kind", "method".toList), ("retn", "a String value".toList)], "The contents of the returned String are ".toList ++ r) := by
  have e1 : " The contents of the String are ".toList = " The contents of the String ".toList ++ "are ".toList := by decide +kernel
  have e2 : "The contents of the returned String are ".toList = "The contents of the returned String ".toList ++ "are ".toList := by decide +kernel
  rw [e1, e2]
  unfold contents
  constructor
  · intro h
    split at h
    · next c t h1 =>
      split at h
      · next u h2 =>
        split at h
        · next hf =>
          rw [Bool.and_eq_true, full_iff, m_before] at hf
          obtain ⟨hc, r, hr, rfl⟩ := hf
          cases h
          refine ⟨c, r, by simpa using hc, m_line.mp hr, ?_, by simp⟩
          rw [after_iff.mp h1, after_iff.mp h2]
          simp
        · cases h
      · cases h
    · cases h
  · rintro ⟨c, r, hc, hr, rfl, rfl⟩
    have e : "This method returns a String value".toList ++ c :: (" The contents of the String ".toList ++ "are ".toList) ++ r =
        "This method returns a String value".toList ++ (c :: (" The contents of the String ".toList ++ ("are ".toList ++ r))) := by
      simp only [List.append_assoc, List.cons_append]
    rw [e, after_iff.mpr rfl]
    simp only
    rw [after_iff.mpr rfl]
    simp only
    rw [if_pos, List.append_assoc]
    rw [Bool.and_eq_true, full_iff, m_before]
    exact ⟨by simpa using hc, r, m_line.mpr hr, rfl⟩

theorem path_iff {c : Char} : pathChar c = true ↔ c = ']' ∨ c = '[' ∨ c = '@' ∨ c = '.' ∨ c = '_' ∨ c.isAlphanum = true := by
  unfold pathChar isWord
  simp only [Bool.or_eq_true, beq_iff_eq]
  constructor
  · rintro ((((h | h) | h) | h | h) | h) <;> simp [h]
  · rintro (h | h | h | h | h | h) <;> simp [h]

theorem accessor_iff {s : Str} {o : List Fact × Str} : accessor s = some o ↔ ∃ n c, n ≠ [] ∧ (∀ d ∈ n, d = ']' ∨ d = '[' ∨ d = '@' ∨ d = '.' ∨ d = '_' ∨ d.isAlphanum = true) ∧ c ≠ '\n' ∧
    s = "`".toList ++ n ++ "` is an accessor property whose set accessor function is *undefined*".toList ++ c :: " Its get accessor function performs the following steps when called:".toList ∧
    o = ([("name", "get ".toList ++ n)], " `".toList ++ n ++ "` is an accessor property whose set accessor function is *undefined*".toList ++ [c]) := by
  unfold accessor
  constructor
  · intro h
    split at h
    · next t =>
      simp only at h
      split at h
      · next c u h1 =>
        split at h
        · next hc =>
          obtain ⟨hn, hc, rfl⟩ := hc
          cases h
          refine ⟨t.takeWhile pathChar, c, hn, fun d hd => path_iff.mp (List.all_eq_true.mp List.all_takeWhile d hd), hc, ?_, rfl⟩
          conv => lhs; rw [← List.takeWhile_append_dropWhile (p := pathChar) (l := t), after_iff.mp h1]
          simp
        · cases h
      · cases h
    · cases h
  · rintro ⟨n, c, hn, hd, hc, rfl, rfl⟩
    have e : "`".toList ++ n ++ "` is an accessor property whose set accessor function is *undefined*".toList ++ c :: " Its get accessor function performs the following steps when called:".toList =
        '`' :: (n ++ ("` is an accessor property whose set accessor function is *undefined*".toList ++ (c :: " Its get accessor function performs the following steps when called:".toList))) := by
      simp
    obtain ⟨k1, k2⟩ := Titles.takeWhile_all (p := pathChar) (w := n)
      (r := "` is an accessor property whose set accessor function is *undefined*".toList ++ (c :: " Its get accessor function performs the following steps when called:".toList))
      (fun d h => path_iff.mpr (hd d h)) (by intro c h; cases h; decide)
    rw [e]
    simp only [k1, k2]
    rw [after_iff.mpr rfl]
    simp only
    rw [if_pos ⟨hn, hc, trivial⟩]

theorem whole_iff {s : Str} {fs : List Fact} {l : Str} : Whole s fs l ↔ contents s = some (fs, l) ∨ accessor s = some (fs, l) := by
  rw [contents_iff, accessor_iff]
  constructor
  · intro h
    cases h with
    | contents hc hr => exact .inl ⟨_, _, hc, hr, rfl, rfl⟩
    | accessor hn hd hc => exact .inr ⟨_, _, hn, hd, hc, rfl, rfl⟩
  · rintro (⟨c, r, hc, hr, rfl, h⟩ | ⟨n, c, hn, hd, hc, rfl, h⟩) <;> cases h
    · exact .contents hc hr
    · exact .accessor hn hd hc

theorem left_fun {s : Str} {fs : List Fact} {l : Str} (h : Left s fs l) : apply multiRules s = (fs, l) := by
  unfold multiRules
  cases h with
  | whole h =>
    cases h with
    | @contents c r hc hr =>
      rw [apply_go (contents_iff.mpr ⟨c, r, hc, hr, rfl, rfl⟩) (by simp), apply_skip (none_of fun o ho => by
        obtain ⟨n, d, _, _, _, he, _⟩ := accessor_iff.mp ho
        exact absurd (congrArg List.head? he) (by simp))]
      rfl
    | @accessor n c hn hd hc =>
      rw [apply_skip (none_of fun o ho => by
        obtain ⟨d, r, _, _, he, _⟩ := contents_iff.mp ho
        exact absurd (congrArg List.head? he) (by simp)), apply_go (accessor_iff.mpr ⟨n, c, hn, hd, hc, rfl, rfl⟩) (by simp)]
      rfl
  | same h =>
    rw [apply_skip (none_of fun o ho => h o.1 o.2 (whole_iff.mpr (.inl ho))), apply_skip (none_of fun o ho => h o.1 o.2 (whole_iff.mpr (.inr ho)))]
    rfl

theorem left_total (s : Str) : ∃ fs l, Left s fs l := by
  by_cases h : ∃ fs l, Whole s fs l
  · obtain ⟨fs, l, h⟩ := h
    exact ⟨fs, l, .whole h⟩
  · exact ⟨[], s, .same fun fs l hw => h ⟨fs, l, hw⟩⟩

theorem left_one {s : Str} {fs fs' : List Fact} {l l' : Str} (h : Left s fs l) (h' : Left s fs' l') : fs = fs' ∧ l = l' := by
  have := left_fun h
  rw [left_fun h'] at this
  cases this
  exact ⟨rfl, rfl⟩

theorem left_ne {s : Str} {fs : List Fact} {l : Str} (hs : s ≠ []) (h : Left s fs l) : l ≠ [] := by
  cases h with
  | whole h => cases h <;> simp
  | same _ => exact hs

theorem left_desc {s : Str} {fs : List Fact} {l : Str} (h : Left s fs l) : ∀ f ∈ fs, f.1 ≠ "desc" := by
  cases h with
  | whole h => cases h <;> simp
  | same _ => simp

/-! ## Sentences of a paragraph -/

theorem rewrite_one {s s1 s2 : Str} {p1 p2 : List Str} (h1 : Rewrite s s1 p1) (h2 : Rewrite s s2 p2) : s1 = s2 ∧ p1 = p2 := by
  cases h1 with
  | @method r hr =>
    generalize e : "This method ".toList ++ r = s at h2
    cases h2 with
    | method hr' => rw [List.append_cancel_left_eq] at e; exact ⟨by rw [e], rfl⟩
    | given hr' => exact absurd (congrArg List.head? e) (by simp)
    | plain h4 h5 => exact absurd e.symm (h4 _ hr)
  | @given r hr =>
    generalize e : "Given zero or more arguments, this function calls ToNumber ".toList ++ r = s at h2
    cases h2 with
    | method hr' => exact absurd (congrArg List.head? e) (by simp)
    | given hr' => rw [List.append_cancel_left_eq] at e; exact ⟨by rw [e], rfl⟩
    | plain h4 h5 => exact absurd e.symm (h5 _ hr)
  | plain h4 h5 =>
    cases h2 with
    | method hr' => exact absurd rfl (h4 _ hr')
    | given hr' => exact absurd rfl (h5 _ hr')
    | plain _ _ => exact ⟨rfl, rfl⟩

theorem attr_one {s p q : Str} (h1 : Attribute s p) (h2 : Attribute s q) : p = q := by
  have := single_attr h1
  rw [single_attr h2] at this
  simp only [Prod.mk.injEq, List.cons.injEq, and_true, true_and] at this
  exact this.symm

theorem single_facts {s : Str} (hs : s ≠ []) : ∀ f, f ∈ (apply singleRules s).1 ↔ Gives s f := by
  intro f
  by_cases h1 : Silent s
  · rw [single_silent h1]
    refine iff_of_false (by simp) ?_
    intro h
    cases h with
    | kind h => exact attr_silent h h1
    | about h => exact attr_silent h h1
    | given h _ _ _ => exact h h1
    | result h _ _ _ => exact h h1
  · by_cases h2 : ∃ pl, Attribute s pl
    · obtain ⟨pl, h2⟩ := h2
      rw [single_attr h2]
      constructor
      · intro h
        simp only [List.mem_cons, List.not_mem_nil, or_false] at h
        rcases h with rfl | rfl
        · exact .about h2
        · exact .kind h2
      · intro h
        cases h with
        | kind h => simp
        | about h => rw [attr_one h h2]; simp
        | given _ h _ _ => exact absurd h2 (h pl)
        | result _ h _ _ => exact absurd h2 (h pl)
    · have h2' : ∀ pl, ¬ Attribute s pl := fun pl h => h2 ⟨pl, h⟩
      obtain ⟨s', pls, hr⟩ := rewrite_total s
      obtain ⟨rs, he, hm⟩ := single_other hs h1 h2' hr
      rw [he, List.mem_append, hm, List.mem_map]
      constructor
      · rintro (⟨p, hp, rfl⟩ | ⟨v, rfl, hv⟩)
        · exact .given h1 h2' hr hp
        · exact .result h1 h2' hr hv
      · intro h
        cases h with
        | kind h => exact absurd h (h2' _)
        | about h => exact absurd h (h2' _)
        | given _ _ hr' hp =>
          rw [← (rewrite_one hr hr').2] at hp
          exact .inl ⟨_, hp, rfl⟩
        | result _ _ hr' hv =>
          rw [← (rewrite_one hr hr').1] at hv
          exact .inr ⟨_, rfl, hv⟩

theorem each_none : ∀ {ss : List Str}, eachSentence ss = none ↔ [] ∈ ss
  | [] => by simp [eachSentence]
  | s :: ss => by
    rw [eachSentence]
    by_cases hs : s = []
    · rw [if_pos hs]; simp [hs]
    · rw [if_neg hs, List.mem_cons]
      have ih := each_none (ss := ss)
      cases h : eachSentence ss with
      | none =>
        rw [h] at ih
        simp only [true_iff] at ih
        simp [ih]
      | some o =>
        rw [h] at ih
        simp only [reduceCtorEq, false_iff] at ih
        simp only [reduceCtorEq, false_iff, not_or]
        exact ⟨fun e => hs e.symm, ih⟩

theorem each_some : ∀ {ss ks : List Str} {fs : List Fact} {left : List Str}, eachSentence ss = some (fs, left) → (∀ f, f ∈ fs ↔ ∃ s ∈ ss, Gives s f) ∧ (Kept ss ks ↔ left = ks)
  | [], ks, fs, left, h => by
    cases h
    refine ⟨by simp, ?_, ?_⟩
    · intro h; cases h; rfl
    · rintro rfl; exact .nil
  | s :: ss, ks, fs, left, h => by
    rw [eachSentence] at h
    split at h
    · cases h
    · next hs =>
      split at h
      · cases h
      · next fs' left' h' =>
        cases h
        have ih := fun ks => each_some (ks := ks) h'
        refine ⟨?_, ?_⟩
        · intro f
          rw [List.mem_append, single_facts hs, (ih []).1]
          simp
        · by_cases h1 : Silent s
          · rw [single_silent h1, if_pos rfl]
            constructor
            · intro h
              cases h with
              | silent _ h => exact (ih ks).2.mp h
              | about ha _ => exact absurd h1 (attr_silent ha)
              | sentence hn _ _ _ => exact absurd h1 hn
            · intro h; exact .silent h1 ((ih ks).2.mpr h)
          · by_cases h2 : ∃ pl, Attribute s pl
            · obtain ⟨pl, h2⟩ := h2
              rw [single_attr h2, if_pos rfl]
              constructor
              · intro h
                cases h with
                | silent hh h => exact absurd hh h1
                | about ha h => exact (ih ks).2.mp h
                | sentence _ hn _ _ => exact absurd h2 (hn pl)
              · intro h; exact .about h2 ((ih ks).2.mpr h)
            · have h2' : ∀ pl, ¬ Attribute s pl := fun pl h => h2 ⟨pl, h⟩
              obtain ⟨s', pls, hr⟩ := rewrite_total s
              obtain ⟨rs, he, hm⟩ := single_other hs h1 h2' hr
              rw [he, if_neg (rewrite_ne hs hr)]
              constructor
              · intro h
                cases h with
                | silent hh h => exact absurd hh h1
                | about ha h => exact absurd ha (h2' _)
                | sentence _ _ hr' h =>
                  rw [(ih _).2.mp h, (rewrite_one hr hr').1]
              · rintro rfl
                exact .sentence h1 h2' hr ((ih _).2.mpr rfl)

theorem kept_ne {ss ks : List Str} (h : Kept ss ks) (hs : [] ∉ ss) : [] ∉ ks := by
  induction h with
  | nil => exact hs
  | silent _ _ ih => exact ih fun h => hs (List.mem_cons_of_mem _ h)
  | about _ _ ih => exact ih fun h => hs (List.mem_cons_of_mem _ h)
  | @sentence s s' pls ss ks _ _ hr _ ih =>
    intro h
    rcases List.mem_cons.mp h with h | h
    · exact rewrite_ne (fun e => hs (by rw [e]; simp)) hr h.symm
    · exact ih (fun h => hs (List.mem_cons_of_mem _ h)) h

theorem joined_iff : ∀ {ks : List Str} {d : Str}, Joined ks d ↔ ks ≠ [] ∧ joinBy " ".toList ks = d
  | [], d => by
    refine iff_of_false (fun h => by cases h) (by simp)
  | [s], d => by
    simp only [joinBy, ne_eq, reduceCtorEq, not_false_eq_true, true_and]
    constructor
    · intro h; cases h; rfl
    · rintro rfl; exact .one
  | s :: t :: ss, d => by
    simp only [joinBy, ne_eq, reduceCtorEq, not_false_eq_true, true_and]
    constructor
    · intro h
      cases h with
      | more h =>
        obtain ⟨_, rfl⟩ := joined_iff.mp h
        simp
    · rintro rfl
      have : Joined (t :: ss) (joinBy " ".toList (t :: ss)) := joined_iff.mpr ⟨by simp, rfl⟩
      simpa using Joined.more (s := s) this

theorem join_nil : ∀ {ks : List Str}, [] ∉ ks → (joinBy " ".toList ks = [] ↔ ks = [])
  | [], _ => by simp [joinBy]
  | [s], h => by
    simp only [joinBy, List.cons_ne_nil, iff_false]
    intro e
    exact h (by simp [e])
  | s :: t :: ss, h => by
    simp [joinBy]

theorem gives_desc {s : Str} {f : Fact} (h : Gives s f) : f.1 ≠ "desc" := by
  cases h <;> simp

theorem para_desc {s : Str} {f : Fact} (h : ParaGives s f) : f.1 ≠ "desc" := by
  cases h with
  | whole h hf => exact left_desc h f hf
  | sentence _ _ _ h => exact gives_desc h

/-! ## Paragraphs -/

theorem para_none {s : Str} : paragraph s = none ↔ Blank s := by
  unfold paragraph
  by_cases hs : s = []
  · rw [if_pos hs]
    simp [Blank, hs]
  · rw [if_neg hs]
    obtain ⟨fs, l, hl⟩ := left_total s
    obtain ⟨ps, hp⟩ := splits_total _ l rfl
    rw [left_fun hl]
    simp only
    rw [if_neg (left_ne hs hl), splits_fun hp]
    have : Blank s ↔ [] ∈ ps := by
      constructor
      · rintro (h | ⟨fs', l', ps', h1, h2, h3⟩)
        · exact absurd h hs
        · rw [← (left_one hl h1).2] at h2
          rw [splits_fun hp |>.symm, splits_fun h2]
          exact h3
      · intro h; exact .inr ⟨fs, l, ps, hl, hp, h⟩
    rw [this, ← each_none]
    cases eachSentence ps <;> simp

theorem para_some {s : Str} {facts : List Fact} (h : paragraph s = some facts) : (∀ f, f.1 ≠ "desc" → (f ∈ facts ↔ ParaGives s f)) ∧
    ((Quiet s ∧ (facts.filter (fun f => f.1 = "desc")).map Prod.snd = []) ∨ ∃ d, Describes s d ∧ (facts.filter (fun f => f.1 = "desc")).map Prod.snd = [d]) ∧
    (∀ d, Describes s d → (facts.filter (fun f => f.1 = "desc")).map Prod.snd = [d]) ∧ (Quiet s → (facts.filter (fun f => f.1 = "desc")).map Prod.snd = []) := by
  have hne : ¬ Blank s := by
    intro he
    rw [para_none.mpr he] at h
    cases h
  have hs : s ≠ [] := fun e => hne (.inl e)
  unfold paragraph at h
  obtain ⟨fs, l, hl⟩ := left_total s
  obtain ⟨ps, hp⟩ := splits_total _ l rfl
  rw [if_neg hs, left_fun hl] at h
  simp only at h
  rw [if_neg (left_ne hs hl), splits_fun hp] at h
  have hps : [] ∉ ps := fun hh => hne (.inr ⟨fs, l, ps, hl, hp, hh⟩)
  cases he : eachSentence ps with
  | none => exact absurd (each_none.mp he) hps
  | some o =>
    obtain ⟨gs, ks⟩ := o
    rw [he] at h
    simp only [Option.some.injEq] at h
    subst h
    have hg := (each_some (ks := []) he).1
    have hk : Kept ps ks := (each_some (ks := ks) he).2.mpr rfl
    have hkn := kept_ne hk hps
    have hf0 : ((fs ++ gs).filter (fun f => f.1 = "desc")) = [] := by
      rw [List.filter_eq_nil_iff]
      intro f hf
      rcases List.mem_append.mp hf with hf | hf
      · simpa using left_desc hl f hf
      · obtain ⟨p, _, hp⟩ := (hg f).mp hf
        simpa using gives_desc hp
    have hkk : ∀ {fs' l' ps' ks'}, Left s fs' l' → Splits l' ps' → Kept ps' ks' → ks' = ks := by
      intro fs' l' ps' ks' h1 h2 h3
      rw [← (left_one hl h1).2] at h2
      have : ps' = ps := by rw [← splits_fun h2, splits_fun hp]
      subst this
      exact ((each_some he).2.mp h3).symm
    have hd : ((fs ++ gs ++ (if joinBy " ".toList ks = [] then [] else [("desc", joinBy " ".toList ks)])).filter (fun f => f.1 = "desc")).map Prod.snd =
        if ks = [] then [] else [joinBy " ".toList ks] := by
      rw [List.filter_append, hf0, List.nil_append]
      by_cases hk0 : ks = []
      · simp [hk0, joinBy]
      · rw [if_neg (fun hj => hk0 ((join_nil hkn).mp hj)), if_neg hk0]
        rfl
    refine ⟨?_, ?_, ?_, ?_⟩
    · intro f hf
      rw [List.mem_append, List.mem_append, hg]
      constructor
      · rintro ((hh | ⟨p, hpm, hh⟩) | hh)
        · exact .whole hl hh
        · exact .sentence hl hp hpm hh
        · split at hh
          · cases hh
          · rw [List.mem_singleton] at hh
            rw [hh] at hf
            exact absurd rfl hf
      · intro hh
        cases hh with
        | whole h1 h2 => exact .inl (.inl ((left_one hl h1).1 ▸ h2))
        | sentence h1 h2 h3 h4 =>
          rw [← (left_one hl h1).2] at h2
          rw [← splits_fun h2, splits_fun hp] at h3
          exact .inl (.inr ⟨_, h3, h4⟩)
    · rw [hd]
      by_cases hk0 : ks = []
      · subst hk0
        exact .inl ⟨⟨fs, l, ps, hl, hp, hk⟩, rfl⟩
      · rw [if_neg hk0]
        exact .inr ⟨_, ⟨fs, l, ps, ks, hl, hp, hk, joined_iff.mpr ⟨hk0, rfl⟩⟩, rfl⟩
    · rintro d ⟨fs', l', ps', ks', h1, h2, h3, h4⟩
      rw [hd]
      rw [hkk h1 h2 h3, joined_iff] at h4
      rw [if_neg h4.1, h4.2]
    · rintro ⟨fs', l', ps', h1, h2, h3⟩
      rw [hd, if_pos (hkk h1 h2 h3).symm]

theorem extract_none : ∀ {nodes : List (String × Str)}, extract nodes = none ↔ ∃ n ∈ nodes, (n.1 = "p" ∧ Blank n.2) ∨ (n.1 ≠ "p" ∧ n.1 ≠ "emu-note" ∧ n.1 ≠ "pre")
  | [] => by simp [extract]
  | (n, s) :: ns => by
    rw [extract]
    have ih := extract_none (nodes := ns)
    simp only [List.mem_cons, exists_eq_or_imp]
    rw [← ih]
    by_cases hn : n = "p"
    · rw [if_pos hn]
      cases hp : paragraph s with
      | none => simp [hn, para_none.mp hp]
      | some fs =>
        have : ¬ Blank s := fun he => by
          rw [para_none.mpr he] at hp
          cases hp
        simp [hn, this]
    · rw [if_neg hn]
      by_cases hm : n = "emu-note" ∨ n = "pre"
      · rw [if_pos hm]
        rcases hm with rfl | rfl <;> simp
      · rw [if_neg hm]
        rw [not_or] at hm
        simp [hn, hm]

theorem extract_some : ∀ {nodes : List (String × Str)} {facts : List Fact}, extract nodes = some facts →
    (∀ f, f.1 ≠ "desc" → (f ∈ facts ↔ ∃ s, ("p", s) ∈ nodes ∧ ParaGives s f)) ∧ ∀ ds, Described nodes ds ↔ (facts.filter (fun f => f.1 = "desc")).map Prod.snd = ds
  | [], facts, h => by
    cases h
    refine ⟨by simp, fun ds => ⟨fun h => by cases h; rfl, ?_⟩⟩
    rintro rfl
    exact .nil
  | (n, s) :: ns, facts, h => by
    rw [extract] at h
    by_cases hn : n = "p"
    · subst hn
      rw [if_pos rfl] at h
      cases hp : paragraph s with
      | none => rw [hp] at h; cases h
      | some fs =>
        rw [hp] at h
        simp only [Option.map_eq_some_iff] at h
        obtain ⟨gs, hg, rfl⟩ := h
        obtain ⟨i1, i2⟩ := extract_some hg
        obtain ⟨p1, p2, p3, p4⟩ := para_some hp
        refine ⟨?_, ?_⟩
        · intro f hf
          rw [List.mem_append, p1 f hf, i1 f hf]
          simp only [List.mem_cons, Prod.mk.injEq, true_and]
          constructor
          · rintro (h | ⟨s', h1, h2⟩)
            · exact ⟨s, .inl rfl, h⟩
            · exact ⟨s', .inr h1, h2⟩
          · rintro ⟨s', rfl | h1, h2⟩
            · exact .inl h2
            · exact .inr ⟨s', h1, h2⟩
        · intro ds
          rw [List.filter_append, List.map_append]
          constructor
          · intro h
            cases h with
            | other h _ => exact absurd rfl h
            | quiet hq h => rw [p4 hq, (i2 _).mp h]; rfl
            | para hd h => rw [p3 _ hd, (i2 _).mp h]; rfl
          · rintro rfl
            rcases p2 with ⟨hq, e⟩ | ⟨d, hd, e⟩
            · rw [e]
              exact .quiet hq ((i2 _).mpr rfl)
            · rw [e]
              exact .para hd ((i2 _).mpr rfl)
    · rw [if_neg hn] at h
      split at h
      · obtain ⟨i1, i2⟩ := extract_some h
        refine ⟨?_, ?_⟩
        · intro f hf
          rw [i1 f hf]
          simp only [List.mem_cons, Prod.mk.injEq]
          constructor
          · rintro ⟨s', h1, h2⟩
            exact ⟨s', .inr h1, h2⟩
          · rintro ⟨s', ⟨e, _⟩ | h1, h2⟩
            · exact absurd e.symm hn
            · exact ⟨s', h1, h2⟩
        · intro ds
          rw [← i2]
          constructor
          · intro h
            cases h with
            | other _ h => exact h
            | quiet _ _ => exact absurd rfl hn
            | para _ _ => exact absurd rfl hn
          · exact .other hn
      · cases h

end Verif.Preambles
