import Verif.Kinds.FindLemmas
import Verif.Kinds.FnLemmas
import Verif.Kinds.ChangeLemmas
import Verif.Bodies.Props
/-!
# C79: the kind of a section follows from its title
-/
namespace Verif.Kinds
open Verif.Util
open Spec
open Verif.Bodies (Sec Doc Out Later PartTitle Odd Named algsOf handle OtherBody OtherSection FnSection)

/-- C79: the kind of a section that is none of the operations is the one that its title and its parent's call for, and no other. -/
theorem c79_kind (parent s : Str) (k : String) : kindIn parent s = some k ↔ SectionKind parent s k := by
  rw [kindIn]
  constructor
  · intro h
    cases hb : byTitle s with
    | none => rw [hb] at h; cases h
    | some r =>
      rw [hb] at h
      simp only [Option.bind_eq_bind, Option.bind_some] at h
      have ht := (byTitle_iff s r).1 hb
      by_cases h1 : parent = "Terms and Definitions".toList ∧ r = "other_property"
      · rw [if_pos h1] at h
        cases h
        exact .term h1.1 (h1.2 ▸ ht)
      · rw [if_neg h1] at h
        by_cases h2 : parent = "Other Properties of the Global Object".toList
        · rw [if_pos h2] at h
          by_cases h3 : r = "catchall"
          · rw [if_pos h3] at h
            cases h
            exact .other h2 (h3 ▸ ht)
          · rw [if_neg h3] at h; cases h
        · rw [if_neg h2] at h
          cases h
          exact .usual h2 h1 ht
  · intro h
    cases h with
    | term h1 h2 =>
      rw [(byTitle_iff s _).2 h2]
      simp only [Option.bind_eq_bind, Option.bind_some]
      rw [if_pos ⟨h1, trivial⟩]; rfl
    | other h1 h2 =>
      rw [(byTitle_iff s _).2 h2]
      simp only [Option.bind_eq_bind, Option.bind_some]
      rw [if_neg (fun h => absurd h.2 (by decide)), if_pos h1, if_pos trivial]; rfl
    | usual h1 h2 h3 =>
      rw [(byTitle_iff s _).2 h3]
      simp only [Option.bind_eq_bind, Option.bind_some]
      rw [if_neg h2, if_neg h1]; rfl

/-- C79: no title calls for two kinds. -/
theorem c79_unique (parent s : Str) (k k' : String) (h : SectionKind parent s k) (h' : SectionKind parent s k') : k = k' := by
  have := (c79_kind parent s k).2 h
  rw [(c79_kind parent s k').2 h'] at this
  cases this
  rfl

/-- C79: every title on one line calls for a kind, except among the other properties of the global object. -/
theorem c79_total (parent s : Str) (hp : parent ≠ "Other Properties of the Global Object".toList) (hs : Line s) : ∃ k, SectionKind parent s k := by
  obtain ⟨k, hk⟩ : ∃ k, byTitle s = some k := found (i := 26) rfl (m_lines.2 hs)
  have ht := (byTitle_iff s k).1 hk
  by_cases h : parent = "Terms and Definitions".toList ∧ k = "other_property"
  · exact ⟨_, .term h.1 (h.2 ▸ ht)⟩
  · exact ⟨k, .usual hp h ht⟩

/-- No pattern matches a text of several lines. -/
theorem patterns_line : ∀ q ∈ otherPatterns, q.1.avoids '\n' = true := by decide +kernel

/-- C79: a title of several lines stops the program, and so does any but a plain one among the other properties of the global object. -/
theorem c79_stops (parent s : Str) : kindIn parent s = none ↔
    ¬ Line s ∨ (parent = "Other Properties of the Global Object".toList ∧ ¬ TitleKind s "catchall") := by
  constructor
  · intro h
    by_cases hl : Line s
    · refine .inr ?_
      by_cases hp : parent = "Other Properties of the Global Object".toList
      · refine ⟨hp, fun ht => ?_⟩
        rw [(c79_kind parent s _).2 (.other hp ht)] at h
        cases h
      · obtain ⟨k, hk⟩ := c79_total parent s hp hl
        rw [(c79_kind parent s k).2 hk] at h
        cases h
    · exact .inl hl
  · intro h
    cases hk : kindIn parent s with
    | none => rfl
    | some k =>
      have hsk := (c79_kind parent s k).1 hk
      rcases h with hl | ⟨hp, hn⟩
      · refine absurd ?_ hl
        obtain ⟨r, hr⟩ : ∃ r, TitleKind s r := by
          cases hsk with
          | term _ h => exact ⟨_, h⟩
          | other _ h => exact ⟨_, h⟩
          | usual _ _ h => exact ⟨_, h⟩
        have hb := (byTitle_iff s r).2 hr
        rw [byTitle, Option.map_eq_some_iff] at hb
        obtain ⟨q, hq, -⟩ := hb
        have hm := List.find?_some hq
        exact avoids_of ((full_iff _ _).1 hm) (patterns_line q (List.mem_of_find?_eq_some hq))
      · cases hsk with
        | term h1 h2 => rw [hp] at h1; exact absurd h1 (by decide +kernel)
        | other _ h => exact absurd h hn
        | usual h => exact absurd hp h

/-- C79: what the title of a function says. -/
theorem c79_function (s : Str) (k : String) (n : Str) (ps : Option Str) : fnTitle s = some (k, n, ps) ↔ FnTitle s k n ps := fn_iff s k n ps

/-- What is taken for the header is what the title says. -/
theorem head_eq {s : Str} {k : String} {n : Str} {ps : Option Str} (h : FnTitle s k n ps) :
    fnHead s = (fnParams s k ps).bind (fun params => (bifSpecies k).bind (fun species => some ⟨k, species, n, params⟩)) := by
  rw [fnHead, (fn_iff s k n ps).2 h]
  rfl

theorem fn_kind {s : Str} {kind : String} (h : (fnHead s).map (·.kind) = some kind) : ∃ n ps, FnTitle s kind n ps := by
  cases e : fnTitle s with
  | none => rw [fnHead, e] at h; cases h
  | some x =>
    obtain ⟨k, n, ps⟩ := x
    have ht := (fn_iff _ _ _ _).1 e
    rw [head_eq ht] at h
    simp only [Option.map_eq_some_iff, Option.bind_eq_some_iff] at h
    obtain ⟨hd, ⟨a, -, b, -, e2⟩, e3⟩ := h
    cases e2
    exact ⟨n, ps, e3 ▸ ht⟩

/-- C79: the header of a function that has its parameters in the title. -/
theorem c79_head_call (s : Str) (k : String) (n l : Str) (h : FnTitle s k n (some l)) :
    fnHead s = (Sections.paramsOf l).map (fun ps => ⟨k, "bif: intrinsic", n, some ps⟩) := by
  have hk : bifSpecies k = some "bif: intrinsic" := by
    generalize e : some l = o at h
    cases h with
    | construct => rfl
    | getter => cases e
    | setter => cases e
    | method => rfl
    | global => rfl
  rw [head_eq h, fnParams]
  cases Sections.paramsOf l with
  | none => rfl
  | some ps => simp [hk]

/-- C79: a getter has no parameters; those of a setter are not known from its title. -/
theorem c79_head_accessor (n : Str) (h : PropPath n) :
    fnHead ("get ".toList ++ n) = some ⟨"accessor_property", "bif: intrinsic: accessor function", "get ".toList ++ n, some []⟩ ∧
    fnHead ("set ".toList ++ n) = some ⟨"accessor_property", "bif: intrinsic: accessor function", "set ".toList ++ n, none⟩ := by
  constructor
  · rw [head_eq (.getter h)]; rfl
  · rw [head_eq (.setter h)]; rfl

/-- C79: any other title of a function stops the program. -/
theorem c79_head_none (s : Str) (h : ∀ k n ps, ¬ FnTitle s k n ps) : fnHead s = none := by
  cases e : fnTitle s with
  | none => rw [fnHead, e]; rfl
  | some x => exact absurd ((fn_iff s x.1 x.2.1 x.2.2).1 e) (h _ _ _)

/-- C79: the titles of sections that just refer to others. -/
theorem c79_ref_title (s : Str) : full xref s = true ↔ RefTitle s := by
  rw [full_iff, xref, m_cat]
  constructor
  · rintro ⟨u, v, rfl, h1, h2⟩
    obtain ⟨a, b, rfl, ha, hb⟩ := m_cat.1 h2
    rw [m_one, m_lit] at hb
    exact ⟨u ++ a, capital_iff.1 ⟨u, a, rfl, h1, ha⟩, by rw [hb, List.append_assoc]⟩
  · rintro ⟨n, hn, rfl⟩
    obtain ⟨u, v, rfl, h1, h2⟩ := capital_iff.2 hn
    exact ⟨u, v ++ _, by rw [List.append_assoc], h1, m_cat.2 ⟨v, _, rfl, h2, m_one.2 (m_lit.2 rfl)⟩⟩

theorem see_iff (s : Str) : Bodies.seeXref s = true ↔ See s := by
  rw [Bodies.seeXref]
  cases hr : s.reverse with
  | nil =>
    refine ⟨fun h => (by cases h), ?_⟩
    rintro ⟨r, c, -, -, -, e⟩
    rw [e] at hr
    simp at hr
  | cons c r =>
    have hs : s = r.reverse ++ [c] := by rw [← List.reverse_reverse s, hr]; simp
    simp only [Bool.and_eq_true, bne_iff_ne, ne_eq, Bodies.around_iff]
    constructor
    · rintro ⟨h1, w, h2, h3, h4⟩
      refine ⟨w, c, h2, fun hq => by simpa using h3 _ hq, h1, ?_⟩
      rw [hs, h4]
    · rintro ⟨w, c', h1, h2, h3, e⟩
      rw [hs] at e
      obtain ⟨e1, e2⟩ := List.append_inj' e rfl
      cases e2
      exact ⟨h3, w, h1, fun x hx => (by have : x ≠ '"' := fun e => h2 (e ▸ hx); simpa using this), e1⟩

/-- The title is of another function. -/
theorem ref_false (parent : Sec → String) (t : String) : (titles parent).isXref t = false ↔ ¬ RefTitle t.toList := by
  rw [← c79_ref_title, Bool.not_eq_true]
  rfl

/-- C79: a section that just refers to another is one paragraph that says so. -/
theorem c79_reference (parent : Sec → String) (d : Doc) (s : Sec) (h1 : Later s) (h2 : ¬ PartTitle s.title) (h3 : ¬ Odd s)
    (h4 : s.type = none ∨ s.type = some "built-in function") (h5 : RefTitle s.title.toList) (o : Out) :
    handle (titles parent) d s = some o ↔ ∃ p, s.blocks = [p] ∧ Named "p" p ∧ See p.innerText ∧ o = ⟨"function_property_xref", [], [], none⟩ := by
  have e1 : s.type ≠ some "sdo" := by rcases h4 with h | h <;> rw [h] <;> decide
  have e2 : Bodies.otherOp d s = none := by
    rw [Bodies.otherOp]
    rcases h4 with h | h <;> rw [h]
    simp
  have e3 : (titles parent).isXref s.title = true := (c79_ref_title _).2 h5
  rw [Bodies.handle_later _ d s h1, Bodies.sdo_none e1 h2, Bodies.odd_none h3, e2, Bodies.function, if_pos e3]
  dsimp only
  match hb : s.blocks with
  | [] => simp
  | [p] =>
    have hse := see_iff p.innerText
    by_cases hc : Bodies.el p = "p" ∧ Bodies.seeXref p.innerText = true
    · dsimp only
      rw [if_pos hc]
      constructor
      · intro h; cases h; exact ⟨p, rfl, hc.1, hse.1 hc.2, rfl⟩
      · rintro ⟨-, -, -, -, rfl⟩; rfl
    · dsimp only
      rw [if_neg hc]
      refine ⟨fun h => (by cases h), ?_⟩
      rintro ⟨q, e, h6, h7, -⟩
      cases e
      exact absurd ⟨h6, hse.2 h7⟩ hc
  | a :: b :: r => simp

/-- C79: the section of a method that is not used says that first. -/
theorem c79_unused (parent : Sec → String) (d : Doc) (s : Sec) (h1 : Later s) (h2 : ¬ PartTitle s.title) (h3 : s.type ≠ some "sdo")
    (h4 : s.id ∈ ["sec-declarative-environment-records-getthisbinding", "sec-object-environment-records-createimmutablebinding-n-s",
      "sec-object-environment-records-getthisbinding", "sec-module-environment-records-deletebinding-n"]) (o : Out) :
    handle (titles parent) d s = some o ↔ ∃ p rest, s.blocks = p :: rest ∧ Named "p" p ∧ Unused p.innerText ∧ o = ⟨"env_rec_method_unused", [], [], none⟩ := by
  rw [Bodies.handle_later _ d s h1, Bodies.sdo_none h3 h2, Bodies.oddball, if_pos (show s.id ∈ Bodies.unusedIds from h4)]
  dsimp only
  match hb : s.blocks with
  | [] => simp
  | p :: rest =>
    have hu : (titles parent).unusedText p.innerText = true ↔ Unused p.innerText := unused_iff _
    by_cases hc : Bodies.el p = "p" ∧ (titles parent).unusedText p.innerText = true
    · dsimp only
      rw [if_pos hc]
      constructor
      · intro h; cases h; exact ⟨p, rest, rfl, hc.1, hu.1 hc.2, rfl⟩
      · rintro ⟨-, -, -, -, -, rfl⟩; rfl
    · dsimp only
      rw [if_neg hc]
      refine ⟨fun h => (by cases h), ?_⟩
      rintro ⟨q, r, e, h6, h7, -⟩
      cases e
      exact absurd ⟨h6, hu.2 h7⟩ hc

/-- The sections with changes have the patterns for them, and no other sections do. -/
theorem changes_units (num : Str) (title : String) : (∀ us, changesUnits num title = some us → ∃ fs, Changes num title fs) ∧
    (∀ fs, Changes num title fs → ∃ us, changesUnits num title = some us ∧ SameUnits us fs ∧ distinct fs = true ∧ (∀ f ∈ fs, f ≠ [])) := by
  have hB : "B.".toList.isPrefixOf num = true ↔ InAnnexB num := by
    rw [List.isPrefixOf_iff_prefix]
    exact ⟨fun ⟨r, e⟩ => ⟨r, e.symm⟩, fun ⟨r, e⟩ => ⟨r, e.symm⟩⟩
  obtain ⟨d1, d2, d3, d4, d5, d6⟩ := all_distinct
  constructor
  · intro us h
    rw [changesUnits] at h
    by_cases c1 : "B.".toList.isPrefixOf num = true ∧ title = "Runtime Semantics: CompileSubpattern"
    · obtain ⟨c1, rfl⟩ := c1
      exact ⟨_, Changes.subpattern (hB.1 c1)⟩
    rw [if_neg c1] at h
    by_cases c2 : "B.".toList.isPrefixOf num = true ∧ title = "Runtime Semantics: CompileAssertion"
    · obtain ⟨c2, rfl⟩ := c2
      exact ⟨_, Changes.assertion (hB.1 c2)⟩
    rw [if_neg c2] at h
    by_cases c3 : "B.".toList.isPrefixOf num = true ∧ title = "Runtime Semantics: CompileAtom"
    · obtain ⟨c3, rfl⟩ := c3
      exact ⟨_, Changes.atom (hB.1 c3)⟩
    rw [if_neg c3] at h
    by_cases c4 : "B.".toList.isPrefixOf num = true ∧ title = "Runtime Semantics: CompileToCharSet"
    · obtain ⟨c4, rfl⟩ := c4
      exact ⟨_, Changes.charSet (hB.1 c4)⟩
    rw [if_neg c4] at h
    by_cases c5 : "B.".toList.isPrefixOf num = true ∧ title = "Static Semantics: ParsePattern ( _patternText_, _u_, _v_ )"
    · obtain ⟨c5, rfl⟩ := c5
      exact ⟨_, Changes.parsePattern (hB.1 c5)⟩
    rw [if_neg c5] at h
    by_cases c6 : title = "Initializers in ForIn Statement Heads"
    · subst c6
      exact ⟨_, Changes.forIn⟩
    rw [if_neg c6] at h
    cases h
  · intro fs h
    cases h with
    | subpattern h => exact ⟨_, by rw [changesUnits, if_pos ⟨hB.2 h, rfl⟩], subpattern_same, d1, by simp [subpattern]⟩
    | assertion h => exact ⟨_, by rw [changesUnits, if_neg (fun c => absurd c.2 (by decide)), if_pos ⟨hB.2 h, rfl⟩], assertion_same, d2, by simp [assertion]⟩
    | atom h => exact ⟨_, by rw [changesUnits, if_neg (fun c => absurd c.2 (by decide)), if_neg (fun c => absurd c.2 (by decide)), if_pos ⟨hB.2 h, rfl⟩], atom_same, d3, by simp [atom]⟩
    | charSet h =>
      exact ⟨_, by rw [changesUnits, if_neg (fun c => absurd c.2 (by decide)), if_neg (fun c => absurd c.2 (by decide)), if_neg (fun c => absurd c.2 (by decide)),
        if_pos ⟨hB.2 h, rfl⟩], charSet_same, d4, by simp [charSet]⟩
    | parsePattern h =>
      exact ⟨_, by rw [changesUnits, if_neg (fun c => absurd c.2 (by decide)), if_neg (fun c => absurd c.2 (by decide)), if_neg (fun c => absurd c.2 (by decide)),
        if_neg (fun c => absurd c.2 (by decide)), if_pos ⟨hB.2 h, rfl⟩], parsePattern_same, d5, by simp [parsePattern]⟩
    | forIn =>
      exact ⟨_, by rw [changesUnits, if_neg (fun c => absurd c.2 (by decide)), if_neg (fun c => absurd c.2 (by decide)), if_neg (fun c => absurd c.2 (by decide)),
        if_neg (fun c => absurd c.2 (by decide)), if_neg (fun c => absurd c.2 (by decide)), if_pos rfl], forIn_same, d6, by simp [Spec.forIn]⟩

theorem changes_title {num : Str} {title : String} {fs : List (List Block)} (h : Changes num title fs) :
    title ≠ "Static Semantics: Early Errors" ∧ ¬ PartTitle title ∧ full xref title.toList = false := by
  cases h <;> refine ⟨by decide, by simp [PartTitle], by decide +kernel⟩

/-- C79: a section that changes what is defined elsewhere defines nothing.  Either its blocks are all as expected there, and all its algorithms are parsed, or
there is a message at the first block where nothing that is expected starts, and just the algorithms before that are parsed. -/
theorem c79_changes (parent : Sec → String) (d : Doc) (s : Sec) (hr : s.root = false) (ht : s.type = none) (ho : ¬ Odd s) (fs : List (List Block))
    (h : Changes s.num s.title fs) :
    ∃ o, handle (titles parent) d s = some o ∧ o.kind = "changes" ∧ o.defns = [] ∧
      ((Chunks fs s.blocks ∧ o.msg = none ∧ o.also = algsOf s.blocks) ∨
       (¬ Chunks fs s.blocks ∧ ∃ pre b post, s.blocks = pre ++ b :: post ∧ Chunks fs pre ∧ (∀ f ∈ fs, ∀ m rest, b :: post = m ++ rest → ¬ Fits f m) ∧
          o.msg = some b.startPosn ∧ o.also = algsOf pre)) := by
  obtain ⟨t1, t2, t3⟩ := changes_title h
  obtain ⟨us, e1, hs, hd, hne⟩ := (changes_units s.num s.title).2 fs h
  obtain ⟨r, hr', hh⟩ := scan_changes hs hd hne s.blocks
  refine ⟨⟨"changes", [], Bodies.algBlocks (r.used.flatMap (·.2)), r.msg⟩, ?_, rfl, rfl, ?_⟩
  · have e2 : (titles parent).changes s = some us := e1
    rw [Bodies.handle_later _ d s ⟨hr, t1⟩, Bodies.sdo_none (by rw [ht]; decide) t2, Bodies.odd_none ho, Bodies.otherOp, ht, Bodies.function,
      if_neg (by rw [show (titles parent).isXref s.title = full xref s.title.toList from rfl, t3]; decide), if_neg (by rw [ht]; decide), Bodies.changes, e2]
    simp [hr']
  · rcases hh with ⟨a, b, c⟩ | ⟨a, pre, b, post, h1, h2, h3, h4, h5⟩
    · exact .inl ⟨b, a, by rw [c]; exact Bodies.algBlocks_eq _⟩
    · exact .inr ⟨a, pre, b, post, h1, h2, h3, h4, by rw [h5]; exact Bodies.algBlocks_eq _⟩

/-- C79: any other section without a type is of the kind that the titles call for, and may have algorithms just where that is known. -/
theorem c79_other (parent : Sec → String) (d : Doc) (s : Sec) (h1 : Later s) (h2 : ¬ PartTitle s.title) (h3 : ¬ Odd s) (h4 : s.type = none)
    (h5 : ¬ RefTitle s.title.toList) (h6 : ∀ fs, ¬ Changes s.num s.title fs) (o : Out) :
    handle (titles parent) d s = some o ↔ ∃ kind, SectionKind (parent s).toList s.title.toList kind ∧ OtherBody kind s.title s.blocks o.defns ∧ o = ⟨kind, o.defns, [], none⟩ := by
  have hc : (titles parent).changes s = none := by
    cases e : changesUnits s.num s.title with
    | none => exact e
    | some us =>
      obtain ⟨fs, hf⟩ := (changes_units _ _).1 us e
      exact absurd hf (h6 fs)
  rw [Bodies.c78_other (titles parent) d s ⟨h1, h2, h3, h4, (ref_false _ _).2 h5, hc⟩]
  simp only [← c79_kind]
  rfl

/-- C79: the section of a function is of the kind that its title says, and has at most one algorithm. -/
theorem c79_function_section (parent : Sec → String) (d : Doc) (s : Sec) (h1 : Later s) (h2 : ¬ PartTitle s.title) (h3 : ¬ Odd s) (h4 : s.type = some "built-in function")
    (h5 : ¬ RefTitle s.title.toList) (o : Out) (h : handle (titles parent) d s = some o) :
    ∃ n ps, FnTitle s.title.toList o.kind n ps ∧ o.msg = none ∧
      ((algsOf s.blocks = [] ∧ o.defns = []) ∨ (∃ a, algsOf s.blocks = [a] ∧ o.defns = [.simple a])) := by
  obtain ⟨kind, hk, hb⟩ := (Bodies.c78_function (titles parent) d s ⟨h1, h2, h3, h4, (ref_false _ _).2 h5⟩ o).1 h
  obtain ⟨n, ps, ht⟩ := fn_kind hk
  refine ⟨n, ps, ?_, ?_⟩
  · rcases hb with ⟨-, rfl⟩ | ⟨a, -, rfl⟩ <;> exact ht
  · rcases hb with ⟨ha, rfl⟩ | ⟨a, ha, rfl⟩
    · exact ⟨rfl, .inl ⟨ha, rfl⟩⟩
    · exact ⟨rfl, .inr ⟨a, ha, rfl⟩⟩

/-! ## Ids -/

/-- All the kinds. -/
def allKinds : List String :=
  ["early_errors", "syntax_directed_operation", "env_rec_method_unused", "abstract_operation", "env_rec_method", "module_rec_method", "numeric_method", "internal_method",
   "host-defined_abstract_operation", "implementation-defined_abstract_operation", "function_property_xref", "CallConstruct", "accessor_property", "function_property",
   "changes", "shorthand", "instances: info // properties", "intrinsic: info // properties", "intrinsic: - // properties", "intrinsic: info // CallConstruct", "loop",
   "- // properties", "other_property", "catchall", "other_property_xref"]

theorem all_branch : ∀ k ∈ allKinds, (idBranch k).isSome = true := by decide +kernel

theorem lookup_mem {l : List (String × String)} {x v : String} (h : l.lookup x = some v) : ∃ q ∈ l, q.2 = v := by
  induction l with
  | nil => cases h
  | cons q l ih =>
    obtain ⟨a, b⟩ := q
    rw [List.lookup_cons] at h
    split at h
    · cases h; exact ⟨_, .head _, rfl⟩
    · obtain ⟨q, hq, e⟩ := ih h
      exact ⟨q, .tail _ hq, e⟩

theorem header_kind {s : Sec} {type k : String} (h : Bodies.headerKind s type = some k) : k ∈ allKinds := by
  rw [Bodies.headerKind] at h
  split at h
  · split at h
    · cases h; decide +kernel
    · split at h
      · cases h; decide +kernel
      · cases h
  · have : ∀ q ∈ [("abstract operation", "abstract_operation"), ("numeric method", "numeric_method"), ("internal method", "internal_method"),
        ("sdo", "syntax_directed_operation"), ("host-defined abstract operation", "host-defined_abstract_operation"),
        ("implementation-defined abstract operation", "implementation-defined_abstract_operation")], q.2 ∈ allKinds := by decide +kernel
    obtain ⟨q, hq, e⟩ := lookup_mem h
    exact e ▸ this q hq

theorem structured_kind {d : Doc} {s : Sec} {type : String} {x : String × List HNode} (h : Bodies.structured d s type = some x) : x.1 ∈ allKinds := by
  rw [Bodies.structured] at h
  split at h
  · cases h
  · split at h
    · rw [Option.map_eq_some_iff] at h
      obtain ⟨k, hk, rfl⟩ := h
      exact header_kind hk
    · cases h

theorem title_kinds {s : Str} {k : String} (h : TitleKind s k) : k ∈ allKinds := by cases h <;> decide +kernel

theorem section_kinds {p s : Str} {k : String} (h : SectionKind p s k) : k ∈ allKinds := by
  cases h with
  | term => decide +kernel
  | other => decide +kernel
  | usual _ _ h => exact title_kinds h

theorem fn_kinds {s : Str} {k : String} {n : Str} {ps : Option Str} (h : FnTitle s k n ps) : k ∈ allKinds := by cases h <;> decide +kernel

theorem handle_kinds {parent : Sec → String} {d : Doc} {s : Sec} {o : Out} (hr : s.root = false) (h : handle (titles parent) d s = some o) : o.kind ∈ allKinds := by
  rw [handle, if_neg (by simp [hr])] at h
  split at h
  · rw [Bodies.early] at h
    simp only [Option.bind_eq_bind, Option.bind_eq_some_iff] at h
    obtain ⟨r, -, ds, -, e⟩ := h
    cases e
    (dsimp only; decide +kernel)
  have body : ∀ bs, Bodies.sdoBody d bs = some o → o.kind ∈ allKinds := by
    intro bs h
    rw [Bodies.sdoBody] at h
    split at h
    · rw [Option.map_eq_some_iff] at h
      obtain ⟨ds, -, rfl⟩ := h
      (dsimp only; decide +kernel)
    · simp only [Option.bind_eq_bind, Option.bind_eq_some_iff] at h
      obtain ⟨r, -, e⟩ := h
      cases e
      (dsimp only; decide +kernel)
  split at h
  · next r hs =>
    subst h
    rw [Bodies.sdo] at hs
    split at hs
    · split at hs
      · exact body _ (Option.some.inj hs)
      · have hs := Option.some.inj hs
        simp only [Option.bind_eq_bind, Option.bind_eq_some_iff] at hs
        obtain ⟨x, hx, e⟩ := hs
        split at e
        · cases e; exact structured_kind hx
        · exact body _ e
    · split at hs
      · exact body _ (Option.some.inj hs)
      · cases hs
  split at h
  · next r hs =>
    subst h
    rw [Bodies.oddball] at hs
    split at hs
    · have hs := Option.some.inj hs
      split at hs
      · split at hs
        · cases hs; (dsimp only; decide +kernel)
        · cases hs
      · cases hs
    · rw [Option.map_eq_some_iff] at hs
      obtain ⟨st, -, hs⟩ := hs
      split at hs
      · split at hs
        · cases hs; (dsimp only; decide +kernel)
        · cases hs
      · cases hs
  split at h
  · next r hs =>
    subst h
    rw [Bodies.otherOp] at hs
    split at hs
    · cases hs
    · split at hs
      · cases hs
      · have hs := Option.some.inj hs
        simp only [Option.bind_eq_bind, Option.bind_eq_some_iff] at hs
        obtain ⟨x, hx, e⟩ := hs
        have hk := structured_kind hx
        split at e
        · cases e; exact hk
        · rw [Bodies.opBody] at e
          split at e
          · split at e
            · cases e; exact hk
            · cases e
          · split at e
            · cases e; exact hk
            · split at e
              · cases e; exact hk
              · rw [Option.map_eq_some_iff] at e
                obtain ⟨t, -, rfl⟩ := e
                exact hk
          · cases e
  split at h
  · next r hs =>
    subst h
    rw [Bodies.function] at hs
    split at hs
    · have hs := Option.some.inj hs
      split at hs
      · split at hs
        · cases hs; (dsimp only; decide +kernel)
        · cases hs
      · cases hs
    · split at hs
      · have hs := Option.some.inj hs
        simp only [Option.bind_eq_bind, Option.bind_eq_some_iff] at hs
        obtain ⟨k, hk, e⟩ := hs
        have hk' : k ∈ allKinds := by
          have hk2 : (fnHead s.title.toList).map (·.kind) = some k := hk
          obtain ⟨n, ps, ht⟩ := fn_kind hk2
          exact fn_kinds ht
        split at e
        · cases e; exact hk'
        · cases e; exact hk'
        · cases e
      · cases hs
  split at h
  · next r hs =>
    subst h
    rw [Bodies.changes, Option.map_eq_some_iff] at hs
    obtain ⟨us, -, e⟩ := hs
    simp only [Option.bind_eq_bind, Option.bind_eq_some_iff] at e
    obtain ⟨r, -, e⟩ := e
    cases e
    (dsimp only; decide +kernel)
  rw [Bodies.other] at h
  simp only [Option.bind_eq_bind, Option.bind_eq_some_iff] at h
  obtain ⟨k, hk, e⟩ := h
  have hk' : k ∈ allKinds := section_kinds ((c79_kind _ _ _).1 hk)
  repeat' split at e
  all_goals first | cases e; done | (cases e; exact hk')

/-- C79: the check of the ids knows every kind that a section can get: its assertion that there is no other never fails. -/
theorem c79_check_id (parent : Sec → String) (d : Doc) (s : Sec) (o : Out) (hr : s.root = false) (h : handle (titles parent) d s = some o) :
    ∃ i, idBranch o.kind = some i :=
  Option.isSome_iff_exists.1 (all_branch _ (handle_kinds hr h))

/-! ## Cases -/

/-- Any node. -/
def nd (el : String) (text : String) (p : Nat) : HNode := ⟨el, text.toList, p⟩

def exDoc : Doc := ⟨fun _ => false, fun _ => [], fun b => if b.elementName = "emu-alg" then [b] else []⟩

example : SectionKind "Ordinary Object Internal Methods".toList "Properties of Promise Instances".toList "instances: info // properties" ∧
    kindIn [] "Properties of Promise Instances".toList = some "instances: info // properties" ∧
    kindIn [] "Properties of Valid Executions".toList = some "catchall" ∧
    kindIn [] "The %GeneratorPrototype% Object".toList = some "intrinsic: info // properties" ∧
    kindIn [] "Math.PI".toList = some "other_property" ∧
    kindIn [] "Other Properties of the Global Object".toList = some "- // properties" ∧
    kindIn "Terms and Definitions".toList "realm".toList = some "catchall" ∧
    kindIn "Other Properties of the Global Object".toList "Atomics".toList = some "other_property_xref" ∧
    kindIn "Other Properties of the Global Object".toList "undefined".toList = none ∧
    kindIn [] "a\nb".toList = none :=
  ⟨(c79_kind _ _ _).1 (by decide +kernel), by decide +kernel, by decide +kernel, by decide +kernel, by decide +kernel, by decide +kernel, by decide +kernel, by decide +kernel,
    by decide +kernel, by decide +kernel⟩

example : FnTitle "Array.prototype.at ( _index_ )".toList "function_property" "Array.prototype.at".toList (some " _index_ ".toList) ∧
    FnTitle "%TypedArray% ( )".toList "CallConstruct" "%TypedArray%".toList (some " ".toList) ∧
    FnTitle "parseInt ( _string_, _radix_ )".toList "function_property" "parseInt".toList (some " _string_, _radix_ ".toList) ∧
    (fnHead "get Map.prototype.size".toList).isSome = true ∧ (fnHead "size".toList).isSome = false :=
  ⟨(c79_function _ _ _ _).1 (by decide +kernel), (c79_function _ _ _ _).1 (by decide +kernel), (c79_function _ _ _ _).1 (by decide +kernel), by decide +kernel, by decide +kernel⟩

example : RefTitle "Array ( . . . )".toList ∧ ¬ RefTitle "Array ( )".toList :=
  ⟨(c79_ref_title _).1 (by decide +kernel), fun h => absurd ((c79_ref_title _).2 h) (by decide +kernel)⟩

/-- A section of Annex B. -/
def exChanges : Sec := ⟨false, "Runtime Semantics: CompileToCharSet", none, "sec-compiletocharset-annexb", "B.1.2.8".toList, "", "", none,
  [nd "p" "The semantics of <emu-xref href=\"#sec-c\"></emu-xref> is extended as follows:" 1, nd "emu-grammar" "A : B" 2, nd "emu-alg" "1. Return 1." 3, nd "emu-note" "" 4]⟩

example : Changes exChanges.num exChanges.title charSet ∧ ¬ Odd exChanges ∧ Chunks charSet exChanges.blocks := by
  have h : Changes exChanges.num exChanges.title charSet := .charSet ⟨_, rfl⟩
  have ho : ¬ Odd exChanges := by simp [Odd, exChanges]
  refine ⟨h, ho, ?_⟩
  obtain ⟨o, h1, -, -, h2⟩ := c79_changes (fun _ => "") exDoc exChanges rfl rfl ho _ h
  have h3 : (handle (titles fun _ => "") exDoc exChanges).map Out.msg = some none := by decide +kernel
  rw [h1] at h3
  rcases h2 with ⟨h2, -⟩ | ⟨-, pre, b, post, -, -, -, e, -⟩
  · exact h2
  · simp [e] at h3

example : (handle (titles fun _ => "") exDoc exChanges).map (fun o => (o.kind, o.also, o.msg)) = some ("changes", [nd "emu-alg" "1. Return 1." 3], none) ∧
    (handle (titles fun _ => "") exDoc { exChanges with blocks := [nd "emu-note" "" 1, nd "emu-alg" "" 2] }).map (fun o => (o.also, o.msg)) = some ([], some 2) := by
  constructor <;> decide +kernel

/-- A method that is not used. -/
def exUnused : Sec := ⟨false, "DeleteBinding ( _N_ )", none, "sec-module-environment-records-deletebinding-n", [], "", "", none,
  [nd "p" "The DeleteBinding concrete method of a Module Environment Record is never used within this specification." 1]⟩

example : Later exUnused ∧ ¬ PartTitle exUnused.title ∧ (handle (titles fun _ => "") exDoc exUnused).map Out.kind = some "env_rec_method_unused" :=
  ⟨⟨rfl, by decide⟩, by simp [PartTitle, exUnused], by decide +kernel⟩

/-- A section that just refers to another, a property, and a function. -/
def exRef : Sec := ⟨false, "Array ( . . . )", some "built-in function", "sec-a", [], "", "", none, [nd "p" "See <emu-xref href=\"#sec-array\"></emu-xref>." 1]⟩

def exProp : Sec := ⟨false, "Math.PI", none, "sec-math.pi", [], "", "", none, [nd "p" "t" 1]⟩

def exFn : Sec := ⟨false, "Math.abs ( _x_ )", some "built-in function", "sec-math.abs", [], "", "", none, [nd "p" "t" 1, nd "emu-alg" "t" 2]⟩

example : (handle (titles fun _ => "") exDoc exRef).map Out.kind = some "function_property_xref" ∧
    (handle (titles fun _ => "") exDoc exProp).map Out.kind = some "other_property" ∧
    (handle (titles fun _ => "") exDoc exFn).map (fun o => (o.kind, o.defns)) = some ("function_property", [.simple (nd "emu-alg" "t" 2)]) := by
  refine ⟨?_, ?_, ?_⟩ <;> decide +kernel

example : Later exProp ∧ ¬ PartTitle exProp.title ∧ ¬ Odd exProp ∧ ¬ RefTitle exProp.title.toList ∧ (∀ fs, ¬ Changes exProp.num exProp.title fs) ∧
    Later exFn ∧ ¬ PartTitle exFn.title ∧ ¬ Odd exFn ∧ ¬ RefTitle exFn.title.toList ∧ Later exRef ∧ ¬ PartTitle exRef.title ∧ ¬ Odd exRef ∧ RefTitle exRef.title.toList := by
  refine ⟨⟨rfl, by decide⟩, by simp [PartTitle, exProp], by simp [Odd, exProp], fun h => absurd ((c79_ref_title _).2 h) (by decide +kernel), ?_,
    ⟨rfl, by decide⟩, by simp [PartTitle, exFn], by simp [Odd, exFn], fun h => absurd ((c79_ref_title _).2 h) (by decide +kernel),
    ⟨rfl, by decide⟩, by simp [PartTitle, exRef], by simp [Odd, exRef], (c79_ref_title _).1 (by decide +kernel)⟩
  intro fs h
  obtain ⟨us, e, -⟩ := (changes_units _ _).2 fs h
  have : (changesUnits exProp.num exProp.title).isSome = false := by decide +kernel
  rw [e] at this
  cases this

end Verif.Kinds
