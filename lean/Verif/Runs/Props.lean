import Verif.Runs.Lemmas
/-!
# C96: the numbers of tests and of runs

A file is counted just if it has the three sections and its frontmatter is as it should be; it counts for one run or for two.  The numbers at the end are the sums
over all tests in the directory, at any depth.
-/
namespace Verif.Runs

open Verif.Front

/-- **C96.**  A file is counted just if it has a copyright section, frontmatter that can be parsed and a body, and all that is in the frontmatter is allowed; it is counted
for one run if it has one of the flags `onlyStrict`, `noStrict` and `raw`, and for two runs otherwise. -/
theorem c96_counted (word space : Char → Bool) (path text : Str) (r : Nat) :
    testOne word space path text = .counted r ↔
      ∃ c f b d, Sectioned text c f b ∧ Copyright path c ∧ parseFrontmatter word space f = some (.map d) ∧ Valid word d ∧ (Once d ∧ r = 1 ∨ ¬ Once d ∧ r = 2) := by
  have hr : ∀ d, runs d = r ↔ (Once d ∧ r = 1 ∨ ¬ Once d ∧ r = 2) := by
    intro d
    have ho : ((flagset d).contains "onlyStrict".toList || (flagset d).contains "noStrict".toList || (flagset d).contains "raw".toList) = true ↔ Once d := by
      rw [Bool.or_eq_true, Bool.or_eq_true, flag_iff, flag_iff, flag_iff]
      unfold Once
      exact or_assoc
    unfold runs
    by_cases h : Once d
    · rw [if_pos (ho.2 h)]
      exact ⟨fun e => .inl ⟨h, e.symm⟩, fun e => e.elim (fun e => e.2.symm) (fun e => absurd h e.1)⟩
    · rw [if_neg (fun e => h (ho.1 e))]
      exact ⟨fun e => .inr ⟨h, e.symm⟩, fun e => e.elim (fun e => absurd e.1 h) (fun e => e.2.symm)⟩
  constructor
  · intro h
    unfold testOne at h
    split at h
    · exact nomatch h
    · next c f b hs =>
      split at h
      · next hc =>
        split at h
        · exact nomatch h
        · next d hp =>
          split at h
          · next hd =>
            injection h with h
            have hf : f ≠ [] := by
              rintro rfl
              rw [parse_empty] at hp
              exact nomatch hp
            exact ⟨c, f, b, d, sections_sound hs hf, (copyright_iff path c).1 hc, hp, (okDict_iff word d).1 hd, (hr d).1 h⟩
          · exact nomatch h
        · exact nomatch h
      · exact nomatch h
  · rintro ⟨c, f, b, d, h1, h2, h3, h4, h5⟩
    unfold testOne
    rw [sections_complete h1]
    dsimp only
    rw [if_pos ((copyright_iff path c).2 h2), h3]
    dsimp only
    rw [if_pos ((okDict_iff word d).2 h4), (hr d).2 h5]

/-- **C96.**  A file is passed over with a message just if each marker is there once and the copyright section is not as it should be or the frontmatter, which is what is between the
markers, cannot be parsed.  So in all other cases where the file is not counted, there is an exception. -/
theorem c96_refused (word space : Char → Bool) (path text : Str) :
    testOne word space path text = .refused ↔
      ∃ a q, Only opening a text ∧ Only closing q text ∧
        (¬ Copyright path (text.take a) ∨ parseFrontmatter word space ((text.drop (a + 7)).take (q - (a + 7))) = none) := by
  have ho : ∀ a, finds opening 0 0 text = [a] ↔ Only opening a text := fun a => by rw [finds_single opening_ne, opening_len]; rfl
  have hc : ∀ a, finds closing 0 0 text = [a] ↔ Only closing a text := fun a => by rw [finds_single closing_ne, closing_len]; rfl
  have hs : ∀ a q, Only opening a text → Only closing q text → sections text = some (text.take a, (text.drop (a + 7)).take (q - (a + 7)), text.drop (q + 7)) := by
    intro a q ha hq
    unfold sections
    rw [(ho a).2 ha, (hc q).2 hq]
    rfl
  constructor
  · intro h
    have hm : ∃ a q, Only opening a text ∧ Only closing q text := by
      unfold testOne sections at h
      split at h
      · exact nomatch h
      · next hh =>
        split at hh
        · next a q h1 h2 => exact ⟨a, q, (ho a).1 h1, (hc q).1 h2⟩
        · exact nomatch hh
    obtain ⟨a, q, ha, hq⟩ := hm
    refine ⟨a, q, ha, hq, ?_⟩
    unfold testOne at h
    rw [hs a q ha hq] at h
    dsimp only at h
    split at h
    · split at h
      · next hp => exact .inr hp
      · split at h <;> exact nomatch h
      · exact nomatch h
    · next hcp => exact .inl (fun e => hcp ((copyright_iff _ _).2 e))
  · rintro ⟨a, q, ha, hq, h⟩
    unfold testOne
    rw [hs a q ha hq]
    dsimp only
    split
    · next hcp =>
      rw [h.resolve_left (fun e => e ((copyright_iff _ _).1 hcp))]
    · rfl

/-- The numbers of runs are one and two. -/
theorem c96_one_or_two (word space : Char → Bool) (path text : Str) (r : Nat) (h : testOne word space path text = .counted r) : r = 1 ∨ r = 2 := by
  obtain ⟨_, _, _, _, _, _, _, _, h⟩ := (c96_counted word space path text r).1 h
  exact h.elim (fun h => .inl h.2) (fun h => .inr h.2)

theorem ignored_iff (n : Names) (name : Str) : ignored n name = true ↔ n.swap name = true ∨ name = "README.md".toList := by
  unfold ignored
  rw [Bool.or_eq_true, decide_eq_true_iff]

/-- The totals after some tests. -/
def after (word space : Char → Bool) (l : List (Str × Str)) (t : Totals) : Totals :=
  ⟨t.files + (l.map (fun p => (testOne word space p.1 p.2).files)).sum, t.runs + (l.map (fun p => (testOne word space p.1 p.2).runs)).sum⟩

theorem after_append (word space : Char → Bool) (l m : List (Str × Str)) (t : Totals) : after word space (l ++ m) t = after word space m (after word space l t) := by
  unfold after
  rw [List.map_append, List.sum_append_nat, List.map_append, List.sum_append_nat, Nat.add_assoc, Nat.add_assoc]

theorem count_iff (word space : Char → Bool) (path text : Str) (t t' : Totals) :
    count word space path text t = some t' ↔ testOne word space path text ≠ .crash ∧ t' = after word space [(path, text)] t := by
  unfold count after
  simp only [List.map_cons, List.map_nil, List.sum_cons, List.sum_nil, Nat.add_zero]
  cases h : testOne word space path text with
  | crash => exact ⟨fun e => (nomatch e), fun e => absurd rfl e.1⟩
  | refused => exact ⟨fun e => ⟨(nomatch ·), (Option.some.inj e).symm⟩, fun e => by rw [e.2]; rfl⟩
  | counted r => exact ⟨fun e => ⟨(nomatch ·), (Option.some.inj e).symm⟩, fun e => by rw [e.2]; rfl⟩

mutual
theorem walk_iff (n : Names) (word space : Char → Bool) (path : Str) : ∀ (es : List Entry) (t t' : Totals), okEntries n es = true →
    (walk n word space path es t = some t' ↔
      Regular n es ∧ (∀ p ∈ testsIn n path es, testOne word space p.1 p.2 ≠ .crash) ∧ t' = after word space (testsIn n path es) t)
  | [], t, t', _ => by
    rw [walk, Regular, testsIn]
    exact ⟨fun e => ⟨trivial, fun _ h => (nomatch h), (Option.some.inj e).symm⟩, fun e => by rw [e.2.2]; rfl⟩
  | e :: es, t, t', hok => by
    have hes : okEntries n es = true := by
      cases e <;> rw [okEntries] at hok
      · exact (Bool.and_eq_true_iff.1 hok).2
      · exact (Bool.and_eq_true_iff.1 hok).2
      · exact nomatch hok
    rw [walk, Option.bind_eq_some_iff, Regular, testsIn, after_append]
    constructor
    · rintro ⟨u, h1, h2⟩
      obtain ⟨a1, a2, a3⟩ := (visit_iff n word space path e es t u hok).1 h1
      obtain ⟨b1, b2, b3⟩ := (walk_iff n word space path es u t' hes).1 h2
      exact ⟨⟨a1, b1⟩, fun p hp => (List.mem_append.1 hp).elim (a2 p) (b2 p), by rw [b3, a3]⟩
    · rintro ⟨⟨a1, b1⟩, h2, h3⟩
      exact ⟨_, (visit_iff n word space path e es t _ hok).2 ⟨a1, fun p hp => h2 p (List.mem_append.2 (.inl hp)), rfl⟩,
        (walk_iff n word space path es _ t' hes).2 ⟨b1, fun p hp => h2 p (List.mem_append.2 (.inr hp)), h3⟩⟩
theorem visit_iff (n : Names) (word space : Char → Bool) (path : Str) : ∀ (e : Entry) (es : List Entry) (t t' : Totals), okEntries n (e :: es) = true →
    (visit n word space path e t = some t' ↔
      RegularEntry n e ∧ (∀ p ∈ testsOf n path e, testOne word space p.1 p.2 ≠ .crash) ∧ t' = after word space (testsOf n path e) t)
  | .file name text, es, t, t', hok => by
    rw [okEntries, Bool.and_eq_true, Bool.or_eq_true, ignored_iff, or_assoc] at hok
    have hi : (ignored n name || hasSub "_FIXTURE".toList name) = true ↔ n.swap name = true ∨ name = "README.md".toList ∨ hasSub "_FIXTURE".toList name = true := by
      rw [Bool.or_eq_true, ignored_iff, or_assoc]
    rw [visit, RegularEntry, testsOf]
    by_cases h : n.swap name = true ∨ name = "README.md".toList ∨ hasSub "_FIXTURE".toList name = true
    · rw [if_pos (hi.2 h), if_pos h]
      exact ⟨fun e => ⟨hok.1, fun _ h => (nomatch h), (Option.some.inj e).symm⟩, fun e => by rw [e.2.2]; rfl⟩
    · rw [if_neg (fun e => h (hi.1 e)), if_neg h, count_iff]
      exact ⟨fun e => ⟨hok.1, fun p hp => by rw [List.mem_singleton.1 hp]; exact e.1, e.2⟩, fun e => ⟨e.2.1 _ (.head _), e.2.2⟩⟩
  | .dir name ds, es, t, t', hok => by
    rw [okEntries, Bool.and_eq_true] at hok
    rw [visit, RegularEntry, testsOf]
    by_cases h : okEntries n ds = true
    · rw [if_pos h, walk_iff n word space _ ds t t' h]
      exact ⟨fun e => ⟨⟨hok.1, e.1⟩, e.2⟩, fun e => ⟨e.1.2, e.2⟩⟩
    · rw [if_neg h]
      exact ⟨fun e => (nomatch e), fun e => absurd (regular_ok n ds e.1.2) h⟩
  | .other, es, t, t', hok => by
    rw [okEntries] at hok
    exact nomatch hok
theorem regular_ok (n : Names) : ∀ (es : List Entry), Regular n es → okEntries n es = true
  | [], _ => by rw [okEntries]
  | .file name _ :: es, h => by
    rw [Regular, RegularEntry] at h
    rw [okEntries, Bool.and_eq_true, Bool.or_eq_true, ignored_iff, or_assoc]
    exact ⟨h.1, regular_ok n es h.2⟩
  | .dir name ds :: es, h => by
    rw [Regular, RegularEntry] at h
    rw [okEntries, Bool.and_eq_true]
    exact ⟨h.1.1, regular_ok n es h.2⟩
  | .other :: es, h => by
    rw [Regular, RegularEntry] at h
    exact h.1.elim
end

/-- **C96.**  The whole directory is gone through just if all names in it are as they should be and no test is such that an assertion fails; then the numbers have grown by
the number of tests in it, at any depth, that are counted, and by the sum of their runs. -/
theorem c96_totals (n : Names) (word space : Char → Bool) (path : Str) (es : List Entry) (t t' : Totals) :
    testAllInDir n word space path es t = some t' ↔
      Regular n es ∧ (∀ p ∈ testsIn n path es, testOne word space p.1 p.2 ≠ .crash) ∧
      t'.files = t.files + ((testsIn n path es).map (fun p => (testOne word space p.1 p.2).files)).sum ∧
      t'.runs = t.runs + ((testsIn n path es).map (fun p => (testOne word space p.1 p.2).runs)).sum := by
  have ha : ∀ l, t' = after word space l t ↔ t'.files = t.files + (l.map (fun p => (testOne word space p.1 p.2).files)).sum ∧
      t'.runs = t.runs + (l.map (fun p => (testOne word space p.1 p.2).runs)).sum := by
    intro l
    cases t'
    unfold after
    exact ⟨fun e => by injection e with e1 e2; exact ⟨e1, e2⟩, fun ⟨e1, e2⟩ => by dsimp only at e1 e2; rw [e1, e2]⟩
  unfold testAllInDir
  by_cases h : okEntries n es = true
  · rw [if_pos h, walk_iff n word space path es t t' h, ha]
  · rw [if_neg h]
    exact ⟨fun e => (nomatch e), fun e => absurd (regular_ok n es e.1) h⟩

/-- **C96.**  There are at least as many runs as tests, and at most twice as many. -/
theorem c96_bounds (n : Names) (word space : Char → Bool) (path : Str) (es : List Entry) (t' : Totals) (h : testAllInDir n word space path es ⟨0, 0⟩ = some t') :
    t'.files ≤ t'.runs ∧ t'.runs ≤ 2 * t'.files := by
  obtain ⟨_, _, h1, h2⟩ := (c96_totals n word space path es _ t').1 h
  rw [h1, h2]
  dsimp only
  generalize testsIn n path es = l
  clear h h1 h2
  induction l with
  | nil => exact ⟨Nat.le_refl _, Nat.le_refl _⟩
  | cons p l ih =>
    simp only [List.map_cons, List.sum_cons]
    have : (testOne word space p.1 p.2).files ≤ (testOne word space p.1 p.2).runs ∧ (testOne word space p.1 p.2).runs ≤ 2 * (testOne word space p.1 p.2).files := by
      cases hp : testOne word space p.1 p.2 with
      | crash => exact ⟨Nat.le_refl _, Nat.le_refl _⟩
      | refused => exact ⟨Nat.le_refl _, Nat.le_refl _⟩
      | counted r => rcases c96_one_or_two word space _ _ r hp with rfl | rfl <;> exact ⟨by decide, by decide⟩
    omega

/-! ## Examples -/

def word0 (c : Char) : Bool := c.isAlphanum || c = '_'
def space0 (c : Char) : Bool := c = ' '
def names0 : Names := ⟨fun s => s = ".a.js.swp".toList, fun s => ".js".toList.isSuffixOf s, fun s => !s.isEmpty⟩

def testA : Str := "// Copyright\n/*---\ndescription: d\nflags: [onlyStrict]\n---*/\nx;\n".toList
def testB : Str := "// Copyright\n/*---\ndescription: d\nincludes: [a-b.js]\n---*/\nx;\n".toList
def testM : Str := "// Copyright\n/*---\ndescription: d\nflags: [module]\n---*/\nx;\n".toList
/-- The copyright section is not as it should be. -/
def testC : Str := "x\n/*---\ndescription: d\n---*/\nx;\n".toList
/-- There are flags that exclude each other. -/
def testD : Str := "// C\n/*---\ndescription: d\nflags: [raw, noStrict]\n---*/\nx;\n".toList

example : testOne word0 space0 "./a.js".toList testA = .counted 1 := by decide +kernel
example : testOne word0 space0 "./a.js".toList testB = .counted 2 := by decide +kernel
example : testOne word0 space0 "./a.js".toList testC = .refused := by decide +kernel
example : testOne word0 space0 "./language/comments/hashbang/a.js".toList testC = .counted 2 := by decide +kernel
example : testOne word0 space0 "./a.js".toList testD = .crash := by decide +kernel

def dir0 : List Entry := [.file "README.md".toList [], .file "a.js".toList testA, .file "b_FIXTURE.js".toList [], .file "c.js".toList testC,
  .dir "d".toList [.file "b.js".toList testB, .dir "e".toList [.file "a.js".toList testA]]]

/-- Three of the four tests count, for four runs. -/
example : testAllInDir names0 word0 space0 ".".toList dir0 ⟨0, 0⟩ = some ⟨3, 4⟩ := by decide +kernel
example : (testsIn names0 ".".toList dir0).map Prod.fst = ["./a.js".toList, "./c.js".toList, "./d/b.js".toList, "./d/e/a.js".toList] := by decide +kernel

/-- **Departure.**  A test that is a module, which can be run only as it is since a module is always strict, is counted for two runs. -/
theorem c96_module : testOne word0 space0 "./a.js".toList testM = .counted 2 := by decide +kernel

end Verif.Runs
