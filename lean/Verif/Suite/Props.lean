import Verif.Suite.Spec
/-!
# C100: the tests of the parser
-/
namespace Verif.Suite

variable {Node : Type}

theorem expectation_iff (d : Str) (o : Outcome) : expectationFor d = some o ↔ Dir d o := by
  constructor
  · intro h
    unfold expectationFor at h
    split at h
    · next e => subst e; rw [← Option.some.inj h]; exact .fail
    split at h
    · next e => subst e; rw [← Option.some.inj h]; exact .early
    split at h
    · next e => subst e; rw [← Option.some.inj h]; exact .pass
    split at h
    · next e => subst e; rw [← Option.some.inj h]; exact .explicit
    · exact nomatch h
  · intro h
    cases h <;> decide

theorem split_plain : ∀ {s : Str}, '/' ∉ s → splitSlash s = [s]
  | [], _ => rfl
  | c :: s, h => by
    rw [splitSlash, split_plain (fun e => h (.tail _ e))]
    dsimp only
    rw [if_neg (by rintro rfl; exact h (.head _))]

theorem split_two : ∀ {a b : Str}, '/' ∉ a → '/' ∉ b → splitSlash (a ++ '/' :: b) = [a, b]
  | [], b, _, hb => by
    show splitSlash ('/' :: b) = _
    rw [splitSlash, split_plain hb]
    rfl
  | c :: a, b, ha, hb => by
    rw [List.cons_append, splitSlash, split_two (fun e => ha (.tail _ e)) hb]
    dsimp only
    rw [if_neg (by rintro rfl; exact ha (.head _))]

theorem dir_plain {d : Str} {o : Outcome} (h : Dir d o) : '/' ∉ d ∧ ∀ s, (d ++ s).head? ≠ some '/' := by
  cases h <;> exact ⟨by decide, fun s e => by injection e with e; revert e; decide⟩

theorem locate_test {w : World Node} (hw : Sane w) {root dirname name : Str} {o : Outcome} (hd : Dir dirname o) (hn : '/' ∉ name) (hj : ".js".toList <:+ (dirname ++ '/' :: name)) :
    ∃ e, Expected w dirname name e ∧ locate w root (dirname ++ '/' :: name) = some (root ++ '/' :: (dirname ++ '/' :: name), some e) := by
  have hp := dir_plain hd
  unfold locate
  rw [if_pos (List.isSuffixOf_iff_suffix.2 hj)]
  rw [if_neg (hp.2 _), split_two hp.1 hn]
  dsimp only
  rw [(expectation_iff _ _).2 hd, Option.bind_some]
  cases hc : w.corrections (dirname ++ '/' :: name) with
  | none => exact ⟨o, .own hc hd, rfl⟩
  | some d =>
    obtain ⟨o', ho'⟩ := hw _ _ hc
    refine ⟨o', .corrected hc ho', ?_⟩
    dsimp only
    rw [(expectation_iff _ _).2 ho']
    rfl

theorem dir_unique {d : Str} {o o' : Outcome} (h : Dir d o) (h' : Dir d o') : o = o' :=
  Option.some.inj (((expectation_iff d o).2 h).symm.trans ((expectation_iff d o').2 h'))

theorem expected_unique {w : World Node} {dirname name : Str} {o o' : Outcome} (h : Expected w dirname name o) (h' : Expected w dirname name o') : o = o' := by
  cases h with
  | corrected h1 h2 =>
    cases h' with
    | corrected h3 h4 =>
      rw [h1] at h3
      rw [Option.some.inj h3] at h2
      exact dir_unique h2 h4
    | own h3 _ => rw [h1] at h3; exact nomatch h3
  | own h1 h2 =>
    cases h' with
    | corrected h3 _ => rw [h1] at h3; exact nomatch h3
    | own _ h4 => exact dir_unique h2 h4

theorem goal_iff (path : Str) : ".module.js".toList.isSuffixOf path = true ↔ ".module.js".toList <:+ path := List.isSuffixOf_iff_suffix

theorem bool_eq {a b : Bool} {P : Prop} (h : a = true ↔ P) (h' : b = true ↔ P) : a = b := by
  cases a <;> cases b <;> simp_all

theorem comes_unique {w : World Node} {path : Str} {o o' : Outcome} (h : Comes w path o) (h' : Comes w path o') : o = o' := by
  have key : ∀ {o}, Comes w path o → (match w.source path with
      | none => none
      | some text => some (match w.parse (".module.js".toList.isSuffixOf path) text with
        | none => Outcome.parseError
        | some node => if w.early node then .earlyError else .noError)) = some o := by
    intro o h
    cases h with
    | parseError h1 h2 h3 => rw [h1, ← bool_eq h2 (goal_iff path)]; dsimp only; rw [h3]
    | earlyError h1 h2 h3 h4 => rw [h1, ← bool_eq h2 (goal_iff path)]; dsimp only; rw [h3]; dsimp only; rw [h4]; rfl
    | noError h1 h2 h3 h4 => rw [h1, ← bool_eq h2 (goal_iff path)]; dsimp only; rw [h3]; dsimp only; rw [h4]; rfl
  exact Option.some.inj ((key h).symm.trans (key h'))

theorem comes_exists {w : World Node} {path text : Str} (h : w.source path = some text) : ∃ o, Comes w path o := by
  cases hp : w.parse (".module.js".toList.isSuffixOf path) text with
  | none => exact ⟨_, .parseError h (goal_iff path) hp⟩
  | some node =>
    cases he : w.early node with
    | false => exact ⟨_, .noError h (goal_iff path) hp he⟩
    | true => exact ⟨_, .earlyError h (goal_iff path) hp he⟩

/-- What `test_one` does with a test that has an expectation. -/
theorem testOne_expected {w : World Node} (hw : Sane w) {root dirname name : Str} {d : Outcome} (hd : Dir dirname d) (hr : Runnable w root dirname name) (n : Calls) :
    ∃ e o, Expected w dirname name e ∧ Comes w (root ++ '/' :: (dirname ++ '/' :: name)) o ∧
      testOne w root (dirname ++ '/' :: name) n = (if o = e then .success else .failure, if o = .parseError then n else ⟨n.parse + 1, n.early + 1⟩) := by
  obtain ⟨hn, hj, text, ht⟩ := hr
  obtain ⟨e, he, hl⟩ := locate_test hw (root := root) hd hn hj
  unfold testOne
  rw [hl]
  dsimp only
  rw [ht]
  dsimp only
  cases hp : w.parse (".module.js".toList.isSuffixOf (root ++ '/' :: (dirname ++ '/' :: name))) text with
  | none => exact ⟨e, .parseError, he, .parseError ht (goal_iff _) hp, rfl⟩
  | some node =>
    cases hy : w.early node with
    | false => exact ⟨e, .noError, he, .noError ht (goal_iff _) hp hy, by dsimp only; rw [hy]; rfl⟩
    | true => exact ⟨e, .earlyError, he, .earlyError ht (goal_iff _) hp hy, by dsimp only; rw [hy]; rfl⟩

/-- **C100.**  A test in one of the four directories succeeds just if what comes of it is what is expected, by its directory or by a correction; otherwise it fails.  It never ends in an
exception if the file can be read. -/
theorem c100_verdict {w : World Node} (hw : Sane w) {root dirname name : Str} {d e o : Outcome} (hd : Dir dirname d) (hr : Runnable w root dirname name)
    (he : Expected w dirname name e) (ho : Comes w (root ++ '/' :: (dirname ++ '/' :: name)) o) (n : Calls) :
    (testOne w root (dirname ++ '/' :: name) n).1 = if o = e then .success else .failure := by
  obtain ⟨e', o', he', ho', h⟩ := testOne_expected hw hd hr n
  rw [h, expected_unique he he', comes_unique ho ho']

/-- The numbers of tests that succeed. -/
theorem loop_total {w : World Node} (hw : Sane w) {root dirname : Str} {d : Outcome} (hd : Dir dirname d) {swap : Str → Bool} (good : Str → Bool) :
    ∀ (names : List Str) (s f : Nat) (n : Calls), (∀ name ∈ names, swap name = false → Runnable w root dirname name) →
      (∀ name ∈ names, swap name = false → (good name = true ↔ ∃ o, Expected w dirname name o ∧ Comes w (root ++ '/' :: (dirname ++ '/' :: name)) o)) →
      ∃ n', loop w root dirname swap names s f n =
        some ((s + ((names.filter (fun x => !swap x)).filter good).length, f + ((names.filter (fun x => !swap x)).filter (fun x => !good x)).length), n')
  | [], s, f, n, _, _ => ⟨n, rfl⟩
  | name :: names, s, f, n, hr, hg => by
    have ih := fun s f n => loop_total hw hd good names s f n (fun x hx => hr x (.tail _ hx)) (fun x hx => hg x (.tail _ hx))
    rw [loop]
    cases hs : swap name with
    | true =>
      rw [if_pos rfl, List.filter_cons, hs]
      exact ih s f n
    | false =>
      rw [if_neg (by decide), List.filter_cons, hs]
      obtain ⟨e, o, he, ho, ht⟩ := testOne_expected hw hd (hr name (.head _) hs) n
      have hgood := hg name (.head _) hs
      rw [ht]
      by_cases heq : o = e
      · have hg1 : good name = true := hgood.2 ⟨e, he, heq ▸ ho⟩
        rw [if_pos heq]
        dsimp only
        obtain ⟨n', h⟩ := ih (s + 1) f (if o = .parseError then n else ⟨n.parse + 1, n.early + 1⟩)
        refine ⟨n', ?_⟩
        rw [h]
        simp [hg1]
        omega
      · have hg1 : good name = false := by
          rw [Bool.eq_false_iff]
          intro h
          obtain ⟨x, hx1, hx2⟩ := hgood.1 h
          exact heq ((comes_unique ho hx2).trans (expected_unique hx1 he))
        rw [if_neg heq]
        dsimp only
        obtain ⟨n', h⟩ := ih s (f + 1) (if o = .parseError then n else ⟨n.parse + 1, n.early + 1⟩)
        refine ⟨n', ?_⟩
        rw [h]
        simp [hg1]
        omega

theorem contains_iff (dirname : Str) : ["fail".toList, "early".toList, "pass".toList, "pass-explicit".toList].contains dirname = true ↔ ∃ o, Dir dirname o := by
  rw [List.contains_iff_mem]
  constructor
  · intro h
    rcases List.mem_cons.1 h with rfl | h
    · exact ⟨_, .fail⟩
    rcases List.mem_cons.1 h with rfl | h
    · exact ⟨_, .early⟩
    rcases List.mem_cons.1 h with rfl | h
    · exact ⟨_, .pass⟩
    · rw [List.mem_singleton.1 h]; exact ⟨_, .explicit⟩
  · rintro ⟨o, h⟩
    cases h <;> decide

/-- **C100.**  For a whole directory: the number of successes is the number of the tests of which comes what is expected, and the number of failures is that of all others; temporary files are left
out. -/
theorem c100_totals {w : World Node} (hw : Sane w) {root dirname : Str} {d : Outcome} (hd : Dir dirname d) {swap : Str → Bool} (good : Str → Bool) (names : List Str) (n : Calls)
    (hr : ∀ name ∈ names, swap name = false → Runnable w root dirname name)
    (hg : ∀ name ∈ names, swap name = false → (good name = true ↔ ∃ o, Expected w dirname name o ∧ Comes w (root ++ '/' :: (dirname ++ '/' :: name)) o)) :
    ∃ n', testAllInDir w root dirname swap names n =
      some ((((names.filter (fun x => !swap x)).filter good).length, ((names.filter (fun x => !swap x)).filter (fun x => !good x)).length), n') := by
  unfold testAllInDir
  rw [if_pos ((contains_iff dirname).2 ⟨d, hd⟩)]
  obtain ⟨n', h⟩ := loop_total hw hd good names 0 0 n hr hg
  exact ⟨n', by rw [h, Nat.zero_add, Nat.zero_add]⟩

/-- **C100.**  Any other directory ends in an exception. -/
theorem c100_other {w : World Node} {root dirname : Str} (hd : ¬ ∃ o, Dir dirname o) (swap : Str → Bool) (names : List Str) (n : Calls) : testAllInDir w root dirname swap names n = none := by
  unfold testAllInDir
  rw [if_neg (fun h => hd ((contains_iff dirname).1 h))]

/-- **C100, departure.**  For a file that is given by its absolute path, the outcome is told if the file can be parsed; if it cannot, there is an exception instead of the outcome. -/
theorem c100_absolute {w : World Node} {root rest text : Str} (hj : ".js".toList <:+ '/' :: rest) (ht : w.source ('/' :: rest) = some text) {o : Outcome} (ho : Comes w ('/' :: rest) o) (n : Calls) :
    (testOne w root ('/' :: rest) n).1 = if o = .parseError then .crash else .told o := by
  have hl : locate w root ('/' :: rest) = some ('/' :: rest, none) := by
    unfold locate
    rw [if_pos (List.isSuffixOf_iff_suffix.2 hj), if_pos (show ('/' :: rest).head? = some '/' from rfl)]
  unfold testOne
  rw [hl]
  dsimp only
  rw [ht]
  dsimp only
  cases hp : w.parse (".module.js".toList.isSuffixOf ('/' :: rest)) text with
  | none =>
    rw [comes_unique ho (.parseError ht (goal_iff _) hp)]
    rfl
  | some node =>
    cases hy : w.early node with
    | false => rw [comes_unique ho (.noError ht (goal_iff _) hp hy)]; dsimp only; rw [hy]; rfl
    | true => rw [comes_unique ho (.earlyError ht (goal_iff _) hp hy)]; dsimp only; rw [hy]; rfl

/-- **C100, departure.**  The number of calls of the parser that is printed leaves out those that end in a `ParseError`. -/
theorem c100_calls {w : World Node} (hw : Sane w) {root dirname name : Str} {d o : Outcome} (hd : Dir dirname d) (hr : Runnable w root dirname name)
    (ho : Comes w (root ++ '/' :: (dirname ++ '/' :: name)) o) (n : Calls) :
    (testOne w root (dirname ++ '/' :: name) n).2 = if o = .parseError then n else ⟨n.parse + 1, n.early + 1⟩ := by
  obtain ⟨e', o', he', ho', h⟩ := testOne_expected hw hd hr n
  rw [h, comes_unique ho ho']

/-! ## Examples -/

/-- All files can be read, with their path as text.  The parser refuses texts with an `x` in them, and modules with a `q`; there are early errors in those with a `z`. -/
def world0 : World Str where
  source p := some p
  parse goal t := if t.contains 'x' || (goal && t.contains 'q') then none else some t
  early t := t.contains 'z'
  corrections a := if a = "pass/x1.js".toList then some "fail".toList else none

theorem sane0 : Sane world0 := by
  intro arg d h
  change (if arg = "pass/x1.js".toList then some "fail".toList else none) = some d at h
  split at h
  · rw [← Option.some.inj h]; exact ⟨_, .fail⟩
  · exact nomatch h

example : Runnable world0 "r".toList "pass".toList "a.js".toList := ⟨by decide, by decide +kernel, _, rfl⟩
example : (testOne world0 "r".toList "pass/a.js".toList ⟨0, 0⟩) = (.success, ⟨1, 1⟩) := by decide +kernel
example : (testOne world0 "r".toList "pass/x.js".toList ⟨0, 0⟩) = (.failure, ⟨0, 0⟩) := by decide +kernel
/-- A correction. -/
example : (testOne world0 "r".toList "pass/x1.js".toList ⟨0, 0⟩) = (.success, ⟨0, 0⟩) := by decide +kernel
example : (testOne world0 "r".toList "fail/q.module.js".toList ⟨0, 0⟩) = (.success, ⟨0, 0⟩) := by decide +kernel
example : (testOne world0 "r".toList "fail/q.js".toList ⟨0, 0⟩) = (.failure, ⟨1, 1⟩) := by decide +kernel
example : testAllInDir world0 "r".toList "early".toList (fun s => s.head? = some '.') ["z.js".toList, ".z.js.swp".toList, "a.js".toList, "az.module.js".toList] ⟨0, 0⟩ = some ((2, 1), ⟨3, 3⟩) := by decide +kernel
example : (testOne world0 "r".toList "/tmp/z.js".toList ⟨0, 0⟩).1 = .told .earlyError := by decide +kernel
example : (testOne world0 "r".toList "/tmp/x.js".toList ⟨0, 0⟩).1 = .crash := by decide +kernel
example : (testOne world0 "r".toList "pass/a.txt".toList ⟨0, 0⟩).1 = .crash := by decide +kernel

end Verif.Suite
