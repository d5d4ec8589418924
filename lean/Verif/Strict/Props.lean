import Verif.Strict.Lemmas
/-!
# C80: strict mode code is told by what encloses it
-/
namespace Verif.Strict

/-! ## Trees for the examples -/

/-- A node with only a symbol and children. -/
def nd (s : String) (cs : List PTree) : PTree := .mk (some s) [] cs
/-- A terminal. -/
def tm (x : String) : PTree := .mk none x.toList []
/-- A statement that is a string literal. -/
def strItem (x : String) : PTree :=
  nd "StatementListItem" [nd "Statement" [nd "ExpressionStatement" [nd "Expression" [nd "Literal" [.mk (some "StringLiteral") x.toList []]], tm ";"]]]
/-- A statement `break;`. -/
def brk : PTree := nd "StatementListItem" [nd "Statement" [nd "BreakStatement" [tm "break", tm ";"]]]
/-- `{'a'; 'use strict'; break;}`. -/
def strictBody (s : String) : PTree := nd s [nd "StatementList?" [nd "StatementList" [nd "StatementList" [nd "StatementList" [strItem "'a'"], strItem "'use strict'"], brk]]]
/-- `{break; 'use strict';}`. -/
def sloppyBody (s : String) : PTree := nd s [nd "StatementList?" [nd "StatementList" [nd "StatementList" [brk], strItem "'use strict'"]]]
/-- A function with a body. -/
def fn (s : String) (b : PTree) : PTree := nd s [tm "function", tm "(", nd "FormalParameters" [], tm ")", tm "{", b, tm "}"]
/-- A script that is one statement. -/
def script1 (t : PTree) : PTree := nd "Script" [nd "StatementList" [nd "StatementListItem" [t]]]
/-- A loop around a statement. -/
def loop (t : PTree) : PTree := nd "WhileStatement" [nd "IterationStatement" [tm "while", t]]

/-- **C80.** Whenever there is an answer, it is right: the code is strict just if something around it makes it strict. -/
theorem c80_sound {l : Loc} {b : Bool} (h : isStrict l = some b) : b = true ↔ StrictCode l := by
  obtain ⟨c, hc, hs⟩ := Option.bind_eq_some_iff.mp h
  rw [strictIn_sound c b hs]
  constructor
  · rintro ⟨n, hn, hm⟩
    exact ⟨n, (chain_mem l c hc n).mp hn, hm⟩
  · rintro ⟨n, hn, hm⟩
    exact ⟨n, (chain_mem l c hc n).mpr hn, hm⟩

/-- Directives count at the start only, also after others; a class is strict; a place whose tree was parsed again for another place takes after that. -/
example : isStrict [(script1 (fn "FunctionDeclaration" (strictBody "FunctionBody")), [0, 0, 0, 2])] = some true ∧
    isStrict [(script1 (fn "FunctionDeclaration" (sloppyBody "FunctionBody")), [0, 0, 0, 2])] = some false ∧
    isStrict [(script1 (fn "GeneratorExpression" (strictBody "GeneratorBody")), [0, 0, 0, 5, 0])] = some true ∧
    isStrict [(script1 (fn "FunctionDeclaration" (strictBody "FunctionBody")), [0])] = some false ∧
    isStrict [(script1 (nd "ClassDeclaration" [brk]), [0, 0, 0, 0])] = some true ∧
    isStrict [(nd "ParenthesizedExpression" [brk], [0]), (script1 (nd "ClassDeclaration" [brk]), [0, 0, 0])] = some true ∧
    isStrict [(script1 (nd "ArrowFunction" [tm "x", tm "=>", nd "ConciseBody" [tm "{", strictBody "FunctionBody", tm "}"]]), [0, 0, 0, 0])] = some true ∧
    isStrict [(script1 (nd "MethodDefinition" [nd "GeneratorMethod" [tm "*", strictBody "GeneratorBody", tm "}"]]), [0, 0, 0, 0])] = some true := by decide +kernel

/-- **C80.** There is an answer if the nodes around are as the grammar has them, none of them asynchronous functions with statements, and the place is not in parameters parsed on
their own. -/
theorem c80_strict {l : Loc} (ht : ∀ tp ∈ l, There tp.1 tp.2) (hg : ∀ n, Around l n → GoodNode n)
    (hr : ∀ tp ∈ l, tp.1.sym ≠ some "FormalParameters" ∧ tp.1.sym ≠ some "UniqueFormalParameters") :
    ∃ b, isStrict l = some b ∧ (b = true ↔ StrictCode l) := by
  obtain ⟨c, hc⟩ := chain_there l ht
  cases hs : strictIn c with
  | none =>
    refine absurd hs (strictIn_good c (fun n hn => hg n ((chain_mem l c hc n).mp hn)) ?_)
    intro n hn
    obtain ⟨tp, h1, rfl⟩ := chain_root l c hc n hn
    exact hr tp h1
  | some b =>
    have h : isStrict l = some b := by rw [isStrict, hc, Option.bind_some, hs]
    exact ⟨b, h, c80_sound h⟩

/-- The hypotheses can be met: a script whose statement is a loop. -/
example : ∃ b, isStrict [(script1 (loop brk), [0, 0, 0])] = some b ∧ (b = true ↔ StrictCode [(script1 (loop brk), [0, 0, 0])]) := by
  refine c80_strict (by intro tp h; simp at h; subst h; exact .step rfl (.step rfl (.step rfl .here))) ?_
    (by intro tp h; simp at h; subst h; simp [script1, nd, PTree.sym])
  rintro n ⟨tp, h1, h2⟩
  simp at h1
  subst h1
  have hu := (ups_mem [0, 0, 0] (script1 (loop brk)) _ rfl n).mpr h2
  simp at hu
  rcases hu with rfl | rfl | rfl | rfl
  · exact .other (by simp [loop, nd, PTree.sym]) (by simp [loop, nd, PTree.sym])
  · exact .other (by simp [nd, PTree.sym]) (by simp [nd, PTree.sym])
  · exact .other (by simp [nd, PTree.sym]) (by simp [nd, PTree.sym])
  · refine .script rfl ?_
    intro l hl
    have hl' := first_unitA hl
    simp [script1, nd, unitA, unitAs] at hl'
    subst hl'
    refine ⟨_, .one ⟨"Statement".toList, by decide +kernel⟩ ⟨"StatementList".toList, by decide +kernel⟩ rfl, ?_⟩
    intro i hi
    simp at hi
    subst hi
    refine ⟨rfl, ?_⟩
    intro e he
    have he' := first_unitA he
    simp [loop, nd, unitA, unitAs] at he'

/-- **C80.** But in an asynchronous function, generator or method, if nothing within it makes the code strict, the program stops. -/
theorem c80_async_stops {t : PTree} {p : List Nat} {rest : Loc} {outer inner : List PTree} {n : PTree} (hw : Way t p (outer ++ n :: inner)) (ha : AsyncNode n)
    (hi : ∀ m ∈ inner, ¬ MakesStrict m) : isStrict ((t, p) :: rest) = none := by
  have hu : ups t p = some (outer ++ n :: inner).reverse := (ups_way p t _).mpr (by rw [List.reverse_reverse]; exact hw)
  rw [isStrict]
  cases hc : chain ((t, p) :: rest) with
  | none => rfl
  | some c =>
    simp only [chain, hu, bind, Option.bind_some, Option.bind_eq_some_iff, pure, Option.some.injEq] at hc
    obtain ⟨more, hm, hcc⟩ := hc
    have hlast := ups_last p t _ hu
    have e : (outer ++ n :: inner).reverse = inner.reverse ++ n :: outer.reverse := by simp
    rw [Option.bind_some, ← hcc]
    rw [e] at hlast ⊢
    cases ho : outer.reverse with
    | nil =>
      rw [ho] at hlast
      have hd : (inner.reverse ++ [n]).dropLast = inner.reverse := by simp
      rw [hd] at hlast ⊢
      have : t = n := snoc1_inj hlast
      subst this
      rw [List.append_assoc]
      exact strictIn_async _ t true more ha (by simpa [Function.comp_def] using hi)
    | cons o os =>
      have hd : (inner.reverse ++ n :: o :: os).dropLast = inner.reverse ++ n :: (o :: os).dropLast := by
        rw [List.dropLast_append_of_ne_nil (by simp)]
        rfl
      rw [hd, List.map_append, List.map_cons, List.append_assoc, List.append_assoc, List.cons_append]
      exact strictIn_async _ n false _ ha (by simpa [Function.comp_def] using hi)

/-- So it is, whether or not the function says to be strict. -/
example : isStrict [(script1 (fn "AsyncFunctionDeclaration" (strictBody "AsyncFunctionBody")), [0, 0, 0, 2])] = none :=
  c80_async_stops (outer := [script1 _, _, _]) (inner := [nd "FormalParameters" []])
    (.step rfl (.step rfl (.step rfl (.step rfl .here)))) (.function rfl (by decide) (pre := [_, _, _, _, _]) rfl rfl (by decide)) (by
      intro m hm h
      simp at hm
      subst hm
      have : selfStrict (nd "FormalParameters" []) = some false := by decide +kernel
      exact self_false this h)

/-- And for `AsyncGeneratorMethod`, which the program misspells. -/
example : isStrict [(script1 (nd "MethodDefinition" [nd "AsyncGeneratorMethod" [tm "async", strictBody "AsyncGeneratorBody", tm "}"]]), [0, 0, 0])] = none := by decide +kernel

/-- **C80.** Parameters that are parsed on their own: the program stops, unless something within makes the code strict. -/
theorem c80_parameters_stop {t : PTree} {p : List Nat} {rest : Loc} (hs : t.sym = some "FormalParameters" ∨ t.sym = some "UniqueFormalParameters")
    (hi : ∀ m, Encloses t p m → ¬ MakesStrict m) : isStrict ((t, p) :: rest) = none := by
  rw [isStrict]
  cases hc : chain ((t, p) :: rest) with
  | none => rfl
  | some c =>
    simp only [chain, bind, Option.bind_eq_some_iff, pure, Option.some.injEq] at hc
    obtain ⟨us, hu, more, hm, hcc⟩ := hc
    have hlast := ups_last p t _ hu
    rw [Option.bind_some, ← hcc]
    have key : ∀ (xs : List PTree), (∀ x ∈ xs, ¬ MakesStrict x) → strictIn (xs.map (·, false) ++ [(t, true)] ++ more) = none := by
      intro xs
      induction xs with
      | nil =>
        intro _
        simp only [List.map_nil, List.nil_append, List.cons_append, strictIn]
        cases h : selfStrict t with
        | none => rfl
        | some b =>
          cases b with
          | true =>
            refine absurd (self_true h) (hi t ((ups_mem p t us hu t).mp ?_))
            rw [← hlast]
            simp
          | false =>
            have : (true && among ["FormalParameters", "UniqueFormalParameters"] t.sym) = true := by
              rcases hs with hs | hs <;> rw [hs] <;> decide
            simp only
            rw [if_pos this]
      | cons x xs ih =>
        intro hx
        simp only [List.map_cons, List.cons_append, strictIn]
        cases h : selfStrict x with
        | none => rfl
        | some b =>
          cases b with
          | true => exact absurd (self_true h) (hx x (List.mem_cons_self ..))
          | false =>
            simp only [Bool.false_and, Bool.false_eq_true, if_false]
            exact ih fun y hy => hx y (List.mem_cons_of_mem _ hy)
    apply key
    intro x hx
    exact hi x ((ups_mem p t us hu x).mp (by rw [← hlast]; exact List.mem_append_left _ hx))

/-- It does stop. -/
example : isStrict [(nd "FormalParameters" [brk], [0])] = none :=
  c80_parameters_stop (.inl rfl) (by
    intro m hm h
    have hu := (ups_mem [0] (nd "FormalParameters" [brk]) _ rfl m).mpr hm
    have h1 : selfStrict (nd "FormalParameters" [brk]) = some false := by decide +kernel
    have h2 : selfStrict brk = some false := by decide +kernel
    simp at hu
    rcases hu with rfl | rfl
    · exact self_false h2 h
    · exact self_false h1 h)

/-- **C80.** A place is nested within a target just if one is around it with no function or static block between; the targets must not be such boundaries, nor the place's own
node a target. -/
theorem c80_nested {targets : List String} {t : PTree} {p : List Nat} {outer : List PTree} {n : PTree} (hw : Way t p (outer ++ [n])) :
    (∃ b, nested targets t p = some b ∧ (b = true ↔ Within targets t p)) ↔
      (∀ s ∈ targets, ¬ Boundary (.mk (some s) [] [])) ∧ (∀ s ∈ targets, n.sym ≠ some s) := by
  have hu : ups t p = some (outer ++ [n]).reverse := (ups_way p t _).mpr (by rw [List.reverse_reverse]; exact hw)
  have e : (outer ++ [n]).reverse = n :: outer.reverse := by simp
  rw [e] at hu
  have hb : (targets.any fun s => (functions ++ ["ClassStaticBlock"]).contains s) = true ↔ ¬ ∀ s ∈ targets, ¬ Boundary (.mk (some s) [] []) := by
    rw [List.any_eq_true]
    constructor
    · rintro ⟨s, h1, h2⟩ h
      exact h s h1 (boundary_iff.mp h2)
    · intro h
      simp only [Classical.not_forall, Classical.not_not] at h
      obtain ⟨s, h1, h2⟩ := h
      exact ⟨s, h1, boundary_iff.mpr h2⟩
  have hn : among targets n.sym = true ↔ ¬ ∀ s ∈ targets, n.sym ≠ some s := by
    rw [target_iff]
    constructor
    · rintro ⟨s, h1, h2⟩ h
      exact h s h2 h1
    · intro h
      simp only [Classical.not_forall, ne_eq, Classical.not_not] at h
      obtain ⟨s, h1, h2⟩ := h
      exact ⟨s, h2, h1⟩
  rw [nested, hu]
  simp only
  by_cases h1 : (targets.any fun s => (functions ++ ["ClassStaticBlock"]).contains s) = true
  · rw [if_pos h1]
    exact iff_of_false (by simp) fun h => (hb.mp h1) h.1
  · rw [if_neg h1]
    by_cases h2 : among targets n.sym = true
    · rw [if_pos h2]
      exact iff_of_false (by simp) fun h => (hn.mp h2) h.2
    · rw [if_neg h2]
      refine iff_of_true ⟨_, rfl, ?_⟩ ⟨Classical.not_not.mp fun h => h1 (hb.mpr h), Classical.not_not.mp fun h => h2 (hn.mpr h)⟩
      rw [nestedIn_iff]
      constructor
      · rintro ⟨between, a, w, s, he, ha, hs, hbt⟩
        refine ⟨w.reverse, a, between.reverse, n, s, ?_, ha, hs, by simpa using hbt⟩
        have := congrArg List.reverse he
        simp only [List.reverse_reverse, List.reverse_append, List.reverse_cons, List.append_assoc, List.cons_append, List.nil_append] at this
        rw [this] at hw
        simpa using hw
      · rintro ⟨w, a, between, n', s, hw', ha, hs, hbt⟩
        have hu' : ups t p = some (w ++ a :: between ++ [n']).reverse := (ups_way p t _).mpr (by rw [List.reverse_reverse]; exact hw')
        rw [hu] at hu'
        simp only [List.reverse_append, List.reverse_cons, List.reverse_nil, List.nil_append, List.cons_append, Option.some.injEq, List.cons.injEq] at hu'
        exact ⟨between.reverse, a, w.reverse, s, by rw [hu'.2]; simp, ha, hs, by simpa using hbt⟩

/-- In a loop; in a function in a loop; asked of the loop itself. -/
example : nested ["IterationStatement", "SwitchStatement"] (loop brk) [0, 1, 0, 0] = some true ∧
    nested ["IterationStatement"] (loop (fn "FunctionExpression" (nd "FunctionBody" [brk]))) [0, 1, 5, 0, 0, 0] = some false ∧
    nested ["IterationStatement"] (loop brk) [0] = none ∧ nested ["ArrowFunction"] (loop brk) [0, 1] = none := by decide +kernel

/-- **C80.** "The … containing" a place is the only one of its kind around it, if there is just one. -/
theorem c80_containing {s : String} {t : PTree} {p : List Nat} {a : PTree} :
    containing s t p = some a ↔ ∃ pre post n, Way t p (pre ++ a :: post ++ [n]) ∧ a.sym = some s ∧ ∀ x ∈ pre ++ post, x.sym ≠ some s := by
  rw [containing]
  constructor
  · intro h
    split at h
    · next n anc hu =>
      split at h
      · next a' hf =>
        cases h
        have hfl := List.filter_eq_cons_iff.mp hf
        obtain ⟨l1, l2, he, h1, h2, h3⟩ := hfl
        subst he
        refine ⟨l2.reverse, l1.reverse, n, ?_, by simpa using h2, ?_⟩
        · have := (ups_way p t _).mp hu
          simpa using this
        · intro x hx
          rcases List.mem_append.mp hx with hx | hx
          · have := (List.filter_eq_nil_iff.mp h3) x (by simpa using hx)
            simpa using this
          · have := h1 x (by simpa using hx)
            simpa using this
      · cases h
    · cases h
  · rintro ⟨pre, post, n, hw, ha, hx⟩
    have hu : ups t p = some (pre ++ a :: post ++ [n]).reverse := (ups_way p t _).mpr (by rw [List.reverse_reverse]; exact hw)
    have e : (pre ++ a :: post ++ [n]).reverse = n :: (post.reverse ++ a :: pre.reverse) := by simp
    rw [e] at hu
    rw [hu]
    have hf : (post.reverse ++ a :: pre.reverse).filter (fun a => decide (a.sym = some s)) = [a] := by
      rw [List.filter_append, List.filter_cons, if_pos (by simp [ha])]
      rw [List.filter_eq_nil_iff.mpr, List.filter_eq_nil_iff.mpr]
      · rfl
      · intro x hx'
        simpa using hx x (List.mem_append_left _ (by simpa using hx'))
      · intro x hx'
        simpa using hx x (List.mem_append_right _ (by simpa using hx'))
    simp only [hf]

/-- One, and none. -/
example : (containing "IterationStatement" (loop brk) [0, 1, 0]).isSome = true ∧ (containing "IterationStatement" (loop (loop brk)) [0, 1, 0, 1]).isSome = false := by
  decide +kernel

/-- **C80.** The goal symbol is that of the outermost tree. -/
theorem c80_goal {nt : String} {l : Loc} {t : PTree} {p : List Nat} (hn : nt = "Script" ∨ nt = "Module") (ht : ∀ tp ∈ l ++ [(t, p)], There tp.1 tp.2) :
    goalIs nt (l ++ [(t, p)]) = if t.sym = some "Script" ∨ t.sym = some "Module" then some (decide (t.sym = some nt)) else none := by
  have key : ∀ (l : Loc) (c : List (PTree × Bool)), chain (l ++ [(t, p)]) = some c → c.getLast? = some (t, true) := by
    intro l
    induction l with
    | nil =>
      intro c h
      simp only [List.nil_append, chain, bind, Option.bind_eq_some_iff, pure, Option.some.injEq] at h
      obtain ⟨us, hu, more, rfl, rfl⟩ := h
      simp
    | cons x l ih =>
      intro c h
      simp only [List.cons_append, chain, bind, Option.bind_eq_some_iff, pure, Option.some.injEq] at h
      obtain ⟨us, hu, more, hm, rfl⟩ := h
      rw [List.getLast?_append, ih more hm]
      rfl
  obtain ⟨c, hc⟩ := chain_there _ ht
  rw [goalIs, if_pos hn, hc]
  simp only [key l c hc]

/-- A place in a tree parsed again for a place in a module. -/
example : goalIs "Module" [(nd "ParenthesizedExpression" [brk], [0]), (nd "Module" [brk], [0])] = some true ∧
    goalIs "Script" [(nd "Module" [brk], [0])] = some false ∧ goalIs "Script" [(brk, [])] = none := by decide +kernel

/-- **C80.** The condition on duplicates holds just if the name occurs twice in the list and two of the definitions in the literal have the name and the form. -/
theorem c80_duplicates {V : Type} [DecidableEq V] {propName : PTree → Option V} {form : PTree → Bool} {names : List V} {v : V} {pdl : PTree} {ds : List PTree}
    {b : Bool} (hd : Definitions pdl ds) (h : duplicates propName form names v pdl = some b) :
    b = true ↔ Two (· = v) names ∧ Two (fun d => propName d = some v ∧ form d = true) ds := by
  have hnames : 2 ≤ names.count v ↔ Two (· = v) names := by
    rw [List.count, countP_two]
    simp [Two]
  have hds : 2 ≤ ds.countP (fun d => decide (propName d = some v) && form d) ↔ Two (fun d => propName d = some v ∧ form d = true) ds := by
    rw [countP_two]
    simp [Two]
  rw [duplicates] at h
  rw [← hnames, ← hds]
  split at h
  · next hc =>
    cases h
    exact iff_of_false (by simp) fun h => by omega
  · next hc =>
    rw [(definitions_sound pdl ds).mpr hd] at h
    simp only [bind, Option.bind_some, Option.bind_eq_some_iff, pure, Option.some.injEq] at h
    obtain ⟨n, hn, rfl⟩ := h
    have := count_fold ds 0 n hn
    rw [Nat.zero_add] at this
    rw [decide_eq_true_iff, this]
    exact ⟨fun h => ⟨by omega, h⟩, fun h => h.2⟩

/-- `{__proto__: 1, __proto__: 2}` and `{__proto__: 1, __proto__() {}}`, where the second child tells the form. -/
example :
    let colon := nd "PropertyDefinition" [tm "p", tm ":"]
    let method := nd "PropertyDefinition" [nd "MethodDefinition" []]
    let name : PTree → Option Nat := fun _ => some 7
    let form : PTree → Bool := fun d => d.kids.length == 2
    duplicates name form [7, 7] 7 (nd "PropertyDefinitionList" [nd "PropertyDefinitionList" [colon], tm ",", colon]) = some true ∧
    duplicates name form [7, 7] 7 (nd "PropertyDefinitionList" [nd "PropertyDefinitionList" [colon], tm ",", method]) = some false := by decide +kernel

end Verif.Strict
