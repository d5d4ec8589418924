import Verif.Exec.History
import Verif.Exec.RuleLemmas
/-!
# C36, C42, C43: variables, calls and early error rules of the interpreter
-/
namespace Verif.Exec

/-! ### C36: variables of a frame -/

section
variable {V : Type}

/-- A history runs without an exception exactly if each of its calls is in order. -/
theorem c36_in_order (foc : Option V) (os : List (Op V)) :
    (∃ r, runOps (newFrame foc) os = some r) ↔ ∀ pre o post, os = pre ++ o :: post → InOrder pre o := by
  suffices h : ∀ n, ∀ os : List (Op V), os.length = n → ((∃ r, runOps (newFrame foc) os = some r) ↔ ∀ pre o post, os = pre ++ o :: post → InOrder pre o) from h _ os rfl
  intro n
  induction n with
  | zero =>
    intro os hn
    rw [List.length_eq_zero_iff.1 hn]
    exact ⟨(fun _ pre o post e => by cases pre <;> cases e), fun _ => ⟨_, rfl⟩⟩
  | succ n ih =>
    intro os hn
    rcases List.eq_nil_or_concat os with e | ⟨os', o, e⟩
    · subst e; cases hn
    · rw [List.concat_eq_append] at e
      subst e
      have hi := ih os' (by simpa using hn)
      constructor
      · rintro ⟨r, hr⟩ pre p post e
        rw [runOps_snoc] at hr
        cases hq : runOps (newFrame foc) os' with
        | none => rw [hq] at hr; cases hr
        | some q =>
          rw [hq] at hr
          obtain ⟨i1, _⟩ := run_ok foc _ os' rfl q.1 q.2 hq
          rcases List.eq_nil_or_concat post with hp | ⟨post', p', hp⟩
          · subst hp
            rw [← List.concat_eq_append, ← List.concat_eq_append] at e
            obtain ⟨e1, e2⟩ := List.concat_inj.1 e
            subst e1 e2
            by_cases ho : InOrder os' o
            · exact ho
            · simp [(step_ok i1 o).2 ho] at hr
          · subst hp
            have e' : os' ++ [o] = (pre ++ p :: post') ++ [p'] := by rw [e]; simp
            rw [← List.concat_eq_append, ← List.concat_eq_append] at e'
            obtain ⟨e1, _⟩ := List.concat_inj.1 e'
            exact hi.1 ⟨q, hq⟩ pre p post' e1
      · intro h
        obtain ⟨q, hq⟩ := hi.2 (fun pre p post e => h pre p (post ++ [o]) (by rw [e]; simp))
        obtain ⟨i1, _⟩ := run_ok foc _ os' rfl q.1 q.2 hq
        obtain ⟨f', s1, _⟩ := (step_ok i1 o).1 (h os' o [] rfl)
        exact ⟨_, by rw [runOps_snoc, hq]; simp [s1]; rfl⟩

/-- Each look-up in a history returns the value last given to the variable. -/
theorem c36_answers (foc : Option V) (os : List (Op V)) {f rs} (h : runOps (newFrame foc) os = some (f, rs)) :
    rs.length = os.length ∧ ∀ pre o post, os = pre ++ o :: post → rs[pre.length]? = some (answer pre o) :=
  (run_ok foc _ os rfl f rs h).2

/-- At the end of a history, a variable has a value exactly if it has been let and the contour it was let in is still open, and then the
value is the last one given to it. No variable is in two contours. -/
theorem c36_final (foc : Option V) (os : List (Op V)) {f rs} (h : runOps (newFrame foc) os = some (f, rs)) :
    (∀ x v, getVar f x = some v ↔ Visible os x ∧ latest os x = some v) ∧
    (∀ (x : String) (i j : Nat) (c d : Contour V), f.contours[i]? = some c → f.contours[j]? = some d → c.has x = true → d.has x = true → i = j) := by
  obtain ⟨i, _⟩ := run_ok foc _ os rfl f rs h
  constructor
  · intro x v
    constructor
    · intro hv
      exact ⟨(i.visible x).1 (by rw [hv]; rfl), i.val x v hv⟩
    · rintro ⟨h1, h2⟩
      have := (i.visible x).2 h1
      cases hg : getVar f x with
      | none => rw [hg] at this; cases this
      | some u => rw [← i.val x u hg, h2]
  · have key : ∀ (cs : List (Contour V)), Uniq cs → ∀ (x : String) (i j : Nat) (c d : Contour V), i < j → cs[i]? = some c → cs[j]? = some d → c.has x = true → d.has x = true → False := by
      intro cs hu x i j c d hij hi hj hc hd
      induction cs generalizing i j with
      | nil => simp at hi
      | cons a cs ih =>
        cases i with
        | zero =>
          cases j with
          | zero => omega
          | succ j =>
            simp at hi hj
            subst hi
            have h1 := hu.head (x := x) ((getIn_isSome_at _ _).2 ⟨j, d, hj, hd⟩)
            rw [has_iff, h1] at hc
            cases hc
        | succ i =>
          cases j with
          | zero => omega
          | succ j => exact ih hu.tail i j (by omega) (by simpa using hi) (by simpa using hj)
    intro x a b c d ha hb hc hd
    rcases Nat.lt_trichotomy a b with hl | hl | hl
    · exact (key _ i.uniq x a b c d hl ha hb hc hd).elim
    · exact hl
    · exact (key _ i.uniq x b a d c hl hb ha hd hc).elim

/-- After a block, the same variables are visible as before it. -/
theorem c36_block (os body : List (Op V)) (hb : Inside body) (he : body.countP isStart = body.countP isStop) (x : String) :
    Visible (os ++ .start :: body ++ [.stop]) x ↔ Visible os x := by
  constructor
  · rintro ⟨pre, v, post, e, h⟩
    have hpost := h post (List.prefix_refl _)
    have e2 : pre ++ .let x v :: post = os ++ (.start :: body ++ [.stop]) := by rw [← e]; simp
    rcases List.append_eq_append_iff.1 e2 with ⟨as, h1, h2⟩ | ⟨bs, h1, h2⟩
    · cases as with
      | nil => simp at h2
      | cons a as =>
        simp only [List.cons_append, List.cons.injEq] at h2
        obtain ⟨h2, h3⟩ := h2
        subst h2
        refine ⟨pre, v, as, h1, fun p hp => h p (hp.trans ?_)⟩
        rw [h3]
        exact List.prefix_append _ _
    · cases bs with
      | nil => simp at h2
      | cons b bs =>
        simp only [List.cons_append, List.cons.injEq] at h2
        obtain ⟨h2, h3⟩ := h2
        rcases List.append_eq_append_iff.1 h3 with ⟨as, h4, h5⟩ | ⟨cs, h4, h5⟩
        · cases as with
          | nil => simp at h5
          | cons a as =>
            simp only [List.cons_append, List.cons.injEq] at h5
            obtain ⟨h5, h6⟩ := h5
            cases as <;> simp at h6
        · cases cs with
          | nil => simp at h5
          | cons c cs =>
            simp only [List.cons_append, List.cons.injEq] at h5
            obtain ⟨h5, h6⟩ := h5
            subst h5
            have h7 := hb bs (by rw [h4]; exact List.prefix_append _ _)
            rw [h4] at he
            rw [h6] at hpost
            simp [List.countP_append, isStart, isStop] at he hpost
            omega
  · rintro ⟨pre, v, post, e, h⟩
    refine ⟨pre, v, post ++ (.start :: body ++ [.stop]), by rw [e]; simp, ?_⟩
    have h1 : Inside (post ++ [.start]) := (inside_snoc _ _).2 ⟨h, by
      have := h post (List.prefix_refl _)
      simp [List.countP_append, isStart, isStop]
      omega⟩
    have hp := h post (List.prefix_refl _)
    have h2 : Inside ((post ++ [.start]) ++ body) := by
      intro p hq
      obtain ⟨w, hw⟩ := hq
      rcases List.append_eq_append_iff.1 hw with ⟨t, ht, _⟩ | ⟨t, ht, hq⟩
      · exact h1 p ⟨t, ht.symm⟩
      · subst ht
        have := hb t ⟨w, hq.symm⟩
        simp only [List.countP_append, List.countP_cons, List.countP_nil, isStart, isStop] at this ⊢
        simp
        omega
    have h3 : Inside (((post ++ [.start]) ++ body) ++ [.stop]) := (inside_snoc _ _).2 ⟨h2, by
      simp only [List.countP_append, List.countP_cons, List.countP_nil, isStart, isStop]
      simp
      omega⟩
    have e : post ++ (.start :: body ++ [.stop]) = ((post ++ [.start]) ++ body) ++ [.stop] := by simp
    rw [e]
    exact h3

end

/-- A history: `x` is set inside a block, `y` disappears with it and may then be let again. -/
def exOps : List (Op Nat) := [.let "x" 1, .start, .let "y" 2, .set "x" 3, .get "y", .stop, .get "x", .let "y" 4, .get "y"]

example : (runOps (newFrame none) exOps).map (·.2) = some [none, none, none, none, some 2, none, some 3, none, some 4] := by decide +kernel
/-- A variable cannot be let again in an inner contour, nor looked up after its contour is closed. -/
example : (runOps (newFrame none) ([.let "x" 1, .start, .let "x" 2] : List (Op Nat))).isNone = true ∧
    (runOps (newFrame none) ([.start, .let "x" 1, .stop, .get "x"] : List (Op Nat))).isNone = true := by decide +kernel
example : Inside ([.start, .let "z" 1, .stop] : List (Op Nat)) := by
  have h : Inside ((([] ++ [.start]) ++ [.let "z" 1]) ++ [.stop] : List (Op Nat)) :=
    (inside_snoc _ _).2 ⟨(inside_snoc _ _).2 ⟨(inside_snoc _ _).2 ⟨inside_nil, by decide⟩, by decide⟩, by decide⟩
  exact h

/-! ### C42: calls -/

section
variable {V X C O R : Type} {L : Lang V X C O}

/-- A call does what the reference interpreter says, and leaves the frames on the stack and the list of errors as they were. -/
theorem c42_call (hr : CallsReturn L) (n : Nat) (o : O) (vs : List V) (s : St V R) (f : Frame V) (stk : List (Frame V)) (hs : s.stack = f :: stk) :
    callN L n o vs s = (match refCall L n o vs with
      | .val v => .ok v s
      | .missing _ => .missing s
      | .fail => .fail) := by
  obtain ⟨stack, errs⟩ := s
  have hs' : stack = f :: stk := hs
  subst hs'
  have h := (call_ok (R := R) hr n).agree o vs f stk errs
  have hm := hr n o vs
  generalize refCall L n o vs = r at h hm
  cases r with
  | val v => exact h
  | missing d => exact absurd rfl (hm d)
  | fail => exact h

/-- Operations defined by algorithms do not come back with a missing thing. -/
theorem c42_algorithms (h : ∀ o vs d foc args, L.defn o vs = some (d, foc, args) → ∃ c m, d.body = .alg c m) : CallsReturn L := by
  intro n o vs b hb
  cases n with
  | zero => cases hb
  | succ n =>
    rw [refCall] at hb
    cases hd : L.defn o vs with
    | none => rw [hd] at hb; cases hb
    | some p =>
      obtain ⟨d, foc, args⟩ := p
      obtain ⟨c, m, hc⟩ := h o vs d foc args hd
      rw [hd] at hb
      simp only [refDefn, hc] at hb
      cases h1 : declareAll (fun _ => none) d.params args with
      | none => rw [h1] at hb; cases hb
      | some σ =>
        simp only [h1] at hb
        cases h2 : refCmd L (refCall L n) foc σ c with
        | next τ => rw [h2] at hb; cases hb
        | returned τ v => rw [h2] at hb; cases hb
        | missing =>
          rw [h2] at hb
          cases m <;> cases hb
        | fail => rw [h2] at hb; cases hb

end

/-- Primitives of an example: constants, addition, and a reference to something that is not there. -/
inductive ExPrim where
  | const (n : Nat)
  | add
  | gone

def exPrim : ExPrim → Option Nat → List Nat → Prim Nat
  | .const n, _, [] => .val n
  | .add, _, [a, b] => .val (a + b)
  | .gone, _, [] => .missing
  | _, _, _ => .fail

inductive ExTest where
  | eq
  | gone

def exTest : ExTest → Option Nat → List Nat → Prim Bool
  | .eq, _, [a, b] => .val (a == b)
  | .eq, _, [a] => .val (a == 1)
  | .gone, _, [] => .missing
  | _, _, _ => .fail

abbrev ExExpr := Expr ExPrim ExTest String
abbrev ExCmd := Cmd ExPrim ExTest String

def exK (n : Nat) : ExExpr := .prim (.const n) []
def exEq (a b : ExExpr) : Cond ExPrim ExTest String := .prim .eq [a, b]

/-- sum(n): Let acc be 0. For each i < n: Let t be acc + i. Set acc to t. Return acc. -/
def exSum : ExCmd :=
  .seq (.let "acc" (exK 0)) (.seq (.forEach "i" (.var "n") (.seq (.let "t" (.prim .add [.var "acc", .var "i"])) (.set "acc" (.var "t")))) (.ret (.var "acc")))

/-- first(n): For each i < n: If i = 2, return i + sum(n). Return 9. -/
def exFirst : ExCmd :=
  .seq (.forEach "i" (.var "n") (.ifOther (exEq (.var "i") (exK 2)) (.ret (.where_ (.prim .add [.var "i", .var "s"]) "s" (.call "sum" [.var "n"]))) .nil)) (.ret (exK 9))

def exDefn : String → List Nat → Option (Defn Nat ExPrim ExTest String × Option Nat × List Nat)
  | "sum", vs => some (⟨["n"], .alg exSum none⟩, none, vs)
  | "first", vs => some (⟨["n"], .alg exFirst none⟩, none, vs)
  | "safe", vs => some (⟨[], .alg (.ret (.prim .gone [])) (some 7)⟩, none, vs)
  | _, _ => none

def exLang : Lang Nat ExPrim ExTest String := { prim := exPrim, test := exTest, each := fun n => some (List.range n), defn := exDefn }

theorem exLang_returns : CallsReturn exLang := by
  refine c42_algorithms (fun o vs d foc args h => ?_)
  simp only [exLang] at h
  unfold exDefn at h
  split at h <;> simp at h <;> obtain ⟨h, _⟩ := h <;> subst h <;> exact ⟨_, _, rfl⟩

/-- The results of a call, for examples. -/
def value {S : Type} : Out S Nat → Option Nat
  | .ok v _ => some v
  | _ => none

def exSt : St Nat String := { stack := [newFrame none], errs := [] }

example : value (callN exLang 2 "sum" [5] exSt) = some 10 ∧ value (callN exLang 3 "first" [4] exSt) = some 8 ∧
    value (callN exLang 3 "first" [2] exSt) = some 9 ∧ value (callN exLang 1 "safe" [] exSt) = some 7 := by decide +kernel

/-- The same with an operation that is defined by an expression. -/
def leakLang : Lang Nat ExPrim ExTest String := { exLang with defn := fun o vs => match o with
  | "gone" => some (⟨[], .expr (.prim .gone [])⟩, none, vs)
  | "catch" => some (⟨[], .alg (.ret (.call "gone" [])) (some 7)⟩, none, vs)
  | _ => none }

/-- Without that hypothesis the claim is false: a missing thing in an operation that is defined by an expression leaves its frame on the stack, and the algorithm that
would stand in a value for it fails. -/
theorem c42_leak_witness :
    refCall leakLang 2 "catch" [] = .val 7 ∧ callN leakLang 2 "catch" [] exSt = (.fail : Out (St Nat String) Nat) ∧ ¬ CallsReturn leakLang :=
  ⟨rfl, rfl, fun h => h 1 "gone" [] false rfl⟩

/-! ### C43: early error rules -/

section
variable {V X C O R : Type} {L : Lang V X C O}

/-- The rules add to the list, in order, one error for each time a rule's condition holds, with the node they are applied to. -/
theorem c43_rules (hr : CallsReturn L) (n : Nat) (rs : List (R × Rule X C O)) (pnode : V) (s : St V R) (es : List R)
    (h : refRules L n (some pnode) (fun _ => none) rs = some es) :
    applyRules L n rs pnode s = .ok () { s with errs := s.errs ++ es.map (fun r => (some pnode, r)) } := by
  have h1 := (ready_new (some pnode)).1
  have h2 := (ready_new (some pnode)).2
  obtain ⟨f', hf⟩ := rules_ok (R := R) hr n rs (newFrame (some pnode)) s.stack s.errs es h1 (by rw [h2]; exact h)
  simp only [applyRules, withFrame]
  rw [hf]
  simp [newFrame]

def Rule.isAlg : Rule X C O → Bool
  | .errAlg _ _ _ => true
  | _ => false

theorem once_store {t : Bool} {σ τ : Store V} {k} (h : once t σ = .done k τ) : τ = σ := by
  injection h with _ h
  exact h.symm

theorem refRuleEach_store (n : Nat) (foc : Option V) (σ : Store V) (x : String) (c : Cond X C O) : ∀ vs k τ, refRuleEach L n foc σ x c vs = .done k τ → τ = σ
  | [], k, τ, h => by
    rw [refRuleEach] at h
    injection h with _ h
    exact h.symm
  | v :: vs, k, τ, h => by
    rw [refRuleEach] at h
    cases hd : declare σ x v with
    | none => rw [hd] at h; cases h
    | some ρ =>
      simp only [hd] at h
      cases hc : refC L (refCall L n) foc ρ c with
      | val t =>
        simp only [hc] at h
        cases hw : refRuleEach L n foc σ x c vs with
        | done j τ' =>
          rw [hw] at h
          injection h with _ h
          subst h
          exact refRuleEach_store n foc σ x c vs j τ' hw
        | missing j d => rw [hw] at h; cases h
        | fail => rw [hw] at h; cases h
      | missing d => rw [hc] at h; cases h
      | fail => rw [hc] at h; cases h

theorem refRule_store (n : Nat) (foc : Option V) (σ : Store V) (rule : Rule X C O) (ha : rule.isAlg = false) {k τ} (h : refRule L n foc σ rule = .done k τ) : τ = σ := by
  have key : ∀ {α} (a : Res α) (g : α → Verdict V), a.verdict g = .done k τ → ∃ b, g b = .done k τ := by
    intro α a g hg
    cases a with
    | val b => exact ⟨b, hg⟩
    | missing d => cases hg
    | fail => cases hg
  cases rule with
  | errIf c =>
    obtain ⟨t, h⟩ := key _ _ h
    exact once_store h
  | errIfIf a b =>
    obtain ⟨t, h⟩ := key _ _ h
    cases t with
    | true => obtain ⟨u, h⟩ := key _ _ h; exact once_store h
    | false => injection h with _ h; exact h.symm
  | errNotIf a b =>
    obtain ⟨t, h⟩ := key _ _ h
    cases t with
    | false => obtain ⟨u, h⟩ := key _ _ h; exact once_store h
    | true => injection h with _ h; exact h.symm
  | errAlg => cases ha
  | errEach x e c =>
    obtain ⟨v, h⟩ := key _ _ h
    cases hv : L.each v with
    | none => simp [hv] at h
    | some vs => simp only [hv] at h; exact refRuleEach_store n foc σ x c vs k τ h

/-- Rules other than those with an algorithm do not affect each other: the errors are those that each rule gives alone. -/
theorem c43_independent (hr : CallsReturn L) (n : Nat) (rs : List (R × Rule X C O)) (pnode : V) (s : St V R) (es : R × Rule X C O → List R)
    (ha : ∀ p ∈ rs, p.2.isAlg = false) (h : ∀ p ∈ rs, refRules L n (some pnode) (fun _ => none) [p] = some (es p)) :
    applyRules L n rs pnode s = .ok () { s with errs := s.errs ++ (rs.flatMap es).map (fun r => (some pnode, r)) } := by
  refine c43_rules hr n rs pnode s _ ?_
  induction rs with
  | nil => rfl
  | cons p rs ih =>
    obtain ⟨r, rule⟩ := p
    have h1 := h (r, rule) List.mem_cons_self
    have h2 := ih (fun q hq => ha q (List.mem_cons_of_mem _ hq)) (fun q hq => h q (List.mem_cons_of_mem _ hq))
    simp only [refRules] at h1 ⊢
    cases hv : refRule L n (some pnode) (fun _ => none) rule with
    | done k τ =>
      rw [hv] at h1
      rw [refRule_store n _ _ rule (ha (r, rule) List.mem_cons_self) hv]
      simp only [Option.map_some, Option.some.injEq] at h1
      simp [h2, ← h1]
    | missing k d =>
      cases d with
      | true => simp [hv] at h1
      | false =>
        rw [hv] at h1
        simp only [Option.map_some, Option.some.injEq] at h1
        simp [h2, ← h1]
    | fail => simp [hv] at h1

end

abbrev ExRule := Rule ExPrim ExTest String

/-- How applying rules ends, for examples. -/
def errors {R S : Type} (g : S → List R) : Out S Unit → Option (List R)
  | .ok _ s => some (g s)
  | _ => none

/-- A rule that holds, one about a missing thing, and one that holds for two of the values 0, 1, 2. -/
def exRules : List (String × ExRule) :=
  [("a", .errIf (exEq (exK 1) (exK 1))), ("b", .errIf (.prim .gone [])), ("c", .errEach "x" (exK 3) (.unless (exEq (exK 1) (exK 1)) (exEq (.var "x") (exK 1))))]

example : refRules exLang 1 (some 5) (fun _ => none) exRules = some ["a", "c", "c"] ∧
    errors (fun s => s.errs) (applyRules exLang 1 exRules 5 exSt) = some [(some 5, "a"), (some 5, "c"), (some 5, "c")] ∧
    (∀ p ∈ exRules, p.2.isAlg = false) := by decide +kernel

/-- Rules are not independent if a missing thing turns up in the scope of a variable: its contour stays open, and the next rule for the same variable fails. -/
theorem c43_scope_witness :
    errors (fun s => s.errs) (applyRules exLang 1 [("a", .errEach "x" (exK 1) (.prim .gone []))] 5 exSt) = some [] ∧
    errors (fun s => s.errs) (applyRules exLang 1 [("b", .errEach "x" (exK 1) (exEq (exK 1) (exK 1)))] 5 exSt) = some [(some 5, "b")] ∧
    errors (fun s => s.errs) (applyRules exLang 1 [("a", .errEach "x" (exK 1) (.prim .gone [])), ("b", .errEach "x" (exK 1) (exEq (exK 1) (exK 1)))] 5 exSt) = none := by
  decide +kernel

/-- Nor after a rule with an algorithm: its variables are there for the rules that follow. -/
theorem c43_algorithm_witness :
    errors (fun s => s.errs) (applyRules exLang 1 [("b", .errIf (exEq (.var "y") (exK 1)))] 5 exSt) = none ∧
    errors (fun s => s.errs) (applyRules exLang 1 [("a", .errAlg (exEq (exK 1) (exK 1)) (.seq (.let "y" (exK 1)) (.ret (exK 0))) .eq), ("b", .errIf (exEq (.var "y") (exK 1)))] 5 exSt) = some [(some 5, "b")] := by
  decide +kernel

end Verif.Exec
