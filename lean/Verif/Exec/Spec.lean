import Verif.Exec.Model
/-!
# Specification of the interpreter

First: which variables a history of calls leaves visible, and with which values, read off the history itself.
Second: a reference interpreter in direct style.  It has no contours, no stack of frames and no "returning" flag: a store maps variables to
values, local variables are forgotten by restricting the store, and a `Return` is a result.
-/
namespace Verif.Exec

section
variable {V : Type}

/-! ### Histories -/

def isStart : Op V → Bool
  | .start => true
  | _ => false

def isStop : Op V → Bool
  | .stop => true
  | _ => false

/-- No contour that was open at the start of this part of a history is closed in it. -/
def Inside (os : List (Op V)) : Prop := ∀ p, p <+: os → p.countP isStop ≤ p.countP isStart

/-- `x` is visible after the history: it has been let, and the contour it was let in has not been closed since. -/
def Visible (os : List (Op V)) (x : String) : Prop := ∃ pre v post, os = pre ++ .let x v :: post ∧ Inside post

/-- The value that the history has last given to `x`, by a `Let` or by a `Set`. -/
def latest (os : List (Op V)) (x : String) : Option V :=
  os.foldl (fun r o => match o with
    | .let y v => if y = x then some v else r
    | .set y v => if y = x then some v else r
    | _ => r) none

/-- The number of open contours. -/
def depth (os : List (Op V)) : Int := 1 + os.countP isStart - os.countP isStop

/-- Whether a call is in order after a history. -/
def InOrder (os : List (Op V)) : Op V → Prop
  | .start => True
  | .stop => 0 < depth os
  | .let x _ => ¬ Visible os x ∧ 0 < depth os
  | .set x _ => Visible os x
  | .get x => Visible os x

/-- What a call returns after a history. -/
def answer (os : List (Op V)) : Op V → Option V
  | .get x => latest os x
  | _ => none

end

/-! ### The reference interpreter -/

abbrev Store (V : Type) := String → Option V

/-- A result: a value, a missing thing, or a failure.  For a missing thing, `dirty` says that it turned up inside the scope of a local variable. -/
inductive Res (α : Type) where
  | val (a : α)
  | missing (dirty : Bool)
  | fail

/-- How a command ends. -/
inductive End (V : Type) where
  | next (σ : Store V)
  | returned (σ : Store V) (v : V)
  | missing
  | fail

def Res.andThen {α β} : Res α → (α → Res β) → Res β
  | .val a, f => f a
  | .missing d, _ => .missing d
  | .fail, _ => .fail

/-- Inside the scope of a local variable. -/
def Res.scoped {α} : Res α → Res α
  | .missing _ => .missing true
  | r => r

def Prim.res {α} : Prim α → Res α
  | .val a => .val a
  | .missing => .missing false
  | .fail => .fail

section
variable {V : Type}

def bindVar (σ : Store V) (x : String) (v : V) : Store V := fun y => if y = x then some v else σ y

/-- The new values of the old variables. -/
def restrict (σ τ : Store V) : Store V := fun y => if (σ y).isSome then τ y else none

/-- A new variable: there is no shadowing. -/
def declare (σ : Store V) (x : String) (v : V) : Option (Store V) := if (σ x).isSome then none else some (bindVar σ x v)

def assign (σ : Store V) (x : String) (v : V) : Option (Store V) := if (σ x).isSome then some (bindVar σ x v) else none

end

section
variable {V X C O : Type} (L : Lang V X C O) (call : O → List V → Res V) (foc : Option V)

mutual
def refE (σ : Store V) : Expr X C O → Res V
  | .var x => match σ x with
    | some v => .val v
    | none => .fail
  | .prim p args => (refArgs σ args).andThen (fun vs => (L.prim p foc vs).res)
  | .call o args => (refArgs σ args).andThen (call o)
  | .where_ a x b => (refE σ b).andThen (fun v => match declare σ x v with
    | some τ => (refE τ a).scoped
    | none => .fail)
  | .otherwise a c b => (refC σ c).andThen (fun t => if t then refE σ a else refE σ b)
def refArgs (σ : Store V) : List (Expr X C O) → Res (List V)
  | [] => .val []
  | e :: es => (refE σ e).andThen (fun v => (refArgs σ es).andThen (fun vs => .val (v :: vs)))
def refC (σ : Store V) : Cond X C O → Res Bool
  | .prim p args => (refArgs σ args).andThen (fun vs => (L.test p foc vs).res)
  | .or cs => refOr σ cs
  | .and cs => refAnd σ cs
  | .unless a b => (refC σ a).andThen (fun t => if t then (refC σ b).andThen (fun u => .val (!u)) else .val false)
def refOr (σ : Store V) : List (Cond X C O) → Res Bool
  | [] => .val false
  | c :: cs => (refC σ c).andThen (fun t => if t then .val true else refOr σ cs)
def refAnd (σ : Store V) : List (Cond X C O) → Res Bool
  | [] => .val true
  | c :: cs => (refC σ c).andThen (fun t => if t then refAnd σ cs else .val false)
end

/-- Go on with the value of an expression. -/
def Res.use {α} : Res α → (α → End V) → End V
  | .val a, f => f a
  | .missing _, _ => .missing
  | .fail, _ => .fail

def goOn : Option (Store V) → End V
  | some σ => .next σ
  | none => .fail

/-- The body of a loop, for each of the values: its local variables are forgotten each time. -/
def refEach (x : String) (body : Store V → End V) : Store V → List V → End V
  | σ, [] => .next σ
  | σ, v :: vs => match declare σ x v with
    | none => .fail
    | some τ => match body τ with
      | .next τ' => refEach x body (restrict σ τ') vs
      | .returned τ' r => .returned (restrict σ τ') r
      | .missing => .missing
      | .fail => .fail

mutual
def refCmd (σ : Store V) : Cmd X C O → End V
  | .let x e => (refE L call foc σ e).use (fun v => goOn (declare σ x v))
  | .set x e => (refE L call foc σ e).use (fun v => goOn (assign σ x v))
  | .ret e => (refE L call foc σ e).use (fun v => .returned σ v)
  | .assert c => (refC L call foc σ c).use (fun t => if t then .next σ else .fail)
  | .seq a b => match refCmd σ a with
    | .next τ => refCmd τ b
    | r => r
  | .ifClosed c a b => (refC L call foc σ c).use (fun t => if t then refCmd σ a else refCmd σ b)
  | .ifOther c a tail => (refC L call foc σ c).use (fun t => if t then refCmd σ a else refTail σ tail)
  | .forEach x e body => (refE L call foc σ e).use (fun v => match L.each v with
    | none => .fail
    | some vs => refEach x (fun τ => refCmd τ body) σ vs)
def refTail (σ : Store V) : Tail X C O → End V
  | .nil => .next σ
  | .else a => refCmd σ a
  | .elseif c a tail => (refC L call foc σ c).use (fun t => if t then refCmd σ a else refTail σ tail)
end

/-- The store with the arguments. -/
def declareAll : Store V → List String → List V → Option (Store V)
  | σ, [], [] => some σ
  | σ, x :: xs, v :: vs => (declare σ x v).bind (fun τ => declareAll τ xs vs)
  | _, _, _ => none

def refDefn (d : Defn V X C O) (vs : List V) : Res V :=
  match declareAll (fun _ => none) d.params vs with
  | none => .fail
  | some σ => match d.body with
    | .expr e => refE L call foc σ e
    | .alg c onMissing => match refCmd L call foc σ c with
      | .returned _ v => .val v
      | .next _ => .fail
      | .missing => match onMissing with
        | some v => .val v
        | none => .fail
      | .fail => .fail

end

section
variable {V X C O : Type} (L : Lang V X C O)

/-- Calls, to a depth of `n`. -/
def refCall : Nat → O → List V → Res V
  | 0, _, _ => .fail
  | n + 1, o, vs => match L.defn o vs with
    | none => .fail
    | some (d, foc, args) => refDefn L (refCall n) foc d args

/-- No operation comes back with a missing thing (only those defined by an expression could). -/
def CallsReturn : Prop := ∀ n o vs d, refCall L n o vs ≠ .missing d

/-- How a rule ends: how many errors it reports, with the store after it; or with a missing thing. -/
inductive Verdict (V : Type) where
  | done (errors : Nat) (σ : Store V)
  | missing (errors : Nat) (dirty : Bool)
  | fail

def Res.verdict {α} : Res α → (α → Verdict V) → Verdict V
  | .val a, f => f a
  | .missing d, _ => .missing 0 d
  | .fail, _ => .fail

def once (t : Bool) (σ : Store V) : Verdict V := .done (if t then 1 else 0) σ

/-- A rule "For each": one error for each value for which the condition holds. -/
def refRuleEach (n : Nat) (foc : Option V) (σ : Store V) (x : String) (c : Cond X C O) : List V → Verdict V
  | [] => .done 0 σ
  | v :: vs => match declare σ x v with
    | none => .fail
    | some τ => match refC L (refCall L n) foc τ c with
      | .val t => match refRuleEach n foc σ x c vs with
        | .done k σ' => .done ((if t then 1 else 0) + k) σ'
        | .missing k d => .missing ((if t then 1 else 0) + k) d
        | .fail => .fail
      | .missing _ => .missing 0 true
      | .fail => .fail

def refRule (n : Nat) (foc : Option V) (σ : Store V) : Rule X C O → Verdict V
  | .errIf c => (refC L (refCall L n) foc σ c).verdict (fun t => once t σ)
  | .errIfIf a b => (refC L (refCall L n) foc σ a).verdict (fun t =>
      if t then (refC L (refCall L n) foc σ b).verdict (fun u => once u σ) else .done 0 σ)
  | .errNotIf a b => (refC L (refCall L n) foc σ b).verdict (fun u =>
      if u then .done 0 σ else (refC L (refCall L n) foc σ a).verdict (fun t => once t σ))
  | .errAlg c a same => (refC L (refCall L n) foc σ c).verdict (fun t =>
      if t then match refCmd L (refCall L n) foc σ a with
        | .returned τ v => match L.test same foc [v] with
          | .val u => once u τ
          | .missing => .missing 0 true
          | .fail => .fail
        | .next _ => .fail
        | .missing => .missing 0 true
        | .fail => .fail
      else .done 0 σ)
  | .errEach x e c => (refE L (refCall L n) foc σ e).verdict (fun v => match L.each v with
    | none => .fail
    | some vs => refRuleEach L n foc σ x c vs)

/-- The rules one after the other: the errors found, each with its rule.  A rule with a missing thing does not find any more errors, and the others go on. `none` is failure, also if a missing thing turned up in
the scope of a local variable. -/
def refRules {R : Type} (n : Nat) (foc : Option V) : Store V → List (R × Rule X C O) → Option (List R)
  | _, [] => some []
  | σ, (r, rule) :: rs => match refRule L n foc σ rule with
    | .done k τ => (refRules n foc τ rs).map (List.replicate k r ++ ·)
    | .missing k false => (refRules n foc σ rs).map (List.replicate k r ++ ·)
    | .missing _ true => none
    | .fail => none

end
end Verif.Exec
