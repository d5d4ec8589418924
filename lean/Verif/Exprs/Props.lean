import Verif.Exprs.Spec
/-!
# C101: the type of an expression
-/
namespace Verif.Exprs

variable {T E M : Type} [DecidableEq T]

theorem allowed_iff (x : Expr) : allowed x = true ↔ Tested x := by
  unfold allowed
  rw [Bool.or_eq_true, Bool.and_eq_true, Bool.and_eq_true, decide_eq_true_iff, decide_eq_true_iff, List.contains_iff_mem, List.contains_iff_mem]
  constructor
  · rintro (⟨h1, h2⟩ | ⟨h1, h2⟩)
    · rcases List.mem_cons.1 h2 with h2 | h2
      · exact .present h1 h2
      · exact .absent h1 (List.mem_singleton.1 h2)
    · rcases List.mem_cons.1 h2 with h2 | h2
      · exact .setSmall h1 h2
      · exact .set h1 (List.mem_singleton.1 h2)
  · rintro (⟨h1, h2⟩ | ⟨h1, h2⟩ | ⟨h1, h2⟩ | ⟨h1, h2⟩)
    · exact .inl ⟨h1, by rw [h2]; exact .head _⟩
    · exact .inl ⟨h1, by rw [h2]; exact .tail _ (.head _)⟩
    · exact .inr ⟨h1, by rw [h2]; exact .head _⟩
    · exact .inr ⟨h1, by rw [h2]; exact .tail _ (.head _)⟩

/-- **C101.**  If the environment has a type for the text of the expression, this is the type, and nothing else is found out; the only message that there can be is that the value is perhaps not passed. -/
theorem c101_known {w : World T E M} {x : Expr} {env0 : E} {t : T} (h : w.vars env0 x.text = some t) :
    ∃ ms, tcExpr w x env0 = some ((t, env0), ms) ∧ (ms = [] ∨ ms = [.maybeNotPassed]) := by
  unfold tcExpr
  rw [h]
  refine ⟨_, rfl, ?_⟩
  unfold passing
  split
  · split
    · exact .inl rfl
    · exact .inr rfl
  · exact .inl rfl

theorem tcExpr_new {w : World T E M} {x : Expr} {env0 e : E} {t : T} {ms : List (Msg M)} (hv : w.vars env0 x.text = none) (h : tcExpr w x env0 = some ((t, e), ms)) :
    ∃ inner m, w.sExpr x env0 = some ((t, e), inner) ∧ mixing w x t = some m ∧ ms = inner.map Msg.inner ++ oddity w t ++ m ++ passing w x t := by
  unfold tcExpr at h
  rw [hv] at h
  obtain ⟨⟨⟨t', e'⟩, inner⟩, h1, h2⟩ := Option.bind_eq_some_iff.1 h
  obtain ⟨m, h3, h4⟩ := Option.map_eq_some_iff.1 h2
  injection h4 with h4 h5
  injection h4 with h6 h7
  dsimp only at h3 h5
  subst h6; subst h7
  exact ⟨inner, m, h1, h3, h5.symm⟩

variable {S V : Type} {mem : T → V → Prop} {holds : E → S → Prop} {value : Expr → S → V → Prop} {np : V} {completion : V → Prop}

/-- **C101.**  If there is no message, the value of the expression belongs to the type, and what is found out about the variables is right. -/
theorem c101_sound {w : World T E M} (R : Right w mem holds value np completion) {x : Expr} {env0 e : E} {t : T} (h : tcExpr w x env0 = some ((t, e), [])) {s : S} (hs : holds env0 s) :
    holds e s ∧ ∀ v, value x s v → mem t v := by
  cases hv : w.vars env0 x.text with
  | some t' =>
    obtain ⟨ms, h1, _⟩ := c101_known (w := w) hv
    rw [h] at h1
    injection h1 with h1
    injection h1 with h1 _
    injection h1 with h1 h2
    subst h1; subst h2
    exact ⟨hs, R.vars hv hs⟩
  | none =>
    obtain ⟨inner, m, h1, h2, h3⟩ := tcExpr_new hv h
    have h3 := h3.symm
    rw [List.append_eq_nil_iff, List.append_eq_nil_iff, List.append_eq_nil_iff, List.map_eq_nil_iff] at h3
    rw [h3.1.1.1] at h1
    exact R.sExpr h1 hs

/-- **C101.**  If there is no message, the expression is not a parameter that is not passed, but where it is tested for being present or is set. -/
theorem c101_passed {w : World T E M} (R : Right w mem holds value np completion) {x : Expr} {env0 e : E} {t : T} (h : tcExpr w x env0 = some ((t, e), [])) {s : S} (hs : holds env0 s)
    (hx : ¬ Tested x) : ¬ value x s np := by
  intro hnp
  have hm := R.notPassed t ((c101_sound R h hs).2 np hnp)
  have hp : passing w x t = ([] : List (Msg M)) := by
    cases hv : w.vars env0 x.text with
    | some t' =>
      unfold tcExpr at h
      rw [hv] at h
      injection h with h
      injection h with h h'
      injection h with h _
      rw [← h]; exact h'
    | none =>
      obtain ⟨inner, m, _, _, h3⟩ := tcExpr_new hv h
      exact (List.append_eq_nil_iff.1 h3.symm).2
  unfold passing at hp
  rw [if_pos hm, if_neg (fun e => hx ((allowed_iff x).1 e))] at hp
  exact nomatch hp

/-- **C101.**  If there is no message for an expression whose type is not known from the environment, its values are all completion records or none of them is, but for fields of one name. -/
theorem c101_unmixed {w : World T E M} (R : Right w mem holds value np completion) {x : Expr} {env0 e : E} {t : T} (h : tcExpr w x env0 = some ((t, e), [])) (hv : w.vars env0 x.text = none)
    (hx : ¬ ".[[EvaluationError]]".toList <:+ x.text) {s s' : S} (hs : holds env0 s) (hs' : holds env0 s') {v v' : V} (h1 : value x s v) (h2 : value x s' v') : completion v ↔ completion v' := by
  obtain ⟨inner, m, _, hm, h3⟩ := tcExpr_new hv h
  have h3 := h3.symm
  rw [List.append_eq_nil_iff, List.append_eq_nil_iff] at h3
  rw [h3.1.2] at hm
  have hz : (w.split t).1 = w.zero ∨ (w.split t).2 = w.zero := by
    refine Classical.byContradiction fun hc => ?_
    unfold mixing at hm
    rw [if_pos ⟨fun e => hc (.inl e), fun e => hc (.inr e)⟩, if_neg (fun e => hx (List.isSuffixOf_iff_suffix.1 e))] at hm
    exact nomatch hm
  have a := R.split t v ((c101_sound R h hs).2 v h1)
  have b := R.split t v' ((c101_sound R h hs').2 v' h2)
  rcases hz with hz | hz
  · rw [hz] at a b
    have a := a.resolve_left (fun e => R.zero v e.2)
    have b := b.resolve_left (fun e => R.zero v' e.2)
    exact ⟨fun e => absurd e a.1, fun e => absurd e b.1⟩
  · rw [hz] at a b
    have a := a.resolve_right (fun e => R.zero v e.2)
    have b := b.resolve_right (fun e => R.zero v' e.2)
    exact ⟨fun _ => b.1, fun _ => a.1⟩

/-- **C101.**  The messages, for an expression whose type is not known from the environment: those for its production, and a warning just if the type is one of three that tell nothing, if it has completion
records and other values, and if the value is perhaps not passed where it should not be. -/
theorem c101_messages {w : World T E M} {x : Expr} {env0 e : E} {t : T} {ms : List (Msg M)} (hv : w.vars env0 x.text = none) (h : tcExpr w x env0 = some ((t, e), ms)) :
    (Msg.odd ∈ ms ↔ t = w.top ∨ t = w.tbd ∨ t = w.zero) ∧
    (Msg.mixed ∈ ms ↔ (w.split t).1 ≠ w.zero ∧ (w.split t).2 ≠ w.zero ∧ ¬ ".[[EvaluationError]]".toList <:+ x.text) ∧
    (Msg.maybeNotPassed ∈ ms ↔ w.sub w.notPassed t = true ∧ ¬ Tested x) ∧
    ∃ inner, w.sExpr x env0 = some ((t, e), inner) ∧ ∀ m, Msg.inner m ∈ ms ↔ m ∈ inner := by
  obtain ⟨inner, m, h1, hm, rfl⟩ := tcExpr_new hv h
  have ho : ∀ a : Msg M, a ∈ oddity w t ↔ a = .odd ∧ (t = w.top ∨ t = w.tbd ∨ t = w.zero) := by
    intro a
    unfold oddity
    split
    · next hh => simp [hh]
    · next hh => simp [hh]
  have hmx : ∀ a : Msg M, a ∈ m ↔ a = .mixed ∧ (w.split t).1 ≠ w.zero ∧ (w.split t).2 ≠ w.zero ∧ ¬ ".[[EvaluationError]]".toList <:+ x.text := by
    intro a
    unfold mixing at hm
    by_cases hz : (w.split t).1 ≠ w.zero ∧ (w.split t).2 ≠ w.zero
    · rw [if_pos hz] at hm
      by_cases hx : ".[[EvaluationError]]".toList <:+ x.text
      · rw [if_pos (List.isSuffixOf_iff_suffix.2 hx)] at hm
        split at hm
        · rw [← Option.some.inj hm]
          exact ⟨fun e => (nomatch e), fun e => absurd hx e.2.2.2⟩
        · exact nomatch hm
      · rw [if_neg (fun e => hx (List.isSuffixOf_iff_suffix.1 e))] at hm
        rw [← Option.some.inj hm, List.mem_singleton]
        exact ⟨fun e => ⟨e, hz.1, hz.2, hx⟩, fun e => e.1⟩
    · rw [if_neg hz] at hm
      rw [← Option.some.inj hm]
      exact ⟨fun e => (nomatch e), fun e => absurd ⟨e.2.1, e.2.2.1⟩ hz⟩
  have hp : ∀ a : Msg M, a ∈ passing w x t ↔ a = .maybeNotPassed ∧ w.sub w.notPassed t = true ∧ ¬ Tested x := by
    intro a
    unfold passing
    by_cases hn : w.sub w.notPassed t = true
    · rw [if_pos hn]
      by_cases hx : Tested x
      · rw [if_pos ((allowed_iff x).2 hx)]
        exact ⟨fun e => (nomatch e), fun e => absurd hx e.2.2⟩
      · rw [if_neg (fun e => hx ((allowed_iff x).1 e)), List.mem_singleton]
        exact ⟨fun e => ⟨e, hn, hx⟩, fun e => e.1⟩
    · rw [if_neg hn]
      exact ⟨fun e => (nomatch e), fun e => absurd e.2.1 hn⟩
  refine ⟨?_, ?_, ?_, inner, h1, fun k => ?_⟩ <;>
    rw [List.mem_append, List.mem_append, List.mem_append, ho, hmx, hp, List.mem_map] <;> simp

/-- **C101.**  A field with that one name whose type has completion records and other values has to have one type, and there is an exception if it has another. -/
theorem c101_exempt {w : World T E M} {x : Expr} {env0 e : E} {t : T} {inner : List M} (hv : w.vars env0 x.text = none) (h : w.sExpr x env0 = some ((t, e), inner))
    (hx : ".[[EvaluationError]]".toList <:+ x.text) (h1 : (w.split t).1 ≠ w.zero) (h2 : (w.split t).2 ≠ w.zero) :
    (tcExpr w x env0).isSome = true ↔ t = w.throwOrEmpty := by
  unfold tcExpr
  rw [hv]
  dsimp only
  rw [h, Option.bind_some, Option.isSome_map]
  unfold mixing
  rw [if_pos ⟨h1, h2⟩, if_pos (List.isSuffixOf_iff_suffix.2 hx)]
  split
  · next ht => exact ⟨fun _ => ht, fun _ => rfl⟩
  · next ht => exact ⟨fun e => (nomatch e), fun e => absurd e ht⟩

/-- **C101.**  In all other cases there is an exception just if there is one in the function for the production. -/
theorem c101_total {w : World T E M} {x : Expr} {env0 : E} (hv : w.vars env0 x.text = none) (hx : ¬ ".[[EvaluationError]]".toList <:+ x.text) :
    (tcExpr w x env0).isSome = (w.sExpr x env0).isSome := by
  unfold tcExpr
  rw [hv]
  dsimp only
  cases w.sExpr x env0 with
  | none => rfl
  | some r =>
    rw [Option.bind_some, Option.isSome_map]
    unfold mixing
    rw [if_neg (fun e => hx (List.isSuffixOf_iff_suffix.1 e))]
    split <;> rfl

omit [DecidableEq T] in
/-- **C101.**  The two types for a description are in order, so the type of a field or a parameter is the larger one. -/
theorem c101_bracket {w : World T E M} (R : Right w mem holds value np completion) {b : Tb T} {inf sup : T} (h : typeBracket w b = some (inf, sup)) :
    (∀ v, mem inf v → mem sup v) ∧ natureType w (some b) = some sup := by
  refine ⟨?_, by rw [natureType, h]; rfl⟩
  cases b with
  | exact t =>
    injection h with h
    injection h with h1 h2
    subst h1; subst h2
    exact fun v hv => hv
  | between i u =>
    rw [typeBracket] at h
    split at h
    · next hs =>
      injection h with h
      injection h with h1 h2
      subst h1; subst h2
      exact R.sub hs
    · exact nomatch h
  | other => exact nomatch h

/-! ## Examples -/

/-- Types as sets of three values (0: not passed, 1: a completion record, 2: another value), in one environment with one variable. -/
abbrev Ty0 := List Bool

def world0 : World Ty0 (Option Ty0) Nat where
  sub a b := (a.zip b).all (fun p => !p.1 || p.2)
  split t := ([false, t.getD 1 false, false], [t.getD 0 false, false, t.getD 2 false])
  top := [true, true, true]
  tbd := []
  zero := [false, false, false]
  notPassed := [true, false, false]
  throwOrEmpty := [false, true, true]
  vars e x := if x = "_v_".toList then e else none
  sExpr x e := if x.text = "c".toList then some (([false, true, false], e), []) else if x.text = "m".toList then some (([false, true, true], e), [])
    else if x.text = "_v_".toList then some (([true, true, true], e), [7]) else none

example : tcExpr (M := Nat) { world0 with sExpr := fun _ e => some (([false, true, true], e), []) } ⟨[], [], "_r_.[[EvaluationError]]".toList⟩ none = some (([false, true, true], none), []) := by decide +kernel
example : tcExpr (M := Nat) { world0 with sExpr := fun _ e => some (([true, true, true], e), []) } ⟨[], [], "_r_.[[EvaluationError]]".toList⟩ none = none := by decide +kernel

def x0 (s : String) : Expr := ⟨[], [], s.toList⟩

example : tcExpr world0 (x0 "c") none = some (([false, true, false], none), []) := by decide +kernel
example : tcExpr world0 (x0 "m") none = some (([false, true, true], none), [.mixed]) := by decide +kernel
example : tcExpr world0 (x0 "_v_") none = some (([true, true, true], none), [.inner 7, .odd, .mixed, .maybeNotPassed]) := by decide +kernel
example : tcExpr world0 (x0 "_v_") (some [true, false, true]) = some (([true, false, true], some [true, false, true]), [.maybeNotPassed]) := by decide +kernel
example : tcExpr world0 ⟨"{LOCAL_REF} : {SETTABLE}".toList, "{CONDITION_1} : {LOCAL_REF} is present".toList, "_v_".toList⟩ (some [true, false, true]) =
  some (([true, false, true], some [true, false, true]), []) := by decide +kernel
/-- A type that mixes completion records and other values is not noticed if it is known from the environment. -/
example : tcExpr world0 (x0 "_v_") (some [false, true, true]) = some (([false, true, true], some [false, true, true]), []) := by decide +kernel

example : typeBracket world0 (.between [false, false, true] [false, true, true]) = some ([false, false, true], [false, true, true]) ∧ typeBracket world0 (.between [true, false, true] [false, true, true]) = none := by decide +kernel

/-- A world in which all assumptions hold: the sets of values 0, 1 and 2 as types, and an expression whose value is 1. -/
def world1 : World (Bool × Bool × Bool) Unit Nat where
  sub a b := (!a.1 || b.1) && (!a.2.1 || b.2.1) && (!a.2.2 || b.2.2)
  split t := ((false, t.2.1, false), (t.1, false, t.2.2))
  top := (true, true, true)
  tbd := (true, true, true)
  zero := (false, false, false)
  notPassed := (true, false, false)
  throwOrEmpty := (false, true, true)
  vars _ _ := none
  sExpr _ e := some (((false, true, false), e), [])

def mem1 (t : Bool × Bool × Bool) (v : Nat) : Prop := (v = 0 ∧ t.1 = true) ∨ (v = 1 ∧ t.2.1 = true) ∨ (v = 2 ∧ t.2.2 = true)

theorem right1 : Right world1 mem1 (fun _ (_ : Unit) => True) (fun _ _ v => v = 1) 0 (· = 1) where
  sub := by
    rintro ⟨a, b, c⟩ ⟨a', b', c'⟩ h v hv
    unfold mem1 at hv ⊢
    simp [world1] at h hv ⊢
    rcases hv with ⟨h1, h2⟩ | ⟨h1, h2⟩ | ⟨h1, h2⟩ <;> simp_all
  refl := by
    rintro ⟨a, b, c⟩
    cases a <;> cases b <;> cases c <;> rfl
  vars := fun h => nomatch h
  sExpr := by
    intro x env t env' s h _
    injection h with h
    injection h with h _
    injection h with h _
    subst h
    exact ⟨trivial, fun v hv => .inr (.inl ⟨hv, rfl⟩)⟩
  zero := by
    rintro v (⟨_, h⟩ | ⟨_, h⟩ | ⟨_, h⟩) <;> exact nomatch h
  split := by
    rintro ⟨a, b, c⟩ v (⟨h, h'⟩ | ⟨h, h'⟩ | ⟨h, h'⟩)
    · exact .inr ⟨by omega, .inl ⟨h, h'⟩⟩
    · exact .inl ⟨h, .inr (.inl ⟨h, h'⟩)⟩
    · exact .inr ⟨by omega, .inr (.inr ⟨h, h'⟩)⟩
  notPassed := by
    rintro ⟨a, b, c⟩ (⟨_, h⟩ | ⟨h, _⟩ | ⟨h, _⟩)
    · change a = true at h; subst h; rfl
    · exact nomatch h
    · exact nomatch h

example : tcExpr world1 (x0 "c") () = some (((false, true, false), ()), []) ∧ ¬ Tested (x0 "c") :=
  ⟨by decide +kernel, by rintro (⟨h, _⟩ | ⟨h, _⟩ | ⟨h, _⟩ | ⟨h, _⟩) <;> exact nomatch h⟩

end Verif.Exprs
