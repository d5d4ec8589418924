import Verif.Kinds.TitleLemmas
/-!
# The first pattern that matches a title
-/
namespace Verif.Kinds
open Verif.Sections (isWord)
open Verif.Paths.Spec (Word Key Base Path Plain)
open Spec

/-- No character class of the expression has the character. -/
def Rx.avoids (c : Char) : Rx → Bool
  | .nothing => true
  | .empty => true
  | .char p => !p c
  | .seq a b => a.avoids c && b.avoids c
  | .alt a b => a.avoids c && b.avoids c
  | .star a => a.avoids c

theorem avoids_of {c : Char} {r : Rx} {s : Str} (h : Matches r s) (ha : r.avoids c = true) : c ∉ s := by
  induction h with
  | empty => simp
  | char h =>
    simp only [List.mem_singleton]
    rintro rfl
    simp [Rx.avoids, h] at ha
  | seq _ _ ih1 ih2 =>
    simp only [Rx.avoids, Bool.and_eq_true] at ha
    simp [ih1 ha.1, ih2 ha.2]
  | left _ ih => simp only [Rx.avoids, Bool.and_eq_true] at ha; exact ih ha.1
  | right _ ih => simp only [Rx.avoids, Bool.and_eq_true] at ha; exact ih ha.2
  | stop => simp
  | more _ _ ih1 ih2 => simp [ih1 ha, ih2 ha]

/-! ## Spaces in the names of properties -/

/-- The text starts with a bracket or a percent sign. -/
def mark : Str → Bool
  | [] => false
  | c :: _ => c == '[' || c == '%' || c == ']'

/-- After a space there is a bracket or a percent sign. -/
def spOk : Str → Bool
  | [] => true
  | a :: s => (a != ' ' || mark s) && spOk s

theorem spOk_at {u v : Str} {c : Char} (h : spOk (u ++ ' ' :: c :: v) = true) : c = '[' ∨ c = '%' ∨ c = ']' := by
  induction u with
  | nil => simp [spOk, mark] at h; simpa [or_assoc] using h.1
  | cons d u ih => rw [List.cons_append, spOk, Bool.and_eq_true] at h; exact ih h.2

theorem spOk_append {a b : Str} (ha : spOk a = true) (hb : spOk b = true) : spOk (a ++ b) = true := by
  induction a with
  | nil => exact hb
  | cons x a ih =>
    rw [spOk, Bool.and_eq_true] at ha
    rw [List.cons_append, spOk, Bool.and_eq_true]
    refine ⟨?_, ih ha.2⟩
    cases a with
    | nil => simp [mark] at ha ⊢; exact .inl ha.1
    | cons y a => exact ha.1

theorem spOk_word {s : Str} (h : Word s) : spOk s = true := by
  obtain ⟨-, h⟩ := h
  induction s with
  | nil => rfl
  | cons c s ih =>
    rw [spOk, Bool.and_eq_true]
    refine ⟨?_, ih (fun d hd => h d (by simp [hd]))⟩
    have : c ≠ ' ' := by
      rintro rfl
      rcases h ' ' (by simp) with h | h <;> revert h <;> decide
    simp [this]

theorem spOk_base {b : Base} (h : Plain b) : spOk b.text = true := by
  cases b with
  | word x => exact spOk_word h
  | percent x => exact spOk_append (a := '%' :: x) (by rw [spOk, spOk_word h]; rfl) rfl
  | _ => exact h.elim

theorem spOk_key {k : Key} (h : k.Ok) : spOk k.text = true := by
  cases k with
  | string x => show spOk ('.' :: x) = true; rw [spOk, spOk_word h]; rfl
  | symbol x => exact spOk_append (spOk_append (by decide) (spOk_word h)) (by decide)

theorem spOk_path {s : Str} (h : PropPath s) : spOk s = true := by
  obtain ⟨b, ks, hb, -, hk, rfl⟩ := h
  refine spOk_append (spOk_base hb) ?_
  induction ks with
  | nil => rfl
  | cons k ks ih =>
    rw [List.flatMap_cons]
    exact spOk_append (spOk_key (hk k (by simp))) (ih (fun x hx => hk x (by simp [hx])))

theorem spOk_property {s : Str} (h : Property s) : spOk s = true := by
  rcases h with h | h | h | h | ⟨x, h, rfl⟩
  · exact spOk_path h
  · obtain ⟨c, r, rfl, h1, h2⟩ := h
    refine spOk_append (a := [c]) ?_ (spOk_word h2)
    have : c ≠ ' ' := by rintro rfl; revert h1; decide
    simp [spOk, this]
  · rw [h]; decide
  · rw [h]; decide
  · exact spOk_append (spOk_append (by decide) (spOk_word h)) (by decide)

/-! ## No title fits twice -/

theorem not_property {s u v : Str} {c : Char} (h : Property s) (e : s = u ++ ' ' :: c :: v) (hc : c ≠ '[' ∧ c ≠ '%' ∧ c ≠ ']') : False := by
  have := spOk_property h
  rw [e] at this
  rcases spOk_at this with h | h | h
  · exact hc.1 h
  · exact hc.2.1 h
  · exact hc.2.2 h

theorem np_instances {s : Str} (hp : Property s) : ¬ Instances s := by
  rintro (⟨x, -, e⟩ | e)
  · exact not_property hp (u := x) (c := 'I') (v := "nstances".toList) e (by decide)
  · exact not_property hp (u := "Module".toList) (c := 'N') (v := "amespace Objects".toList) e (by decide)

theorem np_intrinsic {s : Str} (hp : Property s) : ¬ Intrinsic s := by
  rintro (⟨⟨x, -, e⟩, -⟩ | ⟨x, -, -, e⟩)
  · exact not_property hp (u := "Properties".toList) (c := 'o') (v := "f ".toList ++ x) e (by decide)
  · exact not_property hp (u := "The ".toList ++ x) (c := 'O') (v := "bject".toList) e (by decide)

theorem np_additional {s : Str} (hp : Property s) : ¬ Additional s := by
  rintro ⟨x, -, e⟩
  exact not_property hp (u := "Additional".toList) (c := 'P') (v := "roperties of ".toList ++ x) e (by decide)

theorem np_constructor {s : Str} (hp : Property s) : ¬ ConstructorInfo s := by
  rintro (⟨x, -, e⟩ | e)
  · exact not_property hp (u := "The ".toList ++ x) (c := 'C') (v := "onstructor".toList) e (by decide)
  · simp only [List.mem_cons, List.not_mem_nil, or_false] at e
    rcases e with e | e | e
    · exact not_property hp (u := "The".toList) (c := '_') (v := "NativeError_ Constructors".toList) e (by decide)
    · exact not_property hp (u := "The".toList) (c := '_') (v := "TypedArray_ Constructors".toList) e (by decide)
    · exact not_property hp (u := "The %TypedArray%".toList) (c := 'I') (v := "ntrinsic Object".toList) e (by decide)

theorem np_group {s : Str} (hp : Property s) : ¬ Group s := by
  rintro (e | ⟨k, x, -, -, e⟩ | ⟨c, -, e⟩)
  · exact not_property hp (u := "URI".toList) (c := 'H') (v := "andling Functions".toList) e (by decide)
  · exact not_property hp (u := k) (c := 'P') (v := "roperties of ".toList ++ x) (by rw [e, List.append_assoc]; rfl) (by decide)
  · exact not_property hp (u := "Legacy".toList) (c := 'O') (v := "bject".toList ++ c :: "prototype Accessor Methods".toList) e (by decide)

theorem head_intrinsic {s : Str} (h : Intrinsic s) : s.head? = some 'P' ∨ s.head? = some 'T' := by
  rcases h with ⟨⟨x, -, rfl⟩, -⟩ | ⟨x, -, -, rfl⟩
  · exact .inl rfl
  · exact .inr rfl

theorem head_additional {s : Str} (h : Additional s) : s.head? = some 'A' := by
  obtain ⟨x, -, rfl⟩ := h; rfl

theorem head_constructor {s : Str} (h : ConstructorInfo s) : s.head? = some 'T' := by
  rcases h with ⟨x, -, rfl⟩ | h
  · rfl
  · simp only [List.mem_cons, List.not_mem_nil, or_false] at h
    rcases h with rfl | rfl | rfl <;> rfl

theorem head_group {s : Str} (h : Group s) : s.head? ∈ [some 'U', some 'V', some 'F', some 'C', some 'O', some 'L'] := by
  rcases h with rfl | ⟨k, x, hk, -, rfl⟩ | ⟨c, -, rfl⟩
  · decide
  · simp only [List.mem_cons, List.not_mem_nil, or_false] at hk
    rcases hk with rfl | rfl | rfl | rfl
    · exact .tail _ (.head _)
    · exact .tail _ (.tail _ (.head _))
    · exact .tail _ (.tail _ (.tail _ (.head _)))
    · exact .tail _ (.tail _ (.tail _ (.tail _ (.head _))))
  · exact .tail _ (.tail _ (.tail _ (.tail _ (.tail _ (.head _)))))

theorem last_constructor {s : Str} (h : ConstructorInfo s) : ¬ Instances s ∧ ¬ Intrinsic s := by
  rcases h with ⟨x, -, rfl⟩ | h
  · constructor
    · rintro (⟨y, -, e⟩ | e)
      · have := congrArg (fun l => l.reverse.head?) e
        simp at this
      · have := congrArg List.head? e
        simp at this
    · rintro (⟨⟨y, -, e⟩, -⟩ | ⟨y, -, -, e⟩)
      · have := congrArg List.head? e
        simp at this
      · have := congrArg (fun l => l.reverse.head?) e
        simp at this
  · have key : ∀ t ∈ ["The _NativeError_ Constructors".toList, "The _TypedArray_ Constructors".toList, "The %TypedArray% Intrinsic Object".toList],
        full (cat [plus dot, lit " Instances"]) t = false ∧ full (lit "Module Namespace Objects") t = false ∧
        full (cat [lit "Properties of ", plus dot]) t = false ∧
        full (cat [lit "The ", plus (.char (fun c => isWord c || c == '%' || c == '.')), lit " Object"]) t = false := by decide +kernel
    obtain ⟨a, b, c, d⟩ := key s h
    refine ⟨?_, ?_⟩
    · rw [instances_iff, ← full_iff, ← full_iff, a, b]; simp
    · rintro (⟨h, -⟩ | h)
      · rw [properties_iff, ← full_iff, c] at h; cases h
      · rw [object_iff, ← full_iff, d] at h; cases h

/-- The titles that are given in full, and are in no class but their own. -/
def fixedTitles : List Str :=
  ["Implicit Normal Completion".toList, "Implicit Completion Values".toList, "Throw".toList, "Shorthands for Unwrapping Completion Records".toList,
    "IfAbruptRejectPromise ( _value_, _capability_ )".toList, "IfAbruptCloseIterator ( _value_, _iteratorRecord_ )".toList,
    "IfAbruptCloseIterators ( _value_, _iteratorRecords_ )".toList, "IfAbruptCloseAsyncIterator ( _value_, _iteratorRecord_ )".toList,
    "_NativeError_ Object Structure".toList, "Properties of Valid Executions".toList, "Non-ECMAScript Functions".toList]

theorem fixed_only {s : Str} (h : s ∈ fixedTitles) : ¬ Instances s ∧ ¬ Intrinsic s ∧ ¬ Additional s ∧ ¬ ConstructorInfo s ∧ ¬ Group s ∧ ¬ Property s := by
  have key : ∀ t ∈ fixedTitles,
      (full (cat [plus dot, lit " Instances"]) t = false ∧ full (lit "Module Namespace Objects") t = false) ∧
      ((t = "Properties of Valid Executions".toList ∨ full (cat [lit "Properties of ", plus dot]) t = false) ∧
        full (cat [lit "The ", plus (.char (fun c => isWord c || c == '%' || c == '.')), lit " Object"]) t = false) ∧
      full (cat [lit "Additional Properties of ", plus dot]) t = false ∧
      (full (cat [lit "The ", plus w, lit " Constructor"]) t = false ∧ full (lit "The _NativeError_ Constructors") t = false ∧
        full (lit "The _TypedArray_ Constructors") t = false ∧ full (lit "The %TypedArray% Intrinsic Object") t = false) ∧
      (full (lit "URI Handling Functions") t = false ∧
        full (cat [any [lit "Value", lit "Function", lit "Constructor", lit "Other"], lit " Properties of ", plus dot]) t = false ∧
        full (cat [lit "Legacy Object", dot, lit "prototype Accessor Methods"]) t = false) ∧
      (full propPath t = false ∧ full (any [cat [.char Char.isLower, plus w], lit "Infinity", lit "NaN"]) t = false ∧
        full (cat [lit "%Symbol.", plus w, lit "%"]) t = false) := by decide +kernel
  obtain ⟨⟨a1, a2⟩, ⟨b1, b2⟩, c, ⟨d1, d2, d3, d4⟩, ⟨e1, e2, e3⟩, f1, f2, f3⟩ := key s h
  simp only [instances_iff, additional_iff, constructor_iff, group_iff, property_iff, ← full_iff, a1, a2, c, d1, d2, d3, d4, e1, e2, e3, f1, f2, f3, Bool.false_eq_true, or_self,
    not_false_eq_true, and_true, true_and]
  rintro (⟨h, h'⟩ | h)
  · rcases b1 with b1 | b1
    · exact h' b1
    · rw [properties_iff, ← full_iff, b1] at h; cases h
  · rw [object_iff, ← full_iff, b2] at h; cases h

theorem short_fixed {s : Str} (h : Shorthand s) : s ∈ fixedTitles := by
  simp only [Shorthand, fixedTitles, List.mem_cons, List.not_mem_nil, or_false] at h ⊢
  rcases h with h | h | h | h | h | h | h | h <;> simp [h]

theorem loop_fixed {s : Str} (h : Loop s) : s ∈ fixedTitles := by
  rw [show s = _ from h]; decide

theorem short_loop {s : Str} (h : Shorthand s) : ¬ Loop s := by
  rintro rfl; revert h; unfold Shorthand; decide

/-- A title has one kind at most. -/
theorem kind_unique {s : Str} {k k' : String} (h : TitleKind s k) (h' : TitleKind s k') : k = k' := by
  have main : ∀ {k k'}, TitleKind s k → TitleKind s k' → k = k' ∨ False := by
    intro k k' h h'
    cases h with
    | shorthand h =>
      obtain ⟨f1, f2, f3, f4, f5, f6⟩ := fixed_only (short_fixed h)
      cases h' with
      | shorthand _ => exact .inl rfl
      | instances h' => exact absurd h' f1
      | intrinsic h' _ => exact absurd h' f2
      | additional h' _ => exact absurd h' f3
      | construct h' => exact absurd h' f4
      | loop h' => exact absurd h' (short_loop h)
      | group h' _ => exact absurd h' f5
      | property h' => exact absurd h' f6
      | catchall _ h' => exact absurd h h'
    | instances h =>
      cases h' with
      | shorthand h' => exact absurd h (fixed_only (short_fixed h')).1
      | instances _ => exact .inl rfl
      | intrinsic _ h' => exact absurd h h'
      | additional _ h' => exact absurd h h'
      | construct h' => exact absurd h (last_constructor h').1
      | loop h' => exact absurd h (fixed_only (loop_fixed h')).1
      | group _ h' => exact absurd h h'
      | property h' => exact absurd h (np_instances h')
      | catchall _ _ h' => exact absurd h h'
    | intrinsic h hn =>
      cases h' with
      | shorthand h' => exact absurd h (fixed_only (short_fixed h')).2.1
      | instances h' => exact absurd h' hn
      | intrinsic _ _ => exact .inl rfl
      | additional h' _ =>
        have := head_intrinsic h; rw [head_additional h'] at this; simp at this
      | construct h' => exact absurd h (last_constructor h').2
      | loop h' => exact absurd h (fixed_only (loop_fixed h')).2.1
      | group h' _ =>
        have := head_group h'
        rcases head_intrinsic h with e | e <;> rw [e] at this <;> simp at this
      | property h' => exact absurd h (np_intrinsic h')
      | catchall _ _ _ h' => exact absurd h h'
    | additional h hn =>
      cases h' with
      | shorthand h' => exact absurd h (fixed_only (short_fixed h')).2.2.1
      | instances h' => exact absurd h' hn
      | intrinsic h' _ => have := head_intrinsic h'; rw [head_additional h] at this; simp at this
      | additional _ _ => exact .inl rfl
      | construct h' => have := head_constructor h'; rw [head_additional h] at this; simp at this
      | loop h' => exact absurd h (fixed_only (loop_fixed h')).2.2.1
      | group h' _ => have := head_group h'; rw [head_additional h] at this; simp at this
      | property h' => exact absurd h (np_additional h')
      | catchall _ _ _ _ h' => exact absurd h h'
    | construct h =>
      cases h' with
      | shorthand h' => exact absurd h (fixed_only (short_fixed h')).2.2.2.1
      | instances h' => exact absurd h' (last_constructor h).1
      | intrinsic h' _ => exact absurd h' (last_constructor h).2
      | additional h' _ => have := head_constructor h; rw [head_additional h'] at this; simp at this
      | construct _ => exact .inl rfl
      | loop h' => exact absurd h (fixed_only (loop_fixed h')).2.2.2.1
      | group h' _ => have := head_group h'; rw [head_constructor h] at this; simp at this
      | property h' => exact absurd h (np_constructor h')
      | catchall _ _ _ _ _ h' => exact absurd h h'
    | loop h =>
      obtain ⟨f1, f2, f3, f4, f5, f6⟩ := fixed_only (loop_fixed h)
      cases h' with
      | shorthand h' => exact absurd h (short_loop h')
      | instances h' => exact absurd h' f1
      | intrinsic h' _ => exact absurd h' f2
      | additional h' _ => exact absurd h' f3
      | construct h' => exact absurd h' f4
      | loop h' => exact .inl rfl
      | group h' _ => exact absurd h' f5
      | property h' => exact absurd h' f6
      | catchall _ _ _ _ _ _ h' => exact absurd h h'
    | group h hn =>
      cases h' with
      | shorthand h' => exact absurd h (fixed_only (short_fixed h')).2.2.2.2.1
      | instances h' => exact absurd h' hn
      | intrinsic h' _ =>
        have := head_group h
        rcases head_intrinsic h' with e | e <;> rw [e] at this <;> simp at this
      | additional h' _ => have := head_group h; rw [head_additional h'] at this; simp at this
      | construct h' => have := head_group h; rw [head_constructor h'] at this; simp at this
      | loop h' => exact absurd h (fixed_only (loop_fixed h')).2.2.2.2.1
      | group _ _ => exact .inl rfl
      | property h' => exact absurd h (np_group h')
      | catchall _ _ _ _ _ _ _ h' => exact absurd h h'
    | property h =>
      cases h' with
      | shorthand h' => exact absurd h (fixed_only (short_fixed h')).2.2.2.2.2
      | instances h' => exact absurd h' (np_instances h)
      | intrinsic h' _ => exact absurd h' (np_intrinsic h)
      | additional h' _ => exact absurd h' (np_additional h)
      | construct h' => exact absurd h' (np_constructor h)
      | loop h' => exact absurd h (fixed_only (loop_fixed h')).2.2.2.2.2
      | group h' _ => exact absurd h' (np_group h)
      | property _ => exact .inl rfl
      | catchall _ _ _ _ _ _ _ _ h' => exact absurd h h'
    | catchall _ g1 g2 g3 g4 g5 g6 g7 g8 =>
      cases h' with
      | shorthand h' => exact absurd h' g1
      | instances h' => exact absurd h' g2
      | intrinsic h' _ => exact absurd h' g3
      | additional h' _ => exact absurd h' g4
      | construct h' => exact absurd h' g5
      | loop h' => exact absurd h' g6
      | group h' _ => exact absurd h' g7
      | property h' => exact absurd h' g8
      | catchall => exact .inl rfl
  exact (main h h').elim id False.elim

end Verif.Kinds
