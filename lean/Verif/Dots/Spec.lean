import Verif.Dots.Model
/-!
# What types mean (C93)

`den t v` says that the value `v` is of the type `t`, and `field v n w` that `w` is in the field or slot of `v` named `n`.
`tbd` is the type of things about which nothing is known yet; nothing is assumed about it.
-/
namespace Verif.Dots

/-- The operations on types do what they should, and what has been declared is true and complete. -/
structure Means {T V : Type} (y : Types T) (den : T → V → Prop) (field : V → Str → V → Prop) : Prop where
  union : ∀ a b, a ≠ y.tbd → b ≠ y.tbd → y.union a b ≠ y.tbd ∧ ∀ v, den (y.union a b) v ↔ den a v ∨ den b v
  zero : y.zero ≠ y.tbd ∧ ∀ v, ¬ den y.zero v
  sub : ∀ a b, y.sub a b = true → ∀ v, den a v → den b v
  /-- Splitting takes nothing but what cannot take a dot. -/
  split : ∀ t, t ≠ y.tbd → (y.split t).1 ≠ y.tbd ∧ (∀ v, den (y.split t).1 v → den t v) ∧ ∀ v n w, den t v → field v n w → den (y.split t).1 v
  parts : ∀ t, t ≠ y.tbd → (∀ p ∈ y.parts t, p ≠ y.tbd) ∧ ∀ v, den t v ↔ ∃ p ∈ y.parts t, den p v
  special : y.resolvedBinding ≠ y.tbd ∧ y.privateElement ≠ y.tbd ∧ y.string ≠ y.tbd ∧ y.undefined ≠ y.tbd
  symbol : ∀ v n w, den y.symbol v → field v n w → n = "[[Description]]".toList ∧ (den y.string w ∨ den y.undefined w)
  privateName : ∀ v n w, den y.privateName v → field v n w → n = "[[Description]]".toList ∧ den y.string w
  /-- The holders of slots and methods are types of objects. -/
  holder : ∀ n, ∀ d ∈ y.decls n, d.holder ≠ y.tbd ∧ ∀ v, den d.holder v → den y.object v
  /-- What a slot or method is declared to be. -/
  slot : ∀ n, ∀ d ∈ y.decls n, d.stype ≠ y.tbd ∧ ∀ v w, den d.holder v → field v n w → den d.stype w
  /-- What must have the slot or method has it. -/
  must : ∀ n, ∀ d ∈ y.decls n, d.must = true → ∀ v, den d.holder v → ∃ w, field v n w
  /-- Each slot and method of an object is declared. -/
  complete : ∀ v n w, den y.object v → field v n w → ∃ d ∈ y.decls n, den d.holder v
  /-- Types of objects do not overlap unless one is within the other. -/
  nested : ∀ p n, ∀ d ∈ y.decls n, y.sub p y.object = true → ∀ v, den p v → den d.holder v → y.sub p d.holder = true ∨ y.sub d.holder p = true
  intrinsics : ∀ p n t, y.shape p = .hier "Intrinsics Record".toList → y.intrinsics n = some t → t ≠ y.tbd ∧ ∀ v w, den p v → field v n w → den t w
  named : ∀ p name fs n t, y.shape p = .hier name → y.fields name = some fs → fs n = some t → t ≠ y.tbd ∧ ∀ v w, den p v → field v n w → den t w
  record : ∀ p s f n t, y.shape p = .rcd s f → f n = some t → t ≠ y.tbd ∧ ∀ v w, den p v → field v n w → den t w

/-- The line says that the type of the field is not known for a part. -/
def Unknown {T : Type} (m : Msg T) : Prop := m = .unknownRecord ∨ ∃ p, m = .noField p

/-- The type of the left side after the dotting. -/
def Result.left {T : Type} (r : Result T) (t : T) : T := match r.replaced with
  | some t' => t'
  | none => t

/-- The part allows `w` as what is in the field. -/
inductive May {T V : Type} (y : Types T) (den : T → V → Prop) (n : Str) (p : T) (w : V) : Prop where
  | symbol : p = y.symbol → n = "[[Description]]".toList → den y.string w ∨ den y.undefined w → May y den n p w
  | privateName : p = y.privateName → n = "[[Description]]".toList → den y.string w → May y den n p w
  | slot (d : Decl T) : d ∈ y.decls n → y.sub p d.holder = true ∨ y.sub d.holder p = true → den d.stype w → May y den n p w
  | intrinsics (t : T) : y.shape p = .hier "Intrinsics Record".toList → y.intrinsics n = some t → den t w → May y den n p w
  | named (name : Str) (fs : Str → Option T) (t : T) : y.shape p = .hier name → y.fields name = some fs → fs n = some t → den t w → May y den n p w
  | record (s : Str) (f : Str → Option T) (t : T) : y.shape p = .rcd s f → f n = some t → den t w → May y den n p w

/-- The value `v` of the part can have the field, for what is declared. -/
inductive Can {T V : Type} (y : Types T) (den : T → V → Prop) (n : Str) (p : T) (v : V) : Prop where
  | described : p = y.symbol ∨ p = y.privateName → n = "[[Description]]".toList → Can y den n p v
  | slot (d : Decl T) : d ∈ y.decls n → den d.holder v → Can y den n p v
  | record : y.sub p y.record = true → Can y den n p v

end Verif.Dots
