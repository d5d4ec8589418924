import Verif.Intrin.Model
/-! # Facts and their consistency -/
namespace Verif.Intrin

/-- A dictionary has each key once. -/
def Proper (d : Dict) : Prop := (d.map (·.1)).Nodup

/-- Two dictionaries say the same wherever both say something. -/
def Agree (a b : Dict) : Prop := ∀ n v w, (n, v) ∈ a → (n, w) ∈ b → v = w

/-- Two kinds that can be those of one intrinsic: the same, or function and constructor. -/
def Compatible (k l : String) : Prop :=
  k = l ∨ (k = "a constructor" ∧ l = "a function object") ∨ (k = "a function object" ∧ l = "a constructor")

/-- Facts without contradictions; about `[[ccb]]` anything may be said. -/
structure Consistent (fs : List Fact) : Prop where
  kinds : ∀ x k l, ⟨x, .is k⟩ ∈ fs → ⟨x, .is l⟩ ∈ fs → Compatible k l
  slots : ∀ x s v w, ⟨x, .hasSlot s v⟩ ∈ fs → ⟨x, .hasSlot s w⟩ ∈ fs → s ≠ "[[ccb]]" → v = w
  props : ∀ x p a b, ⟨x, .hasProp p a⟩ ∈ fs → ⟨x, .hasProp p b⟩ ∈ fs → Agree a b

/-- The values of `[[ccb]]` for an intrinsic, in order. -/
def ccbs (fs : List Fact) (x : String) : List String :=
  fs.filterMap (fun
    | ⟨y, .hasSlot s v⟩ => if y = x ∧ s = "[[ccb]]" then some v else none
    | _ => none)

/-- The value that is taken: the first; if others differ from it, with `prose` made `emu-alg`. -/
def ccbValue (fix : String → String) : List String → Option String
  | [] => none
  | v :: vs => if ∀ w ∈ vs, w = v then some v else some (fix v)

/-- The default for an attribute of a property (ECMA-262, clause 18): of `length` and `name` of a function, with the given values; of a
data property; of an accessor property.  `attrs` are the attributes that are explicit, none if the property is not mentioned at all. -/
def defaultAttr (kind : Option String) (length name : String) (p : String) (attrs : Option Dict) (a : String) : Option String :=
  if (kind = some "a function object" ∨ kind = some "a constructor") ∧ (p = "*\"length\"*" ∨ p = "*\"name\"*") then
    if a = "[[Value]]" then some (if p = "*\"length\"*" then length else name)
    else if a = "[[Writable]]" then some "*false*"
    else if a = "[[Enumerable]]" then some "*false*"
    else if a = "[[Configurable]]" then some "*true*"
    else none
  else match attrs with
    | none => none
    | some d =>
      if "[[Value]]" ∈ d.map (·.1) ∨ "[[Writable]]" ∈ d.map (·.1) then
        if a = "[[Writable]]" then some "*true*"
        else if a = "[[Enumerable]]" then some "*false*"
        else if a = "[[Configurable]]" then some "*true*"
        else none
      else if "[[Getter]]" ∈ d.map (·.1) ∨ "[[Setter]]" ∈ d.map (·.1) then
        if a = "[[Enumerable]]" then some "*false*"
        else if a = "[[Configurable]]" then some "*true*"
        else none
      else none

/-- A property that is described both as a data property and as an accessor property. -/
def Mixed (d : Dict) : Prop :=
  ("[[Value]]" ∈ d.map (·.1) ∨ "[[Writable]]" ∈ d.map (·.1)) ∧ ("[[Getter]]" ∈ d.map (·.1) ∨ "[[Setter]]" ∈ d.map (·.1))

/-- `Chain w x r`: going from prototype to prototype, one comes from `x` in `r` steps to an intrinsic without a
prototype. -/
inductive Chain (w : World) : String → Nat → Prop
  | base {x p} : (w.info x).slots "[[Prototype]]" = some p → p = "*null*" ∨ p = "host-defined" → Chain w x 0
  | step {x p r} : (w.info x).slots "[[Prototype]]" = some p → p ≠ "*null*" → p ≠ "host-defined" → p ∈ w.names →
      Chain w p r → Chain w x (r + 1)

/-- Going from prototype to prototype, one comes from `x` to an intrinsic that has no slot for a prototype, or whose prototype is not
an intrinsic. -/
inductive Broken (w : World) : String → Prop
  | missing {x} : (w.info x).slots "[[Prototype]]" = none → Broken w x
  | unknown {x p} : (w.info x).slots "[[Prototype]]" = some p → p ≠ "*null*" → p ≠ "host-defined" → p ∉ w.names → Broken w x
  | step {x p} : (w.info x).slots "[[Prototype]]" = some p → p ≠ "*null*" → p ≠ "host-defined" → p ∈ w.names →
      Broken w p → Broken w x

/-- A function object. -/
def Function (x : Intr) : Prop := x.kind = some "a function object" ∨ x.kind = some "a constructor"

/-- The kind is as expected: two intrinsics have none, the others one of a list. -/
def KindOk (x : Intr) : Prop :=
  if x.name = globalName ∨ x.name = unscopables then x.kind = none
  else ∃ k, x.kind = some k ∧ k ∈ kinds

/-- The value of a slot after the defaults. -/
def slotAfter (x : Intr) (s : String) : Option String :=
  match x.slots s with
  | some v => some v
  | none =>
    if s = "[[Extensible]]" then some "*true*"
    else if s = "[[Prototype]]" then
      if x.kind = some "a function object" ∨ x.kind = some "a constructor" then some "%Function.prototype%"
      else if x.name = unscopables then some "*null*"
      else none
    else none

/-- A property that `apply_defaults` treats by the rules for functions. -/
def Special (x : Intr) (p : String) : Prop := (p = "*\"length\"*" ∨ p = "*\"name\"*") ∧ Function x

end Verif.Intrin
