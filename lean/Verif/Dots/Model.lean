/-!
# Model of the static type of `_x_.[[Field]]` (pseudocode_semantics.py:10992-11197)

Types and their operations are parameters; the theorems assume of them only what they mean.
-/
namespace Verif.Dots

abbrev Str := List Char

/-- A part of a type, as far as records are concerned: a `HierType` with its name, a `RecordType` with its schema name and what `type_of_field_named` gives for a field (static_types.py:458-515), or something else. -/
inductive Shape (T : Type) where
  | hier (name : Str)
  | rcd (schema : Str) (field : Str → Option T)
  | other

/-- An `IsomDeclaration` (pseudocode_semantics.py:2727-2740), without what is not used here; `must` is whether `must_or_might` is `must have`. -/
structure Decl (T : Type) where
  holder : T
  must : Bool
  stype : T

/-- The operations on types, and what has been declared.
`split` is `split_by(T_Record | T_Object | T_Symbol | T_Private_Name)`, `parts` is `sorted(….set_of_types())`, `decls` is `decls_for_isom_named_`, `fields` is `fields_for_record_type_named_`, and `intrinsics` is the table in lines 11142-11147. -/
structure Types (T : Type) where
  union : T → T → T
  zero : T
  tbd : T
  sub : T → T → Bool
  split : T → T × T
  parts : T → List T
  shape : T → Shape T
  symbol : T
  privateName : T
  object : T
  record : T
  string : T
  undefined : T
  resolvedBinding : T
  privateElement : T
  decls : Str → List (Decl T)
  fields : Str → Option (Str → Option T)
  intrinsics : Str → Option T

/-- A line of the message, as far as its kind is concerned; and the warning about `[[Type]]` (line 11190), which is a message of its own. -/
inductive Msg (T : Type) where
  | cannotDot
  | changing (t : T)
  | someCannotDot (t : T)
  | narrowing (t : T)
  | within (part holder : T)
  | unknownRecord
  | noField (part : T)
  | dropping (part : T)
  | final (t : T)
deriving DecidableEq

/-- What is found for one part: the part may be replaced; no type means that the part is dropped.
The truth value is for the warning about `[[Type]]`. -/
structure Found (T : Type) where
  part : T
  type : Option T
  msgs : List (Msg T)
  warn : Bool

variable {T : Type} [DecidableEq T]

/-- `union_of_types` (pseudocode_semantics.py:11106-11113). -/
def unions (y : Types T) (ts : List T) : T := ts.foldr y.union y.zero

/-- A part that is an object type (pseudocode_semantics.py:11051-11132). -/
def objectPart (y : Types T) (n : Str) (p : T) : Option (Found T) :=
  match y.decls n with
  | [] => some ⟨p, none, [], false⟩
  | [d] =>
    if y.sub p d.holder then some ⟨p, some d.stype, [], false⟩
    else if y.sub d.holder p then some ⟨d.holder, some d.stype, [.within p d.holder], false⟩
    else some ⟨p, none, [], false⟩
  | ds =>
    let supers := ds.filter (fun d => y.sub p d.holder)
    let subs := ds.filter (fun d => !y.sub p d.holder && y.sub d.holder p)
    match supers with
    | [] =>
      if subs.isEmpty then none
      else
        let h := unions y (subs.map (·.holder))
        some ⟨h, some (unions y (subs.map (·.stype))), [.within p h], false⟩
    | [d] => if subs.isEmpty then some ⟨p, some d.stype, [], false⟩ else none
    | _ => none

/-- A part that is a record type (pseudocode_semantics.py:11134-11171). -/
def recordPart (y : Types T) (n : Str) (p : T) : Option (Found T) :=
  match y.shape p with
  | .hier name =>
    if name = "Record".toList then some ⟨p, some y.tbd, [.unknownRecord], false⟩
    else if name = "Intrinsics Record".toList then (y.intrinsics n).map (fun t => ⟨p, some t, [], false⟩)
    else (y.fields name).map (fun fs =>
      match fs n with
      | some t => ⟨p, some t, [], false⟩
      | none => ⟨p, some y.tbd, [.noField p], false⟩)
  | .rcd schema field => (field n).map (fun t => ⟨p, some t, [], decide (schema = "Completion Record".toList ∧ n = "[[Type]]".toList)⟩)
  | .other => none

/-- One round of the loop, without its end (pseudocode_semantics.py:11037-11174). -/
def onePart (y : Types T) (n : Str) (p : T) : Option (Found T) :=
  if p = y.symbol then some ⟨p, if n = "[[Description]]".toList then some (y.union y.string y.undefined) else none, [], false⟩
  else if p = y.privateName then some ⟨p, if n = "[[Description]]".toList then some y.string else none, [], false⟩
  else if y.sub p y.object then objectPart y n p
  else if y.sub p y.record then recordPart y n p
  else none

/-- What the loop has come to: the type of the left side, that of the whole, the lines of the message, and the warning. -/
structure State (T : Type) where
  lhs : T
  dot : T
  msgs : List (Msg T)
  warn : Bool

/-- The end of a round (pseudocode_semantics.py:11176-11180). -/
def put (y : Types T) (s : State T) (f : Found T) : State T :=
  match f.type with
  | none => ⟨s.lhs, s.dot, s.msgs ++ f.msgs ++ [.dropping f.part], s.warn || f.warn⟩
  | some t => ⟨y.union s.lhs f.part, y.union s.dot t, s.msgs ++ f.msgs, s.warn || f.warn⟩

/-- The loop over the parts (pseudocode_semantics.py:11034-11180). -/
def loop (y : Types T) (n : Str) (s : State T) : List T → Option (State T)
  | [] => some s
  | p :: ps => (onePart y n p).bind (fun f => loop y n (put y s f) ps)

/-- The part of the type that can take a dot, and the first lines of the message (pseudocode_semantics.py:11001-11030).
`x` is the text of the left side. -/
def dottable (y : Types T) (x : Str) (t : T) : Option (T × List (Msg T)) :=
  if (y.split t).1 = y.zero then
    if x = "_starResolution_".toList then some (y.resolvedBinding, [.cannotDot, .changing y.resolvedBinding])
    else if x = "_element_".toList then some (y.privateElement, [.cannotDot, .changing y.privateElement])
    else none
  else if (y.split t).2 ≠ y.zero then some ((y.split t).1, [.someCannotDot (y.split t).2, .narrowing (y.split t).1])
  else some ((y.split t).1, [])

/-- The result: the type of the dotting, the type to which that of the left side is replaced if there is a need to, the lines of the message, and whether there is the warning about `[[Type]]`. -/
structure Result (T : Type) where
  type : T
  replaced : Option T
  msgs : List (Msg T)
  warn : Bool

/-- `s_expr` of `{var}.{DSBN}` and `{DOTTING}.{DSBN}`, after the type of the left side has been found (pseudocode_semantics.py:11000-11197). -/
def dotting (y : Types T) (x n : Str) (t : T) : Option (Result T) :=
  (dottable y x t).bind (fun d =>
    (loop y n ⟨y.zero, y.zero, d.2, false⟩ (y.parts d.1)).map (fun s =>
      if s.lhs ≠ t then ⟨s.dot, some s.lhs, s.msgs ++ (if s.lhs ≠ d.1 then [.final s.lhs] else []), s.warn⟩
      else ⟨s.dot, none, s.msgs, s.warn⟩))

/-- `tb_for_object_with_slot` (pseudocode_semantics.py:2746-2767), as the pair that `type_bracket_for` makes of it (lines 1835-1843): types for values that certainly have the slot, and for all that can have it. -/
def slotBracket (y : Types T) (n : Str) : Option (T × T) :=
  match y.decls n with
  | [] => none
  | [d] => some (if d.must then d.holder else y.zero, d.holder)
  | ds =>
    let h := unions y (ds.map (·.holder))
    some (if ds.any (fun d => !d.must) then y.zero else h, h)

end Verif.Dots
