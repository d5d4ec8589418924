import Verif.Recs.Spec
/-!
# C97: the types of record constructors
-/
namespace Verif.Recs

variable {T E X : Type}

/-- **C97.**  The fields are taken in the order in which they are written, none is lost. -/
theorem c97_fields {α : Type} (c : Chain α) : Written c (getFields c) := by
  induction c with
  | one a => exact .one a
  | more c a ih => exact .more a ih

theorem written_unique {α : Type} {c : Chain α} {l l' : List α} (h : Written c l) (h' : Written c l') : l = l' := by
  induction h generalizing l' with
  | one a => cases h'; rfl
  | more a _ ih =>
    cases h' with
    | more _ h' => rw [ih h']

theorem exesLoop_eq {α : Type} (c : Chain α) (l : List α) : exesLoop c l = getFields c ++ l := by
  induction c generalizing l with
  | one a => rfl
  | more c a ih => rw [exesLoop, ih, getFields, List.append_assoc]; rfl

/-- **C97.**  So are the arguments of a call. -/
theorem c97_arguments {α : Type} (c : Chain α) (l : List α) : exesInExlistOpt (some c) = l ↔ Written c l := by
  have h : exesInExlistOpt (some c) = getFields c := by
    rw [exesInExlistOpt, exesInExlist, exesLoop_eq, List.append_nil]
  rw [h]
  exact ⟨fun e => e ▸ c97_fields c, fun e => written_unique (c97_fields c) e⟩

/-- **C97.**  An article before the name makes no difference. -/
theorem c97_article (p : Str) : prefixOf ("the ".toList ++ p) = prefixOf p ∧ prefixOf ("a new ".toList ++ p) = prefixOf p := by
  have h1 : ∀ q : Str, remove "the ".toList 0 ("the ".toList ++ q) = remove "the ".toList 0 q := fun q => by
    show remove _ 0 ('t' :: 'h' :: 'e' :: ' ' :: q) = _
    rw [remove, if_pos (by rfl)]
    rfl
  have h2 : ∀ q : Str, remove "the ".toList 0 ("a new ".toList ++ q) = "a new ".toList ++ remove "the ".toList 0 q := fun q => by
    show remove _ 0 ('a' :: ' ' :: 'n' :: 'e' :: 'w' :: ' ' :: q) = _
    rw [remove, if_neg (by show ¬ false = true; decide), remove, if_neg (by show ¬ false = true; decide), remove, if_neg (by show ¬ false = true; decide),
      remove, if_neg (by show ¬ false = true; decide), remove, if_neg (by show ¬ false = true; decide), remove, if_neg (by show ¬ false = true; decide)]
    rfl
  have h3 : ∀ q : Str, remove "a new ".toList 0 ("a new ".toList ++ q) = remove "a new ".toList 0 q := fun q => by
    show remove _ 0 ('a' :: ' ' :: 'n' :: 'e' :: 'w' :: ' ' :: q) = _
    rw [remove, if_pos (by rfl)]
    rfl
  exact ⟨by unfold prefixOf; rw [h1], by unfold prefixOf; rw [h2, h3]⟩

theorem plainLoop_snoc {w : World T E X} (n : Str) (x : X) : ∀ (items : List (Str × X)) (env : E),
    plainLoop w (items ++ [(n, x)]) env = (plainLoop w items env).bind (fun q => (w.tc x q.1.2).map (fun r => ((q.1.1 ++ [(n, r.1.1)], r.1.2), q.2 + r.2)))
  | [], env => by
    show plainLoop w [(n, x)] env = _
    rw [plainLoop, plainLoop, Option.bind_some]
    cases w.tc x env with
    | none => rfl
    | some r => simp [plainLoop]
  | (n', x') :: items, env => by
    show plainLoop w ((n', x') :: (items ++ [(n, x)])) env = _
    rw [plainLoop, plainLoop]
    cases w.tc x' env with
    | none => rfl
    | some r =>
      rw [Option.bind_some, Option.bind_some, plainLoop_snoc n x items]
      cases plainLoop w items r.1.2 with
      | none => rfl
      | some q =>
        rw [Option.map_some, Option.bind_some, Option.bind_some]
        dsimp only
        cases w.tc x q.1.2 with
        | none => rfl
        | some z => simp [Nat.add_assoc]

/-- **C97.**  For a record without a schema and for a completion record, each field is checked with what is known after the fields before it. -/
theorem c97_later {w : World T E X} {text : Str} {c : Chain (Str × X)} {n : Str} {x : X} {env0 : E} {r : RTy T} {e : Option E} {k : Nat} (hn : ¬ Named text) :
    construct w text (.more c (n, x)) env0 = some ((r, e), k) ↔
      ∃ schema fs e1 k1 t e2 k2, construct w text c env0 = some ((.record schema fs, some e1), k1) ∧ w.tc x e1 = some ((t, e2), k2) ∧
        r = .record schema (fs ++ [(n, t)]) ∧ e = some e2 ∧ k = k1 + k2 := by
  have hp : prefixOf text = "Record".toList ∨ prefixOf text = "Completion Record".toList := by
    refine Classical.byContradiction fun hc => hn ⟨fun e => hc (.inl e), fun e => hc (.inr e)⟩
  unfold construct
  rw [if_pos hp, if_pos hp, getFields, plainLoop_snoc]
  cases plainLoop w (getFields c) env0 with
  | none => exact ⟨fun h => (nomatch h), fun ⟨_, _, _, _, _, _, _, h, _⟩ => (nomatch h)⟩
  | some q =>
    obtain ⟨⟨fs, e1⟩, k1⟩ := q
    rw [Option.bind_some]
    constructor
    · intro h
      obtain ⟨⟨⟨fs', e'⟩, k'⟩, h, hz⟩ := Option.map_eq_some_iff.1 h
      obtain ⟨⟨⟨t, e2⟩, k2⟩, ht, hy⟩ := Option.map_eq_some_iff.1 h
      injection hz with hz hk
      injection hz with hz he
      injection hy with hy hk'
      injection hy with hy he'
      dsimp only at hz he hk hy he' hk' ht
      exact ⟨_, fs, e1, k1, t, e2, k2, rfl, ht, by rw [← hz, ← hy], by rw [← he, ← he'], by rw [← hk, ← hk']⟩
    · rintro ⟨schema, fs1, e1', k1', t, e2, k2, h, ht, rfl, rfl, rfl⟩
      injection h with h
      injection h with h hk
      injection h with h he
      injection h with hs hf
      injection he with he
      dsimp only at hs hf he hk
      subst hs; subst hf; subst he; subst hk
      dsimp only
      rw [ht]
      rfl

theorem plainLoop_right {w : World T E X} {S V : Type} {holds : E → S → Prop} {mem : T → V → Prop} {value : X → S → V → Prop} (R : Right w holds mem value) {s : S} :
    ∀ {items : List (Str × X)} {env env' : E} {fs : List (Str × T)}, plainLoop w items env = some ((fs, env'), 0) → holds env s →
      holds env' s ∧ Pairs (fun (i : Str × X) (f : Str × T) => f.1 = i.1 ∧ ∀ v, value i.2 s v → mem f.2 v) items fs
  | [], _, _, _, h, hs => by
    rw [plainLoop] at h
    injection h with h
    injection h with h _
    injection h with h h'
    subst h; subst h'
    exact ⟨hs, .nil⟩
  | (n, x) :: items, env, env', fs, h, hs => by
    rw [plainLoop, Option.bind_eq_some_iff] at h
    obtain ⟨⟨⟨t, e1⟩, k1⟩, h1, h⟩ := h
    obtain ⟨⟨⟨fs', e'⟩, k'⟩, hq, hz⟩ := Option.map_eq_some_iff.1 h
    injection hz with hz hk
    injection hz with hz he
    dsimp only at hk hz he hq
    obtain ⟨rfl, rfl⟩ : k1 = 0 ∧ k' = 0 := by omega
    obtain ⟨a1, a2⟩ := R.tc h1 hs
    obtain ⟨b1, b2⟩ := plainLoop_right R hq a1
    subst hz; subst he
    exact ⟨b1, .cons ⟨rfl, a2⟩ b2⟩

/-- **C97.**  For a record without a schema and for a completion record: if there is no message, the type has just the fields that are written, in their order, and each with a type to which
the value of its expression belongs; and what is found out about the variables is right. -/
theorem c97_plain {w : World T E X} {S V : Type} {holds : E → S → Prop} {mem : T → V → Prop} {value : X → S → V → Prop} (R : Right w holds mem value) {s : S}
    {text : Str} {fields : Chain (Str × X)} {items : List (Str × X)} (hi : Written fields items) {env0 : E} {r : RTy T} {e : Option E} (hn : ¬ Named text) (hs : holds env0 s)
    (h : construct w text fields env0 = some ((r, e), 0)) :
    ∃ schema fs e', r = .record schema fs ∧ e = some e' ∧ holds e' s ∧ (prefixOf text = "Record".toList ∧ schema = [] ∨ prefixOf text = "Completion Record".toList ∧ schema = prefixOf text) ∧
      Pairs (fun (i : Str × X) (f : Str × T) => f.1 = i.1 ∧ ∀ v, value i.2 s v → mem f.2 v) items fs := by
  have hp : prefixOf text = "Record".toList ∨ prefixOf text = "Completion Record".toList := by
    refine Classical.byContradiction fun hc => hn ⟨fun e => hc (.inl e), fun e => hc (.inr e)⟩
  have := written_unique hi (c97_fields fields)
  subst this
  unfold construct at h
  rw [if_pos hp] at h
  obtain ⟨⟨⟨fs, e'⟩, k⟩, hq, hz⟩ := Option.map_eq_some_iff.1 h
  injection hz with hz hk
  injection hz with hz he
  dsimp only at hk hz he
  subst hk; subst he; subst hz
  obtain ⟨b1, b2⟩ := plainLoop_right R hq hs
  refine ⟨_, fs, e', rfl, rfl, b1, ?_, b2⟩
  by_cases h1 : prefixOf text = "Record".toList
  · exact .inl ⟨h1, by rw [if_pos h1]⟩
  · exact .inr ⟨hp.resolve_left h1, by rw [if_neg h1]⟩

theorem schemaLoop_sound {w : World T E X} {info : Str → Option T} {env0 : E} : ∀ {items : List (Str × X)} {es : List E}, schemaLoop w info env0 items = some (es, 0) →
    Pairs (fun (i : Str × X) e => ∃ t, info i.1 = some t ∧ w.ensure env0 i.2 t = some (e, 0)) items es
  | [], _, h => by
    rw [schemaLoop] at h
    injection h with h
    injection h with h _
    subst h
    exact .nil
  | (n, x) :: items, es, h => by
    rw [schemaLoop, Option.bind_eq_some_iff] at h
    obtain ⟨t, ht, h⟩ := h
    obtain ⟨⟨e1, k1⟩, h1, h⟩ := Option.bind_eq_some_iff.1 h
    obtain ⟨⟨es', k'⟩, hq, hz⟩ := Option.map_eq_some_iff.1 h
    injection hz with hz hk
    dsimp only at hk hz
    obtain ⟨rfl, rfl⟩ : k1 = 0 ∧ k' = 0 := by omega
    subst hz
    exact .cons ⟨t, ht, h1⟩ (schemaLoop_sound hq)

theorem schemaLoop_complete {w : World T E X} {info : Str → Option T} {env0 : E} : ∀ {items : List (Str × X)}, (∀ i ∈ items, Accepted w info env0 i) →
    ∃ es, schemaLoop w info env0 items = some (es, 0) ∧ es.length = items.length
  | [], _ => ⟨[], rfl, rfl⟩
  | (n, x) :: items, h => by
    obtain ⟨t, e, ht, he⟩ := h _ (.head _)
    obtain ⟨es, hes, hl⟩ := schemaLoop_complete (items := items) (fun i hi => h i (.tail _ hi))
    exact ⟨e :: es, by rw [schemaLoop, ht, Option.bind_some, he, Option.bind_some, hes]; rfl, by rw [List.length_cons, hl, List.length_cons]⟩

theorem written_ne {α : Type} {c : Chain α} {l : List α} (h : Written c l) : l ≠ [] := by
  cases h <;> simp

theorem forall₂_mem {α β : Type} {P : α → β → Prop} {l : List α} {m : List β} (h : Pairs P l m) {a : α} (ha : a ∈ l) : ∃ b ∈ m, P a b := by
  induction h with
  | nil => exact nomatch ha
  | cons hp _ ih =>
    rcases List.mem_cons.1 ha with rfl | ha
    · exact ⟨_, .head _, hp⟩
    · obtain ⟨b, hb, h⟩ := ih ha
      exact ⟨b, .tail _ hb, h⟩

/-- **C97.**  For a record with a schema: if there is no message, the type is the one of that name, each field is declared for it and the value of its expression belongs to the declared type,
and what is found out about the variables is right. -/
theorem c97_schema {w : World T E X} {S V : Type} {holds : E → S → Prop} {mem : T → V → Prop} {value : X → S → V → Prop} (R : Right w holds mem value) {s : S}
    {text : Str} {fields : Chain (Str × X)} {items : List (Str × X)} (hi : Written fields items) {env0 : E} {r : RTy T} {e : Option E} (hn : Named text) (hs : holds env0 s)
    (h : construct w text fields env0 = some ((r, e), 0)) :
    r = .named (typeName (prefixOf text)) ∧ (∃ e', e = some e' ∧ holds e' s) ∧
      ∃ info, w.table (typeName (prefixOf text)) = some info ∧ ∀ i ∈ items, ∃ t, info i.1 = some t ∧ ∀ v, value i.2 s v → mem t v := by
  have := written_unique hi (c97_fields fields)
  subst this
  unfold construct at h
  rw [if_neg (fun hp => hp.elim hn.1 hn.2), Option.bind_eq_some_iff] at h
  obtain ⟨info, hinfo, h⟩ := h
  obtain ⟨⟨es, k⟩, hq, h⟩ := Option.bind_eq_some_iff.1 h
  obtain ⟨e1, ho, hz⟩ := Option.map_eq_some_iff.1 h
  injection hz with hz hk
  injection hz with hz he
  dsimp only at hk hz he ho
  subst hk; subst he; subst hz
  have hf := schemaLoop_sound hq
  refine ⟨rfl, ?_, info, hinfo, fun i hi' => ?_⟩
  · cases hg : getFields fields with
    | nil => exact absurd hg (written_ne hi)
    | cons i l =>
      obtain ⟨b, hb, t, ht, hb'⟩ := forall₂_mem hf (a := i) (by rw [hg]; exact .head _)
      exact R.orOf ho hb (R.ensure hb' hs).1
  · obtain ⟨b, hb, t, ht, hb'⟩ := forall₂_mem hf hi'
    exact ⟨t, ht, (R.ensure hb' hs).2⟩

/-- **C97.**  A field that is not declared, or a name that is not in the table, ends in an exception: no type is given. -/
theorem c97_undeclared {w : World T E X} {text : Str} {fields : Chain (Str × X)} {items : List (Str × X)} (hi : Written fields items) {env0 : E} (hn : Named text)
    (h : ∀ info, w.table (typeName (prefixOf text)) = some info → ∃ i ∈ items, info i.1 = none) : construct w text fields env0 = none := by
  have := written_unique hi (c97_fields fields)
  subst this
  unfold construct
  rw [if_neg (fun hp => hp.elim hn.1 hn.2)]
  cases ht : w.table (typeName (prefixOf text)) with
  | none => rfl
  | some info =>
    obtain ⟨i, hi', hno⟩ := h info ht
    have hl : ∀ items : List (Str × X), i ∈ items → schemaLoop w info env0 items = none := by
      intro items
      induction items with
      | nil => exact fun h => nomatch h
      | cons j l ih =>
        intro hm
        rw [schemaLoop]
        rcases List.mem_cons.1 hm with rfl | hm
        · rw [hno]; rfl
        · rw [ih hm]
          cases info j.1 with
          | none => rfl
          | some t =>
            rw [Option.bind_some]
            cases w.ensure env0 j.2 t <;> rfl
    rw [Option.bind_some, hl _ hi']
    rfl

/-- **C97, departure.**  That each declared field is given just once is not checked: whatever fields are accepted, each constructor that is written with some of them, in any order and
with any number of repetitions, is accepted without a message. -/
theorem c97_incomplete {w : World T E X} (hor : ∀ es, (w.orOf es).isSome = true) {text : Str} (hn : Named text) {info : Str → Option T}
    (hinfo : w.table (typeName (prefixOf text)) = some info) {env0 : E} {fields : Chain (Str × X)} {items : List (Str × X)} (hi : Written fields items)
    (ha : ∀ i ∈ items, Accepted w info env0 i) : ∃ e, construct w text fields env0 = some ((.named (typeName (prefixOf text)), e), 0) := by
  have := written_unique hi (c97_fields fields)
  subst this
  obtain ⟨es, hes, _⟩ := schemaLoop_complete ha
  obtain ⟨e, he⟩ := Option.isSome_iff_exists.1 (hor es)
  refine ⟨e, ?_⟩
  unfold construct
  rw [if_neg (fun hp => hp.elim hn.1 hn.2), hinfo, Option.bind_some, hes, Option.bind_some]
  dsimp only
  rw [he]
  rfl

/-- **C97.**  For each name that can be written, the type is the one that is meant. -/
theorem c97_names : ∀ p ∈ grammarNames, Named p.1 ∧ typeName (prefixOf p.1) = p.2 := by
  unfold Named
  decide +kernel

/-! ## Examples -/

/-- A world with two types (false: number, true: text), one variable that can be of either type, constants and the variable as expressions.
An environment is the list of types that the variable can have. -/
inductive Ex0 where
  | const (t : Bool)
  | var

def world0 : World Bool (List Bool) Ex0 where
  tc | .const t, e => some ((t, e), 0)
     | .var, [t] => some ((t, [t]), 0)
     | .var, e => some ((true, e), 1)
  ensure e | .const t', t => some (e, if t' = t then 0 else 1)
           | .var, t => some ([t], if e.all (· == t) then 0 else 1)
  orOf | [] => some none
       | es => some (some es.flatten)
  table n := if n = "Property Descriptor".toList then some (fun f => if f = "V".toList then some true else if f = "W".toList then some false else none) else none

def holds0 (e : List Bool) (s : Bool) : Prop := s ∈ e
def value0 : Ex0 → Bool → Bool → Prop
  | .const t, _, v => v = t
  | .var, s, v => v = s

theorem right0 : Right world0 holds0 (fun t v => v = t) value0 where
  tc := by
    intro x env t env' s h hs
    cases x with
    | const t' =>
      injection h with h; injection h with h _; injection h with h1 h2
      subst h1; subst h2
      exact ⟨hs, fun v hv => hv⟩
    | var =>
      match env, h, hs with
      | [], _, hs => exact nomatch hs
      | [t'], h, hs =>
        injection h with h; injection h with h _; injection h with h1 h2
        subst h1; subst h2
        exact ⟨hs, fun v hv => hv.trans (List.mem_singleton.1 hs)⟩
      | a :: b :: l, h, _ => injection h with h; injection h with _ h; exact nomatch h
  ensure := by
    intro x env t env' s h hs
    cases x with
    | const t' =>
      injection h with h; injection h with h1 h2
      subst h1
      refine ⟨hs, fun v hv => ?_⟩
      by_cases he : t' = t
      · exact hv.trans he
      · rw [if_neg he] at h2; exact nomatch h2
    | var =>
      injection h with h; injection h with h1 h2
      subst h1
      have ha : env.all (· == t) = true := by
        refine Classical.byContradiction fun hn => ?_
        rw [if_neg hn] at h2; exact nomatch h2
      have he : s = t := by simpa using List.all_eq_true.1 ha s hs
      exact ⟨by rw [he]; exact .head _, fun v hv => hv.trans he⟩
  orOf := by
    intro es r e s h he hs
    cases es with
    | nil => exact nomatch he
    | cons a l =>
      injection h with h
      subst h
      exact ⟨_, rfl, List.mem_flatten.2 ⟨e, he, hs⟩⟩

def fields0 : Chain (Str × Ex0) := .more (.one ("V".toList, .var)) ("W".toList, .const false)

example : Named "a new PropertyDescriptor".toList := by unfold Named; decide +kernel
example : construct world0 "the PropertyDescriptor".toList fields0 [true] = some ((.named "Property Descriptor".toList, some [true, true]), 0) := by decide +kernel
example : construct world0 "Record".toList fields0 [true] = some ((.record [] [("V".toList, true), ("W".toList, false)], some [true]), 0) := by decide +kernel
example : construct world0 "Completion Record".toList fields0 [true] = some ((.record "Completion Record".toList [("V".toList, true), ("W".toList, false)], some [true]), 0) := by decide +kernel
/-- A wrong type gives a message. -/
example : construct world0 "PropertyDescriptor".toList fields0 [false] = some ((.named "Property Descriptor".toList, some [true, false]), 1) := by decide +kernel
/-- A field is not declared. -/
example : construct world0 "PropertyDescriptor".toList (.more fields0 ("U".toList, .var)) [true] = none := by decide +kernel
/-- A field is missing, and the other is given twice with different values. -/
example : construct world0 "PropertyDescriptor".toList (.more (.one ("W".toList, .const false)) ("W".toList, .const false)) [true] = some ((.named "Property Descriptor".toList, some [true, true]), 0) := by decide +kernel
example : exesInExlistOpt (some (.more (.more (.one 1) 2) 3)) = [1, 2, 3] := by decide
example : typeName (prefixOf "a new ReadSharedMemory".toList) = "ReadSharedMemory Event".toList := by decide +kernel

end Verif.Recs
