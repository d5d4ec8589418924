import Verif.Objs.AttrLemmas
import Verif.Propsecs.Props
import Verif.Blocks.Spec
/-!
# C90: what the blocks of a section about a property or a constructor say
-/
namespace Verif.Blocks
open Verif.Facts (Fact)
open Verif.Propsecs (Ref Msg checkFunction c88_check agrees_iff starts_iff)
open Verif.Propsecs.Spec (Agrees NameMsg WhatMsg Starts)
open Verif.Paths (confirms)
open Verif.Objs (attrFields putAll attrs_iff dict_putAll same_entries firsts_nodup)
open Verif.Objs.Spec (Attrs Dict)
open Spec

theorem dict_nil : Dict [] [] := by
  refine ⟨.nil, fun k v => ?_⟩
  constructor
  · intro h; cases h
  · rintro ⟨a, b, e, _⟩; simp at e

theorem dict_unique {ps d e : List (Str × Str)} (hd : Dict ps d) (he : Dict ps e) : d = e := by
  refine same_entries ?_ (firsts_nodup hd.1) (fun x v => by rw [hd.2, he.2])
  rw [← Preambles.firsts_iff.1 hd.1, ← Preambles.firsts_iff.1 he.1]

theorem dict_all (ps d : List (Str × Str)) : Dict ps d ↔ d = putAll [] ps := by
  have h : Dict ps (putAll [] ps) := dict_putAll (ps := []) dict_nil
  constructor
  · intro hd; exact dict_unique hd h
  · rintro rfl; exact h

theorem dict_two (g s : Str) (ps d : List (Str × Str)) : Dict (("[[Getter]]".toList, g) :: ("[[Setter]]".toList, s) :: ps) d ↔ d = putAll [("[[Getter]]".toList, g), ("[[Setter]]".toList, s)] ps := by
  rw [dict_all]
  rfl

theorem has_iff (c : Ctx) (as : List (Str × Str)) (fs : List Fact) : Has c as fs ↔ fs = propertyHas c as := by
  unfold propertyHas
  constructor
  · intro h
    cases h with
    | none h => rw [h]
    | some h => rw [h]
  · intro h
    cases hp : c.property with
    | none => rw [hp] at h; rw [h]; exact .none hp
    | some q => obtain ⟨k, n⟩ := q; rw [hp] at h; rw [h]; exact .some hp

theorem checked_iff (c : Ctx) (r : Ref) (ms : List Msg) : Checked c r ms ↔ check c r = some ms := (c88_check _ _ _ _ _).symm

/-- A check and then facts about the object. -/
theorem check_object (c : Ctx) (r : Ref) (f : Str → List Fact) (fs : List Fact) (ms : List Msg) :
    (check c r).bind (fun ms => c.object.map (fun o => (f o, ms))) = some (fs, ms) ↔ Checked c r ms ∧ ∃ o, c.object = some o ∧ fs = f o := by
  rw [checked_iff]
  simp only [Option.bind_eq_some_iff, Option.map_eq_some_iff, Prod.mk.injEq]
  constructor
  · rintro ⟨m, h1, o, h2, rfl, rfl⟩; exact ⟨h1, o, h2, rfl⟩
  · rintro ⟨h1, o, h2, rfl⟩; exact ⟨ms, h1, o, h2, rfl, rfl⟩

theorem only_object (c : Ctx) (f : Str → List Fact) (fs : List Fact) (ms : List Msg) :
    c.object.map (fun o => (f o, ([] : List Msg))) = some (fs, ms) ↔ ms = [] ∧ ∃ o, c.object = some o ∧ fs = f o := by
  simp only [Option.map_eq_some_iff, Prod.mk.injEq]
  constructor
  · rintro ⟨o, h2, rfl, rfl⟩; exact ⟨rfl, o, h2, rfl⟩
  · rintro ⟨rfl, o, h2, rfl⟩; exact ⟨o, h2, rfl, rfl⟩

/-- C90: what a block says, and that it is refused otherwise. -/
theorem c90_block (c : Ctx) (b : Block) (fs : List Fact) (ms : List Msg) : block c b = some (fs, ms) ↔ Says c b fs ms := by
  have hh : ∀ as, Has c as (propertyHas c as) := fun as => (has_iff c as _).2 rfl
  cases b with
  | accessor t =>
    unfold block
    dsimp only
    by_cases ha : confirms c.property t = true
    · rw [if_pos ha, only_object c (fun o => propertyHas c [("[[Getter]]".toList, o), ("[[Setter]]".toList, "*undefined*".toList)] ++ definesFunction c o "emu-alg")]
      constructor
      · rintro ⟨rfl, o, h, rfl⟩; exact .accessor ((agrees_iff _ _).1 ha) h (hh _)
      · intro h; cases h with | accessor _ ho hf => exact ⟨rfl, _, ho, by rw [(has_iff _ _ _).1 hf]; rfl⟩
    · rw [if_neg ha]
      constructor
      · intro h; cases h
      · intro h; cases h with | accessor h => exact absurd ((agrees_iff _ _).2 h) ha
  | pair as =>
    unfold block
    dsimp only
    constructor
    · intro h
      by_cases hs : c.shape = "p".toList ∨ c.shape = "p emu-note".toList
      · rw [if_pos hs] at h
        split at h
        · rename_i g s hc
          by_cases hg : ("get ".toList.isPrefixOf g && "set ".toList.isPrefixOf s) = true
          · rw [if_pos hg] at h
            obtain ⟨ps, hp, e⟩ := Option.map_eq_some_iff.1 h
            cases e
            rw [Bool.and_eq_true] at hg
            exact .pair (by rcases hs with e | e <;> rw [e] <;> simp) hc (starts_iff.1 hg.1) (starts_iff.1 hg.2) (attrs_iff.1 hp) ((dict_two _ _ _ _).2 rfl) (hh _)
          · rw [if_neg hg] at h; cases h
        · cases h
      · rw [if_neg hs] at h; cases h
    · intro h
      cases h with
      | pair hs hc hg hs' ha hd hf =>
        rename_i g s ps d
        rw [if_pos (by simpa using hs), hc]
        dsimp only
        rw [if_pos (by rw [Bool.and_eq_true]; exact ⟨starts_iff.2 hg, starts_iff.2 hs'⟩), attrs_iff.2 ha, (has_iff _ _ _).1 hf, (dict_two _ _ _ _).1 hd]
        rfl
  | half n =>
    unfold block
    dsimp only
    rw [only_object c (fun o => propertyHas c [(n, o)] ++ definesFunction c o "emu-alg")]
    constructor
    · rintro ⟨rfl, o, h, rfl⟩; exact .half h (hh _)
    · intro h; cases h with | half ho hf => exact ⟨rfl, _, ho, by rw [(has_iff _ _ _).1 hf]; rfl⟩
  | steps r =>
    unfold block
    dsimp only
    rw [check_object c r (fun o => isValue c o "emu-alg")]
    constructor
    · rintro ⟨hc, o, h, rfl⟩; exact .steps hc h (hh _)
    · intro h; cases h with | steps hc ho hf => exact ⟨hc, _, ho, by rw [(has_iff _ _ _).1 hf]; rfl⟩
  | alg =>
    unfold block
    dsimp only
    rw [only_object c (fun o => isValue c o "emu-alg")]
    constructor
    · rintro ⟨rfl, o, h, rfl⟩; exact .alg h (hh _)
    · intro h; cases h with | alg ho hf => exact ⟨rfl, _, ho, by rw [(has_iff _ _ _).1 hf]; rfl⟩
  | prose r =>
    unfold block
    dsimp only
    rw [check_object c r (fun o => isValue c o "prose")]
    constructor
    · rintro ⟨hc, o, h, rfl⟩; exact .prose hc h (hh _)
    · intro h; cases h with | prose hc ho hf => exact ⟨hc, _, ho, by rw [(has_iff _ _ _).1 hf]; rfl⟩
  | distinct =>
    unfold block
    dsimp only
    rw [only_object c (fun o => isValue c o "prose")]
    constructor
    · rintro ⟨rfl, o, h, rfl⟩; exact .distinct h (hh _)
    · intro h; cases h with | distinct ho hf => exact ⟨rfl, _, ho, by rw [(has_iff _ _ _).1 hf]; rfl⟩
  | created t =>
    unfold block
    dsimp only
    by_cases ha : confirms c.property t = true
    · rw [if_pos ha, only_object c (fun o => propertyHas c [("[[Value]]".toList, o)] ++ [Fact.exists o])]
      constructor
      · rintro ⟨rfl, o, h, rfl⟩; exact .created ((agrees_iff _ _).1 ha) h (hh _)
      · intro h; cases h with | created _ ho hf => exact ⟨rfl, _, ho, by rw [(has_iff _ _ _).1 hf]⟩
    · rw [if_neg ha]
      constructor
      · intro h; cases h
      · intro h; cases h with | created h => exact absurd ((agrees_iff _ _).2 h) ha
  | value t v =>
    unfold block
    dsimp only
    by_cases ha : confirms c.property t = true
    · rw [if_pos ha]
      constructor
      · intro h; cases h; exact .value ((agrees_iff _ _).1 ha) (hh _)
      · intro h; cases h with | value _ hf => rw [(has_iff _ _ _).1 hf]
    · rw [if_neg ha]
      constructor
      · intro h; cases h
      · intro h; cases h with | value h => exact absurd ((agrees_iff _ _).2 h) ha
  | number v =>
    unfold block
    dsimp only
    constructor
    · intro h; cases h; exact .number (hh _)
    · intro h; cases h with | number hf => rw [(has_iff _ _ _).1 hf]
  | attrs as =>
    unfold block
    dsimp only
    rw [Option.map_eq_some_iff]
    constructor
    · rintro ⟨ps, hp, e⟩; cases e; exact .attrs (attrs_iff.1 hp) ((dict_all _ _).2 rfl) (hh _)
    · intro h; cases h with | attrs hp hd hf => exact ⟨_, attrs_iff.2 hp, by rw [(has_iff _ _ _).1 hf, (dict_all _ _).1 hd]⟩
  | subValue r sub v =>
    unfold block
    dsimp only
    rw [check_object c r (fun o => [.prop o sub [("[[Value]]".toList, v)]])]
    constructor
    · rintro ⟨hc, o, h, rfl⟩; exact .subValue hc h
    · intro h; cases h with | subValue hc ho => exact ⟨hc, _, ho, rfl⟩
  | subAttrs r sub as =>
    unfold block
    dsimp only
    simp only [Option.bind_eq_some_iff, Option.map_eq_some_iff, Prod.mk.injEq]
    constructor
    · rintro ⟨m, h1, ps, hp, o, h2, rfl, rfl⟩; exact .subAttrs ((checked_iff _ _ _).2 h1) h2 (attrs_iff.1 hp) ((dict_all _ _).2 rfl)
    · intro h; cases h with | subAttrs hc ho hp hd => exact ⟨_, (checked_iff _ _ _).1 hc, _, attrs_iff.2 hp, _, ho, by rw [(dict_all _ _).1 hd], rfl⟩
  | anonymous =>
    unfold block
    dsimp only
    rw [only_object c (fun o => [.prop o "*\"name\"*".toList [("[[Value]]".toList, "*\"\"*".toList)]])]
    constructor
    · rintro ⟨rfl, o, h, rfl⟩; exact .anonymous h
    · intro h; cases h with | anonymous ho => exact ⟨rfl, _, ho, rfl⟩
  | slot r n v =>
    unfold block
    dsimp only
    rw [check_object c r (fun o => [.slot o n v])]
    constructor
    · rintro ⟨hc, o, h, rfl⟩; exact .slot hc h
    · intro h; cases h with | slot hc ho => exact ⟨hc, _, ho, rfl⟩
  | named r p =>
    unfold block
    dsimp only
    rw [check_object c r (fun o => [.aka o p])]
    constructor
    · rintro ⟨hc, o, h, rfl⟩; exact .named hc h
    · intro h; cases h with | named hc ho => exact ⟨hc, _, ho, rfl⟩
  | generic r =>
    unfold block
    dsimp only
    rw [Option.map_eq_some_iff]
    constructor
    · rintro ⟨m, h, e⟩; cases e; exact .generic ((checked_iff _ _ _).2 h)
    · intro h; cases h with | generic hc => exact ⟨_, (checked_iff _ _ _).1 hc, rfl⟩
  | silent =>
    unfold block
    constructor
    · intro h; cases h; exact .silent
    · intro h; cases h; rfl

/-- C90: what the blocks of a section say, in their order, whatever they are. -/
theorem c90_blocks (c : Ctx) : ∀ (bs : List Block) (fs : List Fact) (ms : List Msg), blocks c bs = some (fs, ms) ↔ SayAll c bs fs ms
  | [], fs, ms => by
    constructor
    · intro h; cases h; exact .nil
    · intro h; cases h; rfl
  | b :: bs, fs, ms => by
    rw [blocks]
    simp only [Option.bind_eq_some_iff, Option.map_eq_some_iff]
    constructor
    · rintro ⟨⟨fs1, ms1⟩, h1, ⟨fs2, ms2⟩, h2, e⟩
      cases e
      exact .cons ((c90_block _ _ _ _).1 h1) ((c90_blocks c bs _ _).1 h2)
    · intro h
      cases h with
      | cons h1 h2 => exact ⟨(_, _), (c90_block _ _ _ _).2 h1, (_, _), (c90_blocks c bs _ _).2 h2, rfl⟩

/-- A fact is about the section's object, or gives attributes of its property. -/
def Own (c : Ctx) (f : Fact) : Prop := c.object = some (Facts.Spec.subject f) ∨ ∃ k n as, c.property = some (k, n) ∧ f = .prop k n as

theorem has_own {c : Ctx} {as : List (Str × Str)} {fs : List Fact} (h : Has c as fs) : ∀ f ∈ fs, Own c f := by
  intro f hf
  cases h with
  | none => cases hf
  | some h => rw [List.mem_singleton.1 hf]; exact .inr ⟨_, _, _, h, rfl⟩

theorem function_own {c : Ctx} {o : Str} (h : c.object = some o) (how : String) : ∀ f ∈ function o c.sid how, Own c f := by
  intro f hf
  unfold function at hf
  simp only [List.mem_cons, List.not_mem_nil, or_false] at hf
  rcases hf with rfl | rfl <;> exact .inl h

theorem both_own {c : Ctx} {fs gs : List Fact} (h1 : ∀ f ∈ fs, Own c f) (h2 : ∀ f ∈ gs, Own c f) : ∀ f ∈ fs ++ gs, Own c f := by
  intro f hf
  rcases List.mem_append.1 hf with h | h
  · exact h1 f h
  · exact h2 f h

theorem says_own {c : Ctx} {b : Block} {fs : List Fact} {ms : List Msg} (h : Says c b fs ms) : ∀ f ∈ fs, Own c f := by
  have one : ∀ {g : Fact}, c.object = some (Facts.Spec.subject g) → ∀ f ∈ [g], Own c f := by
    intro g hg f hf
    rw [List.mem_singleton.1 hf]; exact .inl hg
  cases h with
  | accessor _ ho hf => exact both_own (has_own hf) (function_own ho _)
  | pair _ _ _ _ _ _ hf => exact has_own hf
  | half ho hf => exact both_own (has_own hf) (function_own ho _)
  | steps _ ho hf => exact both_own (has_own hf) (function_own ho _)
  | alg ho hf => exact both_own (has_own hf) (function_own ho _)
  | prose _ ho hf => exact both_own (has_own hf) (function_own ho _)
  | distinct ho hf => exact both_own (has_own hf) (function_own ho _)
  | created _ ho hf => exact both_own (has_own hf) (one ho)
  | value _ hf => exact has_own hf
  | number hf => exact has_own hf
  | attrs _ _ hf => exact has_own hf
  | subValue _ ho => exact one ho
  | subAttrs _ ho => exact one ho
  | anonymous ho => exact one ho
  | slot _ ho => exact one ho
  | named _ ho => exact one ho
  | generic => intro f hf; cases hf
  | silent => intro f hf; cases hf

/-- C90: whatever its blocks are, a section says something about its own object and property only; without an object it only gives attributes of the property, and without a property it only
speaks about the object. -/
theorem c90_own (c : Ctx) (bs : List Block) (fs : List Fact) (ms : List Msg) (h : blocks c bs = some (fs, ms)) (f : Fact) (hf : f ∈ fs) : Own c f := by
  have ha := (c90_blocks c bs fs ms).1 h
  clear h
  induction ha with
  | nil => cases hf
  | cons h1 h2 ih =>
    rcases List.mem_append.1 hf with hf | hf
    · exact says_own h1 f hf
    · exact ih hf

theorem has_fact {c : Ctx} {as : List (Str × Str)} {fs : List Fact} {k n : Str} (hp : c.property = some (k, n)) (h : Has c as fs) : .prop k n as ∈ fs := by
  cases h with
  | none h => rw [hp] at h; cases h
  | some h => rw [hp] at h; cases h; exact List.mem_singleton.2 rfl

theorem has_no {c : Ctx} {as : List (Str × Str)} {fs : List Fact} {o w : Str} (h : Has c as fs) : .is o w ∉ fs := by
  intro hm
  cases h with
  | none => cases hm
  | some => exact nomatch List.mem_singleton.1 hm

/-- C90: if the section has a property, then its object is said to be a function only where the object is also made the value of an attribute of the property. -/
theorem c90_function (c : Ctx) (bs : List Block) (fs : List Fact) (ms : List Msg) (h : blocks c bs = some (fs, ms)) (o w k n : Str) (hf : .is o w ∈ fs) (hp : c.property = some (k, n)) :
    ∃ a as, .prop k n as ∈ fs ∧ (a, o) ∈ as := by
  have ha := (c90_blocks c bs fs ms).1 h
  clear h
  have key : ∀ {as : List (Str × Str)} {fs : List Fact} {p : Str} {how : String} {a : Str}, Has c as fs → .is o w ∈ fs ++ function p c.sid how → (a, p) ∈ as →
      ∃ a as, .prop k n as ∈ fs ++ function p c.sid how ∧ (a, o) ∈ as := by
    intro as fs p how a hh hm ha
    rcases List.mem_append.1 hm with h | h
    · exact absurd h (has_no hh)
    · unfold function at h
      simp only [List.mem_cons, List.not_mem_nil, or_false, Fact.is.injEq, reduceCtorEq] at h
      rw [h.1]
      exact ⟨a, as, List.mem_append_left _ (has_fact hp hh), ha⟩
  induction ha with
  | nil => cases hf
  | @cons b bs fs1 ms1 gs ns h1 h2 ih =>
    rcases List.mem_append.1 hf with hf | hf
    · have : ∃ a as, Fact.prop k n as ∈ fs1 ∧ (a, o) ∈ as := by
        cases h1 with
        | accessor _ _ hh => exact key (a := "[[Getter]]".toList) hh hf (.head _)
        | pair _ _ _ _ _ _ hh => exact absurd hf (has_no hh)
        | half _ hh => exact key hh hf (.head _)
        | steps _ _ hh => exact key (a := "[[Value]]".toList) hh hf (.head _)
        | alg _ hh => exact key (a := "[[Value]]".toList) hh hf (.head _)
        | prose _ _ hh => exact key (a := "[[Value]]".toList) hh hf (.head _)
        | distinct _ hh => exact key (a := "[[Value]]".toList) hh hf (.head _)
        | created _ _ hh =>
          rcases List.mem_append.1 hf with h | h
          · exact absurd h (has_no hh)
          · exact nomatch List.mem_singleton.1 h
        | value _ hh => exact absurd hf (has_no hh)
        | number hh => exact absurd hf (has_no hh)
        | attrs _ _ hh => exact absurd hf (has_no hh)
        | subValue => exact nomatch List.mem_singleton.1 hf
        | subAttrs => exact nomatch List.mem_singleton.1 hf
        | anonymous => exact nomatch List.mem_singleton.1 hf
        | slot => exact nomatch List.mem_singleton.1 hf
        | named => exact nomatch List.mem_singleton.1 hf
        | generic => cases hf
        | silent => cases hf
      obtain ⟨a, as, h, h'⟩ := this
      exact ⟨a, as, List.mem_append_left _ h, h'⟩
    · obtain ⟨a, as, h, h'⟩ := ih hf
      exact ⟨a, as, List.mem_append_right _ h, h'⟩

/-! ## Cases -/

def exCtx : Ctx :=
  { property := some ("Map.prototype".toList, "*\"get\"*".toList), object := some "Map.prototype.get".toList, title := "Map.prototype.get ( _key_ )".toList, sid := "sec-map.prototype.get".toList,
    shape := "p emu-alg p".toList, children := [] }

/-- A method, with a value for its `length`. -/
theorem ex_blocks : blocks exCtx [.steps ⟨none, none, none, none, some "method".toList⟩, .silent, .subValue ⟨none, none, none, none, some "function".toList⟩ "*\"length\"*".toList "*1*".toList] =
    some ([.prop "Map.prototype".toList "*\"get\"*".toList [("[[Value]]".toList, "Map.prototype.get".toList)], .is "Map.prototype.get".toList "a function object".toList,
      .slot "Map.prototype.get".toList "[[ccb]]".toList "emu-alg in sec-map.prototype.get".toList, .prop "Map.prototype.get".toList "*\"length\"*".toList [("[[Value]]".toList, "*1*".toList)]],
      [.expectedMethod "function".toList]) := by decide +kernel

example := c90_function exCtx _ _ _ ex_blocks _ "a function object".toList _ _ (.tail _ (.head _)) rfl

/-- An accessor with both functions in sections of their own, and attributes. -/
example : block { exCtx with shape := "p".toList, children := ["get X.y".toList, "set X.y".toList], property := some ("X".toList, "*\"y\"*".toList) } (.pair "{ [[Enumerable]]: *false* }".toList) =
      some ([.prop "X".toList "*\"y\"*".toList [("[[Getter]]".toList, "get X.y".toList), ("[[Setter]]".toList, "set X.y".toList), ("[[Enumerable]]".toList, "*false*".toList)]], []) ∧
    block { exCtx with object := none } .alg = none ∧
    block exCtx (.value "`Map.prototype.set`".toList "*1*".toList) = none ∧
    blocks { exCtx with property := none, object := none } [.number "x".toList, .silent] = some ([], []) := by decide +kernel

end Verif.Blocks
