import Verif.Objs.Chars
/-!
# What an item says
-/
namespace Verif.Objs
open Verif.Kinds (Rx full lit plus cat any w dot Matches full_iff)
open Verif.Preambles (after after_iff)
open Verif.Paths.Spec (Word)
open Verif.Kinds.Spec (Line Some' NoTags)
open Spec

variable {subject sid : Str}

theorem plain_eq (subject sid : Str) : plain subject sid = fixed.map (fun e => (e.1, e.2.map (Word'.fact subject sid))) := rfl

theorem prop_sound {t : Str} {fs : List Fact} (h : propItem subject t = some fs) : Says subject sid t fs := by
  unfold propItem at h
  cases hp : propHead t with
  | some q =>
    obtain ⟨n, v⟩ := q
    rw [hp] at h
    dsimp only at h
    obtain ⟨hd, h1, rfl⟩ := (propHead_iff _ _ _).1 hp
    cases hg : greedy valueAttrs [] v with
    | some q =>
      obtain ⟨u, b⟩ := q
      rw [hg] at h
      dsimp only at h
      obtain ⟨a, h2, h3, rfl⟩ := (attrs_greedy _ _ _).1 hg
      obtain ⟨gs, h4, rfl⟩ := Option.map_eq_some_iff.1 h
      exact .prop h1 h2 h3 (attrs_iff.1 h4) (dict_iff.2 rfl)
    | none =>
      rw [hg] at h
      dsimp only at h
      obtain ⟨u, h2, rfl⟩ := Option.map_eq_some_iff.1 h
      obtain ⟨h3, rfl⟩ := (valueOnly_iff _ _).1 h2
      rw [← List.append_assoc]
      exact .value h1 h3 ((attrs_none _).1 hg)
  | none =>
    rw [hp] at h
    dsimp only at h
    obtain ⟨n, h2, rfl⟩ := Option.map_eq_some_iff.1 h
    obtain ⟨x, e, h3, h4, rfl, rfl⟩ := (global_iff _ _).1 h2
    exact .global h3 h4

theorem item_sound {t : Str} {fs : List Fact} (h : item subject sid t = some fs) : Says subject sid t fs := by
  unfold item at h
  cases ha : akaItem t with
  | some n =>
    rw [ha] at h
    obtain rfl := Option.some.inj h
    obtain ⟨h1, rfl | ⟨a, h2, h3, rfl⟩⟩ := (aka_iff _ _).1 ha
    · exact .aka h1
    · exact .see h1 h2 h3
  | none =>
    rw [ha] at h
    dsimp only at h
    cases hf : fixed.find? (fun e => decide (e.1.toList = t)) with
    | some e =>
      rw [hf] at h
      obtain rfl := Option.some.inj h
      have h1 := List.mem_of_find?_eq_some hf
      have h2 := List.find?_some hf
      simp only [decide_eq_true_eq] at h2
      subst h2
      exact .plain (by rw [plain_eq]; exact List.mem_map_of_mem (f := fun e : String × List Word' => (e.1, e.2.map (Word'.fact subject sid))) h1)
    | none =>
      rw [hf] at h
      dsimp only at h
      split at h
      · rename_i hc
        obtain rfl := Option.some.inj h
        obtain ⟨ps, h1, h2⟩ := (sameAll_any creating_same t).1 hc
        exact .creates h1 h2
      · cases hs : slotItem t with
        | some q =>
          obtain ⟨n, v⟩ := q
          rw [hs] at h
          obtain rfl := Option.some.inj h
          obtain ⟨hd, x, h1, h2, rfl, h3, rfl⟩ := (slot_iff _ _ _).1 hs
          exact .slot h1 h2 h3
        | none =>
          rw [hs] at h
          dsimp only at h
          split at h
          · rename_i hc
            obtain rfl := Option.some.inj h
            obtain ⟨ps, h1, h2⟩ := (sameAll_any silent_same t).1 hc
            exact .silent h1 h2
          · cases hn : notItem t with
            | some x =>
              rw [hn] at h
              dsimp only at h
              split at h
              · cases h
              · rename_i hx
                obtain rfl := Option.some.inj h
                obtain ⟨hd, h1, h2, ps, h3, r, h4, rfl⟩ := (not_iff _ _).1 hn
                exact .isNot h1 h2 hx h3 h4
            | none =>
              rw [hn] at h
              exact prop_sound h

/-! ## The other way -/

theorem aka_clash {b : String} {r : Str} (h : clash "is <dfn>".toList b.toList = true) : akaItem (b.toList ++ r) = none := by
  unfold akaItem; rw [after_clash h]

theorem slot_clash {b : String} {r : Str} (h : clash "has a [[".toList b.toList = true) (h' : clash "has an [[".toList b.toList = true) : slotItem (b.toList ++ r) = none := by
  unfold slotItem; rw [after_clash h, after_clash h']

theorem not_clash {b : String} {r : Str} (h : clash "is not a ".toList b.toList = true) (h' : clash "is not an ".toList b.toList = true) : notItem (b.toList ++ r) = none := by
  unfold notItem; rw [after_clash h, after_clash h']

/-! The facts about beginnings that are needed, on lists of characters. -/

theorem fixed_b (b : String) (c : Str) (hb : b.toList = c) (h : fixedL.all (fun e => clash e.1 c) = true) : fixed.all (fun e => clash e.1.toList b.toList) = true := by
  rw [hb, fixed_all (fun x _ => clash x c)]; exact h

theorem fixed_b' (b : String) (c : Str) (hb : b.toList = c) (h : fixedL.all (fun e => clash e.1 c || decide (e.2 = [])) = true) :
    fixed.all (fun e => clash e.1.toList b.toList || decide (e.2 = [])) = true := by
  rw [hb, fixed_all (fun x ws => clash x c || decide (ws = []))]; exact h

theorem creating_b (b : String) (c : Str) (hb : b.toList = c) (h : creatingL.all (fun x => clash x c) = true) : creating.all (fun p => clash (starts p).toList b.toList) = true := by
  rw [hb, all_starts creating_eq (fun x => clash x c)]; exact h

theorem silent_b (b : String) (c : Str) (hb : b.toList = c) (h : silentL.all (fun x => clash x c) = true) : silent.all (fun p => clash (starts p).toList b.toList) = true := by
  rw [hb, all_starts silent_eq (fun x => clash x c)]; exact h

theorem b_aka : "is <dfn>".toList = chars! "is <dfn>" := String.toList_ofList
theorem b_slot : "has a [[".toList = chars! "has a [[" := String.toList_ofList
theorem b_slot' : "has an [[".toList = chars! "has an [[" := String.toList_ofList
theorem b_not : "is not a ".toList = chars! "is not a " := String.toList_ofList
theorem b_not' : "is not an ".toList = chars! "is not an " := String.toList_ofList
theorem b_prop : "has a *\"".toList = chars! "has a *\"" := String.toList_ofList
theorem b_global : "is the initial value of the *\"".toList = chars! "is the initial value of the *\"" := String.toList_ofList

theorem find_key : ∀ {l : List (String × List Word')} {e : String × List Word'}, (l.map (fun e => e.1.toList)).Nodup → e ∈ l → l.find? (fun e' => decide (e'.1.toList = e.1.toList)) = some e
  | [], _, _, h => by simp at h
  | a :: l, e, hn, h => by
    simp only [List.map_cons, List.nodup_cons] at hn
    by_cases ha : a.1.toList = e.1.toList
    · rw [List.find?_cons_of_pos (by simp [ha])]
      rcases List.mem_cons.1 h with rfl | h
      · rfl
      · exact absurd (ha ▸ List.mem_map_of_mem (f := fun e : String × List Word' => e.1.toList) h) hn.1
    · rw [List.find?_cons_of_neg (by simpa using ha)]
      rcases List.mem_cons.1 h with rfl | h
      · exact absurd rfl ha
      · exact find_key hn.2 h

theorem fixed_nodup : (fixed.map (fun e => e.1.toList)).Nodup := by
  have h : fixed.map (fun e => e.1.toList) = fixedL.map Prod.fst := by
    rw [fixed_eq, List.map_map]
    congr 1
    funext e
    simp
  rw [h]
  decide +kernel

theorem plain_item {t : String} {fs : List Fact} (h : (t, fs) ∈ plain subject sid) : item subject sid t.toList = some fs := by
  rw [plain_eq] at h
  obtain ⟨e, he, h2⟩ := List.mem_map.1 h
  obtain ⟨rfl, rfl⟩ := Prod.mk.inj h2
  have h1 : akaItem e.1.toList = none := by
    have hc : clash "is <dfn>".toList e.1.toList = true := by
      have h3 : fixed.all (fun e => clash "is <dfn>".toList e.1.toList) = true := by
        rw [b_aka, fixed_all (fun x _ => clash (chars! "is <dfn>") x)]; decide +kernel
      exact List.all_eq_true.1 h3 e he
    have := aka_clash (r := []) hc
    rwa [List.append_nil] at this
  unfold item
  rw [h1]
  dsimp only
  rw [find_key fixed_nodup he]

theorem creates_item {ps : List Part} {t : Str} (hp : ps ∈ creating) (h : Reads ps t) : item subject sid t = some [.is subject "a constructor".toList] := by
  have hs : creating.all (fun p => clash "is <dfn>".toList (starts p).toList &&
      fixed.all (fun e => clash e.1.toList (starts p).toList || decide (e.2 = [.is "a constructor"]))) = true := by
    have : (fun p => clash "is <dfn>".toList (starts p).toList && fixed.all (fun e => clash e.1.toList (starts p).toList || decide (e.2 = [.is "a constructor"]))) =
        (fun p => (fun x => clash (chars! "is <dfn>") x && fixedL.all (fun e => clash e.1 x || decide (e.2 = [.is "a constructor"]))) (starts p).toList) := by
      funext p
      rw [b_aka, fixed_all (fun y ws => clash y (starts p).toList || decide (ws = [.is "a constructor"]))]
    rw [this, all_starts creating_eq (fun x => clash (chars! "is <dfn>") x && fixedL.all (fun e => clash e.1 x || decide (e.2 = [.is "a constructor"])))]
    decide +kernel
  have hs' := List.all_eq_true.1 hs ps hp
  rw [Bool.and_eq_true] at hs'
  have hc := (sameAll_any creating_same t).2 ⟨ps, hp, h⟩
  obtain ⟨r, rfl⟩ := starts_of h
  unfold item
  rw [aka_clash hs'.1]
  dsimp only
  rcases fixed_cases (r := r) _ hs'.2 with hf | ⟨e, hf, he⟩
  · rw [hf]; dsimp only; rw [if_pos hc]
  · rw [hf]; dsimp only; rw [he]; rfl

theorem slot_key {n v : Str} (b : String) (r : Str) (h1 : clash "is <dfn>".toList b.toList = true) (h2 : fixed.all (fun e => clash e.1.toList b.toList) = true)
    (h3 : creating.all (fun p => clash (starts p).toList b.toList) = true) (h4 : slotItem (b.toList ++ r) = some (n, v)) :
    item subject sid (b.toList ++ r) = some [.slot subject n v] := by
  unfold item
  rw [aka_clash h1]; dsimp only
  rw [fixed_none h2]; dsimp only
  rw [no_pattern creating_same h3, if_neg (by simp), h4]

theorem clash_b {a b : String} {x y : Str} (ha : a.toList = x) (hb : b.toList = y) (h : clash x y = true) : clash a.toList b.toList = true := by rw [ha, hb]; exact h

theorem slot_item {h n v : Str} (hh : h = "has a ".toList ∨ h = "has an ".toList) (hn : Word n) (hv : SlotValue v) :
    item subject sid (h ++ "[[".toList ++ n ++ "]] internal slot whose value is ".toList ++ v ++ ".".toList) = some [.slot subject ("[[".toList ++ n ++ "]]".toList) v] := by
  have hi := (slot_iff _ _ _).2 ⟨h, n, hh, hn, rfl, hv, rfl⟩
  rcases hh with rfl | rfl
  · have e : "has a ".toList ++ "[[".toList ++ n ++ "]] internal slot whose value is ".toList ++ v ++ ".".toList =
      "has a [[".toList ++ (n ++ "]] internal slot whose value is ".toList ++ v ++ ".".toList) := by simp
    rw [e] at hi ⊢
    exact slot_key _ _ (clash_b b_aka b_slot (by decide)) (fixed_b _ _ b_slot (by decide +kernel)) (creating_b _ _ b_slot (by decide +kernel)) hi
  · have e : "has an ".toList ++ "[[".toList ++ n ++ "]] internal slot whose value is ".toList ++ v ++ ".".toList =
      "has an [[".toList ++ (n ++ "]] internal slot whose value is ".toList ++ v ++ ".".toList) := by simp
    rw [e] at hi ⊢
    exact slot_key _ _ (clash_b b_aka b_slot' (by decide)) (fixed_b _ _ b_slot' (by decide +kernel)) (creating_b _ _ b_slot' (by decide +kernel)) hi

theorem silent_item {ps : List Part} {t : Str} (hp : ps ∈ silent) (h : Reads ps t) : item subject sid t = some [] := by
  have hs : silent.all (fun p => clash "is <dfn>".toList (starts p).toList && clash "has a [[".toList (starts p).toList && clash "has an [[".toList (starts p).toList &&
      creating.all (fun q => clash (starts q).toList (starts p).toList) &&
      fixed.all (fun e => clash e.1.toList (starts p).toList || decide (e.2 = []))) = true := by
    have : (fun p => clash "is <dfn>".toList (starts p).toList && clash "has a [[".toList (starts p).toList && clash "has an [[".toList (starts p).toList &&
        creating.all (fun q => clash (starts q).toList (starts p).toList) && fixed.all (fun e => clash e.1.toList (starts p).toList || decide (e.2 = []))) =
        (fun p => (fun x => clash (chars! "is <dfn>") x && clash (chars! "has a [[") x && clash (chars! "has an [[") x && creatingL.all (fun y => clash y x) &&
          fixedL.all (fun e => clash e.1 x || decide (e.2 = []))) (starts p).toList) := by
      funext p
      rw [b_aka, b_slot, b_slot', fixed_all (fun y ws => clash y (starts p).toList || decide (ws = [])), all_starts creating_eq (fun y => clash y (starts p).toList)]
    rw [this, all_starts silent_eq (fun x => clash (chars! "is <dfn>") x && clash (chars! "has a [[") x && clash (chars! "has an [[") x && creatingL.all (fun y => clash y x) &&
          fixedL.all (fun e => clash e.1 x || decide (e.2 = [])))]
    decide +kernel
  have hs' := List.all_eq_true.1 hs ps hp
  simp only [Bool.and_eq_true] at hs'
  obtain ⟨⟨⟨⟨h1, h2⟩, h3⟩, h4⟩, h5⟩ := hs'
  have hc := (sameAll_any silent_same t).2 ⟨ps, hp, h⟩
  obtain ⟨r, rfl⟩ := starts_of h
  unfold item
  rw [aka_clash h1]
  dsimp only
  rcases fixed_cases (r := r) _ h5 with hf | ⟨e, hf, he⟩
  · rw [hf]; dsimp only
    rw [no_pattern creating_same h4, if_neg (by simp), slot_clash h2 h3]; dsimp only
    rw [if_pos hc]
  · rw [hf]; dsimp only; rw [he]; rfl

theorem not_key {x : Str} (ho : x ≠ "ordinary".toList) (b : String) (r : Str) (h1 : clash "is <dfn>".toList b.toList = true)
    (h2 : fixed.all (fun e => clash e.1.toList b.toList || decide (e.2 = [])) = true)
    (h3 : creating.all (fun p => clash (starts p).toList b.toList) = true) (h4 : clash "has a [[".toList b.toList = true) (h5 : clash "has an [[".toList b.toList = true)
    (h6 : silent.all (fun p => clash (starts p).toList b.toList) = true) (h7 : notItem (b.toList ++ r) = some x) : item subject sid (b.toList ++ r) = some [] := by
  unfold item
  rw [aka_clash h1]; dsimp only
  rcases fixed_cases (r := r) _ h2 with hf | ⟨e, hf, he⟩
  · rw [hf]; dsimp only
    rw [no_pattern creating_same h3, if_neg (by simp), slot_clash h4 h5]; dsimp only
    rw [no_pattern silent_same h6, if_neg (by simp), h7]; dsimp only
    rw [if_neg ho]
  · rw [hf]; dsimp only; rw [he]; rfl

theorem isNot_item {h x t : Str} {ps : List Part} (hh : h = "is not a ".toList ∨ h = "is not an ".toList) (hx : Word x) (ho : x ≠ "ordinary".toList) (hp : ps ∈ notTails)
    (hr : Reads ps t) : item subject sid (h ++ x ++ t) = some [] := by
  have hi := (not_iff _ _).2 ⟨h, hh, hx, ps, hp, t, hr, rfl⟩
  rcases hh with rfl | rfl
  · rw [List.append_assoc] at hi ⊢
    exact not_key ho _ _ (clash_b b_aka b_not (by decide)) (fixed_b' _ _ b_not (by decide +kernel)) (creating_b _ _ b_not (by decide +kernel)) (clash_b b_slot b_not (by decide))
      (clash_b b_slot' b_not (by decide)) (silent_b _ _ b_not (by decide +kernel)) hi
  · rw [List.append_assoc] at hi ⊢
    exact not_key ho _ _ (clash_b b_aka b_not' (by decide)) (fixed_b' _ _ b_not' (by decide +kernel)) (creating_b _ _ b_not' (by decide +kernel)) (clash_b b_slot b_not' (by decide))
      (clash_b b_slot' b_not' (by decide)) (silent_b _ _ b_not' (by decide +kernel)) hi

theorem to_prop (b : String) (r : Str) (h1 : clash "is <dfn>".toList b.toList = true) (h2 : fixed.all (fun e => clash e.1.toList b.toList) = true)
    (h3 : creating.all (fun p => clash (starts p).toList b.toList) = true) (h4 : clash "has a [[".toList b.toList = true) (h5 : clash "has an [[".toList b.toList = true)
    (h6 : silent.all (fun p => clash (starts p).toList b.toList) = true) (h7 : clash "is not a ".toList b.toList = true) (h8 : clash "is not an ".toList b.toList = true) :
    item subject sid (b.toList ++ r) = propItem subject (b.toList ++ r) := by
  unfold item
  rw [aka_clash h1]; dsimp only
  rw [fixed_none h2]; dsimp only
  rw [no_pattern creating_same h3, if_neg (by simp), slot_clash h4 h5]; dsimp only
  rw [no_pattern silent_same h6, if_neg (by simp), not_clash h7 h8]

theorem prop_to (r : Str) : item subject sid ("has a *\"".toList ++ r) = propItem subject ("has a *\"".toList ++ r) :=
  to_prop _ _ (clash_b b_aka b_prop (by decide)) (fixed_b _ _ b_prop (by decide +kernel)) (creating_b _ _ b_prop (by decide +kernel)) (clash_b b_slot b_prop (by decide))
    (clash_b b_slot' b_prop (by decide)) (silent_b _ _ b_prop (by decide +kernel)) (clash_b b_not b_prop (by decide)) (clash_b b_not' b_prop (by decide))

theorem global_to (r : Str) : item subject sid ("is the initial value of the *\"".toList ++ r) = propItem subject ("is the initial value of the *\"".toList ++ r) :=
  to_prop _ _ (clash_b b_aka b_global (by decide)) (fixed_b _ _ b_global (by decide +kernel)) (creating_b _ _ b_global (by decide +kernel)) (clash_b b_slot b_global (by decide))
    (clash_b b_slot' b_global (by decide)) (silent_b _ _ b_global (by decide +kernel)) (clash_b b_not b_global (by decide)) (clash_b b_not' b_global (by decide))

theorem hasProp_item {n h v : Str} (hh : HasProp n h) : item subject sid (h ++ v) = propItem subject (h ++ v) := by
  obtain ⟨x, -, rfl, rfl | rfl⟩ := hh
  · have e : "has a ".toList ++ ("*\"".toList ++ x ++ "\"*".toList) ++ " property whose value is ".toList ++ v =
      "has a *\"".toList ++ (x ++ "\"*".toList ++ " property whose value is ".toList ++ v) := by simp
    rw [e]; exact prop_to _
  · have e : "has a ".toList ++ ("*\"".toList ++ x ++ "\"*".toList) ++ " property whose initial value is ".toList ++ v =
      "has a *\"".toList ++ (x ++ "\"*".toList ++ " property whose initial value is ".toList ++ v) := by simp
    rw [e]; exact prop_to _

theorem item_complete {t : Str} {fs : List Fact} (h : Says subject sid t fs) : item subject sid t = some fs := by
  cases h with
  | aka h1 => unfold item; rw [(aka_iff _ _).2 ⟨h1, .inl rfl⟩]
  | see h1 h2 h3 => unfold item; rw [(aka_iff _ _).2 ⟨h1, .inr ⟨_, h2, h3, rfl⟩⟩]
  | plain h => exact plain_item h
  | creates h1 h2 => exact creates_item h1 h2
  | slot h1 h2 h3 => exact slot_item h1 h2 h3
  | silent h1 h2 => exact silent_item h1 h2
  | isNot h1 h2 h3 h4 h5 => exact isNot_item h1 h2 h3 h4 h5
  | prop h1 h2 h3 h4 h5 =>
    rw [hasProp_item h1]
    unfold propItem
    rw [(propHead_iff _ _ _).2 ⟨_, h1, rfl⟩]
    dsimp only
    rw [(attrs_greedy _ _ _).2 ⟨_, h2, h3, rfl⟩]
    dsimp only
    rw [attrs_iff.2 h4, dict_iff.1 h5]
    rfl
  | value h1 h2 h3 =>
    rw [List.append_assoc, hasProp_item h1]
    unfold propItem
    rw [(propHead_iff _ _ _).2 ⟨_, h1, rfl⟩]
    dsimp only
    rw [(attrs_none _).2 h3]
    dsimp only
    rw [(valueOnly_iff _ _).2 ⟨h2, rfl⟩]
    rfl
  | @global x e h1 h2 =>
    have hg := (global_iff _ _).2 ⟨x, e, h1, h2, rfl, rfl⟩
    rw [List.append_assoc, List.append_assoc] at hg ⊢
    rw [global_to]
    unfold propItem propHead
    rw [after_clash (clash_b b_prop b_global (by decide))]
    dsimp only
    rw [hg]
    rfl

theorem item_iff {t : Str} {fs : List Fact} : item subject sid t = some fs ↔ Says subject sid t fs := ⟨item_sound, item_complete⟩

end Verif.Objs
