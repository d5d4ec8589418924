import Verif.Objs.AttrLemmas
import Verif.Kinds.ChangeLemmas
/-!
# Items
-/
namespace Verif.Objs
open Verif.Kinds (Rx full lit plus cat any w dot Matches full_iff m_lit m_cat m_cat_nil m_any m_word m_dot m_line m_plus_chars m_empty m_between m_star m_one)
open Verif.Sections (isWord)
open Verif.Preambles (after after_iff word_chars)
open Verif.Wki (before before_iff)
open Verif.Titles (takeWhile_all)
open Verif.Tables (put)
open Verif.Paths.Spec (Word)
open Verif.Kinds.Spec (Line Some' NoTags)
open Spec

/-! ## Patterns -/

inductive Same : List Rx → List Part → Prop
  | nil : Same [] []
  | cons {r p rs ps} : (∀ s, Matches r s ↔ p.Is s) → Same rs ps → Same (r :: rs) (p :: ps)

inductive SameAll : List (List Rx) → List (List Part) → Prop
  | nil : SameAll [] []
  | cons {r p rs ps} : Same r p → SameAll rs ps → SameAll (r :: rs) (p :: ps)

theorem same_reads {rs : List Rx} {ps : List Part} (h : Same rs ps) (s : Str) : Matches (cat rs) s ↔ Reads ps s := by
  induction h generalizing s with
  | nil => rw [m_cat_nil]; exact ⟨fun e => e ▸ .nil, fun h => (by cases h; rfl)⟩
  | cons h _ ih =>
    rw [m_cat]
    constructor
    · rintro ⟨u, v, rfl, h1, h2⟩; exact .cons ((h u).1 h1) ((ih v).1 h2)
    · intro hr
      cases hr with
      | cons h1 h2 => exact ⟨_, _, rfl, (h _).2 h1, (ih _).2 h2⟩

theorem sameAll_any {rs : List (List Rx)} {ps : List (List Part)} (h : SameAll rs ps) (s : Str) : rs.any (fun p => full (cat p) s) = true ↔ ∃ p ∈ ps, Reads p s := by
  induction h with
  | nil => simp
  | cons h _ ih => simp only [List.any_cons, Bool.or_eq_true, full_iff, same_reads h, ih, List.mem_cons, exists_eq_or_imp]

theorem is_text (t : String) : ∀ s, Matches (lit t) s ↔ (Part.text t).Is s := fun _ => m_lit

theorem is_word : ∀ s, Matches (plus w) s ↔ Part.word.Is s := fun _ => m_word

theorem is_any : ∀ s, Matches dot s ↔ Part.any.Is s := fun _ => m_dot

theorem is_rest : ∀ s, Matches (plus dot) s ↔ Part.rest.Is s := fun _ => m_line

theorem is_opt (t : String) : ∀ s, Matches (opt t) s ↔ (Part.choice [t, ""]).Is s := by
  intro s
  unfold opt
  rw [m_any]
  simp [m_lit, m_empty, Part.Is]

theorem is_choice2 (a b : String) : ∀ s, Matches (any [lit a, lit b]) s ↔ (Part.choice [a, b]).Is s := by
  intro s; rw [m_any]; simp [m_lit, Part.Is]

theorem is_choice3 (a b c : String) : ∀ s, Matches (any [lit a, lit b, lit c]) s ↔ (Part.choice [a, b, c]).Is s := by
  intro s; rw [m_any]; simp [m_lit, Part.Is]

theorem is_ticked : ∀ s, Matches ticked s ↔ Part.ticked.Is s := by
  intro s
  unfold ticked
  rw [m_any]
  simp only [List.mem_cons, List.not_mem_nil, or_false, exists_eq_or_imp, exists_eq_left, m_word, m_between, Part.Is]

theorem tags_iff (x : Str) : Matches noTags x ↔ x ≠ [] ∧ NoTags x := by
  unfold noTags NoTags
  rw [m_plus_chars]
  constructor
  · rintro ⟨h1, h2⟩
    exact ⟨h1, fun h => by simpa using h2 _ h, fun h => by simpa using h2 _ h⟩
  · rintro ⟨h1, h2, h3⟩
    refine ⟨h1, fun c hc => ?_⟩
    simp only [Bool.and_eq_true, bne_iff_ne, ne_eq]
    exact ⟨fun e => h2 (e ▸ hc), fun e => h3 (e ▸ hc)⟩

theorem is_xref : ∀ s, Matches xref s ↔ Part.xref.Is s := by
  intro s
  unfold xref
  rw [m_between]
  simp only [tags_iff, Part.Is, and_assoc]

macro "same_all" : tactic =>
  `(tactic| repeat (first
    | exact SameAll.nil
    | exact Same.nil
    | exact is_text _
    | exact is_word
    | exact is_any
    | exact is_rest
    | exact is_ticked
    | exact is_xref
    | exact is_opt _
    | exact is_choice2 _ _
    | exact is_choice3 _ _ _
    | refine Same.cons ?_ ?_
    | refine SameAll.cons ?_ ?_))

theorem creating_same : SameAll constructorRx creating := by same_all

theorem subclassing_same : SameAll subclassRx subclassing := by same_all

theorem sameAll_append {a b : List (List Rx)} {x y : List (List Part)} (h : SameAll a x) (h' : SameAll b y) : SameAll (a ++ b) (x ++ y) := by
  induction h with
  | nil => exact h'
  | cons h _ ih => exact .cons h ih

theorem silent_same : SameAll silentRx silent := by
  refine sameAll_append (sameAll_append ?_ subclassing_same) ?_ <;> same_all

theorem not_same : SameAll notRx notTails := by same_all

/-! ## Beginnings -/

/-- There is a place at which two texts differ. -/
def clash : Str → Str → Bool
  | a :: as, b :: bs => if a = b then clash as bs else true
  | _, _ => false

theorem clash_ne : ∀ {a b x y : Str}, clash a b = true → a ++ x ≠ b ++ y
  | [], _, _, _, h => by simp [clash] at h
  | _ :: _, [], _, _, h => by simp [clash] at h
  | a :: as, b :: bs, x, y, h => by
    intro e
    simp only [List.cons_append, List.cons.injEq] at e
    obtain ⟨rfl, e⟩ := e
    rw [clash, if_pos rfl] at h
    exact clash_ne h e

theorem after_clash {a b : String} {r : Str} (h : clash a.toList b.toList = true) : after a (b.toList ++ r) = none := by
  cases ha : after a (b.toList ++ r) with
  | none => rfl
  | some x => exact absurd (after_iff.1 ha).symm (clash_ne h)

def starts : List Part → String
  | .text a :: _ => a
  | _ => ""

theorem starts_of {ps : List Part} {t : Str} (h : Reads ps t) : ∃ r, t = (starts ps).toList ++ r := by
  cases h with
  | nil => exact ⟨[], rfl⟩
  | @cons p ps s t h1 h2 =>
    cases p with
    | text a => exact ⟨t, by rw [show s = a.toList from h1]; rfl⟩
    | _ => exact ⟨_, rfl⟩

theorem no_pattern {rs : List (List Rx)} {ps : List (List Part)} (h : SameAll rs ps) {b : String} {r : Str}
    (hc : ps.all (fun p => clash (starts p).toList b.toList) = true) : rs.any (fun p => full (cat p) (b.toList ++ r)) = false := by
  rw [Bool.eq_false_iff]
  intro hm
  obtain ⟨p, hp, hr⟩ := (sameAll_any h _).1 hm
  obtain ⟨q, e⟩ := starts_of hr
  exact clash_ne (List.all_eq_true.1 hc p hp) e.symm

theorem fixed_cases {b : String} {r : Str} (ws : List Word') (h : fixed.all (fun e => clash e.1.toList b.toList || decide (e.2 = ws)) = true) :
    fixed.find? (fun e => decide (e.1.toList = b.toList ++ r)) = none ∨ ∃ e, fixed.find? (fun e => decide (e.1.toList = b.toList ++ r)) = some e ∧ e.2 = ws := by
  cases hf : fixed.find? (fun e => decide (e.1.toList = b.toList ++ r)) with
  | none => exact .inl rfl
  | some e =>
    refine .inr ⟨e, rfl, ?_⟩
    have h1 := List.all_eq_true.1 h e (List.mem_of_find?_eq_some hf)
    have h2 := List.find?_some hf
    simp only [decide_eq_true_eq] at h2
    simp only [Bool.or_eq_true, decide_eq_true_eq] at h1
    rcases h1 with h1 | h1
    · exact absurd (by rw [List.append_nil]; exact h2) (clash_ne (x := []) (y := r) h1)
    · exact h1

theorem fixed_none {b : String} {r : Str} (h : fixed.all (fun e => clash e.1.toList b.toList) = true) :
    fixed.find? (fun e => decide (e.1.toList = b.toList ++ r)) = none := by
  rw [List.find?_eq_none]
  intro e he
  simp only [decide_eq_true_eq]
  intro h2
  exact absurd (by rw [List.append_nil]; exact h2) (clash_ne (x := []) (y := r) (List.all_eq_true.1 h e he))

/-! ## Each kind of item -/

theorem percent_iff (s : Str) : Matches percentPath s ↔ PercentName s := by
  unfold percentPath PercentName
  simp only [m_cat, m_cat_nil, m_lit, m_word, m_star]
  constructor
  · rintro ⟨_, _, rfl, rfl, x, _, rfl, hx, _, _, rfl, ⟨ys, rfl, hy⟩, _, _, rfl, rfl, rfl⟩
    have : ∃ zs : List Str, (∀ z ∈ zs, Word z) ∧ ys = zs.map (".".toList ++ ·) := by
      induction ys with
      | nil => exact ⟨[], by simp, rfl⟩
      | cons y ys ih =>
        obtain ⟨zs, h1, rfl⟩ := ih (fun z hz => hy z (List.mem_cons_of_mem _ hz))
        obtain ⟨_, _, e, rfl, z, _, rfl, hz, rfl⟩ := hy y (by simp)
        exact ⟨z :: zs, by simpa using ⟨hz, h1⟩, by simp [e]⟩
    obtain ⟨zs, h1, rfl⟩ := this
    exact ⟨x, zs, hx, h1, by simp⟩
  · rintro ⟨x, ys, hx, hy, rfl⟩
    refine ⟨_, _, by rw [List.append_assoc, List.append_assoc], rfl, x, _, rfl, hx, _, _, rfl, ⟨ys.map (".".toList ++ ·), rfl, ?_⟩, "%".toList, [], by simp, rfl, rfl⟩
    intro y hy'
    obtain ⟨z, hz, rfl⟩ := List.mem_map.1 hy'
    exact ⟨_, _, rfl, rfl, z, [], by simp, hy z hz, rfl⟩

theorem percent_chars {s : Str} (h : PercentName s) : '<' ∉ s := by
  obtain ⟨x, ys, hx, hy, rfl⟩ := h
  have hw : ∀ {y : Str}, Word y → '<' ∉ y := fun h hm => by have := (word_chars.1 h).2 _ hm; simp [isWord] at this
  simp only [List.mem_append, not_or, List.mem_flatten, List.mem_map, not_exists, not_and]
  refine ⟨⟨⟨by decide, hw hx⟩, ?_⟩, by decide⟩
  rintro _ ⟨y, hy', rfl⟩
  simp only [List.mem_append, not_or]
  exact ⟨by decide, hw (hy y hy')⟩

theorem take_tag {n r : Str} (h : '<' ∉ n) : (n ++ '<' :: r).takeWhile (· != '<') = n ∧ (n ++ '<' :: r).dropWhile (· != '<') = '<' :: r :=
  takeWhile_all (fun c hc => by simp only [bne_iff_ne, ne_eq]; rintro rfl; exact h hc) (by simp)

theorem aka_iff (t n : Str) : akaItem t = some n ↔ PercentName n ∧ (t = "is <dfn>".toList ++ n ++ "</dfn>.".toList ∨
    ∃ a, a ≠ [] ∧ NoTags a ∧ t = "is <dfn>".toList ++ n ++ "</dfn> (see <emu-xref ".toList ++ a ++ "></emu-xref>).".toList) := by
  unfold akaItem
  constructor
  · intro h
    cases ha : after "is <dfn>" t with
    | none => rw [ha] at h; cases h
    | some r =>
      rw [ha] at h
      dsimp only at h
      split at h
      · rename_i hc
        obtain rfl := Option.some.inj h
        simp only [Bool.and_eq_true, Bool.or_eq_true, full_iff, percent_iff, m_lit, m_between, tags_iff] at hc
        obtain ⟨h1, h2⟩ := hc
        refine ⟨h1, ?_⟩
        have er : r = r.takeWhile (· != '<') ++ r.dropWhile (· != '<') := List.takeWhile_append_dropWhile.symm
        rcases h2 with h2 | ⟨a, ⟨h3, h4⟩, h2⟩
        · refine .inl ?_
          rw [after_iff.1 ha]
          conv => lhs; rw [er, h2]
          simp
        · refine .inr ⟨a, h3, h4, ?_⟩
          rw [after_iff.1 ha]
          conv => lhs; rw [er, h2]
          simp
      · cases h
  · rintro ⟨hn, h⟩
    have key : ∀ e : Str, (Matches (lit "</dfn>.") e ∨ Matches (cat [lit "</dfn> (see <emu-xref ", noTags, lit "></emu-xref>)."]) e) → (∃ e', e = '<' :: e') →
        t = "is <dfn>".toList ++ (n ++ e) → (match after "is <dfn>" t with
          | none => none
          | some r => if full percentPath (r.takeWhile (· != '<')) && (full (lit "</dfn>.") (r.dropWhile (· != '<')) ||
              full (cat [lit "</dfn> (see <emu-xref ", noTags, lit "></emu-xref>)."]) (r.dropWhile (· != '<'))) then some (r.takeWhile (· != '<')) else none) = some n := by
      rintro e hm ⟨e', rfl⟩ rfl
      rw [after_iff.2 rfl]
      dsimp only
      obtain ⟨h1, h2⟩ := take_tag (r := e') (percent_chars hn)
      rw [h1, h2, if_pos]
      simp only [Bool.and_eq_true, Bool.or_eq_true, full_iff, percent_iff]
      exact ⟨hn, hm⟩
    rcases h with rfl | ⟨a, h1, h2, rfl⟩
    · exact key "</dfn>.".toList (.inl (m_lit.2 rfl)) ⟨_, rfl⟩ (by simp)
    · exact key ("</dfn> (see <emu-xref ".toList ++ a ++ "></emu-xref>).".toList) (.inr (m_between.2 ⟨a, (tags_iff a).2 ⟨h1, h2⟩, rfl⟩)) ⟨_, rfl⟩ (by simp)

theorem slotValue_iff (v : Str) : Matches slotValue v ↔ SlotValue v := by
  unfold slotValue SlotValue
  rw [m_any]
  simp only [List.mem_cons, List.not_mem_nil, or_false, exists_eq_or_imp, exists_eq_left, percent_iff, m_lit, List.map_cons, List.map_nil]

theorem slotTail_iff (r n v : Str) : slotTail r = some (n, v) ↔ ∃ x, Word x ∧ n = "[[".toList ++ x ++ "]]".toList ∧ SlotValue v ∧
    r = x ++ "]] internal slot whose value is ".toList ++ v ++ ".".toList := by
  unfold slotTail
  constructor
  · intro h
    split at h
    · cases h
    · rename_i hw
      cases ha : after "]] internal slot whose value is " (r.dropWhile isWord) with
      | none => rw [ha] at h; cases h
      | some y =>
        rw [ha] at h
        dsimp only at h
        cases hb : before "." y with
        | none => rw [hb] at h; cases h
        | some v' =>
          rw [hb] at h
          dsimp only at h
          split at h
          · rename_i hv
            obtain ⟨rfl, rfl⟩ := Prod.mk.inj (Option.some.inj h)
            refine ⟨_, word_take hw, rfl, (slotValue_iff _).1 ((full_iff _ _).1 hv), ?_⟩
            conv => lhs; rw [word_split r, after_iff.1 ha, before_iff.1 hb]
            simp
          · cases h
  · rintro ⟨x, hx, rfl, hv, rfl⟩
    obtain ⟨h1, h2⟩ := word_then (r := "]] internal slot whose value is ".toList ++ (v ++ ".".toList)) hx (notWord_head ']' _ rfl (by decide))
    rw [show x ++ "]] internal slot whose value is ".toList ++ v ++ ".".toList = x ++ ("]] internal slot whose value is ".toList ++ (v ++ ".".toList)) by simp]
    rw [h1, h2, if_neg hx.1, after_iff.2 rfl]
    dsimp only
    rw [before_iff.2 rfl]
    dsimp only
    rw [if_pos ((full_iff _ _).2 ((slotValue_iff _).2 hv))]

theorem slot_iff (t n v : Str) : slotItem t = some (n, v) ↔ ∃ h x, (h = "has a ".toList ∨ h = "has an ".toList) ∧ Word x ∧ n = "[[".toList ++ x ++ "]]".toList ∧ SlotValue v ∧
    t = h ++ "[[".toList ++ x ++ "]] internal slot whose value is ".toList ++ v ++ ".".toList := by
  unfold slotItem
  constructor
  · intro h
    cases ha : after "has a [[" t with
    | some r =>
      rw [ha] at h
      obtain ⟨x, h1, h2, h3, rfl⟩ := (slotTail_iff _ _ _).1 h
      exact ⟨_, x, .inl rfl, h1, h2, h3, by rw [after_iff.1 ha]; simp⟩
    | none =>
      rw [ha] at h
      dsimp only at h
      cases hb : after "has an [[" t with
      | some r =>
        rw [hb] at h
        obtain ⟨x, h1, h2, h3, rfl⟩ := (slotTail_iff _ _ _).1 h
        exact ⟨_, x, .inr rfl, h1, h2, h3, by rw [after_iff.1 hb]; simp⟩
      | none => rw [hb] at h; cases h
  · rintro ⟨h, x, rfl | rfl, h1, h2, h3, rfl⟩
    · rw [after_iff.2 (show _ = "has a [[".toList ++ (x ++ "]] internal slot whose value is ".toList ++ v ++ ".".toList) by simp)]
      exact (slotTail_iff _ _ _).2 ⟨x, h1, h2, h3, rfl⟩
    · rw [show "has an ".toList ++ "[[".toList ++ x ++ "]] internal slot whose value is ".toList ++ v ++ ".".toList =
        "has an [[".toList ++ (x ++ "]] internal slot whose value is ".toList ++ v ++ ".".toList) by simp]
      rw [after_clash (by decide), after_iff.2 rfl]
      exact (slotTail_iff _ _ _).2 ⟨x, h1, h2, h3, rfl⟩

theorem tail_head {ps : List Part} {t : Str} (hp : ps ∈ notTails) (h : Reads ps t) : t.head? = some ' ' := by
  have : ∃ c ∈ [" object", " instance"], ∃ r, t = c.toList ++ r := by
    have hs : notTails.all (fun p => match p with | .choice [" object", " instance"] :: _ => true | _ => false) = true := by decide +kernel
    have := List.all_eq_true.1 hs ps hp
    split at this
    · cases h with
      | cons h1 h2 =>
        obtain ⟨c, hc, rfl⟩ := h1
        exact ⟨c, hc, _, rfl⟩
    · cases this
  obtain ⟨c, hc, r, rfl⟩ := this
  simp only [List.mem_cons, List.not_mem_nil, or_false] at hc
  rcases hc with rfl | rfl <;> rfl

theorem notTail_iff (r x : Str) : notTail r = some x ↔ Word x ∧ ∃ ps ∈ notTails, ∃ t, Reads ps t ∧ r = x ++ t := by
  unfold notTail
  constructor
  · intro h
    split at h
    · rename_i hc
      obtain rfl := Option.some.inj h
      obtain ⟨ps, hp, hr⟩ := (sameAll_any not_same _).1 hc.2
      exact ⟨word_take hc.1, ps, hp, _, hr, word_split r⟩
    · cases h
  · rintro ⟨hx, ps, hp, t, hr, rfl⟩
    obtain ⟨h1, h2⟩ := word_then (r := t) hx (by
      intro c hc
      rw [tail_head hp hr] at hc
      obtain rfl := Option.some.inj hc
      decide)
    rw [h1, h2, if_pos ⟨hx.1, (sameAll_any not_same _).2 ⟨ps, hp, hr⟩⟩]

theorem not_iff (t x : Str) : notItem t = some x ↔ ∃ h, (h = "is not a ".toList ∨ h = "is not an ".toList) ∧ Word x ∧ ∃ ps ∈ notTails, ∃ r, Reads ps r ∧ t = h ++ x ++ r := by
  unfold notItem
  constructor
  · intro h
    cases ha : after "is not a " t with
    | some r =>
      rw [ha] at h
      obtain ⟨h1, ps, h2, u, h3, rfl⟩ := (notTail_iff _ _).1 h
      exact ⟨_, .inl rfl, h1, ps, h2, u, h3, by rw [after_iff.1 ha]; simp⟩
    | none =>
      rw [ha] at h
      dsimp only at h
      cases hb : after "is not an " t with
      | some r =>
        rw [hb] at h
        obtain ⟨h1, ps, h2, u, h3, rfl⟩ := (notTail_iff _ _).1 h
        exact ⟨_, .inr rfl, h1, ps, h2, u, h3, by rw [after_iff.1 hb]; simp⟩
      | none => rw [hb] at h; cases h
  · rintro ⟨h, rfl | rfl, h1, ps, h2, r, h3, rfl⟩
    · rw [List.append_assoc, after_iff.2 rfl]
      exact (notTail_iff _ _).2 ⟨h1, ps, h2, r, h3, rfl⟩
    · rw [List.append_assoc, after_clash (by decide), after_iff.2 rfl]
      exact (notTail_iff _ _).2 ⟨h1, ps, h2, r, h3, rfl⟩

theorem propHead_iff (t n v : Str) : propHead t = some (n, v) ↔ ∃ h, HasProp n h ∧ t = h ++ v := by
  unfold propHead HasProp
  constructor
  · intro h
    cases ha : after "has a *\"" t with
    | none => rw [ha] at h; cases h
    | some r =>
      rw [ha] at h
      dsimp only at h
      split at h
      · cases h
      · rename_i hw
        cases hb : after "\"* property whose" (r.dropWhile isWord) with
        | none => rw [hb] at h; cases h
        | some y =>
          rw [hb] at h
          dsimp only at h
          have et : t = "has a *\"".toList ++ (r.takeWhile isWord ++ ("\"* property whose".toList ++ y)) := by
            rw [after_iff.1 ha]
            conv => lhs; rw [word_split r, after_iff.1 hb]
          cases hc : after " initial value is " y with
          | some v' =>
            rw [hc] at h
            obtain ⟨rfl, rfl⟩ := Prod.mk.inj (Option.some.inj h)
            exact ⟨_, ⟨_, word_take hw, rfl, .inr rfl⟩, by rw [et, after_iff.1 hc]; simp⟩
          | none =>
            rw [hc] at h
            dsimp only at h
            cases hd : after " value is " y with
            | some v' =>
              rw [hd] at h
              obtain ⟨rfl, rfl⟩ := Prod.mk.inj (Option.some.inj h)
              exact ⟨_, ⟨_, word_take hw, rfl, .inl rfl⟩, by rw [et, after_iff.1 hd]; simp⟩
            | none => rw [hd] at h; cases h
  · rintro ⟨h, ⟨x, hx, rfl, hh⟩, rfl⟩
    have key : ∀ y : Str, (x ++ ("\"* property whose".toList ++ y)).takeWhile isWord = x ∧ (x ++ ("\"* property whose".toList ++ y)).dropWhile isWord = "\"* property whose".toList ++ y :=
      fun y => word_then hx (notWord_head '"' _ rfl (by decide))
    rcases hh with rfl | rfl
    · rw [show "has a ".toList ++ ("*\"".toList ++ x ++ "\"*".toList) ++ " property whose value is ".toList ++ v =
        "has a *\"".toList ++ (x ++ ("\"* property whose".toList ++ (" value is ".toList ++ v))) by simp]
      rw [after_iff.2 rfl]
      dsimp only
      rw [(key _).1, (key _).2, if_neg hx.1, after_iff.2 rfl]
      dsimp only
      rw [after_clash (by decide), after_iff.2 rfl]
    · rw [show "has a ".toList ++ ("*\"".toList ++ x ++ "\"*".toList) ++ " property whose initial value is ".toList ++ v =
        "has a *\"".toList ++ (x ++ ("\"* property whose".toList ++ (" initial value is ".toList ++ v))) by simp]
      rw [after_iff.2 rfl]
      dsimp only
      rw [(key _).1, (key _).2, if_neg hx.1, after_iff.2 rfl]
      dsimp only
      rw [after_iff.2 rfl]

theorem valueAttrs_iff (u x : Str) (q : Str × Str) : valueAttrs u x = some q ↔ ∃ a, Some' u ∧ Some' a ∧ x = " and whose attributes are {".toList ++ a ++ "}.".toList ∧
    q = (u, "{".toList ++ a ++ "}".toList) := by
  unfold valueAttrs
  constructor
  · intro h
    split at h
    · cases h
    · rename_i hu
      rw [not_or] at hu
      cases ha : after " and whose attributes are {" x with
      | none => rw [ha] at h; cases h
      | some y =>
        rw [ha] at h
        dsimp only at h
        cases hb : before "}." y with
        | none => rw [hb] at h; cases h
        | some a =>
          rw [hb] at h
          dsimp only at h
          split at h
          · rename_i h3
            obtain rfl := Option.some.inj h
            exact ⟨a, hu, h3, by rw [after_iff.1 ha, before_iff.1 hb]; simp, rfl⟩
          · cases h
  · rintro ⟨a, hu, h3, rfl, rfl⟩
    rw [if_neg (by rw [not_or]; exact hu), List.append_assoc, after_iff.2 rfl]
    dsimp only
    rw [before_iff.2 rfl]
    dsimp only
    rw [if_pos (show a ≠ [] ∧ '\n' ∉ a from h3)]

theorem attrs_greedy (v u b : Str) : greedy valueAttrs [] v = some (u, b) ↔ ∃ a, WithAttrs v u a ∧ (∀ u' a', WithAttrs v u' a' → u'.length ≤ u.length) ∧ b = "{".toList ++ a ++ "}".toList := by
  constructor
  · intro h
    obtain ⟨u', x, rfl, h1, h2⟩ := greedy_some h
    obtain ⟨a, h3, h4, rfl, e⟩ := (valueAttrs_iff _ _ _).1 h1
    obtain ⟨rfl, rfl⟩ := Prod.mk.inj e
    rw [List.nil_append] at *
    refine ⟨a, ⟨h3, h4, by simp⟩, ?_, rfl⟩
    rintro w c ⟨h5, h6, e⟩
    by_cases hl : w.length ≤ u.length
    · exact hl
    · have := h2 w (" and whose attributes are {".toList ++ c ++ "}.".toList) (by rw [e]; simp) (by omega)
      rw [List.nil_append, (valueAttrs_iff _ _ _).2 ⟨c, h5, h6, rfl, rfl⟩] at this
      cases this
  · rintro ⟨a, ⟨h1, h2, rfl⟩, h3, rfl⟩
    cases hg : greedy valueAttrs [] (u ++ " and whose attributes are {".toList ++ a ++ "}.".toList) with
    | none =>
      have := greedy_some.greedy_none hg u (" and whose attributes are {".toList ++ a ++ "}.".toList) (by simp)
      rw [List.nil_append, (valueAttrs_iff _ _ _).2 ⟨a, h1, h2, rfl, rfl⟩] at this
      cases this
    | some q =>
      obtain ⟨u', x, e, h4, h5⟩ := greedy_some hg
      obtain ⟨c, h6, h7, rfl, rfl⟩ := (valueAttrs_iff _ _ _).1 h4
      rw [List.nil_append] at *
      have hl := h3 u' c ⟨h6, h7, by rw [e]; simp⟩
      have hl' : ¬ u'.length < u.length := by
        intro hlt
        have := h5 u (" and whose attributes are {".toList ++ a ++ "}.".toList) (by simp) hlt
        rw [List.nil_append, (valueAttrs_iff _ _ _).2 ⟨a, h1, h2, rfl, rfl⟩] at this
        cases this
      have e' : u ++ (" and whose attributes are {".toList ++ a ++ "}.".toList) = u' ++ (" and whose attributes are {".toList ++ c ++ "}.".toList) := by rw [← e]; simp
      obtain ⟨rfl, e2⟩ := List.append_inj e' (by omega)
      rw [List.append_assoc, List.append_assoc] at e2
      have e3 := List.append_cancel_right (List.append_cancel_left e2)
      rw [e3]

theorem attrs_none (v : Str) : greedy valueAttrs [] v = none ↔ ¬ ∃ u a, WithAttrs v u a := by
  constructor
  · rintro hg ⟨u, a, h1, h2, rfl⟩
    have := greedy_some.greedy_none hg u (" and whose attributes are {".toList ++ a ++ "}.".toList) (by simp)
    rw [List.nil_append, (valueAttrs_iff _ _ _).2 ⟨a, h1, h2, rfl, rfl⟩] at this
    cases this
  · intro h
    cases hg : greedy valueAttrs [] v with
    | none => rfl
    | some q =>
      obtain ⟨u, b⟩ := q
      obtain ⟨a, h1, -⟩ := (attrs_greedy v u b).1 hg
      exact absurd ⟨u, a, h1⟩ h

theorem valueOnly_iff (v u : Str) : valueOnly v = some u ↔ Some' u ∧ v = u ++ ".".toList := by
  unfold valueOnly
  constructor
  · intro h
    cases hb : before "." v with
    | none => rw [hb] at h; cases h
    | some a =>
      rw [hb] at h
      dsimp only at h
      split at h
      · rename_i h3
        obtain rfl := Option.some.inj h
        exact ⟨h3, before_iff.1 hb⟩
      · cases h
  · rintro ⟨h, rfl⟩
    rw [before_iff.2 rfl]
    dsimp only
    rw [if_pos (show u ≠ [] ∧ '\n' ∉ u from h)]

theorem global_iff (t n : Str) : globalItem t = some n ↔ ∃ x e, Word x ∧ (e = ".".toList ∨ e = ", if that property is present (see below).".toList) ∧
    n = "*\"".toList ++ x ++ "\"*".toList ∧ t = "is the initial value of the *\"".toList ++ x ++ "\"* property of the global object".toList ++ e := by
  unfold globalItem
  constructor
  · intro h
    cases ha : after "is the initial value of the *\"" t with
    | none => rw [ha] at h; cases h
    | some r =>
      rw [ha] at h
      dsimp only at h
      split at h
      · rename_i hc
        obtain rfl := Option.some.inj h
        obtain ⟨hw, hc | hc⟩ := hc
        · refine ⟨_, _, word_take hw, .inl rfl, rfl, ?_⟩
          rw [after_iff.1 ha]
          conv => lhs; rw [word_split r, hc]
          simp
        · refine ⟨_, _, word_take hw, .inr rfl, rfl, ?_⟩
          rw [after_iff.1 ha]
          conv => lhs; rw [word_split r, hc]
          simp
      · cases h
  · rintro ⟨x, e, hx, he, rfl, rfl⟩
    rw [show "is the initial value of the *\"".toList ++ x ++ "\"* property of the global object".toList ++ e =
      "is the initial value of the *\"".toList ++ (x ++ ("\"* property of the global object".toList ++ e)) by simp]
    rw [after_iff.2 rfl]
    dsimp only
    obtain ⟨h1, h2⟩ := word_then (r := "\"* property of the global object".toList ++ e) hx (notWord_head '"' _ rfl (by decide))
    rw [h1, h2, if_pos]
    refine ⟨hx.1, ?_⟩
    rcases he with rfl | rfl
    · exact .inl (by simp)
    · exact .inr (by simp)

end Verif.Objs
