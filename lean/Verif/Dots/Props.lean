import Verif.Dots.TightLemmas
/-!
# C93: The static type of a dotting covers what the field can hold
-/
namespace Verif.Dots

variable {T V : Type} [DecidableEq T] {y : Types T} {den : T → V → Prop} {field : V → Str → V → Prop}

/-- The parts of the program's result. -/
theorem dotting_inv {x n : Str} {t : T} {r : Result T} (h : dotting y x n t = some r) :
    ∃ d s, dottable y x t = some d ∧ loop y n ⟨y.zero, y.zero, d.2, false⟩ (y.parts d.1) = some s ∧ r.type = s.dot ∧ r.left t = s.lhs ∧
      (∃ ms, r.msgs = s.msgs ++ ms) ∧ (r.replaced ≠ none → s.lhs ≠ t) ∧ (s.lhs ≠ t → s.lhs ≠ d.1 → r.msgs ≠ []) ∧
      ((∀ m ∈ r.msgs, ¬ Unknown m) → ∀ m ∈ s.msgs, ¬ Unknown m) := by
  unfold dotting at h
  cases hd : dottable y x t with
  | none => rw [hd] at h; exact nomatch h
  | some d =>
    rw [hd, Option.bind_some] at h
    cases hl : loop y n ⟨y.zero, y.zero, d.2, false⟩ (y.parts d.1) with
    | none => rw [hl] at h; exact nomatch h
    | some s =>
      rw [hl] at h
      have h := Option.some.inj h
      dsimp only at h
      refine ⟨d, s, rfl, hl, ?_⟩
      by_cases he : s.lhs ≠ t
      · rw [if_pos he] at h
        subst h
        refine ⟨rfl, rfl, ⟨_, rfl⟩, fun _ => he, fun _ h2 => ?_, fun hu m hm => hu m (List.mem_append_left _ hm)⟩
        rw [if_pos h2]; simp
      · rw [if_neg he] at h
        subst h
        exact ⟨rfl, (Decidable.not_not.1 he).symm, ⟨[], by simp⟩, fun h => absurd rfl h, fun h => absurd h he, fun hu => hu⟩

/-- The part that takes a dot is not `tbd`, and it covers all that can take a dot. -/
theorem dottable_inv (hm : Means y den field) {x : Str} {t : T} (ht : t ≠ y.tbd) {d : T × List (Msg T)} (h : dottable y x t = some d) :
    d.1 ≠ y.tbd ∧ (∀ v n w, den t v → field v n w → den d.1 v) ∧ ((y.split t).1 ≠ y.zero → d.1 = (y.split t).1) ∧
      (d.2 = [] → (y.split t).2 = y.zero) := by
  have hs := hm.split t ht
  unfold dottable at h
  by_cases h0 : (y.split t).1 = y.zero
  · have hno : ∀ v n w, den t v → ¬ field v n w := fun v n w h1 h2 => by
      have := hs.2.2 v n w h1 h2
      rw [h0] at this
      exact hm.zero.2 v this
    rw [if_pos h0] at h
    split at h
    · obtain rfl := Option.some.inj h
      exact ⟨hm.special.1, fun v n w h1 h2 => absurd h2 (hno v n w h1), fun h => absurd h0 h, fun e => nomatch e⟩
    · split at h
      · obtain rfl := Option.some.inj h
        exact ⟨hm.special.2.1, fun v n w h1 h2 => absurd h2 (hno v n w h1), fun h => absurd h0 h, fun e => nomatch e⟩
      · exact nomatch h
  · rw [if_neg h0] at h
    by_cases h2 : (y.split t).2 ≠ y.zero
    · rw [if_pos h2] at h
      obtain rfl := Option.some.inj h
      exact ⟨hs.1, hs.2.2, fun _ => rfl, fun e => nomatch e⟩
    · rw [if_neg h2] at h
      obtain rfl := Option.some.inj h
      exact ⟨hs.1, hs.2.2, fun _ => rfl, fun _ => Decidable.not_not.1 h2⟩

/-- C93: whatever value the left side has, if it has the field, then it is still covered by the type of the left side afterwards, and what is in the field is covered by the type of the dotting, unless a line of the message says that the type is not known for a part. -/
theorem c93_sound (hm : Means y den field) {x n : Str} {t : T} (ht : t ≠ y.tbd) {r : Result T} (h : dotting y x n t = some r)
    {v w : V} (hv : den t v) (hf : field v n w) :
    den (r.left t) v ∧ ((∀ m ∈ r.msgs, ¬ Unknown m) → den r.type w) := by
  obtain ⟨d, s, h1, h2, h3, h4, _, _, _, h5⟩ := dotting_inv h
  obtain ⟨d1, d2, _, _⟩ := dottable_inv hm ht h1
  have hp := hm.parts d.1 d1
  obtain ⟨p, p1, p2⟩ := (hp.2 v).1 (d2 v n w hv hf)
  obtain ⟨_, _, a3, _, a5⟩ := loop_right hm hp.1 (by exact hm.zero.1) h2
  rw [h3, h4]
  exact ⟨a3 p p1 v w p2 hf, fun hu => (a5 (h5 hu) hm.zero.1).2.2 p p1 v w p2 hf⟩

/-- C93: if some of the type can take a dot, the type of the left side afterwards covers nothing but values of the type it had that can have the field. -/
theorem c93_narrow (hm : Means y den field) {x n : Str} {t : T} (ht : t ≠ y.tbd) {r : Result T} (h : dotting y x n t = some r)
    (hs : (y.split t).1 ≠ y.zero) (v : V) (hv : den (r.left t) v) : den t v ∧ ∃ p ∈ y.parts (y.split t).1, den p v ∧ Can y den n p v := by
  obtain ⟨d, s, h1, h2, _, h4, _, _, _, _⟩ := dotting_inv h
  obtain ⟨d1, _, d3, _⟩ := dottable_inv hm ht h1
  have hp := hm.parts d.1 d1
  rw [h4] at hv
  rcases (loop_tight hm hp.1 (by exact hm.zero.1) h2).1 v hv with h5 | ⟨p, p1, p2, p3⟩
  · exact absurd h5 (hm.zero.2 v)
  · have hd := d3 hs
    rw [hd] at p1
    exact ⟨(hm.split t ht).2.1 v (by rw [← hd]; exact (hp.2 v).2 ⟨p, by rw [hd]; exact p1, p2⟩), p, p1, p2, p3⟩

/-- C93: the type of the dotting covers nothing but what one of the parts allows, unless a line of the message says that the type is not known for a part. -/
theorem c93_only (hm : Means y den field) {x n : Str} {t : T} (ht : t ≠ y.tbd) {r : Result T} (h : dotting y x n t = some r)
    (hs : (y.split t).1 ≠ y.zero) (hu : ∀ m ∈ r.msgs, ¬ Unknown m) (w : V) (hw : den r.type w) : ∃ p ∈ y.parts (y.split t).1, May y den n p w := by
  obtain ⟨d, s, h1, h2, h3, _, _, _, _, h5⟩ := dotting_inv h
  obtain ⟨d1, _, d3, _⟩ := dottable_inv hm ht h1
  have hp := hm.parts d.1 d1
  rw [h3] at hw
  rcases (loop_tight hm hp.1 (by exact hm.zero.1) h2).2 (h5 hu) hm.zero.1 w hw with h6 | ⟨p, p1, p2⟩
  · exact absurd h6 (hm.zero.2 w)
  · exact ⟨p, d3 hs ▸ p1, p2⟩

/-- C93: the type of the left side is never replaced without a message, if splitting gives the whole type when nothing is left over. -/
theorem c93_told (hm : Means y den field) {x n : Str} {t : T} (ht : t ≠ y.tbd) {r : Result T} (h : dotting y x n t = some r)
    (hsplit : (y.split t).2 = y.zero → (y.split t).1 = t) (hq : r.msgs = []) : r.replaced = none := by
  obtain ⟨d, s, h1, h2, _, _, ⟨ms, h5⟩, h6, h7, _⟩ := dotting_inv h
  obtain ⟨_, _, d3, d4⟩ := dottable_inv hm ht h1
  obtain ⟨ns, h8⟩ := loop_msgs h2
  have hd2 : d.2 = [] := by
    rw [hq, h8] at h5
    have := (List.append_eq_nil_iff.1 h5.symm).1
    exact (List.append_eq_nil_iff.1 this).1
  cases hr : r.replaced with
  | none => rfl
  | some t' =>
    exfalso
    have hne := h6 (by rw [hr]; exact Option.some_ne_none _)
    refine h7 hne (fun he => ?_) hq
    have hz := hsplit (d4 hd2)
    by_cases h0 : (y.split t).1 = y.zero
    · unfold dottable at h1
      rw [if_pos h0] at h1
      split at h1
      · rw [← Option.some.inj h1] at hd2; exact nomatch hd2
      · split at h1
        · rw [← Option.some.inj h1] at hd2; exact nomatch hd2
        · exact nomatch h1
    · exact hne (by rw [he, d3 h0, hz])

omit [DecidableEq T] in
theorem objectPart_said {n : Str} {p : T} {f : Found T} (h : objectPart y n p = some f) : (f.type = none → f.part = p) ∧ (f.part = p ∨ .within p f.part ∈ f.msgs) := by
  unfold objectPart at h
  dsimp only at h
  repeat' split at h
  all_goals first
    | (obtain rfl := Option.some.inj h; exact ⟨fun _ => rfl, .inl rfl⟩)
    | (obtain rfl := Option.some.inj h; exact ⟨fun e => (nomatch e), .inr (.head _)⟩)
    | exact nomatch h

omit [DecidableEq T] in
theorem recordPart_said {n : Str} {p : T} {f : Found T} (h : recordPart y n p = some f) : f.part = p := by
  unfold recordPart at h
  split at h
  · split at h
    · obtain rfl := Option.some.inj h; rfl
    · split at h
      · obtain ⟨t, _, rfl⟩ := Option.map_eq_some_iff.1 h; rfl
      · obtain ⟨fs, _, rfl⟩ := Option.map_eq_some_iff.1 h
        split <;> rfl
  · obtain ⟨t, _, rfl⟩ := Option.map_eq_some_iff.1 h; rfl
  · exact nomatch h

theorem onePart_said {n : Str} {p : T} {f : Found T} (h : onePart y n p = some f) : (f.type = none → f.part = p) ∧ (f.part = p ∨ .within p f.part ∈ f.msgs) := by
  unfold onePart at h
  split at h
  · obtain rfl := Option.some.inj h; exact ⟨fun _ => rfl, .inl rfl⟩
  split at h
  · obtain rfl := Option.some.inj h; exact ⟨fun _ => rfl, .inl rfl⟩
  split at h
  · exact objectPart_said h
  split at h
  · have := recordPart_said h; exact ⟨fun _ => this, .inl this⟩
  · exact nomatch h

theorem loop_said (hm : Means y den field) {n : Str} : ∀ {ps : List T}, (∀ p ∈ ps, p ≠ y.tbd) → ∀ {s s' : State T}, s.lhs ≠ y.tbd → loop y n s ps = some s' →
    ∀ p ∈ ps, (∀ v, den p v → den s'.lhs v) ∨ (∃ h, .within p h ∈ s'.msgs) ∨ .dropping p ∈ s'.msgs := by
  intro ps
  induction ps with
  | nil => intro _ s s' _ _ p hp; exact nomatch hp
  | cons q ps ih =>
    intro ht s s' hs h p hp
    rw [loop] at h
    obtain ⟨f, h1, h2⟩ := Option.bind_eq_some_iff.1 h
    obtain ⟨a1, a2⟩ := onePart_said h1
    have hf := one_right hm (ht q (.head _)) h1
    have hs' : (put y s f).lhs ≠ y.tbd := by
      unfold put
      split
      · exact hs
      · exact (hm.union _ _ hs hf.part).1
    obtain ⟨ms, h3⟩ := loop_msgs h2
    rcases List.mem_cons.1 hp with rfl | hp
    · cases hty : f.type with
      | none =>
        refine .inr (.inr ?_)
        rw [h3]
        refine List.mem_append_left _ ?_
        unfold put
        rw [hty, ← a1 hty]
        exact List.mem_append_right _ (.head _)
      | some t =>
        rcases a2 with a2 | a2
        · refine .inl fun v hv => ?_
          refine (loop_right hm (fun r hr => ht r (.tail _ hr)) hs' h2).2.1 v ?_
          unfold put
          rw [hty, a2]
          exact ((hm.union _ _ hs (ht p (.head _))).2 v).2 (.inr hv)
        · refine .inr (.inl ⟨f.part, ?_⟩)
          rw [h3]
          refine List.mem_append_left _ ?_
          unfold put
          rw [hty]
          exact List.mem_append_right _ a2
    · exact ih (fun r hr => ht r (.tail _ hr)) hs' h2 p hp

/-- C93: each part of the type that is lost, as a whole or in part, is named in a line of the message: it is dropped, or only a type within it has the field. -/
theorem c93_named (hm : Means y den field) {x n : Str} {t : T} (ht : t ≠ y.tbd) {r : Result T} (h : dotting y x n t = some r) (hs : (y.split t).1 ≠ y.zero) :
    ∀ p ∈ y.parts (y.split t).1, (∀ v, den p v → den (r.left t) v) ∨ (∃ h, .within p h ∈ r.msgs) ∨ .dropping p ∈ r.msgs := by
  obtain ⟨d, s, h1, h2, _, h4, ⟨ms, h5⟩, _, _, _⟩ := dotting_inv h
  obtain ⟨d1, _, d3, _⟩ := dottable_inv hm ht h1
  have hp := hm.parts d.1 d1
  intro p hpp
  rw [← d3 hs] at hpp
  rw [h4, h5]
  rcases loop_said hm hp.1 (by exact hm.zero.1) h2 p hpp with h6 | ⟨k, h6⟩ | h6
  · exact .inl h6
  · exact .inr (.inl ⟨k, List.mem_append_left _ h6⟩)
  · exact .inr (.inr (List.mem_append_left _ h6))

theorem onePart_warn {n : Str} {p : T} {f : Found T} (h : onePart y n p = some f) :
    f.warn = true ↔ p ≠ y.symbol ∧ p ≠ y.privateName ∧ y.sub p y.object = false ∧ n = "[[Type]]".toList ∧ ∃ g, y.shape p = .rcd "Completion Record".toList g := by
  unfold onePart at h
  split at h
  · next h1 => obtain rfl := Option.some.inj h; exact ⟨fun e => (nomatch e), fun e => absurd h1 e.1⟩
  · next h1 =>
    split at h
    · next h2 => obtain rfl := Option.some.inj h; exact ⟨fun e => (nomatch e), fun e => absurd h2 e.2.1⟩
    · next h2 =>
      split at h
      · next h3 =>
        have hw : f.warn = false := by
          unfold objectPart at h
          dsimp only at h
          repeat' split at h
          all_goals first
            | (obtain rfl := Option.some.inj h; rfl)
            | exact nomatch h
        rw [hw, h3]
        exact ⟨fun e => (nomatch e), fun e => (nomatch e.2.2.1)⟩
      · next h3 =>
        have h3 : y.sub p y.object = false := by simpa using h3
        split at h
        · unfold recordPart at h
          cases hs : y.shape p with
          | hier name =>
            rw [hs] at h
            dsimp only at h
            have hw : f.warn = false := by
              split at h
              · obtain rfl := Option.some.inj h; rfl
              · split at h
                · obtain ⟨t, _, rfl⟩ := Option.map_eq_some_iff.1 h; rfl
                · obtain ⟨fs, _, rfl⟩ := Option.map_eq_some_iff.1 h
                  split <;> rfl
            rw [hw]
            exact ⟨fun e => (nomatch e), fun ⟨_, _, _, _, g, e⟩ => (nomatch e)⟩
          | rcd s g =>
            rw [hs] at h
            obtain ⟨t, _, rfl⟩ := Option.map_eq_some_iff.1 h
            refine ⟨fun e => ?_, fun ⟨_, _, _, e, g', eg⟩ => ?_⟩
            · obtain ⟨e1, e2⟩ := of_decide_eq_true e
              exact ⟨h1, h2, h3, e2, g, by rw [e1]⟩
            · injection eg with e1 _
              exact decide_eq_true ⟨e1, e⟩
          | other => rw [hs] at h; exact nomatch h
        · exact nomatch h

theorem loop_warn {n : Str} {ps : List T} : ∀ {s s' : State T}, loop y n s ps = some s' → (s'.warn = true ↔ s.warn = true ∨
    ∃ p ∈ ps, p ≠ y.symbol ∧ p ≠ y.privateName ∧ y.sub p y.object = false ∧ n = "[[Type]]".toList ∧ ∃ g, y.shape p = .rcd "Completion Record".toList g) := by
  induction ps with
  | nil =>
    intro s s' h
    obtain rfl := Option.some.inj h
    exact ⟨.inl, fun h => h.elim id fun ⟨_, h, _⟩ => nomatch h⟩
  | cons p ps ih =>
    intro s s' h
    rw [loop] at h
    obtain ⟨f, h1, h2⟩ := Option.bind_eq_some_iff.1 h
    rw [ih h2]
    clear h
    have hp : (put y s f).warn = (s.warn || f.warn) := by unfold put; split <;> rfl
    rw [hp, Bool.or_eq_true, onePart_warn h1]
    constructor
    · rintro ((h | h) | ⟨q, hq, h⟩)
      · exact .inl h
      · exact .inr ⟨p, .head _, h⟩
      · exact .inr ⟨q, .tail _ hq, h⟩
    · rintro (h | ⟨q, hq, h⟩)
      · exact .inl (.inl h)
      · rcases List.mem_cons.1 hq with rfl | hq
        · exact .inl (.inr h)
        · exact .inr ⟨q, hq, h⟩

/-- C93: the warning about `[[Type]]` is given just if one of the parts is a completion record and that is the field. -/
theorem c93_warn {x n : Str} {t : T} {r : Result T} (h : dotting y x n t = some r) (hs : (y.split t).1 ≠ y.zero) :
    r.warn = true ↔ n = "[[Type]]".toList ∧ ∃ p ∈ y.parts (y.split t).1, p ≠ y.symbol ∧ p ≠ y.privateName ∧ y.sub p y.object = false ∧
      ∃ g, y.shape p = .rcd "Completion Record".toList g := by
  unfold dotting at h
  obtain ⟨d, h1, h2⟩ := Option.bind_eq_some_iff.1 h
  obtain ⟨s, h3, h4⟩ := Option.map_eq_some_iff.1 h2
  have hd : d.1 = (y.split t).1 := by
    unfold dottable at h1
    rw [if_neg hs] at h1
    split at h1 <;> (obtain rfl := Option.some.inj h1; rfl)
  have hw : r.warn = s.warn := by rw [← h4]; split <;> rfl
  rw [hw, loop_warn h3, hd]
  constructor
  · rintro (h | ⟨p, hp, h5, h6, h7, h8, h9⟩)
    · exact nomatch h
    · exact ⟨h8, p, hp, h5, h6, h7, h9⟩
  · rintro ⟨h8, p, hp, h5, h6, h7, h9⟩
    exact .inr ⟨p, hp, h5, h6, h7, h8, h9⟩

omit [DecidableEq T] in
/-- C93: the brackets for "an object with a … slot": all objects that have the slot are covered by the upper type, and all that are covered by the lower type have it; it is refused just if the slot is not declared. -/
theorem c93_slot (hm : Means y den field) (n : Str) : (slotBracket y n = none ↔ y.decls n = []) ∧
    ∀ lo hi, slotBracket y n = some (lo, hi) → (∀ v w, den y.object v → field v n w → den hi v) ∧ (∀ v, den lo v → den y.object v ∧ ∃ w, field v n w) ∧
      ∀ v, den hi v → ∃ d ∈ y.decls n, den d.holder v := by
  unfold slotBracket
  cases hd : y.decls n with
  | nil => exact ⟨⟨fun _ => rfl, fun _ => rfl⟩, fun _ _ h => nomatch h⟩
  | cons d ds =>
    cases ds with
    | nil =>
      have hmem : d ∈ y.decls n := by rw [hd]; exact .head _
      dsimp only
      refine ⟨⟨fun h => (nomatch h), fun h => (nomatch h)⟩, fun lo hi h => ?_⟩
      cases h
      refine ⟨fun v w h1 h2 => ?_, fun v h1 => ?_, fun v h1 => ⟨d, .head _, h1⟩⟩
      · obtain ⟨e, h3, h4⟩ := hm.complete v n w h1 h2
        rw [hd] at h3
        rw [← List.mem_singleton.1 h3]; exact h4
      · by_cases hmu : d.must = true
        · rw [if_pos hmu] at h1
          exact ⟨(hm.holder n d hmem).2 v h1, hm.must n d hmem hmu v h1⟩
        · rw [if_neg hmu] at h1
          exact absurd h1 (hm.zero.2 v)
    | cons e ds =>
      dsimp only
      rw [← hd]
      have hh := unions_den hm ((y.decls n).map (·.holder)) (fun t ht => by
        obtain ⟨d, h1, rfl⟩ := List.mem_map.1 ht
        exact (hm.holder n d h1).1)
      refine ⟨⟨fun h => (nomatch h), fun h => by rw [hd] at h; exact nomatch h⟩, fun lo hi h => ?_⟩
      have h := Prod.mk.inj (Option.some.inj h)
      obtain ⟨hlo, rfl⟩ := h
      refine ⟨fun v w h1 h2 => ?_, fun v h1 => ?_, fun v h1 => ?_⟩
      · obtain ⟨f, h3, h4⟩ := hm.complete v n w h1 h2
        exact (hh.2 v).2 ⟨_, List.mem_map.2 ⟨f, h3, rfl⟩, h4⟩
      · rw [← hlo] at h1
        by_cases hmu : (y.decls n).any (fun d => !d.must) = true
        · rw [if_pos hmu] at h1
          exact absurd h1 (hm.zero.2 v)
        · rw [if_neg hmu] at h1
          obtain ⟨t, h2, h3⟩ := (hh.2 v).1 h1
          obtain ⟨f, h4, rfl⟩ := List.mem_map.1 h2
          refine ⟨(hm.holder n f h4).2 v h3, hm.must n f h4 ?_ v h3⟩
          cases hb : f.must with
          | true => rfl
          | false => exact absurd (List.any_eq_true.2 ⟨f, h4, by rw [hb]; rfl⟩) hmu
      · obtain ⟨t, h2, h3⟩ := (hh.2 v).1 h1
        obtain ⟨f, h4, rfl⟩ := List.mem_map.1 h2
        exact ⟨f, h4, h3⟩

/-! ## A case -/

/-- Some values: a Symbol, a Private Name, an ordinary object, a TypedArray, a record, a String and `undefined`. -/
inductive Val where
  | sym | priv | obj | ta | rcd | str | undef
deriving DecidableEq

def Val.all : List Val := [.sym, .priv, .obj, .ta, .rcd, .str, .undef]

def norm (l : List Val) : List Val := Val.all.filter (l.contains ·)

theorem mem_norm {l : List Val} {v : Val} : v ∈ norm l ↔ v ∈ l := by
  unfold norm
  rw [List.mem_filter, List.contains_iff_mem]
  exact ⟨fun h => h.2, fun h => ⟨by cases v <;> decide, h⟩⟩

def canDot (v : Val) : Bool := [Val.sym, .priv, .obj, .ta, .rcd].contains v
def isObj (v : Val) : Bool := [Val.obj, .ta].contains v

def partsOf (l : List Val) : List (Option (List Val)) :=
  ([l.filter (· == .sym), l.filter (· == .priv), l.filter isObj, l.filter (· == .rcd), l.filter (fun v => !canDot v)].filter (· ≠ [])).map some

/-- Types are lists of values, and `none` is `tbd`.
A TypedArray has a name, and the record has a declared field and one that is not. -/
def world : Types (Option (List Val)) where
  union a b := match a, b with
    | some a, some b => some (norm (a ++ b))
    | some a, none => if a = [] then none else some a
    | none, some b => if b = [] then none else some b
    | none, none => none
  zero := some []
  tbd := none
  sub a b := match a, b with
    | some a, some b => a.all (b.contains ·)
    | _, _ => false
  split t := match t with
    | some l => (some (l.filter canDot), some (l.filter (fun v => !canDot v)))
    | none => (some [], none)
  parts t := match t with
    | some l => partsOf l
    | none => [none]
  shape t := if t = some [.rcd] then .hier "Thing Record".toList else .other
  symbol := some [.sym]
  privateName := some [.priv]
  object := some [.obj, .ta]
  record := some [.rcd]
  string := some [.str]
  undefined := some [.undef]
  resolvedBinding := some [.rcd]
  privateElement := some [.rcd]
  decls n := if n = "[[TypedArrayName]]".toList then [⟨some [.ta], true, some [.str]⟩] else []
  fields n := if n = "Thing Record".toList then some (fun f => if f = "[[Name]]".toList then some (some [.str]) else none) else none
  intrinsics _ := none

def has (t : Option (List Val)) (v : Val) : Prop := match t with
  | some l => v ∈ l
  | none => False

inductive Field : Val → Str → Val → Prop where
  | descr : Field .sym "[[Description]]".toList .undef
  | priv : Field .priv "[[Description]]".toList .str
  | name : Field .ta "[[TypedArrayName]]".toList .str
  | declared : Field .rcd "[[Name]]".toList .str
  | other : Field .rcd "[[TypedArrayName]]".toList .undef

theorem decls_world {n : Str} {d : Decl (Option (List Val))} (h : d ∈ world.decls n) :
    n = "[[TypedArrayName]]".toList ∧ d = ⟨some [.ta], true, some [.str]⟩ := by
  have h : d ∈ (if n = "[[TypedArrayName]]".toList then [⟨some [.ta], true, some [.str]⟩] else [] : List (Decl (Option (List Val)))) := h
  by_cases hn : n = "[[TypedArrayName]]".toList
  · rw [if_pos hn] at h; exact ⟨hn, List.mem_singleton.1 h⟩
  · rw [if_neg hn] at h; exact nomatch h

theorem shape_world {p : Option (List Val)} {name : Str} (h : world.shape p = .hier name) : p = some [.rcd] ∧ name = "Thing Record".toList := by
  have h : (if p = some [.rcd] then Shape.hier "Thing Record".toList else .other : Shape (Option (List Val))) = .hier name := h
  by_cases hp : p = some [.rcd]
  · rw [if_pos hp] at h; injection h with h; exact ⟨hp, h.symm⟩
  · rw [if_neg hp] at h; exact nomatch h

theorem mem_partsOf {l : List Val} {v : Val} : v ∈ l ↔ ∃ p ∈ partsOf l, has p v := by
  unfold partsOf
  constructor
  · intro h
    have key : ∀ q : Val → Bool, q v = true → l.filter q ∈ [l.filter (· == .sym), l.filter (· == .priv), l.filter isObj, l.filter (· == .rcd), l.filter (fun v => !canDot v)] →
        ∃ p ∈ (([l.filter (· == .sym), l.filter (· == .priv), l.filter isObj, l.filter (· == .rcd), l.filter (fun v => !canDot v)].filter (· ≠ [])).map some), has p v := by
      intro q hq hm
      have hv : v ∈ l.filter q := List.mem_filter.2 ⟨h, hq⟩
      refine ⟨some (l.filter q), List.mem_map.2 ⟨_, List.mem_filter.2 ⟨hm, ?_⟩, rfl⟩, hv⟩
      simpa using List.ne_nil_of_mem hv
    cases v
    · exact key (· == .sym) rfl (.head _)
    · exact key (· == .priv) rfl (.tail _ (.head _))
    · exact key isObj rfl (.tail _ (.tail _ (.head _)))
    · exact key isObj rfl (.tail _ (.tail _ (.head _)))
    · exact key (· == .rcd) rfl (.tail _ (.tail _ (.tail _ (.head _))))
    · exact key (fun v => !canDot v) rfl (.tail _ (.tail _ (.tail _ (.tail _ (.head _)))))
    · exact key (fun v => !canDot v) rfl (.tail _ (.tail _ (.tail _ (.tail _ (.head _)))))
  · rintro ⟨p, h1, h2⟩
    obtain ⟨q, h3, rfl⟩ := List.mem_map.1 h1
    have h4 := (List.mem_filter.1 h3).1
    have h2 : v ∈ q := h2
    rcases List.mem_cons.1 h4 with rfl | h4
    · exact (List.mem_filter.1 h2).1
    rcases List.mem_cons.1 h4 with rfl | h4
    · exact (List.mem_filter.1 h2).1
    rcases List.mem_cons.1 h4 with rfl | h4
    · exact (List.mem_filter.1 h2).1
    rcases List.mem_cons.1 h4 with rfl | h4
    · exact (List.mem_filter.1 h2).1
    · rw [List.mem_singleton.1 h4] at h2; exact (List.mem_filter.1 h2).1

theorem means_world : Means world has Field where
  union a b ha hb := by
    cases a with
    | none => exact absurd rfl ha
    | some a =>
      cases b with
      | none => exact absurd rfl hb
      | some b =>
        refine ⟨fun h => (nomatch h), fun v => ?_⟩
        show v ∈ norm (a ++ b) ↔ _
        rw [mem_norm, List.mem_append]
        exact Iff.rfl
  zero := ⟨fun h => (nomatch h), fun _ h => (nomatch h)⟩
  sub a b h v hv := by
    cases a with
    | none => exact hv.elim
    | some a =>
      cases b with
      | none => exact nomatch h
      | some b =>
        have h : a.all (b.contains ·) = true := h
        have := List.all_eq_true.1 h v hv
        exact List.contains_iff_mem.1 this
  split t ht := by
    cases t with
    | none => exact absurd rfl ht
    | some l =>
      refine ⟨fun h => (nomatch h), fun v h => (List.mem_filter.1 h).1, fun v n w h1 h2 => List.mem_filter.2 ⟨h1, ?_⟩⟩
      cases h2 <;> rfl
  parts t ht := by
    cases t with
    | none => exact absurd rfl ht
    | some l =>
      refine ⟨fun p hp he => ?_, fun v => mem_partsOf⟩
      obtain ⟨q, _, rfl⟩ := List.mem_map.1 hp
      exact nomatch he
  special := ⟨fun h => (nomatch h), fun h => (nomatch h), fun h => (nomatch h), fun h => (nomatch h)⟩
  symbol v n w h1 h2 := by
    obtain rfl := List.mem_singleton.1 h1
    cases h2
    exact ⟨rfl, .inr (.head _)⟩
  privateName v n w h1 h2 := by
    obtain rfl := List.mem_singleton.1 h1
    cases h2
    exact ⟨rfl, .head _⟩
  holder n d hd := by
    obtain ⟨_, rfl⟩ := decls_world hd
    refine ⟨fun h => (nomatch h), fun v hv => ?_⟩
    obtain rfl := List.mem_singleton.1 hv
    exact .tail _ (.head _)
  slot n d hd := by
    obtain ⟨_, rfl⟩ := decls_world hd
    refine ⟨fun h => (nomatch h), fun v w hv hf => ?_⟩
    obtain rfl := List.mem_singleton.1 hv
    cases hf
    exact .head _
  must n d hd _ v hv := by
    obtain ⟨rfl, rfl⟩ := decls_world hd
    obtain rfl := List.mem_singleton.1 hv
    exact ⟨.str, .name⟩
  complete v n w h1 h2 := by
    have h1 : v ∈ [Val.obj, .ta] := h1
    rcases List.mem_cons.1 h1 with rfl | h1
    · exact nomatch h2
    · obtain rfl := List.mem_singleton.1 h1
      cases h2
      exact ⟨⟨some [.ta], true, some [.str]⟩, .head _, .head _⟩
  nested p n d hd ho v hp hh := by
    obtain ⟨_, rfl⟩ := decls_world hd
    obtain rfl := List.mem_singleton.1 hh
    cases p with
    | none => exact hp.elim
    | some l =>
      refine .inr ?_
      show [Val.ta].all (l.contains ·) = true
      simp only [List.all_cons, List.all_nil, Bool.and_true]
      exact List.contains_iff_mem.2 hp
  intrinsics p n t _ h := nomatch h
  named p name fs n t h1 h2 h3 := by
    obtain ⟨rfl, rfl⟩ := shape_world h1
    have h2 : (some (fun f => if f = "[[Name]]".toList then some (some [Val.str]) else none) : Option (Str → Option (Option (List Val)))) = some fs := h2
    obtain rfl := Option.some.inj h2
    dsimp only at h3
    by_cases hn : n = "[[Name]]".toList
    · rw [if_pos hn] at h3
      obtain rfl := Option.some.inj h3
      refine ⟨fun h => (nomatch h), fun v w hv hf => ?_⟩
      obtain rfl := List.mem_singleton.1 hv
      subst hn
      generalize hx : "[[Name]]".toList = x at hf
      cases hf
      · exact .head _
      · exact absurd hx (by decide)
    · rw [if_neg hn] at h3; exact nomatch h3
  record p s f n t h := by
    have h : (if p = some [.rcd] then Shape.hier "Thing Record".toList else .other : Shape (Option (List Val))) = .rcd s f := h
    split at h <;> exact nomatch h

/-- An object or a record or a String: the String cannot take a dot, of the objects only the TypedArrays have the slot, and nothing is known about such a field of the record. -/
example : (dotting world "_x_".toList "[[TypedArrayName]]".toList (some [.obj, .ta, .rcd, .str])).map (fun r => (r.type, r.replaced, r.msgs)) =
    some (some [.str], some (some [.ta, .rcd]),
      [.someCannotDot (some [.str]), .narrowing (some [.obj, .ta, .rcd]), .within (some [.obj, .ta]) (some [.ta]), .noField (some [.rcd]), .final (some [.ta, .rcd])]) := by
  decide +kernel

/-- A Symbol or an object: the object is dropped. -/
example : (dotting world "_x_".toList "[[Description]]".toList (some [.sym, .obj])).map (fun r => (r.type, r.replaced, r.msgs)) =
    some (some [.str, .undef], some (some [.sym]), [.dropping (some [.obj]), .final (some [.sym])]) := by decide +kernel

/-- Nothing to say. -/
example : (dotting world "_x_".toList "[[Name]]".toList (some [.rcd])).map (fun r => (r.type, r.replaced, r.msgs)) = some (some [Val.str], none, []) := by decide +kernel

example (r : Result (Option (List Val))) (h : dotting world "_x_".toList "[[Name]]".toList (some [.rcd]) = some r) (hu : ∀ m ∈ r.msgs, ¬ Unknown m) : has r.type .str :=
  (c93_sound (t := some [.rcd]) means_world (fun h => nomatch h) h (v := .rcd) (w := .str) (.head _) .declared).2 hu

example : slotBracket world "[[TypedArrayName]]".toList = some (some [Val.ta], some [Val.ta]) := by decide +kernel

/-- What is not known for a part is forgotten: the field of the record holds `undefined`, and the type of the dotting does not cover it.
The message says that the record has no such field. -/
theorem c93_forgotten : ∃ r, dotting world "_x_".toList "[[TypedArrayName]]".toList (some [.ta, .rcd]) = some r ∧ Field .rcd "[[TypedArrayName]]".toList .undef ∧
    ¬ has r.type .undef ∧ r.msgs = [.noField (some [.rcd])] := by
  cases h : dotting world "_x_".toList "[[TypedArrayName]]".toList (some [.ta, .rcd]) with
  | none => exact absurd h (by decide +kernel)
  | some r =>
    have : (dotting world "_x_".toList "[[TypedArrayName]]".toList (some [.ta, .rcd])).map (fun r => (r.type, r.msgs)) = some (some [.str], [.noField (some [.rcd])]) := by
      decide +kernel
    rw [h] at this
    have := Prod.mk.inj (Option.some.inj this)
    refine ⟨r, rfl, .other, ?_, this.2⟩
    rw [this.1]
    exact fun h => by cases h with | tail _ h => exact nomatch h

end Verif.Dots
