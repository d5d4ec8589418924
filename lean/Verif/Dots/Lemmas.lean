import Verif.Dots.Spec
/-! Lemmas for C93. -/
namespace Verif.Dots

variable {T V : Type} [DecidableEq T] {y : Types T} {den : T → V → Prop} {field : V → Str → V → Prop}

omit [DecidableEq T] in
theorem unions_den (hm : Means y den field) : ∀ (ts : List T), (∀ t ∈ ts, t ≠ y.tbd) → unions y ts ≠ y.tbd ∧ ∀ v, den (unions y ts) v ↔ ∃ t ∈ ts, den t v
  | [], _ => ⟨hm.zero.1, fun v => ⟨fun h => absurd h (hm.zero.2 v), fun ⟨_, h, _⟩ => nomatch h⟩⟩
  | t :: ts, h => by
    have ih := unions_den hm ts (fun s hs => h s (.tail _ hs))
    have hu := hm.union t (unions y ts) (h t (.head _)) ih.1
    refine ⟨hu.1, fun v => ?_⟩
    show den (y.union t (unions y ts)) v ↔ _
    rw [hu.2 v, ih.2 v]
    simp only [List.mem_cons, exists_eq_or_imp]

/-- What is found for a part is right. -/
structure Right (y : Types T) (den : T → V → Prop) (field : V → Str → V → Prop) (n : Str) (p : T) (f : Found T) : Prop where
  part : f.part ≠ y.tbd
  within : ∀ v, den f.part v → den p v
  keep : ∀ v w, den p v → field v n w → den f.part v ∧ f.type ≠ none
  type : ∀ t, f.type = some t → (∃ m ∈ f.msgs, Unknown m) ∨ t ≠ y.tbd ∧ ∀ v w, den p v → field v n w → den t w

omit [DecidableEq T] in
theorem right_drop {n : Str} {p : T} {b : Bool} (hp : p ≠ y.tbd) (h : ∀ v w, den p v → ¬ field v n w) : Right y den field n p ⟨p, none, [], b⟩ :=
  ⟨hp, fun _ h => h, fun v w h1 h2 => absurd h2 (h v w h1), fun _ h => nomatch h⟩

omit [DecidableEq T] in
theorem right_keep {n : Str} {p t : T} {b : Bool} (hp : p ≠ y.tbd) (ht : t ≠ y.tbd) (h : ∀ v w, den p v → field v n w → den t w) :
    Right y den field n p ⟨p, some t, [], b⟩ :=
  ⟨hp, fun _ h => h, fun _ _ h1 _ => ⟨h1, Option.some_ne_none _⟩, fun _ e => by cases e; exact .inr ⟨ht, h⟩⟩

omit [DecidableEq T] in
theorem object_right (hm : Means y den field) {n : Str} {p : T} (hp : p ≠ y.tbd) (ho : y.sub p y.object = true) {f : Found T}
    (h : objectPart y n p = some f) : Right y den field n p f := by
  unfold objectPart at h
  have hobj : ∀ v, den p v → den y.object v := hm.sub p _ ho
  split at h
  · rename_i hd
    obtain rfl := Option.some.inj h
    refine right_drop hp (fun v w h1 h2 => ?_)
    obtain ⟨d, h3, _⟩ := hm.complete v n w (hobj v h1) h2
    rw [hd] at h3
    exact nomatch h3
  · rename_i d hd
    have hmem : d ∈ y.decls n := by rw [hd]; exact .head _
    have honly : ∀ v w, den p v → field v n w → den d.holder v := fun v w h1 h2 => by
      obtain ⟨e, h3, h4⟩ := hm.complete v n w (hobj v h1) h2
      rw [hd] at h3
      rw [← List.mem_singleton.1 h3]; exact h4
    by_cases h1 : y.sub p d.holder = true
    · rw [if_pos h1] at h
      obtain rfl := Option.some.inj h
      exact right_keep hp (hm.slot n d hmem).1 (fun v w h2 h3 => (hm.slot n d hmem).2 v w (hm.sub _ _ h1 v h2) h3)
    · rw [if_neg h1] at h
      by_cases h2 : y.sub d.holder p = true
      · rw [if_pos h2] at h
        obtain rfl := Option.some.inj h
        refine ⟨(hm.holder n d hmem).1, hm.sub _ _ h2, fun v w h3 h4 => ⟨honly v w h3 h4, Option.some_ne_none _⟩, fun t e => ?_⟩
        cases e
        exact .inr ⟨(hm.slot n d hmem).1, fun v w h3 h4 => (hm.slot n d hmem).2 v w (honly v w h3 h4) h4⟩
      · rw [if_neg h2] at h
        obtain rfl := Option.some.inj h
        refine right_drop hp (fun v w h3 h4 => ?_)
        exact (hm.nested p n d hmem ho v h3 (honly v w h3 h4)).elim h1 h2
  · dsimp only at h
    split at h
    · rename_i hs
      split at h
      · exact nomatch h
      · obtain rfl := Option.some.inj h
        have hno : ∀ d ∈ y.decls n, y.sub p d.holder = false := fun d hd => by
          have := List.filter_eq_nil_iff.1 hs d hd
          simpa using this
        have hsub : ∀ d, d ∈ (y.decls n).filter (fun d => !y.sub p d.holder && y.sub d.holder p) ↔ d ∈ y.decls n ∧ y.sub d.holder p = true := fun d => by
          rw [List.mem_filter]
          constructor
          · rintro ⟨h1, h2⟩; rw [Bool.and_eq_true] at h2; exact ⟨h1, h2.2⟩
          · rintro ⟨h1, h2⟩; rw [hno d h1, h2]; exact ⟨h1, rfl⟩
        have hin : ∀ v w, den p v → field v n w → ∃ d ∈ y.decls n, y.sub d.holder p = true ∧ den d.holder v := fun v w h1 h2 => by
          obtain ⟨d, h3, h4⟩ := hm.complete v n w (hobj v h1) h2
          rcases hm.nested p n d h3 ho v h1 h4 with h5 | h5
          · rw [hno d h3] at h5; exact nomatch h5
          · exact ⟨d, h3, h5, h4⟩
        have hh := unions_den hm (((y.decls n).filter (fun d => !y.sub p d.holder && y.sub d.holder p)).map (·.holder)) (fun t ht => by
          obtain ⟨d, h1, rfl⟩ := List.mem_map.1 ht
          exact (hm.holder n d ((hsub d).1 h1).1).1)
        have hr := unions_den hm (((y.decls n).filter (fun d => !y.sub p d.holder && y.sub d.holder p)).map (·.stype)) (fun t ht => by
          obtain ⟨d, h1, rfl⟩ := List.mem_map.1 ht
          exact (hm.slot n d ((hsub d).1 h1).1).1)
        refine ⟨hh.1, fun v hv => ?_, fun v w h1 h2 => ⟨?_, Option.some_ne_none _⟩, fun t e => ?_⟩
        · obtain ⟨t, h1, h2⟩ := (hh.2 v).1 hv
          obtain ⟨d, h3, rfl⟩ := List.mem_map.1 h1
          exact hm.sub _ _ ((hsub d).1 h3).2 v h2
        · obtain ⟨d, h3, h4, h5⟩ := hin v w h1 h2
          exact (hh.2 v).2 ⟨_, List.mem_map.2 ⟨d, (hsub d).2 ⟨h3, h4⟩, rfl⟩, h5⟩
        · cases e
          refine .inr ⟨hr.1, fun v w h1 h2 => ?_⟩
          obtain ⟨d, h3, h4, h5⟩ := hin v w h1 h2
          exact (hr.2 w).2 ⟨_, List.mem_map.2 ⟨d, (hsub d).2 ⟨h3, h4⟩, rfl⟩, (hm.slot n d h3).2 v w h5 h2⟩
    · rename_i d hs
      split at h
      · obtain rfl := Option.some.inj h
        have hd : d ∈ (y.decls n).filter (fun d => y.sub p d.holder) := by rw [hs]; exact .head _
        obtain ⟨h1, h2⟩ := List.mem_filter.1 hd
        exact right_keep hp (hm.slot n d h1).1 (fun v w h3 h4 => (hm.slot n d h1).2 v w (hm.sub _ _ h2 v h3) h4)
      · exact nomatch h
    · exact nomatch h

omit [DecidableEq T] in
theorem right_unknown {n : Str} {p : T} {m : Msg T} (hp : p ≠ y.tbd) (h : Unknown m) : Right y den field n p ⟨p, some y.tbd, [m], false⟩ :=
  ⟨hp, fun _ h => h, fun _ _ h1 _ => ⟨h1, Option.some_ne_none _⟩, fun _ _ => .inl ⟨m, .head _, h⟩⟩

omit [DecidableEq T] in
theorem record_right (hm : Means y den field) {n : Str} {p : T} (hp : p ≠ y.tbd) {f : Found T} (h : recordPart y n p = some f) : Right y den field n p f := by
  unfold recordPart at h
  split at h
  · rename_i name hs
    by_cases h1 : name = "Record".toList
    · rw [if_pos h1] at h
      obtain rfl := Option.some.inj h
      exact right_unknown hp (.inl rfl)
    · rw [if_neg h1] at h
      by_cases h2 : name = "Intrinsics Record".toList
      · rw [if_pos h2] at h
        subst h2
        cases hi : y.intrinsics n with
        | none => rw [hi] at h; exact nomatch h
        | some t =>
          rw [hi] at h
          obtain rfl := Option.some.inj h
          have := hm.intrinsics p n t hs hi
          exact right_keep hp this.1 this.2
      · rw [if_neg h2] at h
        cases hf : y.fields name with
        | none => rw [hf] at h; exact nomatch h
        | some fs =>
          rw [hf] at h
          have h := Option.some.inj h
          dsimp only at h
          cases ht : fs n with
          | none => rw [ht] at h; subst h; exact right_unknown hp (.inr ⟨p, rfl⟩)
          | some t =>
            rw [ht] at h
            subst h
            have := hm.named p name fs n t hs hf ht
            exact right_keep hp this.1 this.2
  · rename_i s g hs
    cases ht : g n with
    | none => rw [ht] at h; exact nomatch h
    | some t =>
      rw [ht] at h
      obtain rfl := Option.some.inj h
      have := hm.record p s g n t hs ht
      exact right_keep hp this.1 this.2
  · exact nomatch h

theorem one_right (hm : Means y den field) {n : Str} {p : T} (hp : p ≠ y.tbd) {f : Found T} (h : onePart y n p = some f) : Right y den field n p f := by
  unfold onePart at h
  by_cases h1 : p = y.symbol
  · rw [if_pos h1] at h
    obtain rfl := Option.some.inj h
    by_cases hn : n = "[[Description]]".toList
    · rw [if_pos hn]
      have hu := hm.union y.string y.undefined hm.special.2.2.1 hm.special.2.2.2
      exact right_keep hp hu.1 (fun v w h2 h3 => (hu.2 w).2 (hm.symbol v n w (h1 ▸ h2) h3).2)
    · rw [if_neg hn]
      exact right_drop hp (fun v w h2 h3 => hn (hm.symbol v n w (h1 ▸ h2) h3).1)
  · rw [if_neg h1] at h
    by_cases h2 : p = y.privateName
    · rw [if_pos h2] at h
      obtain rfl := Option.some.inj h
      by_cases hn : n = "[[Description]]".toList
      · rw [if_pos hn]
        exact right_keep hp hm.special.2.2.1 (fun v w h3 h4 => (hm.privateName v n w (h2 ▸ h3) h4).2)
      · rw [if_neg hn]
        exact right_drop hp (fun v w h3 h4 => hn (hm.privateName v n w (h2 ▸ h3) h4).1)
    · rw [if_neg h2] at h
      by_cases h3 : y.sub p y.object = true
      · rw [if_pos h3] at h; exact object_right hm hp h3 h
      · rw [if_neg h3] at h
        by_cases h4 : y.sub p y.record = true
        · rw [if_pos h4] at h; exact record_right hm hp h
        · rw [if_neg h4] at h; exact nomatch h

/-- The lines of the message only grow. -/
theorem loop_msgs {n : Str} : ∀ {ps : List T} {s s' : State T}, loop y n s ps = some s' → ∃ ms, s'.msgs = s.msgs ++ ms
  | [], s, s', h => by obtain rfl := Option.some.inj h; exact ⟨[], by simp⟩
  | p :: ps, s, s', h => by
    unfold loop at h
    cases hp : onePart y n p with
    | none => rw [hp] at h; exact nomatch h
    | some f =>
      rw [hp, Option.bind_some] at h
      obtain ⟨ms, hms⟩ := loop_msgs h
      cases ht : f.type with
      | none => rw [put, ht] at hms; exact ⟨f.msgs ++ [.dropping f.part] ++ ms, by rw [hms]; simp⟩
      | some t => rw [put, ht] at hms; exact ⟨f.msgs ++ ms, by rw [hms]; simp⟩

theorem loop_right (hm : Means y den field) {n : Str} : ∀ {ps : List T} {s s' : State T}, (∀ p ∈ ps, p ≠ y.tbd) → s.lhs ≠ y.tbd → loop y n s ps = some s' →
    s'.lhs ≠ y.tbd ∧ (∀ v, den s.lhs v → den s'.lhs v) ∧ (∀ p ∈ ps, ∀ v w, den p v → field v n w → den s'.lhs v) ∧
    (∀ v, den s'.lhs v → den s.lhs v ∨ ∃ p ∈ ps, den p v) ∧
    ((∀ m ∈ s'.msgs, ¬ Unknown m) → s.dot ≠ y.tbd → s'.dot ≠ y.tbd ∧ (∀ w, den s.dot w → den s'.dot w) ∧ ∀ p ∈ ps, ∀ v w, den p v → field v n w → den s'.dot w)
  | [], s, s', _, hl, h => by
    obtain rfl := Option.some.inj h
    exact ⟨hl, fun _ h => h, fun _ h => (nomatch h), fun _ h => .inl h, fun _ hd => ⟨hd, fun _ h => h, fun _ h => (nomatch h)⟩⟩
  | p :: ps, s, s', hps, hl, h => by
    unfold loop at h
    cases hp : onePart y n p with
    | none => rw [hp] at h; exact nomatch h
    | some f =>
      rw [hp, Option.bind_some] at h
      have hr := one_right hm (hps p (.head _)) hp
      have hps' : ∀ q ∈ ps, q ≠ y.tbd := fun q hq => hps q (.tail _ hq)
      cases ht : f.type with
      | none =>
        have hput : put y s f = ⟨s.lhs, s.dot, s.msgs ++ f.msgs ++ [.dropping f.part], s.warn || f.warn⟩ := by rw [put, ht]
        rw [hput] at h
        obtain ⟨a1, a2, a3, a4, a5⟩ := loop_right hm hps' (by exact hl) h
        have hno : ∀ v w, den p v → ¬ field v n w := fun v w h1 h2 => (hr.keep v w h1 h2).2 ht
        refine ⟨a1, a2, fun q hq v w h1 h2 => ?_, fun v hv => ?_, fun hu hd => ?_⟩
        · rcases List.mem_cons.1 hq with rfl | hq
          · exact absurd h2 (hno v w h1)
          · exact a3 q hq v w h1 h2
        · exact (a4 v hv).imp id (fun ⟨q, h1, h2⟩ => ⟨q, .tail _ h1, h2⟩)
        · obtain ⟨b1, b2, b3⟩ := a5 hu hd
          refine ⟨b1, b2, fun q hq v w h1 h2 => ?_⟩
          rcases List.mem_cons.1 hq with rfl | hq
          · exact absurd h2 (hno v w h1)
          · exact b3 q hq v w h1 h2
      | some t =>
        have hput : put y s f = ⟨y.union s.lhs f.part, y.union s.dot t, s.msgs ++ f.msgs, s.warn || f.warn⟩ := by rw [put, ht]
        rw [hput] at h
        have hu := hm.union s.lhs f.part hl hr.part
        obtain ⟨a1, a2, a3, a4, a5⟩ := loop_right hm hps' (by exact hu.1) h
        refine ⟨a1, fun v hv => a2 v ((hu.2 v).2 (.inl hv)), fun q hq v w h1 h2 => ?_, fun v hv => ?_, fun hun hd => ?_⟩
        · rcases List.mem_cons.1 hq with rfl | hq
          · exact a2 v ((hu.2 v).2 (.inr (hr.keep v w h1 h2).1))
          · exact a3 q hq v w h1 h2
        · rcases a4 v hv with h1 | ⟨q, h1, h2⟩
          · rcases (hu.2 v).1 h1 with h2 | h2
            · exact .inl h2
            · exact .inr ⟨p, .head _, hr.within v h2⟩
          · exact .inr ⟨q, .tail _ h1, h2⟩
        · obtain ⟨ms, hms⟩ := loop_msgs h
          rcases hr.type t ht with ⟨m, h1, h2⟩ | ⟨h1, h2⟩
          · refine absurd h2 (hun m ?_)
            rw [hms]
            exact List.mem_append_left _ (List.mem_append_right _ h1)
          · have hv := hm.union s.dot t hd h1
            obtain ⟨b1, b2, b3⟩ := a5 hun (by exact hv.1)
            refine ⟨b1, fun w hw => b2 w ((hv.2 w).2 (.inl hw)), fun q hq v w h3 h4 => ?_⟩
            rcases List.mem_cons.1 hq with rfl | hq
            · exact b2 w ((hv.2 w).2 (.inr (h2 v w h3 h4)))
            · exact b3 q hq v w h3 h4

end Verif.Dots
