import Verif.Dots.Lemmas
/-! Lemmas for C93: what is found is not too much. -/
namespace Verif.Dots

variable {T V : Type} [DecidableEq T] {y : Types T} {den : T → V → Prop} {field : V → Str → V → Prop}

/-- What is found for a part is not too much. -/
structure Tight (y : Types T) (den : T → V → Prop) (n : Str) (p : T) (f : Found T) : Prop where
  type : (∀ m ∈ f.msgs, ¬ Unknown m) → ∀ t, f.type = some t → ∀ w, den t w → May y den n p w
  part : ∀ t, f.type = some t → ∀ v, den f.part v → Can y den n p v

omit [DecidableEq T] in
theorem tight_drop {n : Str} {p q : T} {ms : List (Msg T)} {b : Bool} : Tight y den n p ⟨q, none, ms, b⟩ := ⟨fun _ _ e => (nomatch e), fun _ e => (nomatch e)⟩

omit [DecidableEq T] in
theorem tight_keep {n : Str} {p q t : T} {ms : List (Msg T)} {b : Bool} (h1 : ∀ w, den t w → May y den n p w) (h2 : ∀ v, den q v → Can y den n p v) :
    Tight y den n p ⟨q, some t, ms, b⟩ := ⟨fun _ _ e => by cases e; exact h1, fun _ _ => h2⟩

omit [DecidableEq T] in
theorem object_tight (hm : Means y den field) {n : Str} {p : T} {f : Found T} (h : objectPart y n p = some f) : Tight y den n p f := by
  unfold objectPart at h
  split at h
  · obtain rfl := Option.some.inj h; exact tight_drop
  · rename_i d hd
    have hmem : d ∈ y.decls n := by rw [hd]; exact .head _
    by_cases h1 : y.sub p d.holder = true
    · rw [if_pos h1] at h
      obtain rfl := Option.some.inj h
      exact tight_keep (fun w hw => .slot d hmem (.inl h1) hw) (fun v hv => .slot d hmem (hm.sub _ _ h1 v hv))
    · rw [if_neg h1] at h
      by_cases h2 : y.sub d.holder p = true
      · rw [if_pos h2] at h
        obtain rfl := Option.some.inj h
        exact tight_keep (fun w hw => .slot d hmem (.inr h2) hw) (fun v hv => .slot d hmem hv)
      · rw [if_neg h2] at h
        obtain rfl := Option.some.inj h; exact tight_drop
  · dsimp only at h
    split at h
    · split at h
      · exact nomatch h
      · obtain rfl := Option.some.inj h
        have hsub : ∀ d, d ∈ (y.decls n).filter (fun d => !y.sub p d.holder && y.sub d.holder p) → d ∈ y.decls n ∧ y.sub d.holder p = true := fun d hd => by
          obtain ⟨h1, h2⟩ := List.mem_filter.1 hd
          rw [Bool.and_eq_true] at h2
          exact ⟨h1, h2.2⟩
        have hh := unions_den hm (((y.decls n).filter (fun d => !y.sub p d.holder && y.sub d.holder p)).map (·.holder)) (fun t ht => by
          obtain ⟨d, h1, rfl⟩ := List.mem_map.1 ht
          exact (hm.holder n d (hsub d h1).1).1)
        have hr := unions_den hm (((y.decls n).filter (fun d => !y.sub p d.holder && y.sub d.holder p)).map (·.stype)) (fun t ht => by
          obtain ⟨d, h1, rfl⟩ := List.mem_map.1 ht
          exact (hm.slot n d (hsub d h1).1).1)
        refine tight_keep (fun w hw => ?_) (fun v hv => ?_)
        · obtain ⟨t, h1, h2⟩ := (hr.2 w).1 hw
          obtain ⟨d, h3, rfl⟩ := List.mem_map.1 h1
          exact .slot d (hsub d h3).1 (.inr (hsub d h3).2) h2
        · obtain ⟨t, h1, h2⟩ := (hh.2 v).1 hv
          obtain ⟨d, h3, rfl⟩ := List.mem_map.1 h1
          exact .slot d (hsub d h3).1 h2
    · rename_i d hs
      split at h
      · obtain rfl := Option.some.inj h
        have hd : d ∈ (y.decls n).filter (fun d => y.sub p d.holder) := by rw [hs]; exact .head _
        obtain ⟨h1, h2⟩ := List.mem_filter.1 hd
        exact tight_keep (fun w hw => .slot d h1 (.inl h2) hw) (fun v hv => .slot d h1 (hm.sub _ _ h2 v hv))
      · exact nomatch h
    · exact nomatch h

omit [DecidableEq T] in
theorem tight_unknown {n : Str} {p : T} {m : Msg T} (hr : y.sub p y.record = true) (h : Unknown m) : Tight y den n p ⟨p, some y.tbd, [m], false⟩ :=
  ⟨fun hu => absurd h (hu m (.head _)), fun _ _ _ _ => .record hr⟩

omit [DecidableEq T] in
theorem record_tight {n : Str} {p : T} (hr : y.sub p y.record = true) {f : Found T} (h : recordPart y n p = some f) : Tight y den n p f := by
  unfold recordPart at h
  split at h
  · rename_i name hs
    by_cases h1 : name = "Record".toList
    · rw [if_pos h1] at h
      obtain rfl := Option.some.inj h
      exact tight_unknown hr (.inl rfl)
    · rw [if_neg h1] at h
      by_cases h2 : name = "Intrinsics Record".toList
      · rw [if_pos h2] at h
        subst h2
        cases hi : y.intrinsics n with
        | none => rw [hi] at h; exact nomatch h
        | some t =>
          rw [hi] at h
          obtain rfl := Option.some.inj h
          exact tight_keep (fun w hw => .intrinsics t hs hi hw) (fun _ _ => .record hr)
      · rw [if_neg h2] at h
        cases hf : y.fields name with
        | none => rw [hf] at h; exact nomatch h
        | some fs =>
          rw [hf] at h
          have h := Option.some.inj h
          dsimp only at h
          cases ht : fs n with
          | none => rw [ht] at h; subst h; exact tight_unknown hr (.inr ⟨p, rfl⟩)
          | some t =>
            rw [ht] at h
            subst h
            exact tight_keep (fun w hw => .named name fs t hs hf ht hw) (fun _ _ => .record hr)
  · rename_i s g hs
    cases ht : g n with
    | none => rw [ht] at h; exact nomatch h
    | some t =>
      rw [ht] at h
      obtain rfl := Option.some.inj h
      exact tight_keep (fun w hw => .record s g t hs ht hw) (fun _ _ => .record hr)
  · exact nomatch h

theorem one_tight (hm : Means y den field) {n : Str} {p : T} {f : Found T} (h : onePart y n p = some f) : Tight y den n p f := by
  unfold onePart at h
  by_cases h1 : p = y.symbol
  · rw [if_pos h1] at h
    obtain rfl := Option.some.inj h
    by_cases hn : n = "[[Description]]".toList
    · rw [if_pos hn]
      have hu := hm.union y.string y.undefined hm.special.2.2.1 hm.special.2.2.2
      exact tight_keep (fun w hw => .symbol h1 hn ((hu.2 w).1 hw)) (fun _ _ => .described (.inl h1) hn)
    · rw [if_neg hn]; exact tight_drop
  · rw [if_neg h1] at h
    by_cases h2 : p = y.privateName
    · rw [if_pos h2] at h
      obtain rfl := Option.some.inj h
      by_cases hn : n = "[[Description]]".toList
      · rw [if_pos hn]
        exact tight_keep (fun w hw => .privateName h2 hn hw) (fun _ _ => .described (.inr h2) hn)
      · rw [if_neg hn]; exact tight_drop
    · rw [if_neg h2] at h
      by_cases h3 : y.sub p y.object = true
      · rw [if_pos h3] at h; exact object_tight hm h
      · rw [if_neg h3] at h
        by_cases h4 : y.sub p y.record = true
        · rw [if_pos h4] at h; exact record_tight h4 h
        · rw [if_neg h4] at h; exact nomatch h

theorem loop_tight (hm : Means y den field) {n : Str} : ∀ {ps : List T} {s s' : State T}, (∀ p ∈ ps, p ≠ y.tbd) → s.lhs ≠ y.tbd → loop y n s ps = some s' →
    (∀ v, den s'.lhs v → den s.lhs v ∨ ∃ p ∈ ps, den p v ∧ Can y den n p v) ∧
    ((∀ m ∈ s'.msgs, ¬ Unknown m) → s.dot ≠ y.tbd → ∀ w, den s'.dot w → den s.dot w ∨ ∃ p ∈ ps, May y den n p w)
  | [], s, s', _, _, h => by
    obtain rfl := Option.some.inj h
    exact ⟨fun _ h => .inl h, fun _ _ _ h => .inl h⟩
  | p :: ps, s, s', hps, hl, h => by
    unfold loop at h
    cases hp : onePart y n p with
    | none => rw [hp] at h; exact nomatch h
    | some f =>
      rw [hp, Option.bind_some] at h
      have hr := one_right hm (hps p (.head _)) hp
      have ht' := one_tight hm hp
      have hps' : ∀ q ∈ ps, q ≠ y.tbd := fun q hq => hps q (.tail _ hq)
      cases ht : f.type with
      | none =>
        have hput : put y s f = ⟨s.lhs, s.dot, s.msgs ++ f.msgs ++ [.dropping f.part], s.warn || f.warn⟩ := by rw [put, ht]
        rw [hput] at h
        obtain ⟨a1, a2⟩ := loop_tight hm hps' (by exact hl) h
        exact ⟨fun v hv => (a1 v hv).imp id (fun ⟨q, h1, h2⟩ => ⟨q, .tail _ h1, h2⟩),
          fun hu hd w hw => (a2 hu hd w hw).imp id (fun ⟨q, h1, h2⟩ => ⟨q, .tail _ h1, h2⟩)⟩
      | some t =>
        have hput : put y s f = ⟨y.union s.lhs f.part, y.union s.dot t, s.msgs ++ f.msgs, s.warn || f.warn⟩ := by rw [put, ht]
        rw [hput] at h
        have hu := hm.union s.lhs f.part hl hr.part
        obtain ⟨a1, a2⟩ := loop_tight hm hps' (by exact hu.1) h
        refine ⟨fun v hv => ?_, fun hun hd w hw => ?_⟩
        · rcases a1 v hv with h1 | ⟨q, h1, h2⟩
          · rcases (hu.2 v).1 h1 with h2 | h2
            · exact .inl h2
            · exact .inr ⟨p, .head _, hr.within v h2, ht'.part t ht v h2⟩
          · exact .inr ⟨q, .tail _ h1, h2⟩
        · obtain ⟨ms, hms⟩ := loop_msgs h
          have hfm : ∀ m ∈ f.msgs, ¬ Unknown m := fun m h1 => hun m (by
            rw [hms]
            exact List.mem_append_left _ (List.mem_append_right _ h1))
          rcases hr.type t ht with ⟨m, h1, h2⟩ | ⟨h1, _⟩
          · exact absurd h2 (hfm m h1)
          · have hv := hm.union s.dot t hd h1
            rcases a2 hun (by exact hv.1) w hw with h3 | ⟨q, h3, h4⟩
            · rcases (hv.2 w).1 h3 with h4 | h4
              · exact .inl h4
              · exact .inr ⟨p, .head _, ht'.type hfm t ht w h4⟩
            · exact .inr ⟨q, .tail _ h3, h4⟩

end Verif.Dots
