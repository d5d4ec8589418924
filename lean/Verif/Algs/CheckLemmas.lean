import Verif.Algs.RegLemmas
/-!
# The check of consistency
-/
namespace Verif.Algs
open Deps (Begins startsWith startsWith_iff)
open Style (Pairs mapM_pairs pairs_congr)

theorem not_starts {p s : String} : ¬ startsWith p s = true ↔ ¬ Begins p s := not_congr (startsWith_iff p s)

/-- Two texts that start a text: one starts the other. -/
theorem begins_both {p q s : String} (h1 : Begins p s) (h2 : Begins q s) : p.toList <+: q.toList ∨ q.toList <+: p.toList := by
  obtain ⟨a, ha⟩ := h1
  obtain ⟨b, hb⟩ := h2
  exact List.prefix_or_prefix_of_prefix ⟨a, ha.symm⟩ ⟨b, hb.symm⟩

theorem impl_iff (t : List Char) : isImplementation t = true ↔ ∃ mid, t = "Implementation of ".toList ++ mid ++ "Module Record Abstract Methods".toList ∧ '\n' ∉ mid := by
  simp only [isImplementation, Bool.and_eq_true, List.isPrefixOf_iff_prefix, List.isSuffixOf_iff_suffix, List.all_eq_true, bne_iff_ne]
  constructor
  · rintro ⟨⟨⟨r, hr⟩, h2⟩, h3⟩
    rw [← hr, List.drop_left] at h2 h3
    obtain ⟨mid, rfl⟩ := h2
    refine ⟨mid, by rw [← hr, List.append_assoc], fun hm => h3 '\n' ?_ rfl⟩
    rw [List.length_append, Nat.add_sub_cancel, List.take_left]
    exact hm
  · rintro ⟨mid, rfl, hm⟩
    rw [List.append_assoc, List.drop_left]
    refine ⟨⟨⟨_, rfl⟩, ⟨mid, rfl⟩⟩, fun c hc => ?_⟩
    rw [List.length_append, Nat.add_sub_cancel, List.take_left] at hc
    rintro rfl
    exact hm hc

theorem lookup_mem_iff {β : Type} : ∀ (l : List (String × β)), (l.map (·.1)).Nodup → ∀ k v, l.lookup k = some v ↔ (k, v) ∈ l
  | [], _, k, v => by simp
  | (k', v') :: l, hn, k, v => by
    rw [List.map_cons, List.nodup_cons] at hn
    rw [List.lookup_cons]
    by_cases e : k = k'
    · subst e
      simp only [beq_self_eq_true]
      constructor
      · intro h; cases h; exact List.mem_cons_self ..
      · intro h
        rcases List.mem_cons.1 h with h | h
        · cases h; rfl
        · exact absurd (List.mem_map.2 ⟨_, h, rfl⟩) hn.1
    · rw [show (k == k') = false from by simpa using e]
      simp only
      rw [lookup_mem_iff l hn.2]
      constructor
      · exact List.mem_cons_of_mem _
      · intro h
        rcases List.mem_cons.1 h with h | h
        · cases h; exact absurd rfl e
        · exact h

theorem parent_not_impl : ∀ e ∈ byParent, isImplementation e.1.toList = false := by decide +kernel

theorem expected_iff (s : Sect) (p : String) : expected s = some p ↔ Phrase s p := by
  obtain ⟨num, title, above⟩ := s
  have n1 : (byGrandparent.map (·.1)).Nodup := by decide +kernel
  have n2 : (byParent.map (·.1)).Nodup := by decide +kernel
  constructor
  · intro h
    unfold expected at h
    cases above with
    | nil => cases h
    | cons q up =>
      simp only at h
      split at h
      · rename_i hi
        cases up with
        | nil => cases h
        | cons g up =>
          refine .grand ((impl_iff _).1 hi) ?_
          have := (lookup_mem_iff _ n1 _ _).1 h
          simpa [byGrandparent] using this
      · exact .parent ((lookup_mem_iff _ n2 _ _).1 h)
  · intro h
    cases h with
    | grand hi hg =>
      unfold expected
      simp only
      rw [if_pos ((impl_iff _).2 hi), lookup_mem_iff _ n1]
      simpa [byGrandparent] using hg
    | parent hm =>
      unfold expected
      simp only
      rw [if_neg, lookup_mem_iff _ n2]
      · exact hm
      · rw [parent_not_impl _ hm]; simp

theorem forMsg_iff (h : Header) (ms : List Msg) : forMsg h = some ms ↔ ForMsg h ms := by
  unfold forMsg
  constructor
  · intro g
    cases he : expected h.sect with
    | none => rw [he] at g; cases g
    | some s =>
      rw [he] at g
      simp only [Option.some.injEq] at g
      rw [expected_iff] at he
      by_cases hp : h.forPhrase = some s
      · rw [if_pos hp] at g; rw [← g]; exact .fine he hp
      · rw [if_neg hp] at g; rw [← g]; exact .wrong he hp
  · intro g
    cases g with
    | fine he hp => rw [(expected_iff _ _).2 he]; simp only [if_pos hp]
    | wrong he hp => rw [(expected_iff _ _).2 he]; simp only [if_neg hp]

theorem forMsgs_iff (a : Alg) (ms : List Msg) : forMsgs a = some ms ↔ ForMsgs a ms := by
  unfold forMsgs
  constructor
  · intro h
    split at h
    · rename_i hs
      split at h
      · rename_i hh
        cases h; exact .shorthand hs (by simpa using hh)
      · cases h
    · split at h
      · rename_i hs hb
        rw [startsWith_iff] at hb
        cases hm : a.headers.mapM forMsg with
        | none => rw [hm] at h; cases h
        | some mss =>
          rw [hm] at h
          simp only at h
          split at h
          · rename_i hn
            cases h
            exact .byType hb hn ((pairs_congr (fun x _ m => forMsg_iff x m)).1 ((mapM_pairs ..).1 hm))
          · cases h
      · split at h
        · rename_i hb
          simp only [Bool.or_eq_true, startsWith_iff, or_assoc] at hb
          split at h
          · rename_i hh
            cases h
            exact .other hb (by simpa using hh)
          · cases h
        · cases h
  · intro h
    cases h with
    | shorthand hs hh => rw [if_pos hs, hh]; rfl
    | @byType mss hb hn hp =>
      rw [if_neg (by rintro e; rw [e] at hb; exact absurd ((startsWith_iff _ _).2 hb) (by decide)), if_pos ((startsWith_iff _ _).2 hb),
        (mapM_pairs ..).2 ((pairs_congr (fun x _ m => forMsg_iff x m)).2 hp)]
      simp only [if_pos hn]
    | other hb hh =>
      rw [if_neg, if_neg, if_pos, if_pos]
      · simpa using hh
      · simpa only [Bool.or_eq_true, startsWith_iff, or_assoc] using hb
      · rw [startsWith_iff]
        intro g
        rcases hb with hb | hb | hb
        · exact absurd (begins_both g hb) (by decide)
        · exact absurd (begins_both g hb) (by decide)
        · exact absurd (begins_both g hb) (by decide)
      · intro e
        rw [e] at hb
        rcases hb with hb | hb | hb
        · exact absurd ((startsWith_iff _ _).2 hb) (by decide)
        · exact absurd ((startsWith_iff _ _).2 hb) (by decide)
        · exact absurd ((startsWith_iff _ _).2 hb) (by decide)

theorem sameParams_iff : ∀ ps qs : List Param,
    (ps.zip qs).all (fun e => e.1.name == e.2.name && e.1.punct == e.2.punct && e.1.nature == e.2.nature) = true ↔ SameParams ps qs
  | [], qs => by simp [SameParams]
  | p :: ps, [] => by simp [SameParams]
  | p :: ps, q :: qs => by
    rw [List.zip_cons_cons, List.all_cons, Bool.and_eq_true, sameParams_iff ps qs]
    constructor
    · rintro ⟨h1, h2⟩ i x y hx hy
      cases i with
      | zero =>
        cases hx; cases hy
        obtain ⟨a, b, c⟩ := p
        obtain ⟨a', b', c'⟩ := q
        simp only [Bool.and_eq_true, beq_iff_eq] at h1
        obtain ⟨⟨rfl, rfl⟩, rfl⟩ := h1
        rfl
      | succ i => exact h2 i x y hx hy
    · intro h
      refine ⟨?_, fun i x y hx hy => h (i + 1) x y hx hy⟩
      have := h 0 p q rfl rfl
      subst this
      simp

theorem paramMsg_iff (name : String) (f h : Header) (ms : List Msg) : paramMsg name f.params h = some ms ↔ ParamMsg name f h ms := by
  unfold paramMsg
  constructor
  · intro g
    split at g
    · rename_i hs
      rw [sameParams_iff] at hs
      cases g
      by_cases hl : h.params.length = f.params.length
      · rw [if_neg (by simpa using hl)]; exact .fine hs hl
      · rw [if_pos hl]; exact .number hs hl
    · cases g
  · intro g
    cases g with
    | fine hs hl => rw [if_pos ((sameParams_iff _ _).2 hs), if_neg (by simpa using hl)]
    | number hs hl => rw [if_pos ((sameParams_iff _ _).2 hs), if_pos hl]

theorem paramMsgs_iff (name : String) (a : Alg) (ms : List Msg) : paramMsgs name a = some ms ↔ ParamMsgs name a ms := by
  unfold paramMsgs
  cases hh : a.headers with
  | nil =>
    simp only [Option.some.injEq]
    constructor
    · rintro rfl; exact .none hh
    · intro g
      cases g with
      | none => rfl
      | some h => rw [hh] at h; cases h
  | cons f hs =>
    simp only [Option.map_eq_some_iff, mapM_pairs]
    constructor
    · rintro ⟨mss, h, rfl⟩
      exact .some hh ((pairs_congr (fun x _ m => paramMsg_iff name f x m)).1 h)
    · intro g
      cases g with
      | none h => rw [hh] at h; cases h
      | some h hp =>
        rw [hh] at h; cases h
        exact ⟨_, (pairs_congr (fun x _ m => paramMsg_iff name f x m)).2 hp, rfl⟩

theorem retMsg_iff (ret : Bool) (m : Header → Msg) (h : Header) (ms : List Msg) : RetMsg ret m h ms ↔ ms = if h.ret = ret then [] else [m h] := by
  constructor
  · intro g
    cases g with
    | fine e => rw [if_pos e]
    | wrong e => rw [if_neg e]
  · rintro rfl
    by_cases e : h.ret = ret
    · rw [if_pos e]; exact .fine e
    · rw [if_neg e]; exact .wrong e

theorem retMsgs_flat (ret : Bool) (m : Header → Msg) (hs : List Header) (mss : List (List Msg)) :
    Pairs (RetMsg ret m) hs mss → mss.flatten = hs.flatMap (fun h => if h.ret = ret then [] else [m h]) := by
  intro h
  rw [pairs_map (fun a b => retMsg_iff ret m a b)] at h
  rw [h, List.flatMap_def]

theorem retMsgs_exists (ret : Bool) (m : Header → Msg) (hs : List Header) : Pairs (RetMsg ret m) hs (hs.map (fun h => if h.ret = ret then [] else [m h])) :=
  (pairs_map (fun a b => retMsg_iff ret m a b) _ _).2 rfl

theorem ret_true (m : Header → Msg) : (fun h : Header => if h.ret = true then [] else [m h]) = fun h => if h.ret then [] else [m h] := rfl
theorem ret_false (m : Header → Msg) : (fun h : Header => if h.ret = false then [] else [m h]) = fun h => if h.ret then [m h] else [] := by
  funext h; cases hr : h.ret <;> simp

theorem retMsgs_iff (name : String) (a : Alg) (ms : List Msg) : retMsgs name a = some ms ↔ RetMsgs name a ms := by
  have c1 : (startsWith "bif:" a.species || a.species == "op: discriminated by syntax: early error") = true ↔
      Begins "bif:" a.species ∨ a.species = "op: discriminated by syntax: early error" := by
    rw [Bool.or_eq_true, startsWith_iff, beq_iff_eq]
  have st : ∀ s : String, s = "op: discriminated by syntax: steps" → ¬ (Begins "bif:" s ∨ s = "op: discriminated by syntax: early error") := by
    rintro s rfl (h | h)
    · exact absurd ((startsWith_iff _ _).2 h) (by decide)
    · exact absurd h (by decide)
  unfold retMsgs
  constructor
  · intro h
    split at h
    · rename_i hc
      split at h
      · rename_i hh
        cases h
        exact .nothing (c1.1 hc) (by simpa using hh)
      · cases h
    · rename_i hc
      rw [c1, not_or] at hc
      split at h
      · rename_i hs
        cases hh : a.headers with
        | nil => rw [hh] at hs; exact absurd hs.2 (by simp)
        | cons f hs' =>
          cases hs' with
          | nil => rw [hh] at hs; exact absurd hs.2 (by simp)
          | cons f' hs' =>
            rw [hh] at h
            cases h
            have := RetMsgs.steps (name := name) hs.1 hh ((retMsg_iff _ _ _ _).2 rfl) (retMsgs_exists false .returnInLater (f' :: hs'))
            rw [← List.flatMap_def, ret_false] at this
            exact this
      · rename_i hs
        split at h
        · rename_i hb
          cases h
          exact .byType ((startsWith_iff _ _).1 hb)
        · rename_i hb
          rw [not_starts] at hb
          cases h
          have := RetMsgs.other (name := name) hc.1 hc.2 hb (fun e => by have := not_and.1 hs e; omega) (retMsgs_exists true (.noReturn · name) a.headers)
          rw [← List.flatMap_def, ret_true] at this
          exact this
  · intro h
    cases h with
    | nothing hc hh => rw [if_pos (c1.2 hc), if_pos (by simpa using hh)]
    | @steps f f' hs m1 mss he hh h1 h2 =>
      rw [if_neg (fun g => st _ he (c1.1 g)), if_pos ⟨he, by rw [hh]; simp⟩, hh]
      simp only
      rw [(retMsg_iff _ _ _ _).1 h1, retMsgs_flat _ _ _ _ h2, ret_false]
    | byType hb =>
      rw [if_neg, if_neg, if_pos ((startsWith_iff _ _).2 hb)]
      · rintro ⟨e, _⟩
        rw [e] at hb
        exact absurd ((startsWith_iff _ _).2 hb) (by decide)
      · rw [c1]
        rintro (g | g)
        · exact absurd (begins_both g hb) (by decide)
        · rw [g] at hb
          exact absurd ((startsWith_iff _ _).2 hb) (by decide)
    | other h1 h2 h3 h4 h5 =>
      rw [if_neg (fun g => (c1.1 g).elim h1 h2), if_neg (fun g => by have := h4 g.1; omega), if_neg (not_starts.2 h3), retMsgs_flat _ _ _ _ h5, ret_true]

theorem checkAlg_iff (e : String × Alg) (ms : List Msg) : checkAlg e = some ms ↔ Report e ms := by
  unfold checkAlg Report
  constructor
  · intro h
    split at h
    · rename_i hh
      simp only [Option.bind_eq_bind, Option.bind_eq_some_iff, Option.some.injEq] at h
      obtain ⟨a, ha, b, hb, c, hc, rfl⟩ := h
      exact ⟨a, b, c, by simpa using hh, (forMsgs_iff _ _).1 ha, (paramMsgs_iff _ _ _).1 hb, (retMsgs_iff _ _ _).1 hc, rfl⟩
    · cases h
  · rintro ⟨a, b, c, hh, ha, hb, hc, rfl⟩
    rw [if_pos (by simpa using hh)]
    simp only [Option.bind_eq_bind, Option.bind_eq_some_iff, Option.some.injEq]
    exact ⟨a, (forMsgs_iff _ _).2 ha, b, (paramMsgs_iff _ _ _).2 hb, c, (retMsgs_iff _ _ _).2 hc, rfl⟩

end Verif.Algs
