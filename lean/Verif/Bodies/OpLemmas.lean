import Verif.Bodies.EarlyLemmas
/-! # Other operations, inline rules, parsing -/
namespace Verif.Bodies
open Verif.Util

theorem takeWhile_append_stop {α} (f : α → Bool) (a : List α) (x : α) (b : List α) (h : ∀ y ∈ a, f y = true) (hx : f x = false) :
    (a ++ x :: b).takeWhile f = a ∧ (a ++ x :: b).dropWhile f = x :: b := by
  induction a with
  | nil => simp [hx]
  | cons y a ih =>
    obtain ⟨h1, h2⟩ := ih (fun z hz => h z (by simp [hz]))
    simp [h y (by simp), h1, h2]

theorem lastSpace_some (r w : Str) (h : ' ' ∉ w) : lastSpace (r ++ ' ' :: w) = some (r, w) := by
  have e : (r ++ ' ' :: w).reverse = w.reverse ++ ' ' :: r.reverse := by simp
  obtain ⟨h1, h2⟩ := takeWhile_append_stop (· != ' ') w.reverse ' ' r.reverse (by
    intro y hy
    have : y ∈ w := by simpa using hy
    have : y ≠ ' ' := fun e => h (e ▸ this)
    simpa using this) (by simp)
  simp only [lastSpace]
  rw [e, h1, h2]
  simp

theorem lastSpace_inv (t r w : Str) (h : lastSpace t = some (r, w)) : t = r ++ ' ' :: w := by
  simp only [lastSpace] at h
  have e : t.reverse = t.reverse.takeWhile (· != ' ') ++ t.reverse.dropWhile (· != ' ') := (List.takeWhile_append_dropWhile).symm
  cases hd : t.reverse.dropWhile (· != ' ') with
  | nil => rw [hd] at h; cases h
  | cons c q =>
    rw [hd] at h
    simp only [Option.some.injEq, Prod.mk.injEq] at h
    obtain ⟨h1, h2⟩ := h
    have hc : c = ' ' := by
      have h0 := List.head_dropWhile_not (p := (· != ' ')) (l := t.reverse) (by rw [hd]; simp)
      simp only [hd, List.head_cons] at h0
      simpa using h0
    subst hc
    rw [hd] at e
    have := congrArg List.reverse e
    simp only [List.reverse_reverse, List.reverse_append, List.reverse_cons] at this
    rw [this, ← h1, ← h2]
    simp

theorem isVar_iff (w : Str) : isVar w = true ↔ ∃ u, IsWord u ∧ w = '_' :: u ++ ['_'] := by
  rw [isVar]
  cases h : stripPrefix ['_'] w with
  | none =>
    refine ⟨fun e => by simp at e, ?_⟩
    rintro ⟨u, -, rfl⟩
    simp [stripPrefix] at h
  | some t =>
    have ht := (stripPrefix_iff _ _ _).1 h
    dsimp only
    cases h2 : stripSuffix ['_'] t with
    | none =>
      refine ⟨fun e => by simp at e, ?_⟩
      rintro ⟨u, -, e⟩
      have e2 : t = u ++ ['_'] := by rw [ht] at e; simpa using e
      rw [(stripSuffix_iff ['_'] t u).2 e2] at h2; cases h2
    | some u =>
      have hu := (stripSuffix_iff _ _ _).1 h2
      simp only [Bool.and_eq_true, Bool.not_eq_true', List.isEmpty_eq_false_iff, List.all_eq_true]
      constructor
      · intro e
        exact ⟨u, ⟨e.1, fun c hc => (isWord_iff c).1 (e.2 c hc)⟩, by rw [ht, hu]; simp⟩
      · rintro ⟨v, ⟨h3, h4⟩, e⟩
        have : u = v := by rw [ht, hu] at e; simpa using e
        subst this
        exact ⟨h3, fun c hc => (isWord_iff c).2 (h4 c hc)⟩

theorem var_no_space {u : Str} (h : IsWord u) : ' ' ∉ '_' :: u ++ ['_'] := by
  intro hm
  simp only [List.cons_append, List.mem_cons, List.mem_append, List.not_mem_nil, or_false] at hm
  rcases hm with e | e | e
  · revert e; decide
  · rcases h.2 _ e with e | e <;> revert e <;> decide
  · revert e; decide

/-- The type, by what comes after the article. -/
theorem type_rest (t x : Str) :
    (if t.isEmpty then none else match lastSpace t with
      | some (r, w) => if isVar w ∧ r ≠ [] then some r else some t
      | none => some t) = some x ↔
    (t ≠ [] ∧ x = t ∧ ∀ r w, IsWord w → r ≠ [] → t ≠ r ++ " _".toList ++ w ++ "_".toList) ∨ (x ≠ [] ∧ ∃ w, IsWord w ∧ t = x ++ " _".toList ++ w ++ "_".toList) := by
  have norm : ∀ r w : Str, r ++ " _".toList ++ w ++ "_".toList = r ++ ' ' :: ('_' :: w ++ ['_']) := by intro r w; simp
  by_cases ht : t = []
  · subst ht
    simp
  · have h0 : ¬ t.isEmpty = true := by simpa using ht
    rw [if_neg h0]
    by_cases hv : ∃ r w, IsWord w ∧ r ≠ [] ∧ t = r ++ " _".toList ++ w ++ "_".toList
    · obtain ⟨r, w, h1, h2, e⟩ := hv
      have e' := e
      rw [norm] at e
      rw [e, lastSpace_some r _ (var_no_space h1)]
      dsimp only
      rw [if_pos ⟨(isVar_iff _).2 ⟨w, h1, rfl⟩, h2⟩]
      constructor
      · intro hx
        cases hx
        exact .inr ⟨h2, w, h1, (norm _ _).symm⟩
      · rintro (⟨-, -, h3⟩ | ⟨h3, v, h4, e2⟩)
        · exact absurd (norm _ _).symm (h3 r w h1 h2)
        · rw [norm] at e2
          have a := lastSpace_some r _ (var_no_space h1)
          rw [e2, lastSpace_some x _ (var_no_space h4)] at a
          simp only [Option.some.injEq, Prod.mk.injEq] at a
          rw [a.1]
    · have all : ∀ r w, IsWord w → r ≠ [] → t ≠ r ++ " _".toList ++ w ++ "_".toList := fun r w a b c => hv ⟨r, w, a, b, c⟩
      have lhs : (match lastSpace t with
          | some (r, w) => if isVar w ∧ r ≠ [] then some r else some t
          | none => some t) = some t := by
        cases hl : lastSpace t with
        | none => rfl
        | some rw' =>
          obtain ⟨r, w⟩ := rw'
          dsimp only
          rw [if_neg]
          rintro ⟨h1, h2⟩
          obtain ⟨u, hu, rfl⟩ := (isVar_iff _).1 h1
          exact all r u hu h2 (by rw [norm]; exact lastSpace_inv _ _ _ hl)
      rw [lhs]
      constructor
      · intro hx
        cases hx
        exact .inl ⟨ht, rfl, all⟩
      · rintro (⟨-, rfl, -⟩ | ⟨h3, v, h4, e2⟩)
        · rfl
        · exact absurd e2 (all x v h4 h3)

theorem typeStr_iff (f x : Str) : typeStr f = some x ↔ TypeOf f x := by
  have key : ∀ t, typeStr f = (if t.isEmpty then none else match lastSpace t with
      | some (r, w) => if isVar w ∧ r ≠ [] then some r else some t
      | none => some t) → (∀ art, art = "a ".toList ∨ art = "an ".toList → ∀ z, f = art ++ z → z = t) → (∃ art, (art = "a ".toList ∨ art = "an ".toList) ∧ f = art ++ t) →
      (typeStr f = some x ↔ TypeOf f x) := by
    intro t e uniq ⟨art, ha, hf⟩
    rw [e, type_rest]
    constructor
    · rintro (⟨h1, rfl, h3⟩ | ⟨h1, w, h2, e2⟩)
      · rw [hf]; exact .plain ha h1 h3
      · rw [hf, e2]
        have := TypeOf.var (art := art) ha h1 h2
        simpa using this
    · intro h
      cases h with
      | plain ha' h1 h3 =>
        have := uniq _ ha' _ rfl
        subst this
        exact .inl ⟨h1, rfl, h3⟩
      | var ha' h1 h2 =>
        rename_i art' w
        have := uniq art' ha' (x ++ " _".toList ++ w ++ "_".toList) (by simp)
        subst this
        exact .inr ⟨h1, w, h2, rfl⟩
  cases h1 : stripPrefix "a ".toList f with
  | some t =>
    have hf := (stripPrefix_iff _ _ _).1 h1
    refine key t (by rw [typeStr, h1]; rfl) ?_ ⟨_, .inl rfl, hf⟩
    rintro art (rfl | rfl) z hz
    · rw [hf] at hz; exact (List.append_cancel_left hz).symm
    · rw [hf] at hz; simp at hz
  | none =>
    cases h2 : stripPrefix "an ".toList f with
    | some t =>
      have hf := (stripPrefix_iff _ _ _).1 h2
      refine key t (by rw [typeStr, h1, h2]; rfl) ?_ ⟨_, .inr rfl, hf⟩
      rintro art (rfl | rfl) z hz
      · rw [hf] at hz; simp at hz
      · rw [hf] at hz; exact (List.append_cancel_left hz).symm
    | none =>
      have e : typeStr f = none := by rw [typeStr, h1, h2]; rfl
      rw [e]
      refine ⟨fun h => (by cases h), fun h => ?_⟩
      have no : ∀ art z, art = "a ".toList ∨ art = "an ".toList → f ≠ art ++ z := by
        rintro art z (rfl | rfl) hz
        · rw [(stripPrefix_iff _ _ _).2 hz] at h1; cases h1
        · rw [(stripPrefix_iff _ _ _).2 hz] at h2; cases h2
      cases h with
      | plain ha _ _ => exact absurd rfl (no _ _ ha)
      | var ha a1 a2 =>
        rename_i art w
        exact absurd (by simp) (no art (x ++ " _".toList ++ w ++ "_".toList) ha)

theorem algBlocks_eq (bs : List HNode) : algBlocks bs = algsOf bs := by
  simp only [algBlocks, algsOf, el]
  congr 1

theorem elsewhere_iff (kind : String) : (kind = "host-defined_abstract_operation" ∨ kind = "implementation-defined_abstract_operation") ↔ Elsewhere kind := Iff.rfl

theorem opBody_iff (kind : String) (h : Heading) (bs : List HNode) (o : Out) :
    opBody kind h bs = some o ↔ OpBody kind h bs o.defns ∧ o = ⟨kind, o.defns, [], none⟩ := by
  obtain ⟨ok, od, oa, om⟩ := o
  rw [opBody, algBlocks_eq]
  cases ha : algsOf bs with
  | nil =>
    dsimp only
    by_cases hk : Elsewhere kind
    · rw [if_pos ((elsewhere_iff _).2 hk)]
      constructor
      · intro e; cases e; exact ⟨.none hk ha, rfl⟩
      · rintro ⟨h1, h2⟩
        cases h2
        cases h1 with
        | none => rfl
        | elsewhere _ e => rw [ha] at e; cases e
        | simple _ e => rw [ha] at e; cases e
        | typed _ e => rw [ha] at e; cases e
    · rw [if_neg (fun e => hk ((elsewhere_iff _).1 e))]
      refine ⟨fun e => (by cases e), ?_⟩
      rintro ⟨h1, -⟩
      cases h1 with
      | none k => exact absurd k hk
      | elsewhere k _ => exact absurd k hk
      | simple _ e => rw [ha] at e; cases e
      | typed _ e => rw [ha] at e; cases e
  | cons a as =>
    cases as with
    | cons b as =>
      dsimp only
      refine ⟨fun e => (by cases e), ?_⟩
      rintro ⟨h1, -⟩
      cases h1 with
      | none _ e => rw [ha] at e; cases e
      | elsewhere _ e => rw [ha] at e; cases e
      | simple _ e => rw [ha] at e; cases e
      | typed _ e => rw [ha] at e; cases e
    | nil =>
      dsimp only
      by_cases hk : Elsewhere kind
      · rw [if_pos ((elsewhere_iff _).2 hk)]
        constructor
        · intro e; cases e; exact ⟨.elsewhere hk ha, rfl⟩
        · rintro ⟨h1, h2⟩
          cases h2
          cases h1 with
          | none _ e => rw [ha] at e; cases e
          | elsewhere _ e => rw [ha] at e; cases e; rfl
          | simple k _ => exact absurd hk k
          | typed k _ => exact absurd hk k
      · rw [if_neg (fun e => hk ((elsewhere_iff _).1 e))]
        cases hf : h.forPhrase with
        | none =>
          dsimp only
          constructor
          · intro e; cases e; exact ⟨.simple hk ha hf, rfl⟩
          · rintro ⟨h1, h2⟩
            cases h2
            cases h1 with
            | none _ e => rw [ha] at e; cases e
            | elsewhere k _ => exact absurd k hk
            | simple _ e => rw [ha] at e; cases e; rfl
            | typed _ _ e => rw [hf] at e; cases e
        | some f =>
          dsimp only
          constructor
          · intro e
            obtain ⟨t, ht, e⟩ := Option.map_eq_some_iff.1 e
            cases e
            exact ⟨.typed hk ha hf ((typeStr_iff _ _).1 ht), rfl⟩
          · rintro ⟨h1, h2⟩
            cases h2
            cases h1 with
            | none _ e => rw [ha] at e; cases e
            | elsewhere k _ => exact absurd k hk
            | simple _ _ e => rw [hf] at e; cases e
            | typed _ e e2 ht =>
              rw [ha] at e; cases e
              rw [hf] at e2; cases e2
              rw [(typeStr_iff _ _).2 ht]; rfl

/-! ## Inline rules -/

theorem inline_iff (d : Doc) (bs : List HNode) (ds : List Defn) :
    inlineBlocks d bs = some ds ↔ (∀ b ∈ bs, InlinePlace d b) ∧ ds = inlineDefns d bs := by
  have one : ∀ i, (∃ g ∈ d.kids i, Named "emu-grammar" g) → inlineDefn d i = some (.inline i ((d.kids i).filter (fun g => g.elementName = "emu-grammar"))) := by
    rintro i ⟨g, h1, h2⟩
    have e : (d.kids i).filter (fun k => el k == "emu-grammar") = (d.kids i).filter (fun g => g.elementName = "emu-grammar") := by
      congr 1
    simp only [inlineDefn, e]
    rw [if_neg]
    intro h
    have : g ∈ (d.kids i).filter (fun g => g.elementName = "emu-grammar") := List.mem_filter.2 ⟨h1, by simpa [Named] using h2⟩
    rw [List.isEmpty_iff.1 h] at this
    cases this
  have two : ∀ i x, inlineDefn d i = some x → ∃ g ∈ d.kids i, Named "emu-grammar" g := by
    intro i x h
    simp only [inlineDefn] at h
    by_cases he : ((d.kids i).filter (fun k => el k == "emu-grammar")).isEmpty = true
    · rw [if_pos he] at h; cases h
    · cases hf : (d.kids i).filter (fun k => el k == "emu-grammar") with
      | nil => rw [hf] at he; exact absurd rfl he
      | cons g gs =>
        have : g ∈ (d.kids i).filter (fun k => el k == "emu-grammar") := by rw [hf]; simp
        obtain ⟨h1, h2⟩ := List.mem_filter.1 this
        exact ⟨g, h1, by simpa [el, Named] using h2⟩
  induction bs generalizing ds with
  | nil => simp [inlineBlocks, inlineDefns, eq_comm]
  | cons b bs ih =>
    rw [inlineBlocks]
    by_cases hu : el b = "ul"
    · rw [if_pos hu]
      constructor
      · intro h
        cases h1 : items (d.kids b) with
        | none => rw [h1] at h; cases h
        | some xs =>
          have hj := items_some _ _ h1
          have := items_ok _ hj
          rw [h1] at this; cases this
          rw [h1] at h
          simp only [Option.bind_eq_bind, Option.bind_some] at h
          cases h2 : (lis (d.kids b)).mapM (inlineDefn d) with
          | none => rw [h2] at h; cases h
          | some ys =>
            have hall := (mapM_some_iff _ _).1 ⟨ys, h2⟩
            have hg : ∀ i ∈ lis (d.kids b), ∃ g ∈ d.kids i, Named "emu-grammar" g := fun i hi => by
              obtain ⟨y, hy⟩ := hall i hi
              exact two i y hy
            rw [mapM_map (inlineDefn d) _ _ (fun i hi => one i (hg i hi))] at h
            simp only [Option.bind_some] at h
            cases h3 : inlineBlocks d bs with
            | none => rw [h3] at h; cases h
            | some zs =>
              rw [h3] at h
              cases h
              obtain ⟨i1, i2⟩ := (ih zs).1 h3
              refine ⟨?_, ?_⟩
              · intro x hx
                rcases List.mem_cons.1 hx with rfl | hx
                · exact .inl ⟨hu, hj, hg⟩
                · exact i1 x hx
              · have hu' : b.elementName = "ul" := hu
                simp [inlineDefns, hu', i2]
      · rintro ⟨h1, rfl⟩
        have hb := h1 b (by simp)
        have hu' : b.elementName = "ul" := hu
        rcases hb with ⟨-, hj, hg⟩ | hb | hb | hb
        · rw [items_ok _ hj]
          simp only [Option.bind_eq_bind, Option.bind_some]
          rw [mapM_map (inlineDefn d) _ _ (fun i hi => one i (hg i hi)), (ih _).2 ⟨fun x hx => h1 x (by simp [hx]), rfl⟩]
          simp [inlineDefns, hu']
        all_goals
          rw [Named, hu'] at hb
          exact absurd hb (by decide)
    · rw [if_neg hu]
      have hu' : b.elementName ≠ "ul" := hu
      have ed : inlineDefns d (b :: bs) = inlineDefns d bs := by simp [inlineDefns, hu']
      rw [ed]
      by_cases hp : el b = "emu-table" ∨ el b = "p" ∨ el b = "emu-note"
      · rw [if_pos hp]
        refine (ih ds).trans ?_
        constructor
        · rintro ⟨h1, h2⟩
          refine ⟨?_, h2⟩
          intro x hx
          rcases List.mem_cons.1 hx with rfl | hx
          · exact .inr hp
          · exact h1 x hx
        · rintro ⟨h1, h2⟩
          exact ⟨fun x hx => h1 x (by simp [hx]), h2⟩
      · rw [if_neg hp]
        refine ⟨fun e => (by cases e), ?_⟩
        rintro ⟨h1, -⟩
        rcases h1 b (by simp) with h | h
        · exact absurd h.1 hu
        · exact absurd h hp

/-! ## Parsing -/

theorem parseAll_iff (done ns ps : List HNode) (hd : done.Nodup) : parseAll done ns = some ps ↔ (done ++ ns).Nodup ∧ ps = done ++ ns := by
  induction ns generalizing done with
  | nil => simp [parseAll, hd, eq_comm]
  | cons n ns ih =>
    rw [parseAll]
    by_cases h : n ∈ done
    · rw [if_pos h]
      refine ⟨fun e => (by cases e), ?_⟩
      rintro ⟨h1, -⟩
      exact absurd rfl ((List.nodup_append.1 h1).2.2 n h n (by simp))
    · rw [if_neg h, ih]
      · simp
      · rw [List.nodup_append]
        refine ⟨hd, by simp, ?_⟩
        intro a ha b hb e
        simp at hb
        exact h (hb ▸ e ▸ ha)

theorem ensure_spec (done ns : List HNode) (hd : done.Nodup) :
    (ensureAlgs done ns).Nodup ∧ (∃ more, ensureAlgs done ns = done ++ more ∧ ∀ n ∈ more, n ∈ ns ∧ exempt n = false) ∧
    (∀ n ∈ ns, n ∈ ensureAlgs done ns ∨ exempt n = true) := by
  induction ns generalizing done with
  | nil => exact ⟨hd, ⟨[], by simp [ensureAlgs]⟩, by simp⟩
  | cons n ns ih =>
    rw [ensureAlgs]
    by_cases h : n ∈ done ∨ exempt n = true
    · rw [if_pos h]
      obtain ⟨h1, ⟨more, h2, h3⟩, h4⟩ := ih done hd
      refine ⟨h1, ⟨more, h2, fun x hx => ⟨by simp [(h3 x hx).1], (h3 x hx).2⟩⟩, ?_⟩
      intro x hx
      rcases List.mem_cons.1 hx with rfl | hx
      · rcases h with h | h
        · exact .inl (by rw [h2]; simp [h])
        · exact .inr h
      · exact h4 x hx
    · rw [if_neg h]
      have hn : n ∉ done := fun e => h (.inl e)
      have he : exempt n = false := by
        cases e : exempt n
        · rfl
        · exact absurd (.inr e) h
      obtain ⟨h1, ⟨more, h2, h3⟩, h4⟩ := ih (done ++ [n]) (by
        rw [List.nodup_append]
        refine ⟨hd, by simp, ?_⟩
        intro a ha b hb e
        simp at hb
        exact hn (hb ▸ e ▸ ha))
      refine ⟨h1, ⟨n :: more, by rw [h2]; simp, ?_⟩, ?_⟩
      · intro x hx
        rcases List.mem_cons.1 hx with rfl | hx
        · exact ⟨by simp, he⟩
        · exact ⟨by simp [(h3 x hx).1], (h3 x hx).2⟩
      · intro x hx
        rcases List.mem_cons.1 hx with rfl | hx
        · exact .inl (by rw [h2]; simp)
        · exact h4 x hx

end Verif.Bodies
