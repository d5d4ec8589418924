import Verif.Intrin.Lemmas
/-! # Coalescing facts -/
namespace Verif.Intrin

/-- What is known after some facts. -/
structure After (fix : String → String) (fs : List Fact) (w : World) : Prop where
  names : w.names = (fs.map (·.left)).eraseDups
  fresh : ∀ x, x ∉ w.names → w.info x = Intr.new x
  name : ∀ x, (w.info x).name = x
  sound : ∀ x, Sound (about fs x)
  knows : ∀ x, Knows fix (about fs x) (w.info x)

theorem after_empty (fix : String → String) : After fix [] World.empty where
  names := rfl
  fresh _ _ := rfl
  name _ := rfl
  sound x := ⟨(fun _ _ h => by cases h), (fun _ _ _ h => by cases h), (fun _ _ _ h => by cases h)⟩
  knows x := knows_new fix x

theorem mem_eraseDups' {l : List String} {x : String} : x ∈ l.eraseDups ↔ x ∈ l := by
  simp

theorem eraseDups_snoc (l : List String) (x : String) :
    (l ++ [x]).eraseDups = if x ∈ l.eraseDups then l.eraseDups else l.eraseDups ++ [x] := by
  rw [List.eraseDups_append, List.removeAll]
  by_cases h : x ∈ l
  · simp [h]
  · simp [h]
    rfl

theorem nodup_eraseDups : ∀ (n : Nat) (l : List String), l.length = n → l.eraseDups.Nodup
  | 0, l, h => by rw [List.length_eq_zero_iff.mp h]; exact List.nodup_nil
  | n + 1, l, h => by
    rcases List.eq_nil_or_concat l with rfl | ⟨l', x, rfl⟩
    · cases h
    · have ih := nodup_eraseDups n l' (by simpa using h)
      rw [List.concat_eq_append, eraseDups_snoc]
      split
      · exact ih
      · next hx =>
        rw [List.nodup_append]
        refine ⟨ih, by simp, fun a ha b hb e => ?_⟩
        rw [List.mem_singleton] at hb
        rw [e, hb] at ha; exact hx ha

theorem about_snoc (fs : List Fact) (f : Fact) (x : String) :
    about (fs ++ [f]) x = if f.left = x then about fs x ++ [f.verb] else about fs x := by
  rw [about, List.filterMap_append]
  by_cases h : f.left = x
  · simp [h, about]
  · simp [h, about]

theorem learnFact_spec {fix : String → String} (hfix : ∀ v, fix (fix v) = fix v) {fs : List Fact} {w : World} (hA : After fix fs w)
    (f : Fact) (hp : ∀ x p a, ⟨x, .hasProp p a⟩ ∈ fs ++ [f] → Proper a) :
    (∀ w', learnFact fix w f = some w' → After fix (fs ++ [f]) w') ∧
    (Sound (about fs f.left ++ [f.verb]) → ∃ w', learnFact fix w f = some w') := by
  have he : (if f.left ∈ w.names then w.info f.left else Intr.new f.left) = w.info f.left := by
    split
    · rfl
    · next h => exact (hA.fresh _ h).symm
  obtain ⟨h1, h2⟩ := learn_spec hfix (hA.knows f.left) (hA.sound f.left) f.verb
    (fun p a e => hp f.left p a (by rw [List.mem_append, List.mem_singleton]; right; cases f; simp at e ⊢; exact e.symm))
    (fun p a h => hp f.left p a (List.mem_append_left _ (mem_about.mp h)))
  rw [learnFact, he]
  refine ⟨fun w' h => ?_, fun h => ?_⟩
  · cases hl : learn fix (w.info f.left) f.verb with
    | none => rw [hl] at h; cases h
    | some i =>
      rw [hl] at h; injection h with h; subst h
      obtain ⟨s1, k1⟩ := h1 i hl
      refine ⟨?_, ?_, ?_, ?_, ?_⟩
      · rw [List.map_append]
        show _ = (_ ++ [f.left]).eraseDups
        rw [eraseDups_snoc, ← hA.names]
      · intro x hx
        dsimp only at hx ⊢
        have hx' : x ∉ w.names ∧ x ≠ f.left := by
          by_cases hf : f.left ∈ w.names
          · rw [if_pos hf] at hx; exact ⟨hx, fun e => hx (e ▸ hf)⟩
          · rw [if_neg hf] at hx; simp at hx; exact hx
        rw [upd_ne _ _ hx'.2]; exact hA.fresh x hx'.1
      · intro x
        dsimp only
        by_cases e : x = f.left
        · subst e; rw [upd_self, learn_name hl]; exact hA.name _
        · rw [upd_ne _ _ e]; exact hA.name x
      · intro x
        rw [about_snoc]
        split
        · next e => subst e; exact s1
        · exact hA.sound x
      · intro x
        rw [about_snoc]
        dsimp only
        split
        · next e => subst e; rw [upd_self]; exact k1
        · next e => rw [upd_ne _ _ (fun h => e h.symm)]; exact hA.knows x
  · obtain ⟨i, hi⟩ := h2 h
    rw [hi]; exact ⟨_, rfl⟩

theorem sound_of_consistent {fs : List Fact} (h : Consistent fs) (x : String) : Sound (about fs x) where
  kinds k l h1 h2 := h.kinds x k l (mem_about.mp h1) (mem_about.mp h2)
  slots s v w h1 h2 := h.slots x s v w (mem_about.mp h1) (mem_about.mp h2)
  props p a b h1 h2 := h.props x p a b (mem_about.mp h1) (mem_about.mp h2)

theorem consistent_of_sound {fs : List Fact} (h : ∀ x, Sound (about fs x)) : Consistent fs where
  kinds x k l h1 h2 := (h x).kinds k l (mem_about.mpr h1) (mem_about.mpr h2)
  slots x s v w h1 h2 := (h x).slots s v w (mem_about.mpr h1) (mem_about.mpr h2)
  props x p a b h1 h2 := (h x).props p a b (mem_about.mpr h1) (mem_about.mpr h2)

theorem consistent_mono {fs gs : List Fact} (h : Consistent gs) (hs : ∀ f ∈ fs, f ∈ gs) : Consistent fs where
  kinds x k l h1 h2 := h.kinds x k l (hs _ h1) (hs _ h2)
  slots x s v w h1 h2 := h.slots x s v w (hs _ h1) (hs _ h2)
  props x p a b h1 h2 := h.props x p a b (hs _ h1) (hs _ h2)

theorem coalesce_spec {fix : String → String} (hfix : ∀ v, fix (fix v) = fix v) : ∀ (gs fs : List Fact) (w : World), After fix fs w →
    (∀ x p a, ⟨x, .hasProp p a⟩ ∈ fs ++ gs → Proper a) →
    (∀ w', coalesce fix w gs = some w' → After fix (fs ++ gs) w') ∧ (Consistent (fs ++ gs) → ∃ w', coalesce fix w gs = some w')
  | [], fs, w, hA, _ => by
    rw [List.append_nil]
    refine ⟨fun w' h => ?_, fun _ => ⟨w, rfl⟩⟩
    injection h with h; subst h; exact hA
  | g :: gs, fs, w, hA, hp => by
    have e : fs ++ g :: gs = (fs ++ [g]) ++ gs := by simp
    rw [e] at hp ⊢
    obtain ⟨h1, h2⟩ := learnFact_spec hfix hA g (fun x p a h => hp x p a (List.mem_append_left _ h))
    rw [coalesce]
    refine ⟨fun w' h => ?_, fun hc => ?_⟩
    · cases hl : learnFact fix w g with
      | none => rw [hl] at h; cases h
      | some w1 =>
        rw [hl] at h
        exact (coalesce_spec hfix gs _ w1 (h1 w1 hl) hp).1 w' h
    · have hs : Sound (about (fs ++ [g]) g.left) :=
        sound_of_consistent (consistent_mono hc (fun f hf => List.mem_append_left _ hf)) _
      rw [about_snoc, if_pos rfl] at hs
      obtain ⟨w1, hl⟩ := h2 hs
      rw [hl]
      exact (coalesce_spec hfix gs _ w1 (h1 w1 hl) hp).2 hc

theorem verbCcbs_about (x : String) : ∀ fs : List Fact, verbCcbs (about fs x) = ccbs fs x
  | [] => rfl
  | ⟨y, v⟩ :: fs => by
    have ih := verbCcbs_about x fs
    rw [about, List.filterMap_cons, ccbs, List.filterMap_cons]
    rw [about, verbCcbs, ccbs] at ih
    by_cases e : y = x
    · dsimp only
      rw [if_pos e]
      dsimp only
      cases v with
      | hasSlot s w =>
        rw [verbCcbs, List.filterMap_cons]
        dsimp only
        by_cases hs : s = "[[ccb]]"
        · rw [if_pos hs, if_pos ⟨e, hs⟩]; dsimp only; rw [ih]
        · rw [if_neg hs, if_neg (fun h => hs h.2)]; dsimp only; rw [ih]
      | «exists» => rw [verbCcbs, List.filterMap_cons]; dsimp only; exact ih
      | is k => rw [verbCcbs, List.filterMap_cons]; dsimp only; exact ih
      | hasProp p a => rw [verbCcbs, List.filterMap_cons]; dsimp only; exact ih
    · dsimp only
      rw [if_neg e]
      dsimp only
      cases v with
      | hasSlot s w =>
        dsimp only
        rw [if_neg (fun h => e h.1)]
        exact ih
      | «exists» => exact ih
      | is k => exact ih
      | hasProp p a => exact ih

end Verif.Intrin
