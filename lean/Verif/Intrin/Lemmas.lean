import Verif.Intrin.Spec
/-! # Lemmas on dictionaries and facts -/
namespace Verif.Intrin

@[simp] theorem upd_self {V : Type} (d : String → V) (x : String) (v : V) : upd d x v x = v := if_pos rfl

theorem upd_ne {V : Type} (d : String → V) {x y : String} (v : V) (h : y ≠ x) : upd d x v y = d y := if_neg h

/-! ## Dictionaries -/

theorem get_none {k : String} : ∀ {d : Dict}, d.get k = none ↔ k ∉ d.map (·.1)
  | [] => by simp [Dict.get]
  | (n, v) :: d => by
    rw [Dict.get]
    by_cases h : n = k
    · subst h; simp
    · rw [if_neg h, get_none, List.map_cons, List.mem_cons]
      simp only [not_or]
      exact ⟨fun h1 => ⟨fun e => h e.symm, h1⟩, fun h1 => h1.2⟩

theorem get_mem {k v : String} : ∀ {d : Dict}, d.get k = some v → (k, v) ∈ d
  | [], h => by cases h
  | (n, w) :: d, h => by
    rw [Dict.get] at h
    by_cases e : n = k
    · rw [if_pos e] at h; injection h with h; subst e h; exact List.mem_cons_self ..
    · rw [if_neg e] at h; exact List.mem_cons_of_mem _ (get_mem h)

theorem get_iff {k v : String} : ∀ {d : Dict}, Proper d → (d.get k = some v ↔ (k, v) ∈ d)
  | [], _ => by simp [Dict.get]
  | (n, w) :: d, hp => by
    refine ⟨get_mem, fun h => ?_⟩
    rw [Proper, List.map_cons, List.nodup_cons] at hp
    rw [Dict.get]
    rcases List.mem_cons.mp h with e | h
    · injection e with e1 e2; subst e1 e2; rw [if_pos rfl]
    · by_cases e : n = k
      · subst e; exact absurd (List.mem_map_of_mem (f := (·.1)) h) hp.1
      · rw [if_neg e]; exact (get_iff hp.2).mpr h

theorem get_append {k : String} : ∀ {a b : Dict}, Dict.get (a ++ b) k = (Dict.get a k).or (Dict.get b k)
  | [], b => by simp [Dict.get]
  | (n, v) :: a, b => by
    rw [List.cons_append, Dict.get, Dict.get]
    by_cases h : n = k
    · rw [if_pos h, if_pos h]; rfl
    · rw [if_neg h, if_neg h]; exact get_append

theorem get_some_mem {k : String} {d : Dict} : (d.get k).isSome = true ↔ k ∈ d.map (·.1) := by
  cases h : d.get k with
  | none => simp only [Option.isSome_none, Bool.false_eq_true, false_iff]; exact get_none.mp h
  | some v => simp only [Option.isSome_some, true_iff]; exact List.mem_map_of_mem (get_mem h)

theorem proper_snoc {d : Dict} {n v : String} (hd : Proper d) (hn : d.get n = none) : Proper (d ++ [(n, v)]) := by
  rw [Proper, List.map_append, List.nodup_append]
  refine ⟨hd, by simp, fun a ha b hb e => ?_⟩
  simp at hb
  rw [e, hb] at ha
  exact get_none.mp hn ha

theorem mergeLoop_spec : ∀ (b m : Dict), Proper m → Proper b →
    (∀ m', mergeLoop m b = some m' → Agree m b ∧ Proper m' ∧ ∀ n, Dict.get m' n = (Dict.get m n).or (Dict.get b n)) ∧
    (Agree m b → ∃ m', mergeLoop m b = some m')
  | [], m, hm, _ => by
    refine ⟨fun m' h => ?_, fun _ => ⟨m, rfl⟩⟩
    injection h with h; subst h
    exact ⟨(fun n v w _ h => by cases h), hm, fun n => by simp [Dict.get]⟩
  | (n, v) :: b, m, hm, hb => by
    rw [Proper, List.map_cons, List.nodup_cons] at hb
    rw [mergeLoop]
    cases hg : Dict.get m n with
    | some w =>
      dsimp only
      by_cases e : v = w
      · subst e
        rw [if_pos rfl]
        obtain ⟨h1, h2⟩ := mergeLoop_spec b m hm hb.2
        refine ⟨fun m' h => ?_, fun ha => h2 (fun k x y hx hy => ha k x y hx (List.mem_cons_of_mem _ hy))⟩
        obtain ⟨i1, i2, i3⟩ := h1 m' h
        refine ⟨fun k x y hx hy => ?_, i2, fun k => ?_⟩
        · rcases List.mem_cons.mp hy with e | hy
          · injection e with e1 e2; subst e1 e2
            have := (get_iff hm).mpr hx
            rw [hg] at this; injection this with this; exact this.symm
          · exact i1 k x y hx hy
        · rw [i3, Dict.get.eq_def ((n, v) :: b)]
          dsimp only
          by_cases e : n = k
          · subst e; rw [hg, if_pos rfl]; rfl
          · rw [if_neg e]
      · rw [if_neg e]
        refine ⟨(fun m' h => by cases h), fun ha => ?_⟩
        exact absurd (ha n w v (get_mem hg) (List.mem_cons_self ..)).symm e
    | none =>
      dsimp only
      have hnb : ∀ y, (n, y) ∉ b := fun y hy => hb.1 (List.mem_map_of_mem (f := (·.1)) hy)
      have hnm : ∀ x, (n, x) ∉ m := fun x hx => get_none.mp hg (List.mem_map_of_mem (f := (·.1)) hx)
      obtain ⟨h1, h2⟩ := mergeLoop_spec b (m ++ [(n, v)]) (proper_snoc hm hg) hb.2
      refine ⟨fun m' h => ?_, fun ha => h2 (fun k x y hx hy => ?_)⟩
      · obtain ⟨i1, i2, i3⟩ := h1 m' h
        refine ⟨fun k x y hx hy => ?_, i2, fun k => ?_⟩
        · rcases List.mem_cons.mp hy with e | hy
          · injection e with e1 e2; subst e1; exact absurd hx (hnm x)
          · exact i1 k x y (by simp [hx]) hy
        · rw [i3, get_append, Dict.get.eq_def ((n, v) :: b)]
          dsimp only
          by_cases e : n = k
          · subst e; rw [hg, if_pos rfl]; simp [Dict.get]
          · rw [if_neg e]; simp [Dict.get, e]
      · rcases List.mem_append.mp hx with hx | hx
        · exact ha k x y hx (List.mem_cons_of_mem _ hy)
        · rw [List.mem_singleton] at hx
          injection hx with e1 e2; subst e1; exact absurd hy (hnb y)

theorem same_get {a b : Dict} (ha : Proper a) (hb : Proper b) (h : a.same b = true) (n : String) : Dict.get b n = Dict.get a n := by
  rw [Dict.same, Bool.and_eq_true, decide_eq_true_eq, List.all_eq_true] at h
  obtain ⟨hl, h⟩ := h
  cases hg : Dict.get a n with
  | some v => exact of_decide_eq_true (h _ (get_mem hg))
  | none =>
    rw [get_none]
    intro hn
    have hn' := get_none.mp hg
    have hnd : (n :: a.map (·.1)).Nodup := List.nodup_cons.mpr ⟨hn', ha⟩
    have := nodup_length_le (b := b.map (·.1)) hnd (by
      intro k hk
      rcases List.mem_cons.mp hk with rfl | hk
      · exact hn
      · obtain ⟨x, hx, rfl⟩ := List.mem_map.mp hk
        exact List.mem_map_of_mem (get_mem (of_decide_eq_true (h x hx))))
    simp at this
    omega

theorem mergeAttrs_spec {a b : Dict} (ha : Proper a) (hb : Proper b) :
    (∀ m, mergeAttrs a b = some m → Agree a b ∧ Proper m ∧ ∀ n, Dict.get m n = (Dict.get a n).or (Dict.get b n)) ∧
    (Agree a b → ∃ m, mergeAttrs a b = some m) := by
  rw [mergeAttrs]
  by_cases h : a.same b = true
  · rw [if_pos h]
    have hs := same_get ha hb h
    refine ⟨fun m hm => ?_, fun _ => ⟨a, rfl⟩⟩
    injection hm with hm; subst hm
    refine ⟨fun n v w h1 h2 => ?_, ha, fun n => by rw [hs]; cases Dict.get a n <;> rfl⟩
    have k1 := (get_iff ha).mpr h1
    have k2 := (get_iff hb).mpr h2
    rw [hs, k1] at k2
    injection k2
  · rw [if_neg h]; exact mergeLoop_spec b a ha hb

/-! ## What is known about an intrinsic -/

/-- The facts about one intrinsic. -/
def about (fs : List Fact) (x : String) : List Verb := fs.filterMap (fun f => if f.left = x then some f.verb else none)

theorem mem_about {fs : List Fact} {x : String} {v : Verb} : v ∈ about fs x ↔ ⟨x, v⟩ ∈ fs := by
  rw [about, List.mem_filterMap]
  constructor
  · rintro ⟨⟨y, u⟩, h1, h2⟩
    dsimp only at h2
    split at h2
    · next e => injection h2 with h2; subst e h2; exact h1
    · cases h2
  · intro h; exact ⟨_, h, by simp⟩

/-- The values of `[[ccb]]` in the facts about one intrinsic. -/
def verbCcbs (vs : List Verb) : List String :=
  vs.filterMap (fun | .hasSlot s v => if s = "[[ccb]]" then some v else none | _ => none)

/-- What is known about an intrinsic, from the facts about it. -/
structure Knows (fix : String → String) (vs : List Verb) (i : Intr) : Prop where
  kind : ∀ k, i.kind = some k ↔ .is k ∈ vs ∧ (k = "a function object" → .is "a constructor" ∉ vs)
  slots : ∀ s v, s ≠ "[[ccb]]" → (i.slots s = some v ↔ .hasSlot s v ∈ vs)
  ccb : i.slots "[[ccb]]" = ccbValue fix (verbCcbs vs)
  keys : i.keys.Nodup ∧ ∀ p, p ∈ i.keys ↔ ∃ a, .hasProp p a ∈ vs
  none : ∀ p, i.attrs p = none ↔ ∀ a, .hasProp p a ∉ vs
  some : ∀ p d, i.attrs p = some d → Proper d ∧ ∀ n v, d.get n = some v ↔ ∃ a, .hasProp p a ∈ vs ∧ (n, v) ∈ a

/-- No contradictions. -/
structure Sound (vs : List Verb) : Prop where
  kinds : ∀ k l, .is k ∈ vs → .is l ∈ vs → Compatible k l
  slots : ∀ s v w, .hasSlot s v ∈ vs → .hasSlot s w ∈ vs → s ≠ "[[ccb]]" → v = w
  props : ∀ p a b, .hasProp p a ∈ vs → .hasProp p b ∈ vs → Agree a b

theorem knows_new (fix : String → String) (x : String) : Knows fix [] (Intr.new x) where
  kind k := by simp [Intr.new]
  slots s v _ := by simp [Intr.new]
  ccb := rfl
  keys := ⟨List.nodup_nil, by simp [Intr.new]⟩
  none p := by simp [Intr.new]
  some p d h := by cases h

theorem verbCcbs_snoc (vs : List Verb) (v : Verb) : verbCcbs (vs ++ [v]) = verbCcbs vs ++ verbCcbs [v] := by
  rw [verbCcbs, verbCcbs, verbCcbs, List.filterMap_append]

theorem ccbValue_snoc {fix : String → String} (hfix : ∀ v, fix (fix v) = fix v) (vs : List String) (v : String) :
    ccbValue fix (vs ++ [v]) = match ccbValue fix vs with
      | none => some v
      | some cur => if cur = v then some cur else some (fix cur) := by
  cases vs with
  | nil => simp [ccbValue]
  | cons u us =>
    rw [List.cons_append, ccbValue, ccbValue]
    by_cases h : ∀ w ∈ us, w = u
    · rw [if_pos h]
      dsimp only
      by_cases e : u = v
      · rw [if_pos e, if_pos]
        intro w hw
        rcases List.mem_append.mp hw with hw | hw
        · exact h w hw
        · rw [List.mem_singleton.mp hw, e]
      · rw [if_neg e, if_neg]
        intro hc
        exact e (hc v (by simp)).symm
    · rw [if_neg h, if_neg (fun hc => h (fun w hw => hc w (by simp [hw])))]
      dsimp only
      rw [hfix]
      by_cases e : fix u = v
      · rw [if_pos e]
      · rw [if_neg e]

theorem learn_name {fix : String → String} {i i' : Intr} {v : Verb} (h : learn fix i v = some i') : i'.name = i.name := by
  cases v with
  | «exists» => injection h with h; rw [← h]
  | is k =>
    rw [learn] at h
    cases hk : i.kind with
    | none => rw [hk] at h; injection h with h; rw [← h]
    | some l =>
      rw [hk] at h; dsimp only at h
      split at h
      · injection h with h; rw [← h]
      · split at h
        · injection h with h; rw [← h]
        · cases h
  | hasSlot s w =>
    rw [learn] at h
    cases hk : i.slots s with
    | none => rw [hk] at h; injection h with h; rw [← h]
    | some l =>
      rw [hk] at h; dsimp only at h
      split at h
      · injection h with h; rw [← h]
      · split at h
        · injection h with h; rw [← h]
        · cases h
  | hasProp p a =>
    rw [learn, ensureProperty] at h
    cases hk : i.attrs p with
    | none => rw [hk] at h; injection h with h; rw [← h]
    | some d =>
      rw [hk] at h; dsimp only at h
      cases hm : mergeAttrs d a with
      | none => rw [hm] at h; cases h
      | some m => rw [hm] at h; injection h with h; rw [← h]

theorem learn_spec {fix : String → String} (hfix : ∀ v, fix (fix v) = fix v) {vs : List Verb} {i : Intr} (hK : Knows fix vs i)
    (hS : Sound vs) (v : Verb) (hv : ∀ p a, v = .hasProp p a → Proper a) (hp : ∀ p a, .hasProp p a ∈ vs → Proper a) :
    (∀ i', learn fix i v = some i' → Sound (vs ++ [v]) ∧ Knows fix (vs ++ [v]) i') ∧
    (Sound (vs ++ [v]) → ∃ i', learn fix i v = some i') := by
  have hm : ∀ u, u ∈ vs ++ [v] ↔ u ∈ vs ∨ u = v := by simp
  cases v with
  | «exists» =>
    refine ⟨fun i' h => ?_, fun _ => ⟨i, rfl⟩⟩
    injection h with h; subst h
    refine ⟨⟨?_, ?_, ?_⟩, ⟨?_, ?_, ?_, ⟨hK.keys.1, ?_⟩, ?_, ?_⟩⟩
    · intro k l; simp only [hm, reduceCtorEq, or_false]; exact hS.kinds k l
    · intro s a b; simp only [hm, reduceCtorEq, or_false]; exact hS.slots s a b
    · intro p a b; simp only [hm, reduceCtorEq, or_false]; exact hS.props p a b
    · intro k; simp only [hm, reduceCtorEq, or_false]; exact hK.kind k
    · intro s a; simp only [hm, reduceCtorEq, or_false]; exact hK.slots s a
    · rw [verbCcbs_snoc]
      show _ = ccbValue fix (verbCcbs vs ++ [])
      rw [List.append_nil]; exact hK.ccb
    · intro p; simp only [hm, reduceCtorEq, or_false]; exact hK.keys.2 p
    · intro p; simp only [hm, reduceCtorEq, or_false]; exact hK.none p
    · intro p d; simp only [hm, reduceCtorEq, or_false]; exact hK.some p d
  | is k =>
    have others : ∀ i' : Intr, i'.slots = i.slots → i'.keys = i.keys → i'.attrs = i.attrs →
        (∀ k' l, .is k' ∈ vs ++ [.is k] → .is l ∈ vs ++ [.is k] → Compatible k' l) →
        (∀ l, i'.kind = some l ↔ .is l ∈ vs ++ [.is k] ∧ (l = "a function object" → .is "a constructor" ∉ vs ++ [.is k])) →
        Sound (vs ++ [.is k]) ∧ Knows fix (vs ++ [.is k]) i' := by
      intro i' e1 e2 e3 hc hk
      refine ⟨⟨hc, ?_, ?_⟩, ⟨hk, ?_, ?_, ⟨?_, ?_⟩, ?_, ?_⟩⟩
      · intro s a b; simp only [hm, reduceCtorEq, or_false]; exact hS.slots s a b
      · intro p a b; simp only [hm, reduceCtorEq, or_false]; exact hS.props p a b
      · intro s a; rw [e1]; simp only [hm, reduceCtorEq, or_false]; exact hK.slots s a
      · rw [e1, verbCcbs_snoc]
        show _ = ccbValue fix (verbCcbs vs ++ [])
        rw [List.append_nil]; exact hK.ccb
      · rw [e2]; exact hK.keys.1
      · intro p; rw [e2]; simp only [hm, reduceCtorEq, or_false]; exact hK.keys.2 p
      · intro p; rw [e3]; simp only [hm, reduceCtorEq, or_false]; exact hK.none p
      · intro p d; rw [e3]; simp only [hm, reduceCtorEq, or_false]; exact hK.some p d
    have hmk : ∀ l, .is l ∈ vs ++ [.is k] ↔ .is l ∈ vs ∨ l = k := by intro l; rw [hm]; simp
    rw [learn]
    cases hk : i.kind with
    | none =>
      dsimp only
      have hno : ∀ l, Verb.is l ∉ vs := by
        intro l hl
        by_cases hf : l = "a function object" ∧ .is "a constructor" ∈ vs
        · have := (hK.kind "a constructor").mpr ⟨hf.2, by simp⟩
          rw [hk] at this; cases this
        · have := (hK.kind l).mpr ⟨hl, fun e h => hf ⟨e, h⟩⟩
          rw [hk] at this; cases this
      refine ⟨fun i' h => ?_, fun _ => ⟨_, rfl⟩⟩
      injection h with h; subst h
      refine others _ rfl rfl rfl ?_ ?_
      · intro a b ha hb
        rw [hmk] at ha hb
        rw [ha.resolve_left (hno a), hb.resolve_left (hno b)]
        exact Or.inl rfl
      · intro l
        simp only [hmk, hno, false_or, Option.some.injEq]
        constructor
        · intro e; exact ⟨e.symm, fun h1 h2 => by rw [← e, ← h2] at h1; exact absurd h1 (by decide)⟩
        · intro h; exact h.1.symm
    | some k0 =>
      dsimp only
      obtain ⟨q1, q2⟩ := (hK.kind k0).mp hk
      have hall : ∀ l, .is l ∈ vs → Compatible k0 l := fun l hl => hS.kinds k0 l q1 hl
      -- every known kind is `k0`, or `k0` is a constructor and it is a function
      have hall' : ∀ l, .is l ∈ vs → l = k0 ∨ (k0 = "a constructor" ∧ l = "a function object") := by
        intro l hl
        rcases hall l hl with e | e | e
        · exact Or.inl e.symm
        · exact Or.inr e
        · rw [e.2] at hl; exact absurd hl (q2 e.1)
      by_cases e : k0 = k
      · subst e
        rw [if_pos rfl]
        have hm' : ∀ l, .is l ∈ vs ++ [.is k0] ↔ .is l ∈ vs := by
          intro l; rw [hmk]; exact ⟨fun h => h.elim id (fun e => e ▸ q1), Or.inl⟩
        refine ⟨fun i' h => ?_, fun _ => ⟨_, rfl⟩⟩
        injection h with h; subst h
        refine others i rfl rfl rfl ?_ ?_
        · intro a b; rw [hm', hm']; exact hS.kinds a b
        · intro l; rw [hm', hm']; exact hK.kind l
      · rw [if_neg e]
        by_cases hcf : k0 = "a constructor" ∧ k = "a function object" ∨ k0 = "a function object" ∧ k = "a constructor"
        · rw [if_pos hcf]
          have hin : ∀ l, .is l ∈ vs ++ [.is k] → l = "a constructor" ∨ l = "a function object" := by
            intro l hl
            rw [hmk] at hl
            rcases hcf with ⟨c1, c2⟩ | ⟨c1, c2⟩
            · rcases hl with hl | hl
              · rcases hall' l hl with h | h
                · exact Or.inl (h.trans c1)
                · exact Or.inr h.2
              · exact Or.inr (hl.trans c2)
            · rcases hl with hl | hl
              · rcases hall' l hl with h | h
                · exact Or.inr (h.trans c1)
                · exact Or.inr h.2
              · exact Or.inl (hl.trans c2)
          have hctor : .is "a constructor" ∈ vs ++ [.is k] := by
            rw [hmk]
            rcases hcf with ⟨c1, c2⟩ | ⟨c1, c2⟩
            · exact Or.inl (c1 ▸ q1)
            · exact Or.inr c2.symm
          refine ⟨fun i' h => ?_, fun _ => ⟨_, rfl⟩⟩
          injection h with h; subst h
          refine others _ rfl rfl rfl ?_ ?_
          · intro a b ha hb
            rcases hin a ha with rfl | rfl <;> rcases hin b hb with rfl | rfl
            · exact Or.inl rfl
            · exact Or.inr (Or.inl ⟨rfl, rfl⟩)
            · exact Or.inr (Or.inr ⟨rfl, rfl⟩)
            · exact Or.inl rfl
          · intro l
            simp only [Option.some.injEq]
            constructor
            · rintro rfl; exact ⟨hctor, fun h => absurd h (by decide)⟩
            · rintro ⟨h1, h2⟩
              rcases hin l h1 with h | h
              · exact h.symm
              · exact absurd hctor (h2 h)
        · rw [if_neg hcf]
          refine ⟨(fun i' h => by cases h), fun hs => ?_⟩
          rcases hs.kinds k0 k ((hmk _).mpr (Or.inl q1)) ((hmk _).mpr (Or.inr rfl)) with h | h | h
          · exact absurd h e
          · exact absurd (Or.inl h) hcf
          · exact absurd (Or.inr h) hcf
  | hasSlot s w =>
    have others : ∀ i' : Intr, i'.kind = i.kind → i'.keys = i.keys → i'.attrs = i.attrs →
        (∀ t a b, .hasSlot t a ∈ vs ++ [.hasSlot s w] → .hasSlot t b ∈ vs ++ [.hasSlot s w] → t ≠ "[[ccb]]" → a = b) →
        (∀ t a, t ≠ "[[ccb]]" → (i'.slots t = some a ↔ .hasSlot t a ∈ vs ++ [.hasSlot s w])) →
        i'.slots "[[ccb]]" = ccbValue fix (verbCcbs (vs ++ [.hasSlot s w])) →
        Sound (vs ++ [.hasSlot s w]) ∧ Knows fix (vs ++ [.hasSlot s w]) i' := by
      intro i' e1 e2 e3 hc hk hccb
      refine ⟨⟨?_, hc, ?_⟩, ⟨?_, hk, hccb, ⟨?_, ?_⟩, ?_, ?_⟩⟩
      · intro k l; simp only [hm, reduceCtorEq, or_false]; exact hS.kinds k l
      · intro p a b; simp only [hm, reduceCtorEq, or_false]; exact hS.props p a b
      · intro k; rw [e1]; simp only [hm, reduceCtorEq, or_false]; exact hK.kind k
      · rw [e2]; exact hK.keys.1
      · intro p; rw [e2]; simp only [hm, reduceCtorEq, or_false]; exact hK.keys.2 p
      · intro p; rw [e3]; simp only [hm, reduceCtorEq, or_false]; exact hK.none p
      · intro p d; rw [e3]; simp only [hm, reduceCtorEq, or_false]; exact hK.some p d
    have hms : ∀ t a, .hasSlot t a ∈ vs ++ [.hasSlot s w] ↔ .hasSlot t a ∈ vs ∨ (t = s ∧ a = w) := by
      intro t a; rw [hm]; simp
    have hccb : ccbValue fix (verbCcbs (vs ++ [.hasSlot s w])) =
        if s = "[[ccb]]" then (match i.slots "[[ccb]]" with
          | none => some w
          | some cur => if cur = w then some cur else some (fix cur)) else i.slots "[[ccb]]" := by
      rw [verbCcbs_snoc, hK.ccb]
      by_cases h : s = "[[ccb]]"
      · rw [if_pos h]
        have : verbCcbs [.hasSlot s w] = [w] := by simp [verbCcbs, h]
        rw [this]
        exact ccbValue_snoc hfix _ _
      · rw [if_neg h]
        have : verbCcbs [.hasSlot s w] = [] := by simp [verbCcbs, h]
        rw [this, List.append_nil]
    rw [learn]
    cases hk : i.slots s with
    | none =>
      dsimp only
      refine ⟨fun i' h => ?_, fun _ => ⟨_, rfl⟩⟩
      injection h with h; subst h
      have hno : s ≠ "[[ccb]]" → ∀ a, .hasSlot s a ∉ vs := by
        intro hs a ha
        have := (hK.slots s a hs).mpr ha
        rw [hk] at this; cases this
      refine others _ rfl rfl rfl ?_ ?_ ?_
      · intro t a b ha hb ht
        rw [hms] at ha hb
        by_cases e : t = s
        · subst e
          rw [(ha.resolve_left (hno ht a)).2, (hb.resolve_left (hno ht b)).2]
        · exact hS.slots t a b (ha.resolve_right (fun h => e h.1)) (hb.resolve_right (fun h => e h.1)) ht
      · intro t a ht
        dsimp only
        rw [hms]
        by_cases e : t = s
        · subst e
          rw [upd_self]
          simp only [Option.some.injEq, hno ht, false_or, true_and]
          exact eq_comm
        · rw [upd_ne _ _ e, hK.slots t a ht]
          simp [e]
      · dsimp only
        rw [hccb]
        by_cases e : s = "[[ccb]]"
        · rw [if_pos e, ← e, hk, upd_self]
        · rw [if_neg e, upd_ne _ _ (fun h => e h.symm)]
    | some cur =>
      dsimp only
      by_cases e : cur = w
      · subst e
        rw [if_pos rfl]
        refine ⟨fun i' h => ?_, fun _ => ⟨_, rfl⟩⟩
        injection h with h; subst h
        have hkeep : s ≠ "[[ccb]]" → .hasSlot s cur ∈ vs := fun hs => (hK.slots s cur hs).mp hk
        have hm' : ∀ t a, t ≠ "[[ccb]]" → (.hasSlot t a ∈ vs ++ [.hasSlot s cur] ↔ .hasSlot t a ∈ vs) := by
          intro t a ht
          rw [hms]
          exact ⟨fun h => h.elim id (fun h => by rw [h.1, h.2]; exact hkeep (h.1 ▸ ht)), Or.inl⟩
        refine others i rfl rfl rfl ?_ ?_ ?_
        · intro t a b ha hb ht
          exact hS.slots t a b ((hm' t a ht).mp ha) ((hm' t b ht).mp hb) ht
        · intro t a ht; rw [hm' t a ht]; exact hK.slots t a ht
        · rw [hccb]
          by_cases e : s = "[[ccb]]"
          · rw [if_pos e, ← e, hk]; simp
          · rw [if_neg e]
      · rw [if_neg e]
        by_cases hs : s = "[[ccb]]"
        · rw [if_pos hs]
          refine ⟨fun i' h => ?_, fun _ => ⟨_, rfl⟩⟩
          injection h with h; subst h
          have hm' : ∀ t a, t ≠ "[[ccb]]" → (.hasSlot t a ∈ vs ++ [.hasSlot s w] ↔ .hasSlot t a ∈ vs) := by
            intro t a ht
            rw [hms]
            exact ⟨fun h => h.elim id (fun h => absurd (h.1.trans hs) ht), Or.inl⟩
          refine others _ rfl rfl rfl ?_ ?_ ?_
          · intro t a b ha hb ht
            exact hS.slots t a b ((hm' t a ht).mp ha) ((hm' t b ht).mp hb) ht
          · intro t a ht
            dsimp only
            rw [hm' t a ht, upd_ne _ _ (fun h => ht (h.trans hs))]
            exact hK.slots t a ht
          · dsimp only
            rw [hccb, if_pos hs, ← hs, hk, upd_self]
            dsimp only
            rw [if_neg e]
        · rw [if_neg hs]
          refine ⟨(fun i' h => by cases h), fun hS' => ?_⟩
          have := hS'.slots s cur w ((hms _ _).mpr (Or.inl ((hK.slots s cur hs).mp hk))) ((hms _ _).mpr (Or.inr ⟨rfl, rfl⟩)) hs
          exact absurd this e
  | hasProp p a =>
    have ha := hv p a rfl
    have hmp : ∀ q b, .hasProp q b ∈ vs ++ [.hasProp p a] ↔ .hasProp q b ∈ vs ∨ (q = p ∧ b = a) := by
      intro q b; rw [hm]; simp
    have others : ∀ i' : Intr, i'.kind = i.kind → i'.slots = i.slots →
        (∀ q b c, .hasProp q b ∈ vs ++ [.hasProp p a] → .hasProp q c ∈ vs ++ [.hasProp p a] → Agree b c) →
        (i'.keys.Nodup ∧ ∀ q, q ∈ i'.keys ↔ ∃ b, .hasProp q b ∈ vs ++ [.hasProp p a]) →
        (∀ q, i'.attrs q = none ↔ ∀ b, .hasProp q b ∉ vs ++ [.hasProp p a]) →
        (∀ q d, i'.attrs q = some d → Proper d ∧ ∀ n v, d.get n = some v ↔ ∃ b, .hasProp q b ∈ vs ++ [.hasProp p a] ∧ (n, v) ∈ b) →
        Sound (vs ++ [.hasProp p a]) ∧ Knows fix (vs ++ [.hasProp p a]) i' := by
      intro i' e1 e2 hc hk hn hs
      refine ⟨⟨?_, ?_, hc⟩, ⟨?_, ?_, ?_, hk, hn, hs⟩⟩
      · intro k l; simp only [hm, reduceCtorEq, or_false]; exact hS.kinds k l
      · intro s a b; simp only [hm, reduceCtorEq, or_false]; exact hS.slots s a b
      · intro k; rw [e1]; simp only [hm, reduceCtorEq, or_false]; exact hK.kind k
      · intro s a; rw [e2]; simp only [hm, reduceCtorEq, or_false]; exact hK.slots s a
      · rw [e2, verbCcbs_snoc]
        show _ = ccbValue fix (verbCcbs vs ++ [])
        rw [List.append_nil]; exact hK.ccb
    have hself : Agree a a := by
      intro n v w h1 h2
      have k1 := (get_iff ha).mpr h1
      rw [(get_iff ha).mpr h2] at k1
      injection k1 with k1; exact k1.symm
    have hsym : ∀ {b c : Dict}, Agree b c → Agree c b := fun h n v w h1 h2 => (h n w v h2 h1).symm
    rw [learn, ensureProperty]
    cases hk : i.attrs p with
    | none =>
      dsimp only
      have hno := (hK.none p).mp hk
      refine ⟨fun i' h => ?_, fun _ => ⟨_, rfl⟩⟩
      injection h with h; subst h
      refine others _ rfl rfl ?_ ⟨?_, ?_⟩ ?_ ?_
      · intro q b c hb hc
        rw [hmp] at hb hc
        by_cases e : q = p
        · subst e
          rw [(hb.resolve_left (hno b)).2, (hc.resolve_left (hno c)).2]
          exact hself
        · exact hS.props q b c (hb.resolve_right (fun h => e h.1)) (hc.resolve_right (fun h => e h.1))
      · dsimp only
        rw [List.nodup_append]
        refine ⟨hK.keys.1, by simp, fun x hx y hy e => ?_⟩
        rw [List.mem_singleton] at hy
        rw [e, hy] at hx
        obtain ⟨b, hb⟩ := (hK.keys.2 p).mp hx
        exact hno b hb
      · intro q
        dsimp only
        rw [List.mem_append, hK.keys.2 q, List.mem_singleton]
        constructor
        · rintro (⟨b, hb⟩ | rfl)
          · exact ⟨b, (hmp _ _).mpr (Or.inl hb)⟩
          · exact ⟨a, (hmp _ _).mpr (Or.inr ⟨rfl, rfl⟩)⟩
        · rintro ⟨b, hb⟩
          rcases (hmp _ _).mp hb with hb | hb
          · exact Or.inl ⟨b, hb⟩
          · exact Or.inr hb.1
      · intro q
        dsimp only
        by_cases e : q = p
        · subst e
          rw [upd_self]
          simp only [reduceCtorEq, false_iff]
          intro h
          exact h a ((hmp _ _).mpr (Or.inr ⟨rfl, rfl⟩))
        · rw [upd_ne _ _ e, hK.none q]
          simp [hmp, e]
      · intro q d
        dsimp only
        by_cases e : q = p
        · subst e
          rw [upd_self]
          intro h; injection h with h; subst h
          refine ⟨ha, fun n v => ?_⟩
          rw [get_iff ha]
          constructor
          · intro h; exact ⟨a, (hmp _ _).mpr (Or.inr ⟨rfl, rfl⟩), h⟩
          · rintro ⟨b, hb, h⟩
            rw [((hmp _ _).mp hb).resolve_left (hno b) |>.2] at h
            exact h
        · rw [upd_ne _ _ e]
          intro h
          have := hK.some q d h
          simp only [hmp, e, false_and, or_false]
          exact this
    | some d =>
      dsimp only
      obtain ⟨d1, d2⟩ := hK.some p d hk
      obtain ⟨m1, m2⟩ := mergeAttrs_spec d1 ha
      have hagree : Agree d a ↔ ∀ b, .hasProp p b ∈ vs → Agree b a := by
        constructor
        · intro h b hb n v w h1 h2
          exact h n v w (get_mem ((d2 n v).mpr ⟨b, hb, h1⟩)) h2
        · intro h n v w h1 h2
          obtain ⟨b, hb, h3⟩ := (d2 n v).mp ((get_iff d1).mpr h1)
          exact h b hb n v w h3 h2
      refine ⟨fun i' h => ?_, fun hS' => ?_⟩
      · cases hmg : mergeAttrs d a with
        | none => rw [hmg] at h; cases h
        | some m =>
          rw [hmg] at h; injection h with h; subst h
          obtain ⟨n1, n2, n3⟩ := m1 m hmg
          rw [hagree] at n1
          refine others _ rfl rfl ?_ ⟨hK.keys.1, ?_⟩ ?_ ?_
          · intro q b c hb hc
            rcases (hmp _ _).mp hb with hb1 | ⟨e1, f1⟩ <;> rcases (hmp _ _).mp hc with hc1 | ⟨e2, f2⟩
            · exact hS.props q b c hb1 hc1
            · subst e2 f2; exact n1 b hb1
            · subst e1 f1; exact hsym (n1 c hc1)
            · subst f1 f2; exact hself
          · intro q
            rw [hK.keys.2 q]
            constructor
            · rintro ⟨b, hb⟩; exact ⟨b, (hmp _ _).mpr (Or.inl hb)⟩
            · rintro ⟨b, hb⟩
              rcases (hmp _ _).mp hb with hb | ⟨rfl, _⟩
              · exact ⟨b, hb⟩
              · apply Classical.byContradiction
                intro hc
                have := (hK.none q).mpr (fun b hb => hc ⟨b, hb⟩)
                rw [hk] at this; cases this
          · intro q
            dsimp only
            by_cases e : q = p
            · subst e
              rw [upd_self]
              simp only [reduceCtorEq, false_iff]
              intro h
              exact h a ((hmp _ _).mpr (Or.inr ⟨rfl, rfl⟩))
            · rw [upd_ne _ _ e, hK.none q]
              simp [hmp, e]
          · intro q d'
            dsimp only
            by_cases e : q = p
            · subst e
              rw [upd_self]
              intro h; injection h with h; subst h
              refine ⟨n2, fun n v => ?_⟩
              rw [n3]
              constructor
              · intro h
                cases hd : Dict.get d n with
                | some x =>
                  rw [hd] at h
                  obtain ⟨b, hb, h3⟩ := (d2 n x).mp hd
                  injection h with h; subst h
                  exact ⟨b, (hmp _ _).mpr (Or.inl hb), h3⟩
                | none =>
                  rw [hd] at h
                  exact ⟨a, (hmp _ _).mpr (Or.inr ⟨rfl, rfl⟩), get_mem h⟩
              · rintro ⟨b, hb, h⟩
                rcases (hmp _ _).mp hb with hb | ⟨_, rfl⟩
                · rw [(d2 n v).mpr ⟨b, hb, h⟩]; rfl
                · cases hd : Dict.get d n with
                  | some x =>
                    obtain ⟨c, hc, h3⟩ := (d2 n x).mp hd
                    rw [n1 c hc n x v h3 h]; rfl
                  | none => exact (get_iff ha).mpr h
            · rw [upd_ne _ _ e]
              intro h
              have := hK.some q d' h
              simp only [hmp, e, false_and, or_false]
              exact this
      · have : Agree d a := hagree.mpr (fun b hb =>
          hS'.props p b a ((hmp _ _).mpr (Or.inl hb)) ((hmp _ _).mpr (Or.inr ⟨rfl, rfl⟩)))
        obtain ⟨m, hmg⟩ := m2 this
        rw [hmg]; exact ⟨_, rfl⟩

end Verif.Intrin
