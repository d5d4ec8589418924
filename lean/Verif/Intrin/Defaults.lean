import Verif.Intrin.Lemmas
/-! # Lemmas on the defaults -/
namespace Verif.Intrin

theorem fillIn_get {n : String} : ∀ (ds d : Dict), Dict.get (fillIn d ds) n = (Dict.get d n).or (Dict.get ds n)
  | [], d => by simp [fillIn, Dict.get]
  | (k, v) :: ds, d => by
    rw [fillIn]
    cases hg : Dict.get d k with
    | some w =>
      dsimp only
      rw [fillIn_get ds d, Dict.get.eq_def ((k, v) :: ds)]
      dsimp only
      by_cases e : k = n
      · subst e; rw [hg]; rfl
      · rw [if_neg e]
    | none =>
      dsimp only
      rw [fillIn_get ds, get_append, Dict.get.eq_def ((k, v) :: ds)]
      dsimp only
      by_cases e : k = n
      · subst e; rw [hg, if_pos rfl]; simp [Dict.get]
      · rw [if_neg e]; simp [Dict.get, e]

theorem fillIn_proper : ∀ (ds d : Dict), Proper d → Proper (fillIn d ds)
  | [], _, h => h
  | (k, v) :: ds, d, h => by
    rw [fillIn]
    cases hg : Dict.get d k with
    | some w => exact fillIn_proper ds d h
    | none => exact fillIn_proper ds _ (proper_snoc h hg)

theorem propKind_none {d : Dict} : propKind d = none ↔ Mixed d := by
  simp only [propKind, Mixed, ← get_some_mem]
  cases (Dict.get d "[[Value]]").isSome <;> cases (Dict.get d "[[Writable]]").isSome <;>
    cases (Dict.get d "[[Getter]]").isSome <;> cases (Dict.get d "[[Setter]]").isSome <;> simp

theorem get_cons (n v a : String) (d : Dict) : Dict.get ((n, v) :: d) a = if a = n then some v else Dict.get d a := by
  rw [Dict.get]
  by_cases h : n = a
  · rw [if_pos h, if_pos h.symm]
  · rw [if_neg h, if_neg (fun e => h e.symm)]

theorem functionDefaults_get (v a : String) : Dict.get (functionDefaults v) a =
    if a = "[[Value]]" then some v else if a = "[[Writable]]" then some "*false*"
    else if a = "[[Enumerable]]" then some "*false*" else if a = "[[Configurable]]" then some "*true*" else none := by
  rw [functionDefaults, get_cons, get_cons, get_cons, get_cons]; rfl

theorem kindDefaults_get {d : Dict} {k : String} (h : propKind d = some k) (a : String) : Dict.get (kindDefaults k) a =
    if "[[Value]]" ∈ d.map (·.1) ∨ "[[Writable]]" ∈ d.map (·.1) then
      if a = "[[Writable]]" then some "*true*"
      else if a = "[[Enumerable]]" then some "*false*"
      else if a = "[[Configurable]]" then some "*true*"
      else none
    else if "[[Getter]]" ∈ d.map (·.1) ∨ "[[Setter]]" ∈ d.map (·.1) then
      if a = "[[Enumerable]]" then some "*false*"
      else if a = "[[Configurable]]" then some "*true*"
      else none
    else none := by
  simp only [← get_some_mem]
  simp only [propKind] at h
  revert h
  cases (Dict.get d "[[Value]]").isSome <;> cases (Dict.get d "[[Writable]]").isSome <;>
    cases (Dict.get d "[[Getter]]").isSome <;> cases (Dict.get d "[[Setter]]").isSome <;> intro h <;> cases h <;>
    simp [kindDefaults, get_cons, Dict.get.eq_1]

theorem isFunction_iff {x : Intr} : isFunction x = true ↔ Function x := by
  simp [isFunction, Function]

/-- What is kept. -/
structure SameBut (x y : Intr) : Prop where
  name : y.name = x.name
  kind : y.kind = x.kind
  slots : y.slots = x.slots

theorem SameBut.trans {x y z : Intr} (h : SameBut x y) (k : SameBut y z) : SameBut x z :=
  ⟨k.name.trans h.name, k.kind.trans h.kind, k.slots.trans h.slots⟩

theorem isFunction_same {x y : Intr} (h : y.kind = x.kind) : isFunction y = isFunction x := by rw [isFunction, isFunction, h]

theorem applyTo_spec (x : Intr) (k : String) (ds : Dict) :
    ∃ y, applyTo x k ds = some y ∧ SameBut x y ∧ (∀ j, j ≠ k → y.attrs j = x.attrs j) ∧
      y.attrs k = some (match x.attrs k with | some d => fillIn d ds | none => ds) ∧
      y.keys = (match x.attrs k with | some _ => x.keys | none => x.keys ++ [k]) := by
  rw [applyTo]
  cases h : x.attrs k with
  | some d => exact ⟨_, rfl, ⟨rfl, rfl, rfl⟩, fun j hj => upd_ne _ _ hj, by simp, rfl⟩
  | none =>
    dsimp only
    rw [ensureProperty, h]
    exact ⟨_, rfl, ⟨rfl, rfl, rfl⟩, fun j hj => upd_ne _ _ hj, by simp, rfl⟩

theorem defaultProps_spec : ∀ (ks : List String) (x : Intr), ks.Nodup → (∀ k ∈ ks, x.attrs k ≠ none) →
    (∀ y, defaultProps ks x = some y → SameBut x y ∧ y.keys = x.keys ∧
      (∀ k, k ∉ ks ∨ Special x k → y.attrs k = x.attrs k) ∧
      (∀ k ∈ ks, ¬ Special x k → ∃ d kind, x.attrs k = some d ∧ propKind d = some kind ∧
        y.attrs k = some (fillIn d (kindDefaults kind)))) ∧
    ((∀ k ∈ ks, ¬ Special x k → ∀ d, x.attrs k = some d → ¬ Mixed d) → ∃ y, defaultProps ks x = some y)
  | [], x, _, _ => by
    refine ⟨fun y h => ?_, fun _ => ⟨x, rfl⟩⟩
    injection h with h; subst h
    exact ⟨⟨rfl, rfl, rfl⟩, rfl, fun _ _ => rfl, fun k hk => by cases hk⟩
  | k :: ks, x, hnd, hall => by
    rw [List.nodup_cons] at hnd
    rw [defaultProps]
    have hall' : ∀ j ∈ ks, x.attrs j ≠ none := fun j hj => hall j (List.mem_cons_of_mem _ hj)
    by_cases hs : (k = "*\"length\"*" ∨ k = "*\"name\"*") ∧ isFunction x = true
    · rw [if_pos hs]
      have hs' : Special x k := ⟨hs.1, isFunction_iff.mp hs.2⟩
      obtain ⟨h1, h2⟩ := defaultProps_spec ks x hnd.2 hall'
      refine ⟨fun y h => ?_, fun h => h2 (fun j hj => h j (List.mem_cons_of_mem _ hj))⟩
      obtain ⟨a1, a2, a3, a4⟩ := h1 y h
      refine ⟨a1, a2, fun j hj => a3 j ?_, fun j hj hns => ?_⟩
      · rcases hj with hj | hj
        · exact Or.inl (fun h => hj (List.mem_cons_of_mem _ h))
        · exact Or.inr hj
      · rcases List.mem_cons.mp hj with rfl | hj
        · exact absurd hs' hns
        · exact a4 j hj hns
    · rw [if_neg hs]
      have hns : ¬ Special x k := fun h => hs ⟨h.1, isFunction_iff.mpr h.2⟩
      cases hd : x.attrs k with
      | none => exact absurd hd (hall k (List.mem_cons_self ..))
      | some d =>
        dsimp only
        cases hk : propKind d with
        | none =>
          dsimp only
          refine ⟨(fun y h => by cases h), fun h => ?_⟩
          exact absurd (propKind_none.mp hk) (h k (List.mem_cons_self ..) hns d hd)
        | some kind =>
          dsimp only
          obtain ⟨x1, e1, s1, o1, t1, q1⟩ := applyTo_spec x k (kindDefaults kind)
          rw [hd] at t1 q1
          dsimp only at t1 q1
          rw [e1]
          dsimp only
          have hne : ∀ j ∈ ks, j ≠ k := fun j hj e => hnd.1 (e ▸ hj)
          have hsp : ∀ j, Special x1 j ↔ Special x j := by intro j; rw [Special, Special, Function, Function, s1.kind]
          obtain ⟨h1, h2⟩ := defaultProps_spec ks x1 hnd.2 (fun j hj => by rw [o1 j (hne j hj)]; exact hall' j hj)
          refine ⟨fun y h => ?_, fun h => h2 (fun j hj hns' d' hd' => ?_)⟩
          · obtain ⟨a1, a2, a3, a4⟩ := h1 y h
            refine ⟨s1.trans a1, a2.trans q1, fun j hj => ?_, fun j hj hns' => ?_⟩
            · have hjk : j ≠ k := by
                rintro rfl
                rcases hj with hj | hj
                · exact hj (List.mem_cons_self ..)
                · exact hns hj
              rw [← o1 j hjk]
              apply a3
              rcases hj with hj | hj
              · exact Or.inl (fun h => hj (List.mem_cons_of_mem _ h))
              · exact Or.inr ((hsp j).mpr hj)
            · rcases List.mem_cons.mp hj with rfl | hj
              · refine ⟨d, kind, hd, hk, ?_⟩
                rw [a3 j (Or.inl hnd.1), t1]
              · obtain ⟨d', kind', b1, b2, b3⟩ := a4 j hj (fun h => hns' ((hsp j).mp h))
                rw [o1 j (hne j hj)] at b1
                exact ⟨d', kind', b1, b2, b3⟩
          · rw [o1 j (hne j hj)] at hd'
            exact h j (List.mem_cons_of_mem _ hj) (fun h => hns' ((hsp j).mpr h)) d' hd'

theorem defaultKind_spec (x : Intr) :
    (∀ y, defaultKind x = some y → KindOk x ∧ y.name = x.name ∧ y.slots = x.slots ∧ y.keys = x.keys ∧ y.attrs = x.attrs ∧
      (Function y ↔ Function x) ∧
      y.kind = (if x.name = globalName then some "host-defined non-function" else if x.name = unscopables then some "an ordinary object"
        else x.kind)) ∧
    (KindOk x → ∃ y, defaultKind x = some y) := by
  rw [defaultKind, KindOk]
  by_cases hg : x.name = globalName
  · rw [if_pos hg, if_pos (Or.inl hg)]
    by_cases hk : x.kind = none
    · rw [if_pos hk]
      refine ⟨fun y h => ?_, fun _ => ⟨_, rfl⟩⟩
      injection h with h; subst h
      exact ⟨hk, rfl, rfl, rfl, rfl, by simp [Function, hk], by rw [if_pos hg]⟩
    · rw [if_neg hk]; exact ⟨(fun y h => by cases h), fun h => absurd h hk⟩
  · rw [if_neg hg]
    by_cases hu : x.name = unscopables
    · rw [if_pos hu, if_pos (Or.inr hu)]
      by_cases hk : x.kind = none
      · rw [if_pos hk]
        refine ⟨fun y h => ?_, fun _ => ⟨_, rfl⟩⟩
        injection h with h; subst h
        exact ⟨hk, rfl, rfl, rfl, rfl, by simp [Function, hk], by rw [if_neg hg, if_pos hu]⟩
      · rw [if_neg hk]; exact ⟨(fun y h => by cases h), fun h => absurd h hk⟩
    · rw [if_neg hu, if_neg (fun h => h.elim hg hu)]
      cases hk : x.kind with
      | none => exact ⟨(fun y h => by cases h), fun ⟨k, h, _⟩ => by cases h⟩
      | some k =>
        dsimp only
        by_cases hin : k ∈ kinds
        · rw [if_pos hin]
          refine ⟨fun y h => ?_, fun _ => ⟨_, rfl⟩⟩
          injection h with h; subst h
          exact ⟨⟨k, rfl, hin⟩, rfl, rfl, rfl, rfl, Iff.rfl, by rw [if_neg hg, if_neg hu, hk]⟩
        · rw [if_neg hin]
          refine ⟨(fun y h => by cases h), fun ⟨k', h, h'⟩ => ?_⟩
          injection h with h; subst h; exact absurd h' hin

theorem defaultSlots_spec (x : Intr) :
    (∀ y, defaultSlots x = some y → y.name = x.name ∧ y.kind = x.kind ∧ y.keys = x.keys ∧ y.attrs = x.attrs ∧
      (∀ s, y.slots s = slotAfter x s) ∧ slotAfter x "[[Prototype]]" ≠ none) ∧
    (slotAfter x "[[Prototype]]" ≠ none → ∃ y, defaultSlots x = some y) := by
  have key : ∀ x1 : Intr, x1.name = x.name → x1.kind = x.kind → x1.keys = x.keys → x1.attrs = x.attrs →
      (∀ s, x1.slots s = (match x.slots s with | some v => some v | none => if s = "[[Extensible]]" then some "*true*" else none)) →
      (∀ y, (match x1.slots "[[Prototype]]" with
        | some _ => some x1
        | none =>
          if isFunction x1 then some { x1 with slots := upd x1.slots "[[Prototype]]" (some "%Function.prototype%") }
          else if x1.name = unscopables then some { x1 with slots := upd x1.slots "[[Prototype]]" (some "*null*") }
          else none) = some y → y.name = x.name ∧ y.kind = x.kind ∧ y.keys = x.keys ∧ y.attrs = x.attrs ∧
          (∀ s, y.slots s = slotAfter x s) ∧ slotAfter x "[[Prototype]]" ≠ none) ∧
      (slotAfter x "[[Prototype]]" ≠ none → ∃ y, (match x1.slots "[[Prototype]]" with
        | some _ => some x1
        | none =>
          if isFunction x1 then some { x1 with slots := upd x1.slots "[[Prototype]]" (some "%Function.prototype%") }
          else if x1.name = unscopables then some { x1 with slots := upd x1.slots "[[Prototype]]" (some "*null*") }
          else none) = some y) := by
    intro x1 e1 e2 e3 e4 e5
    have hp := e5 "[[Prototype]]"
    have others : ∀ s, s ≠ "[[Prototype]]" → x1.slots s = slotAfter x s := by
      intro s hs
      rw [e5, slotAfter, if_neg hs]
      cases x.slots s <;> rfl
    have hfun : isFunction x1 = true ↔ (x.kind = some "a function object" ∨ x.kind = some "a constructor") := by
      rw [isFunction_iff, Function, e2]
    cases hx : x.slots "[[Prototype]]" with
    | some v =>
      rw [hx] at hp
      dsimp only at hp
      rw [hp]
      have hs1 : slotAfter x "[[Prototype]]" = some v := by rw [slotAfter, hx]
      refine ⟨fun y h => ?_, fun _ => ⟨_, rfl⟩⟩
      injection h with h; subst h
      refine ⟨e1, e2, e3, e4, fun s => ?_, by rw [hs1]; simp⟩
      by_cases hs : s = "[[Prototype]]"
      · subst hs; rw [hp, hs1]
      · exact others s hs
    | none =>
      rw [hx, if_neg (by decide)] at hp
      dsimp only at hp
      rw [hp]
      dsimp only
      have hs1 : slotAfter x "[[Prototype]]" = if x.kind = some "a function object" ∨ x.kind = some "a constructor" then some "%Function.prototype%"
          else if x.name = unscopables then some "*null*" else none := by
        rw [slotAfter, hx]; dsimp only; rw [if_neg (by decide), if_pos rfl]
      by_cases hf : isFunction x1 = true
      · rw [if_pos hf]
        rw [if_pos (hfun.mp hf)] at hs1
        refine ⟨fun y h => ?_, fun _ => ⟨_, rfl⟩⟩
        injection h with h; subst h
        refine ⟨e1, e2, e3, e4, fun s => ?_, by rw [hs1]; simp⟩
        dsimp only
        by_cases hs : s = "[[Prototype]]"
        · subst hs; rw [upd_self, hs1]
        · rw [upd_ne _ _ hs]; exact others s hs
      · rw [if_neg hf]
        rw [if_neg (fun h => hf (hfun.mpr h))] at hs1
        rw [← e1] at hs1
        by_cases hu : x1.name = unscopables
        · rw [if_pos hu]
          rw [if_pos hu] at hs1
          refine ⟨fun y h => ?_, fun _ => ⟨_, rfl⟩⟩
          injection h with h; subst h
          refine ⟨e1, e2, e3, e4, fun s => ?_, by rw [hs1]; simp⟩
          dsimp only
          by_cases hs : s = "[[Prototype]]"
          · subst hs; rw [upd_self, hs1]
          · rw [upd_ne _ _ hs]; exact others s hs
        · rw [if_neg hu]
          rw [if_neg hu] at hs1
          exact ⟨(fun y h => by cases h), fun h => absurd hs1 h⟩
  rw [defaultSlots]
  cases he : x.slots "[[Extensible]]" with
  | some v =>
    refine key x rfl rfl rfl rfl (fun s => ?_)
    cases hs : x.slots s with
    | some w => rfl
    | none =>
      rw [if_neg]
      rintro rfl; rw [he] at hs; cases hs
  | none =>
    refine key _ rfl rfl rfl rfl (fun s => ?_)
    dsimp only
    by_cases e : s = "[[Extensible]]"
    · subst e; rw [upd_self, he, if_pos rfl]
    · rw [upd_ne _ _ e, if_neg e]
      cases x.slots s <;> rfl

theorem defaultFunction_spec (E : Defaults) (x : Intr) :
    (∀ y, defaultFunction E x = some y → SameBut x y ∧
      (¬ Function x → y = x) ∧
      (Function x → ∃ ccb length name, x.slots "[[ccb]]" = some ccb ∧ E.length x.name ccb = some length ∧ E.name x.name = some name ∧
        (∀ k, k ≠ "*\"length\"*" → k ≠ "*\"name\"*" → y.attrs k = x.attrs k ∧ (k ∈ y.keys ↔ k ∈ x.keys)) ∧
        (x.keys.Nodup → (∀ k, k ∈ x.keys ↔ x.attrs k ≠ none) → y.keys.Nodup ∧ (∀ k, k ∈ y.keys ↔ y.attrs k ≠ none)) ∧
        (∃ d, y.attrs "*\"length\"*" = some d ∧ ∀ a, Dict.get d a =
          ((x.attrs "*\"length\"*").bind (fun d => Dict.get d a)).or (Dict.get (functionDefaults length) a)) ∧
        (∃ d, y.attrs "*\"name\"*" = some d ∧ ∀ a, Dict.get d a =
          ((x.attrs "*\"name\"*").bind (fun d => Dict.get d a)).or (Dict.get (functionDefaults name) a)))) ∧
    ((Function x → ∃ ccb, x.slots "[[ccb]]" = some ccb ∧ E.length x.name ccb ≠ none ∧ E.name x.name ≠ none) →
      ∃ y, defaultFunction E x = some y) := by
  rw [defaultFunction]
  by_cases hf : isFunction x = true
  · rw [if_pos hf]
    have hF := isFunction_iff.mp hf
    cases hc : x.slots "[[ccb]]" with
    | none =>
      refine ⟨(fun y h => by cases h), fun h => ?_⟩
      obtain ⟨c, h1, _⟩ := h hF
      cases h1
    | some ccb =>
      dsimp only
      cases hl : E.length x.name ccb with
      | none =>
        refine ⟨(fun y h => by cases h), fun h => ?_⟩
        obtain ⟨c, h1, h2, _⟩ := h hF
        injection h1 with h1; subst h1
        exact absurd hl h2
      | some length =>
        dsimp only
        obtain ⟨x1, e1, s1, o1, t1, q1⟩ := applyTo_spec x "*\"length\"*" (functionDefaults length)
        rw [e1]
        dsimp only
        cases hn : E.name x.name with
        | none =>
          refine ⟨(fun y h => by cases h), fun h => ?_⟩
          obtain ⟨c, h1, _, h2⟩ := h hF
          exact absurd rfl h2
        | some name =>
          dsimp only
          obtain ⟨x2, e2, s2, o2, t2, q2⟩ := applyTo_spec x1 "*\"name\"*" (functionDefaults name)
          rw [e2]
          refine ⟨fun y h => ?_, fun _ => ⟨_, rfl⟩⟩
          injection h with h; subst h
          have hln : "*\"length\"*" ≠ "*\"name\"*" := by decide
          have hkeys : ∀ (y z : Intr) (k : String), (∀ j, j ≠ k → z.attrs j = y.attrs j) → z.attrs k ≠ none →
              z.keys = (match y.attrs k with | some _ => y.keys | none => y.keys ++ [k]) →
              y.keys.Nodup → (∀ j, j ∈ y.keys ↔ y.attrs j ≠ none) →
              z.keys.Nodup ∧ (∀ j, j ∈ z.keys ↔ z.attrs j ≠ none) := by
            intro y z k ho hz hq hnd hin
            cases hy : y.attrs k with
            | some d =>
              rw [hy] at hq; dsimp only at hq
              rw [hq]
              refine ⟨hnd, fun j => ?_⟩
              by_cases e : j = k
              · subst e
                simp only [hz, ne_eq, not_false_eq_true, iff_true]
                rw [hin, hy]; simp
              · rw [ho j e]; exact hin j
            | none =>
              rw [hy] at hq; dsimp only at hq
              have hk : k ∉ y.keys := by rw [hin, hy]; simp
              rw [hq]
              refine ⟨?_, fun j => ?_⟩
              · rw [List.nodup_append]
                refine ⟨hnd, by simp, fun a ha b hb e => ?_⟩
                rw [List.mem_singleton] at hb
                rw [e, hb] at ha; exact hk ha
              · rw [List.mem_append, List.mem_singleton]
                by_cases e : j = k
                · subst e; simp [hz]
                · rw [ho j e, hin j]; simp [e]
          refine ⟨s1.trans s2, fun h => absurd hF h, fun _ => ⟨ccb, length, name, rfl, hl, rfl, ?_, ?_, ?_, ?_⟩⟩
          · intro k h1 h2
            refine ⟨(o2 k h2).trans (o1 k h1), ?_⟩
            rw [q2]
            have hk1 : k ∈ x1.keys ↔ k ∈ x.keys := by
              rw [q1]
              cases x.attrs "*\"length\"*" with
              | some d => exact Iff.rfl
              | none => simp [h1]
            rw [← hk1]
            cases x1.attrs "*\"name\"*" with
            | some d => exact Iff.rfl
            | none => simp [h2]
          · intro hnd hin
            obtain ⟨a1, a2⟩ := hkeys x x1 _ o1 (by rw [t1]; simp) q1 hnd hin
            exact hkeys x1 x2 _ o2 (by rw [t2]; simp) q2 a1 a2
          · rw [o2 _ hln, t1]
            refine ⟨_, rfl, fun a => ?_⟩
            cases x.attrs "*\"length\"*" with
            | some d => exact fillIn_get _ _
            | none => simp
          · rw [t2, o1 _ hln.symm]
            refine ⟨_, rfl, fun a => ?_⟩
            cases x.attrs "*\"name\"*" with
            | some d => exact fillIn_get _ _
            | none => simp
  · rw [if_neg hf]
    have hF : ¬ Function x := fun h => hf (isFunction_iff.mpr h)
    refine ⟨fun y h => ?_, fun _ => ⟨_, rfl⟩⟩
    injection h with h; subst h
    exact ⟨⟨rfl, rfl, rfl⟩, fun _ => rfl, fun h => absurd h hF⟩

end Verif.Intrin
