import Verif.Intrin.Facts
import Verif.Intrin.Defaults
import Verif.Intrin.Ranks
/-! # C31, C32: facts about intrinsics -/
namespace Verif.Intrin

/-- C31: two descriptions of a property can be merged if and only if they agree wherever both speak; the merged one says what either
says, and nothing else. -/
theorem c31_merge {a b : Dict} (ha : Proper a) (hb : Proper b) :
    ((∃ m, mergeAttrs a b = some m) ↔ Agree a b) ∧
    (∀ m, mergeAttrs a b = some m → Proper m ∧ ∀ n v, (n, v) ∈ m ↔ (n, v) ∈ a ∨ (n, v) ∈ b) := by
  obtain ⟨h1, h2⟩ := mergeAttrs_spec ha hb
  refine ⟨⟨fun ⟨m, hm⟩ => (h1 m hm).1, h2⟩, fun m hm => ?_⟩
  obtain ⟨i1, i2, i3⟩ := h1 m hm
  refine ⟨i2, fun n v => ?_⟩
  rw [← get_iff i2, ← get_iff ha, ← get_iff hb, i3]
  cases hg : Dict.get a n with
  | some w =>
    simp only [Option.some_or, Option.some.injEq]
    refine ⟨Or.inl, fun h => h.elim id (fun h => ?_)⟩
    exact i1 n w v (get_mem hg) (get_mem h)
  | none => simp

/-- C31: the facts are accepted if and only if they contain no contradiction. -/
theorem c31_accepted {fix : String → String} (hfix : ∀ v, fix (fix v) = fix v) {fs : List Fact}
    (hp : ∀ x p a, ⟨x, .hasProp p a⟩ ∈ fs → Proper a) :
    (∃ w, coalesce fix World.empty fs = some w) ↔ Consistent fs := by
  obtain ⟨h1, h2⟩ := coalesce_spec hfix fs [] World.empty (after_empty fix) hp
  exact ⟨fun ⟨w, hw⟩ => consistent_of_sound (h1 w hw).sound, h2⟩

/-- C31: after the facts, exactly what they say is known: the intrinsics in the order in which they are first mentioned, their kind
(a constructor, if both a function and a constructor is claimed), their slots and the attributes of their properties. -/
theorem c31_known {fix : String → String} (hfix : ∀ v, fix (fix v) = fix v) {fs : List Fact}
    (hp : ∀ x p a, ⟨x, .hasProp p a⟩ ∈ fs → Proper a) {w : World} (h : coalesce fix World.empty fs = some w) :
    w.names = (fs.map (·.left)).eraseDups ∧
    ∀ x, (w.info x).name = x ∧
      (∀ k, (w.info x).kind = some k ↔ ⟨x, .is k⟩ ∈ fs ∧ (k = "a function object" → ⟨x, .is "a constructor"⟩ ∉ fs)) ∧
      (∀ s v, s ≠ "[[ccb]]" → ((w.info x).slots s = some v ↔ ⟨x, .hasSlot s v⟩ ∈ fs)) ∧
      (w.info x).slots "[[ccb]]" = ccbValue fix (ccbs fs x) ∧
      (w.info x).keys.Nodup ∧
      (∀ p, p ∈ (w.info x).keys ↔ ∃ a, ⟨x, .hasProp p a⟩ ∈ fs) ∧
      (∀ p, p ∈ (w.info x).keys ↔ (w.info x).attrs p ≠ none) ∧
      (∀ p d, (w.info x).attrs p = some d → Proper d ∧ ∀ n v, (n, v) ∈ d ↔ ∃ a, ⟨x, .hasProp p a⟩ ∈ fs ∧ (n, v) ∈ a) := by
  have hA : After fix fs w := (coalesce_spec hfix fs [] World.empty (after_empty fix) hp).1 w h
  refine ⟨hA.names, fun x => ?_⟩
  have hK := hA.knows x
  refine ⟨hA.name x, fun k => ?_, fun s v hs => ?_, ?_, hK.keys.1, fun p => ?_, fun p => ?_, fun p d hd => ?_⟩
  · rw [hK.kind, mem_about, mem_about]
  · rw [hK.slots s v hs, mem_about]
  · rw [hK.ccb, verbCcbs_about]
  · rw [hK.keys.2]; simp only [mem_about]
  · rw [hK.keys.2, ne_eq, hK.none]; simp
  · obtain ⟨d1, d2⟩ := hK.some p d hd
    refine ⟨d1, fun n v => ?_⟩
    rw [← get_iff d1, d2]
    simp only [mem_about]

/-- C31: the order of the facts plays no role, except for `[[ccb]]`. -/
theorem c31_order {fix : String → String} (hfix : ∀ v, fix (fix v) = fix v) {fs gs : List Fact} (hperm : fs.Perm gs)
    (hp : ∀ x p a, ⟨x, .hasProp p a⟩ ∈ fs → Proper a) {w : World} (h : coalesce fix World.empty fs = some w) :
    ∃ w', coalesce fix World.empty gs = some w' ∧ w'.names.Perm w.names ∧
      ∀ x, (w'.info x).kind = (w.info x).kind ∧
        (∀ s, s ≠ "[[ccb]]" → (w'.info x).slots s = (w.info x).slots s) ∧
        (∀ p n, ((w'.info x).attrs p).bind (fun d => Dict.get d n) = ((w.info x).attrs p).bind (fun d => Dict.get d n)) := by
  have hp' : ∀ x p a, ⟨x, .hasProp p a⟩ ∈ gs → Proper a := fun x p a hm => hp x p a (hperm.mem_iff.mpr hm)
  have hc := consistent_mono ((c31_accepted hfix hp).mp ⟨w, h⟩) (fun f hf => hperm.mem_iff.mpr hf)
  obtain ⟨w', h'⟩ := (c31_accepted hfix hp').mpr hc
  obtain ⟨a1, a2⟩ := c31_known hfix hp h
  obtain ⟨b1, b2⟩ := c31_known hfix hp' h'
  refine ⟨w', h', ?_, fun x => ?_⟩
  · rw [a1, b1]
    exact (List.perm_ext_iff_of_nodup (nodup_eraseDups _ _ rfl) (nodup_eraseDups _ _ rfl)).mpr (fun x => by
      rw [mem_eraseDups', mem_eraseDups']
      exact ((hperm.map _).mem_iff).symm)
  · obtain ⟨_, c1, c2, _, _, c5, c6, c7⟩ := a2 x
    obtain ⟨_, d1, d2, _, _, d5, d6, d7⟩ := b2 x
    refine ⟨?_, fun s hs => ?_, fun p n => ?_⟩
    · apply Option.ext; intro k
      rw [c1, d1, hperm.mem_iff, hperm.mem_iff]
    · apply Option.ext; intro v
      rw [c2 s v hs, d2 s v hs, hperm.mem_iff]
    · apply Option.ext; intro v
      have key : ∀ (o : Option Dict) (fs' : List Fact), (∀ d, o = some d → Proper d ∧ ∀ n v, (n, v) ∈ d ↔ ∃ a, ⟨x, .hasProp p a⟩ ∈ fs' ∧ (n, v) ∈ a) →
          (o ≠ none ↔ ∃ a, (⟨x, .hasProp p a⟩ : Fact) ∈ fs') →
          (o.bind (fun d => Dict.get d n) = some v ↔ ∃ a, ⟨x, .hasProp p a⟩ ∈ fs' ∧ (n, v) ∈ a) := by
        intro o fs' ho hn
        cases o with
        | none =>
          simp at hn
          simp [hn]
        | some d =>
          obtain ⟨e1, e2⟩ := ho d rfl
          rw [Option.bind_some, get_iff e1, e2]
      rw [key _ gs (d7 p) (by rw [← d6, d5]), key _ fs (c7 p) (by rw [← c6, c5])]
      simp only [hperm.mem_iff]

/-- C31: defaults never change what is explicit, and fill in exactly what the conventions say. -/
theorem c31_defaults (E : Defaults) {x y : Intr} (hnd : x.keys.Nodup) (hin : ∀ p, p ∈ x.keys ↔ x.attrs p ≠ none)
    (h : applyDefaults E x = some y) :
    y.name = x.name ∧
    y.kind = (if x.name = globalName then some "host-defined non-function" else if x.name = unscopables then some "an ordinary object"
      else x.kind) ∧
    (∀ s, y.slots s = slotAfter x s) ∧
    (∀ p, p ∈ y.keys ↔ p ∈ x.keys ∨ Special x p) ∧
    ∃ length name, (Function x → ∃ ccb, x.slots "[[ccb]]" = some ccb ∧ E.length x.name ccb = some length ∧ E.name x.name = some name) ∧
      ∀ p a, (y.attrs p).bind (fun d => Dict.get d a) =
        ((x.attrs p).bind (fun d => Dict.get d a)).or (defaultAttr x.kind length name p (x.attrs p) a) := by
  rw [applyDefaults] at h
  cases h1 : defaultKind x with
  | none => rw [h1] at h; cases h
  | some x1 =>
    rw [h1] at h; dsimp only at h
    obtain ⟨_, n1, sl1, k1, a1, f1, kd1⟩ := (defaultKind_spec x).1 x1 h1
    cases h2 : defaultSlots x1 with
    | none => rw [h2] at h; cases h
    | some x2 =>
      rw [h2] at h; dsimp only at h
      obtain ⟨n2, kd2, k2, a2, sl2, _⟩ := (defaultSlots_spec x1).1 x2 h2
      cases h3 : defaultFunction E x2 with
      | none => rw [h3] at h; cases h
      | some x3 =>
        rw [h3] at h; dsimp only at h
        obtain ⟨sb3, nf3, ff3⟩ := (defaultFunction_spec E x2).1 x3 h3
        have f2 : Function x2 ↔ Function x := by rw [← f1, Function, Function, kd2]
        have f3 : Function x3 ↔ Function x := by rw [← f2, Function, Function, sb3.kind]
        have hkeys : x3.keys.Nodup ∧ (∀ k, k ∈ x3.keys ↔ x3.attrs k ≠ none) := by
          have b1 : x2.keys.Nodup := by rw [k2, k1]; exact hnd
          have b2 : ∀ k, k ∈ x2.keys ↔ x2.attrs k ≠ none := by rw [k2, k1, a2, a1]; exact hin
          by_cases hf : Function x2
          · obtain ⟨_, _, _, _, _, _, _, hk, _⟩ := ff3 hf
            exact hk b1 b2
          · rw [nf3 hf]; exact ⟨b1, b2⟩
        obtain ⟨sb4, k4, o4, t4⟩ := (defaultProps_spec x3.keys x3 hkeys.1 (fun k hk => (hkeys.2 k).mp hk)).1 y h
        have hslot : ∀ s, slotAfter x1 s = slotAfter x s := by
          intro s
          rw [slotAfter, slotAfter, sl1, n1]
          have : (x1.kind = some "a function object" ∨ x1.kind = some "a constructor") =
              (x.kind = some "a function object" ∨ x.kind = some "a constructor") := propext f1
          simp only [this]
        have hccb : x2.slots "[[ccb]]" = x.slots "[[ccb]]" := by
          rw [sl2, hslot, slotAfter]
          cases x.slots "[[ccb]]" with
          | some v => rfl
          | none => dsimp only; rw [if_neg (by decide), if_neg (by decide)]
        have hspec : ∀ k, Special x3 k ↔ Special x k := by intro k; rw [Special, Special, f3]
        have hnormal : ∀ length name p, ¬ Special x p → x3.attrs p = x.attrs p → ∀ a, (y.attrs p).bind (fun d => Dict.get d a) =
            ((x.attrs p).bind (fun d => Dict.get d a)).or (defaultAttr x.kind length name p (x.attrs p) a) := by
          intro length name p hns he a
          have hda : ∀ d, defaultAttr x.kind length name p (some d) a = if "[[Value]]" ∈ d.map (·.1) ∨ "[[Writable]]" ∈ d.map (·.1) then
              if a = "[[Writable]]" then some "*true*"
              else if a = "[[Enumerable]]" then some "*false*"
              else if a = "[[Configurable]]" then some "*true*"
              else none
            else if "[[Getter]]" ∈ d.map (·.1) ∨ "[[Setter]]" ∈ d.map (·.1) then
              if a = "[[Enumerable]]" then some "*false*"
              else if a = "[[Configurable]]" then some "*true*"
              else none
            else none := by
            intro d
            rw [defaultAttr, if_neg (fun h => hns ⟨h.2, h.1⟩)]
          by_cases hp : p ∈ x3.keys
          · obtain ⟨d, kind, e1, e2, e3⟩ := t4 p hp (fun h => hns ((hspec p).mp h))
            rw [e3, ← he, e1, Option.bind_some, Option.bind_some, fillIn_get, kindDefaults_get e2, hda]
          · rw [o4 p (Or.inl hp)]
            have : x3.attrs p = none := Classical.byContradiction (fun hc => hp ((hkeys.2 p).mpr hc))
            rw [this, ← he, this, defaultAttr, if_neg (fun h => hns ⟨h.2, h.1⟩)]
            rfl
        refine ⟨?_, ?_, fun s => ?_, fun p => ?_, ?_⟩
        · rw [sb4.name, sb3.name, n2, n1]
        · rw [sb4.kind, sb3.kind, kd2, kd1]
        · rw [sb4.slots, sb3.slots, sl2, hslot]
        · rw [k4]
          by_cases hf : Function x
          · obtain ⟨_, _, _, _, _, _, hk, _, ⟨dl, hl, _⟩, dn, hn, _⟩ := ff3 (f2.mpr hf)
            by_cases e1 : p = "*\"length\"*"
            · have : p ∈ x3.keys := by rw [hkeys.2, e1, hl]; simp
              exact ⟨fun _ => Or.inr ⟨Or.inl e1, hf⟩, fun _ => this⟩
            · by_cases e2 : p = "*\"name\"*"
              · have : p ∈ x3.keys := by rw [hkeys.2, e2, hn]; simp
                exact ⟨fun _ => Or.inr ⟨Or.inr e2, hf⟩, fun _ => this⟩
              · rw [(hk p e1 e2).2, k2, k1]
                exact ⟨Or.inl, fun h => h.elim id (fun h => absurd h.1 (fun h => h.elim e1 e2))⟩
          · rw [nf3 (fun h => hf (f2.mp h)), k2, k1]
            exact ⟨Or.inl, fun h => h.elim id (fun h => absurd h.2 hf)⟩
        · by_cases hf : Function x
          · obtain ⟨ccb, length, name, q1, q2, q3, hk, _, ⟨dl, hl, gl⟩, dn, hn, gn⟩ := ff3 (f2.mpr hf)
            rw [n2, n1] at q2 q3
            rw [a2, a1] at gl gn
            refine ⟨length, name, fun _ => ⟨ccb, by rw [← hccb]; exact q1, q2, q3⟩, fun p a => ?_⟩
            by_cases e1 : p = "*\"length\"*"
            · have hs : Special x p := ⟨Or.inl e1, hf⟩
              rw [o4 p (Or.inr ((hspec p).mpr hs)), defaultAttr.eq_def, if_pos ⟨hs.2, hs.1⟩]
              subst e1
              rw [hl, Option.bind_some, gl, functionDefaults_get, if_pos rfl]
            · by_cases e2 : p = "*\"name\"*"
              · have hs : Special x p := ⟨Or.inr e2, hf⟩
                rw [o4 p (Or.inr ((hspec p).mpr hs)), defaultAttr.eq_def, if_pos ⟨hs.2, hs.1⟩]
                subst e2
                rw [hn, Option.bind_some, gn, functionDefaults_get,
                  if_neg (show ¬ "*\"name\"*" = "*\"length\"*" by decide)]
              · refine hnormal length name p (fun h => h.1.elim e1 e2) ?_ a
                rw [(hk p e1 e2).1, a2, a1]
          · refine ⟨"", "", fun h => absurd h hf, fun p a => hnormal _ _ p (fun h => hf h.2) ?_ a⟩
            rw [nf3 (fun h => hf (f2.mp h)), a2, a1]

/-- C31: the defaults are refused in exactly four situations: an unexpected kind; no prototype; a function whose algorithm, `length` or
`name` is not known; a property that is both a data and an accessor property. -/
theorem c31_defaults_refused (E : Defaults) {x : Intr} (hnd : x.keys.Nodup) (hin : ∀ p, p ∈ x.keys ↔ x.attrs p ≠ none) :
    applyDefaults E x = none ↔
      ¬ KindOk x ∨ slotAfter x "[[Prototype]]" = none ∨
      (Function x ∧ ∀ ccb, x.slots "[[ccb]]" = some ccb → E.length x.name ccb = none ∨ E.name x.name = none) ∨
      (∃ p d, ¬ Special x p ∧ x.attrs p = some d ∧ Mixed d) := by
  constructor
  · intro h
    apply Classical.byContradiction
    intro hc
    simp only [not_or, Classical.not_not, not_and, not_exists] at hc
    obtain ⟨c1, c2, c3, c4⟩ := hc
    rw [applyDefaults] at h
    obtain ⟨x1, h1⟩ := (defaultKind_spec x).2 c1
    rw [h1] at h; dsimp only at h
    obtain ⟨_, n1, sl1, k1, a1, f1, kd1⟩ := (defaultKind_spec x).1 x1 h1
    have hslot : ∀ s, slotAfter x1 s = slotAfter x s := by
      intro s
      rw [slotAfter, slotAfter, sl1, n1]
      have : (x1.kind = some "a function object" ∨ x1.kind = some "a constructor") =
          (x.kind = some "a function object" ∨ x.kind = some "a constructor") := propext f1
      simp only [this]
    obtain ⟨x2, h2⟩ := (defaultSlots_spec x1).2 (by rw [hslot]; exact c2)
    rw [h2] at h; dsimp only at h
    obtain ⟨n2, kd2, k2, a2, sl2, _⟩ := (defaultSlots_spec x1).1 x2 h2
    have f2 : Function x2 ↔ Function x := by rw [← f1, Function, Function, kd2]
    have hccb : x2.slots "[[ccb]]" = x.slots "[[ccb]]" := by
      rw [sl2, hslot, slotAfter]
      cases x.slots "[[ccb]]" with
      | some v => rfl
      | none => dsimp only; rw [if_neg (by decide), if_neg (by decide)]
    obtain ⟨x3, h3⟩ := (defaultFunction_spec E x2).2 (by
      intro hf
      have := c3 (f2.mp hf)
      apply Classical.byContradiction
      intro hc
      apply this
      intro ccb hccb'
      apply Classical.byContradiction
      intro hc'
      simp only [not_or] at hc'
      exact hc ⟨ccb, by rw [hccb]; exact hccb', by rw [n2, n1]; exact hc'.1, by rw [n2, n1]; exact hc'.2⟩)
    rw [h3] at h; dsimp only at h
    obtain ⟨sb3, nf3, ff3⟩ := (defaultFunction_spec E x2).1 x3 h3
    have f3 : Function x3 ↔ Function x := by rw [← f2, Function, Function, sb3.kind]
    have hkeys : x3.keys.Nodup ∧ (∀ k, k ∈ x3.keys ↔ x3.attrs k ≠ none) ∧ ∀ p, ¬ Special x p → x3.attrs p = x.attrs p := by
      have b1 : x2.keys.Nodup := by rw [k2, k1]; exact hnd
      have b2 : ∀ k, k ∈ x2.keys ↔ x2.attrs k ≠ none := by rw [k2, k1, a2, a1]; exact hin
      by_cases hf : Function x2
      · obtain ⟨_, _, _, _, _, _, ha, hk, _⟩ := ff3 hf
        refine ⟨(hk b1 b2).1, (hk b1 b2).2, fun p hp => ?_⟩
        rw [(ha p (fun e => hp ⟨Or.inl e, f2.mp hf⟩) (fun e => hp ⟨Or.inr e, f2.mp hf⟩)).1, a2, a1]
      · rw [nf3 hf]; exact ⟨b1, b2, fun p _ => by rw [a2, a1]⟩
    obtain ⟨y, hy⟩ := (defaultProps_spec x3.keys x3 hkeys.1 (fun k hk => (hkeys.2.1 k).mp hk)).2 (by
      intro k _ hns d hd hmix
      have hns' : ¬ Special x k := fun h => hns ⟨h.1, f3.mpr h.2⟩
      rw [hkeys.2.2 k hns'] at hd
      exact c4 k d hns' hd hmix)
    rw [hy] at h; cases h
  · intro hc
    cases h : applyDefaults E x with
    | none => rfl
    | some y =>
      exfalso
      rw [applyDefaults] at h
      cases h1 : defaultKind x with
      | none => rw [h1] at h; cases h
      | some x1 =>
        rw [h1] at h; dsimp only at h
        obtain ⟨ok, n1, sl1, k1, a1, f1, kd1⟩ := (defaultKind_spec x).1 x1 h1
        cases h2 : defaultSlots x1 with
        | none => rw [h2] at h; cases h
        | some x2 =>
          rw [h2] at h; dsimp only at h
          obtain ⟨n2, kd2, k2, a2, sl2, hpr⟩ := (defaultSlots_spec x1).1 x2 h2
          have hslot : ∀ s, slotAfter x1 s = slotAfter x s := by
            intro s
            rw [slotAfter, slotAfter, sl1, n1]
            have : (x1.kind = some "a function object" ∨ x1.kind = some "a constructor") =
                (x.kind = some "a function object" ∨ x.kind = some "a constructor") := propext f1
            simp only [this]
          have hccb : x2.slots "[[ccb]]" = x.slots "[[ccb]]" := by
            rw [sl2, hslot, slotAfter]
            cases x.slots "[[ccb]]" with
            | some v => rfl
            | none => dsimp only; rw [if_neg (by decide), if_neg (by decide)]
          cases h3 : defaultFunction E x2 with
          | none => rw [h3] at h; cases h
          | some x3 =>
            rw [h3] at h; dsimp only at h
            obtain ⟨sb3, nf3, ff3⟩ := (defaultFunction_spec E x2).1 x3 h3
            have f2 : Function x2 ↔ Function x := by rw [← f1, Function, Function, kd2]
            have f3 : Function x3 ↔ Function x := by rw [← f2, Function, Function, sb3.kind]
            rcases hc with hc | hc | ⟨hc1, hc2⟩ | ⟨p, d, hns, hd, hmix⟩
            · exact hc ok
            · rw [hslot] at hpr; exact hpr hc
            · obtain ⟨ccb, length, name, q1, q2, q3, _⟩ := ff3 (f2.mpr hc1)
              rw [n2, n1] at q2 q3
              rcases hc2 ccb (by rw [← hccb]; exact q1) with e | e
              · rw [e] at q2; cases q2
              · rw [e] at q3; cases q3
            · have hkeys : x3.keys.Nodup ∧ (∀ k, k ∈ x3.keys ↔ x3.attrs k ≠ none) ∧ x3.attrs p = x.attrs p := by
                have b1 : x2.keys.Nodup := by rw [k2, k1]; exact hnd
                have b2 : ∀ k, k ∈ x2.keys ↔ x2.attrs k ≠ none := by rw [k2, k1, a2, a1]; exact hin
                by_cases hf : Function x2
                · obtain ⟨_, _, _, _, _, _, ha, hk, _⟩ := ff3 hf
                  refine ⟨(hk b1 b2).1, (hk b1 b2).2, ?_⟩
                  rw [(ha p (fun e => hns ⟨Or.inl e, f2.mp hf⟩) (fun e => hns ⟨Or.inr e, f2.mp hf⟩)).1, a2, a1]
                · rw [nf3 hf]; exact ⟨b1, b2, by rw [a2, a1]⟩
              obtain ⟨_, _, _, t4⟩ := (defaultProps_spec x3.keys x3 hkeys.1 (fun k hk => (hkeys.2.1 k).mp hk)).1 y h
              obtain ⟨d', kind, e1, e2, _⟩ := t4 p ((hkeys.2.1 p).mpr (by rw [hkeys.2.2, hd]; simp)) (fun h => hns ⟨h.1, f3.mp h.2⟩)
              rw [hkeys.2.2, hd] at e1
              injection e1 with e1; subst e1
              rw [propKind_none.mpr hmix] at e2; cases e2

/-! ## C32 -/

/-- C32: the order contains every intrinsic once, and goes by the number of prototypes above an intrinsic, then by name. -/
theorem c32_order {w : World} {le : String → String → Bool}
    (htrans : ∀ a b c, le a b = true → le b c = true → le a c = true) (htotal : ∀ a b, (le a b || le b a) = true)
    {n : Nat} {l : List String} (h : creationOrder w le n = .ok l) :
    l.Perm w.names ∧ (∀ x ∈ w.names, ∃ r, Chain w x r) ∧
    l.Pairwise (fun x y => ∃ r s, Chain w x r ∧ Chain w y s ∧ (r < s ∨ (r = s ∧ le x y = true))) := by
  rw [creationOrder] at h
  obtain ⟨h1, _, _⟩ := rankLoop_spec w n w.names [] (fun _ => none) [] (fun _ _ h => by cases h)
    ⟨List.nodup_nil, fun _ h => (by cases h), .refl _⟩
  cases hr : rankLoop w n w.names (fun _ => none) [] with
  | error e => rw [hr] at h; cases h
  | ok d =>
    rw [hr] at h
    injection h with h; subst h
    obtain ⟨g, c⟩ := h1 d hr
    obtain ⟨s1, s2⟩ := groups_sorted g le htrans htotal
    exact ⟨s1, c, s2⟩

/-- C32: a prototype comes before what inherits from it. -/
theorem c32_prototype_first {w : World} {le : String → String → Bool}
    (htrans : ∀ a b c, le a b = true → le b c = true → le a c = true) (htotal : ∀ a b, (le a b || le b a) = true)
    {n : Nat} {l : List String} (h : creationOrder w le n = .ok l) {i j : Nat} {x p : String}
    (hx : l[j]? = some x) (hp : (w.info x).slots "[[Prototype]]" = some p) (hpl : l[i]? = some p)
    (hnull : p ≠ "*null*") (hhost : p ≠ "host-defined") : i < j := by
  obtain ⟨h1, h2, h3⟩ := c32_order htrans htotal h
  have hxn : x ∈ w.names := h1.mem_iff.mp (List.mem_of_getElem? hx)
  have hpn : p ∈ w.names := h1.mem_iff.mp (List.mem_of_getElem? hpl)
  obtain ⟨r, hr⟩ := h2 x hxn
  have hlt : ∃ s, Chain w p s ∧ r = s + 1 := by
    cases hr with
    | base k1 k2 => rw [hp] at k1; injection k1 with k1; subst k1; exact absurd k2 (fun h => h.elim hnull hhost)
    | step k1 _ _ _ k5 => rw [hp] at k1; injection k1 with k1; subst k1; exact ⟨_, k5, rfl⟩
  obtain ⟨s, hs, rfl⟩ := hlt
  apply Classical.byContradiction
  intro hij
  have hne : i ≠ j := by
    rintro rfl
    rw [hx] at hpl; injection hpl with hpl; subst hpl
    have := chain_unique hr hs; omega
  obtain ⟨hjl, hjx⟩ := List.getElem?_eq_some_iff.mp hx
  obtain ⟨hil, hip⟩ := List.getElem?_eq_some_iff.mp hpl
  obtain ⟨a, b, ha, hb, hab⟩ := List.pairwise_iff_getElem.mp h3 j i hjl hil (by omega)
  rw [hjx] at ha; rw [hip] at hb
  have e1 := chain_unique hr ha
  have e2 := chain_unique hs hb
  omega

/-- C32: the order is found if and only if every chain of prototypes ends in an intrinsic without a prototype. -/
theorem c32_found {w : World} {le : String → String → Bool} :
    (∃ n l, creationOrder w le n = .ok l) ↔ ∀ x ∈ w.names, ∃ r, Chain w x r := by
  obtain key := fun n => rankLoop_spec w n w.names [] (fun _ => none) [] (fun _ _ h => by cases h)
    ⟨List.nodup_nil, fun _ h => (by cases h), .refl _⟩
  constructor
  · rintro ⟨n, l, h⟩
    rw [creationOrder] at h
    cases hr : rankLoop w n w.names (fun _ => none) [] with
    | error e => rw [hr] at h; cases h
    | ok d => exact ((key n).1 d hr).2
  · intro h
    obtain ⟨d, hd⟩ := (key w.names.length).2.2 (fun x hx => by
      obtain ⟨r, hr⟩ := h x hx
      exact ⟨r, hr, chain_lt x r hr hx⟩)
    exact ⟨w.names.length, _, by rw [creationOrder, hd]⟩

/-- C32: it fails only if some chain is broken; if none is broken but some chain does not end, it does not come to an end. -/
theorem c32_fails {w : World} {le : String → String → Bool} :
    (∀ n, creationOrder w le n = .error .crash → ∃ x ∈ w.names, Broken w x) ∧
    ((∀ x ∈ w.names, ¬ Broken w x) → (∃ x ∈ w.names, ∀ r, ¬ Chain w x r) → ∀ n, creationOrder w le n = .error .fuel) := by
  obtain key := fun n => rankLoop_spec w n w.names [] (fun _ => none) [] (fun _ _ h => by cases h)
    ⟨List.nodup_nil, fun _ h => (by cases h), .refl _⟩
  refine ⟨fun n h => ?_, fun hb ⟨x, hx, hc⟩ n => ?_⟩
  · rw [creationOrder] at h
    cases hr : rankLoop w n w.names (fun _ => none) [] with
    | error e =>
      rw [hr] at h
      dsimp only at h
      injection h with h; subst h
      exact (key n).2.1 hr
    | ok d => rw [hr] at h; cases h
  · rw [creationOrder]
    cases hr : rankLoop w n w.names (fun _ => none) [] with
    | error e =>
      cases e with
      | fuel => rfl
      | crash =>
        obtain ⟨y, h1, h2⟩ := (key n).2.1 hr
        exact absurd h2 (hb y h1)
    | ok d =>
      obtain ⟨r, h⟩ := ((key n).1 d hr).2 x hx
      exact absurd h (hc r)

/-! ## Examples -/

/-- Facts about three intrinsics. -/
def exFacts : List Fact :=
  [⟨"%Array%", .is "a function object"⟩, ⟨"%Object.prototype%", .exists⟩,
   ⟨"%Array%", .hasProp "*\"length\"*" [("[[Value]]", "*1*")]⟩,
   ⟨"%Array%", .is "a constructor"⟩,
   ⟨"%Array%", .hasSlot "[[ccb]]" "prose in x"⟩,
   ⟨"%Array%", .hasProp "isArray" [("[[Value]]", "%Array.isArray%")]⟩,
   ⟨"%Array%", .hasProp "isArray" [("[[Value]]", "%Array.isArray%"), ("[[Writable]]", "*false*")]⟩,
   ⟨"%Function.prototype%", .hasSlot "[[Prototype]]" "%Object.prototype%"⟩,
   ⟨"%Object.prototype%", .hasSlot "[[Prototype]]" "*null*"⟩,
   ⟨"%Array%", .hasSlot "[[Prototype]]" "%Function.prototype%"⟩]

/-- They are accepted (so they are consistent, by `c31_accepted`), … -/
def exWorld : World := (coalesce id World.empty exFacts).getD World.empty
example : (coalesce id World.empty exFacts).isSome = true := by decide
example : exWorld.names = ["%Array%", "%Object.prototype%", "%Function.prototype%"] ∧ (exWorld.info "%Array%").kind = some "a constructor" ∧
    (exWorld.info "%Array%").attrs "isArray" = some [("[[Value]]", "%Array.isArray%"), ("[[Writable]]", "*false*")] := by decide
/-- … and a contradiction is not. -/
example : coalesce id World.empty (exFacts ++ [⟨"%Array%", .hasProp "isArray" [("[[Writable]]", "*true*")]⟩]) |>.isNone := by decide
example : coalesce id World.empty (exFacts ++ [⟨"%Array%", .is "an ordinary object"⟩]) |>.isNone := by decide

/-- Defaults for the constructor: explicit values stay. -/
example : let y := (applyDefaults ⟨fun _ _ => some "*0*", fun _ => some "Array"⟩ (exWorld.info "%Array%")).getD (Intr.new "")
    y.keys = ["*\"length\"*", "isArray", "*\"name\"*"] ∧ y.slots "[[Extensible]]" = some "*true*" ∧
    y.attrs "*\"length\"*" = some [("[[Value]]", "*1*"), ("[[Writable]]", "*false*"), ("[[Enumerable]]", "*false*"), ("[[Configurable]]", "*true*")] ∧
    y.attrs "isArray" = some [("[[Value]]", "%Array.isArray%"), ("[[Writable]]", "*false*"), ("[[Enumerable]]", "*false*"), ("[[Configurable]]", "*true*")] := by
  decide

/-- The chains of the three intrinsics. -/
theorem exChain0 : Chain exWorld "%Object.prototype%" 0 := .base (p := "*null*") (by decide) (by decide)
theorem exChain1 : Chain exWorld "%Function.prototype%" 1 :=
  .step (p := "%Object.prototype%") (by decide) (by decide) (by decide) (by decide) exChain0
theorem exChain2 : Chain exWorld "%Array%" 2 :=
  .step (p := "%Function.prototype%") (by decide) (by decide) (by decide) (by decide) exChain1

/-- So there is an order. -/
example : ∃ n l, creationOrder exWorld (fun a b => decide (a ≤ b)) n = .ok l := c32_found.mpr (by
  have : exWorld.names = ["%Array%", "%Object.prototype%", "%Function.prototype%"] := by decide
  intro x hx
  rw [this] at hx
  simp at hx
  rcases hx with rfl | rfl | rfl
  · exact ⟨2, exChain2⟩
  · exact ⟨0, exChain0⟩
  · exact ⟨1, exChain1⟩)

/-- Two intrinsics that are each other's prototype: no end. -/
def exCycle : World := ⟨["a", "b"], fun x => { Intr.new x with slots := fun s => if s = "[[Prototype]]" then some (if x = "a" then "b" else "a") else none }⟩
example : ∀ n, creationOrder exCycle (fun a b => decide (a ≤ b)) n = .error .fuel := by
  have hno : ∀ x r, x = "a" ∨ x = "b" → ¬ Chain exCycle x r := by
    intro x r hx h
    induction h with
    | @base y p h1 h2 =>
      rcases hx with rfl | rfl <;> (have h1' := h1; simp [exCycle] at h1'; subst h1'; revert h2; decide)
    | @step y p r h1 _ _ h4 _ ih =>
      exact ih (by simpa [exCycle] using h4)
  have hnb : ∀ x, x = "a" ∨ x = "b" → ¬ Broken exCycle x := by
    intro x hx h
    induction h with
    | missing h => rcases hx with rfl | rfl <;> simp [exCycle] at h
    | @unknown y p h1 _ _ h4 => rcases hx with rfl | rfl <;> (simp [exCycle] at h1; subst h1; revert h4; decide)
    | @step y p _ _ _ h4 _ ih => exact ih (by simpa [exCycle] using h4)
  have hn : ∀ x ∈ exCycle.names, x = "a" ∨ x = "b" := by intro x hx; simpa [exCycle] using hx
  exact c32_fails.2 (fun x hx => hnb x (hn x hx)) ⟨"a", by simp [exCycle], fun r => hno "a" r (Or.inl rfl)⟩

end Verif.Intrin
