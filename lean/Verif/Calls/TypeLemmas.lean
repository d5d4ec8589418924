import Verif.Calls.Spec
import Verif.Env.TypeLemmas
/-! # Unions and splits with one compound type -/
namespace Verif.Calls
open Verif.Types Verif.Env

variable {cfg : Cfg} {ord : List Ty → List Ty}

/-- Names of the hierarchy, and perhaps `d`. -/
def Mixed (cfg : Cfg) (d : Ty) (ts : List Ty) : Prop := ∀ t ∈ ts, (∃ n ∈ names cfg.tree, t = .hier n) ∨ t = d

theorem nodup_one {α} {l : List α} (h : l.Nodup) (he : ∀ x ∈ l, ∀ y ∈ l, x = y) : l.length ≤ 1 := by
  match l, h, he with
  | [], _, _ => simp
  | [_], _, _ => simp
  | a :: b :: _, h, he =>
    have := he a (by simp) b (by simp)
    subst this
    simp at h

theorem Mixed.members {d : Ty} (hd : Compound d) {ts : List Ty} (h : Mixed cfg d ts) : ts.flatMap members = ts := by
  induction ts with
  | nil => rfl
  | cons t ts ih =>
    rw [List.flatMap_cons, ih (fun x hx => h x (by simp [hx]))]
    rcases h t (by simp) with ⟨n, _, rfl⟩ | rfl
    · rfl
    · cases hd <;> rfl

theorem nodup_filterMap {α β} {f : α → Option β} (hf : ∀ a b c, f a = some c → f b = some c → a = b) : ∀ {l : List α}, l.Nodup → (l.filterMap f).Nodup := by
  intro l
  induction l with
  | nil => intro _; simp
  | cons a l ih =>
    intro h
    rw [List.nodup_cons] at h
    rw [List.filterMap_cons]
    split
    · exact ih h.2
    · rename_i b hb
      rw [List.nodup_cons]
      refine ⟨?_, ih h.2⟩
      intro hm
      obtain ⟨c, hc, e⟩ := List.mem_filterMap.1 hm
      exact h.1 (hf _ _ _ e hb ▸ hc)

theorem unionGeneral_mixed (hc : CfgOk cfg) (ho : SetOrder ord) {d : Ty} (hd : Compound d) {rec} {ts : List Ty} {T : Ty} (h : Mixed cfg d ts)
    (hb : (∃ t, d = .list t) → .hier "List" ∉ ts) (hT : unionGeneral cfg ord rec ts = some T) :
    ∃ ns : List String, (∀ n, n ∈ ns ↔ .hier n ∈ ts ∧ n ≠ ListN) ∧
      (∀ m, m ∈ members T ↔ (m ∈ ts ∧ (m = d ∨ m = .hier ListN)) ∨ ∃ n ∈ unionHier cfg.tree ns, m = .hier n) := by
  unfold unionGeneral at hT
  dsimp only at hT
  rw [h.members hd] at hT
  split at hT
  · cases hT
  split at hT
  · cases hT
  split at hT
  · rename_i l r p hl hr hp
    have hmem : ∀ x, x ∈ (ord ts).filter (· ≠ .tbd) ↔ x ∈ ts := by
      intro x
      rw [List.mem_filter, (ho ts).2]
      refine ⟨And.left, fun hx => ⟨hx, ?_⟩⟩
      rcases h x hx with ⟨n, _, rfl⟩ | rfl
      · simp
      · cases hd <;> simp
    have hnd : ((ord ts).filter (· ≠ .tbd)).Nodup := (ho ts).1.filter _
    generalize (ord ts).filter (· ≠ .tbd) = ms at hmem hnd hl hr hp hT
    have hl1 : (ms.filter isListy).length ≤ 1 := by
      refine nodup_one (hnd.filter _) (fun x hx y hy => ?_)
      rw [List.mem_filter, hmem] at hx hy
      have hlisty : ∀ z, z ∈ ts ∧ isListy z = true → z = .hier ListN ∨ z = d ∧ ∃ t, d = .list t := by
        rintro z ⟨hz, hzl⟩
        rcases h z hz with ⟨n, _, rfl⟩ | rfl
        · simp only [isListy, decide_eq_true_eq] at hzl; exact .inl (by rw [hzl])
        · cases hd with
          | list t => exact .inr ⟨rfl, t, rfl⟩
          | record s fs => simp [isListy] at hzl
          | proc ps r => simp [isListy] at hzl
      rcases hlisty x hx with e1 | ⟨e1, h1⟩ <;> rcases hlisty y hy with e2 | ⟨e2, h2⟩
      · rw [e1, e2]
      · exact absurd (e1 ▸ hx.1) (hb h2)
      · exact absurd (e2 ▸ hy.1) (hb h1)
      · rw [e1, e2]
    have el := unionList_single hl1 hl
    have hr1 : (ms.filterMap recordOf?).length ≤ 1 := by
      refine nodup_one (nodup_filterMap (fun a b c h1 h2 => by rw [mem_recordOf h1, mem_recordOf h2]) hnd) (fun x hx y hy => ?_)
      obtain ⟨a, ha, ea⟩ := List.mem_filterMap.1 hx
      obtain ⟨b, hb', eb⟩ := List.mem_filterMap.1 hy
      have hrec : ∀ z w, z ∈ ts → recordOf? z = some w → z = d := by
        intro z w hz hzw
        rcases h z hz with ⟨n, _, rfl⟩ | rfl
        · simp [recordOf?] at hzw
        · rfl
      rw [hrec a x ((hmem a).1 ha) ea] at ea
      rw [hrec b y ((hmem b).1 hb') eb, ea] at eb
      injection eb
    have er : r = (ms.filterMap recordOf?).map (fun r => .record r.1 r.2) := by
      unfold unionRecord at hr
      rw [if_pos hr1] at hr
      injection hr with hr; exact hr.symm
    have ep : p = ms.filter isProc := by
      unfold unionProc at hp
      split at hp
      · injection hp with hp; exact hp.symm
      · cases hp
    refine ⟨ms.filterMap hierOf?, ?_, ?_⟩
    · intro n
      rw [List.mem_filterMap]
      constructor
      · rintro ⟨a, ha, e⟩
        obtain ⟨rfl, hn⟩ := mem_hierOf e
        exact ⟨(hmem _).1 ha, hn⟩
      · rintro ⟨h1, h2⟩
        exact ⟨_, (hmem _).2 h1, by simp [hierOf?, h2]⟩
    · intro m
      rw [mem_members_mkUnion ho (by
        intro x hx
        rw [List.mem_append, List.mem_append, List.mem_append] at hx
        rcases hx with ((hx | hx) | hx) | hx
        · rw [el, List.mem_filter] at hx
          cases x <;> simp [isListy, isUnion] at hx ⊢
        · rw [er] at hx
          obtain ⟨q, _, rfl⟩ := List.mem_map.1 hx
          rfl
        · rw [ep, List.mem_filter] at hx
          cases x <;> simp [isProc, isUnion] at hx ⊢
        · obtain ⟨q, _, rfl⟩ := List.mem_map.1 hx
          rfl) hT]
      rw [List.mem_append, List.mem_append, List.mem_append, el, er, ep, List.mem_filter, List.mem_filter]
      constructor
      · rintro (((hm | hm) | hm) | hm)
        · rw [hmem] at hm
          left
          refine ⟨hm.1, ?_⟩
          rcases h m hm.1 with ⟨n, _, rfl⟩ | e
          · have := hm.2
            simp only [isListy, decide_eq_true_eq] at this
            exact .inr (by rw [this])
          · exact .inl e
        · obtain ⟨q, hq, rfl⟩ := List.mem_map.1 hm
          obtain ⟨a, ha, e⟩ := List.mem_filterMap.1 hq
          have e' := mem_recordOf e
          rw [← e']
          left
          refine ⟨(hmem a).1 ha, ?_⟩
          rcases h a ((hmem a).1 ha) with ⟨n, _, rfl⟩ | e''
          · simp [recordOf?] at e
          · exact .inl e''
        · rw [hmem] at hm
          left
          refine ⟨hm.1, ?_⟩
          rcases h m hm.1 with ⟨n, _, rfl⟩ | e
          · simp [isProc] at hm
          · exact .inl e
        · obtain ⟨n, hn, rfl⟩ := List.mem_map.1 hm
          exact .inr ⟨n, hn, rfl⟩
      · rintro (⟨hm, rfl | rfl⟩ | ⟨n, hn, rfl⟩)
        · cases hd with
          | list t => exact .inl (.inl (.inl ⟨(hmem _).2 hm, rfl⟩))
          | record s fs =>
            exact .inl (.inl (.inr (List.mem_map.2 ⟨(s, fs), List.mem_filterMap.2 ⟨_, (hmem _).2 hm, rfl⟩, rfl⟩)))
          | proc ps q => exact .inl (.inr ⟨(hmem _).2 hm, rfl⟩)
        · exact .inl (.inl (.inl ⟨(hmem _).2 hm, by simp [isListy]⟩))
        · exact .inr (List.mem_map.2 ⟨n, hn, rfl⟩)
  · cases hT

/-- A union of names and one compound type: what it consists of, and its values. -/
theorem union_mixed (hc : CfgOk cfg) (ho : SetOrder ord) {d : Ty} (hd : Compound d) {ts : List Ty} {T : Ty} (h : Mixed cfg d ts)
    (hb : (∃ t, d = .list t) → .hier "List" ∉ ts) (hT : unionOf cfg ord ts = some T) :
    Mixed cfg d (members T) ∧ (d ∈ members T ↔ d ∈ ts) ∧
      ∀ I : Interp, Respects cfg I → Exhaustive cfg I → ∀ v : I.V, den cfg I T v ↔ DenL cfg I ts v := by
  rw [unionOf_eq ho] at hT
  rcases unionStep_cases ho hT with ⟨rfl, rfl⟩ | ⟨hm, hall⟩ | ⟨ts', hts', hg⟩
  · refine ⟨fun t ht => by simp [T0, members] at ht, by simp [T0, members], fun I _ _ v => ⟨fun hv => absurd hv den_T0, fun ⟨t, ht, _⟩ => by cases ht⟩⟩
  · have hT1 : members T = [T] := by
      rcases h T hm with ⟨n, _, rfl⟩ | rfl
      · rfl
      · cases hd <;> rfl
    have heq : ∀ t ∈ ts, t = T := by
      intro t ht
      rcases hall t ht with e | e | e
      · exact e
      · rcases h t ht with ⟨n, _, rfl⟩ | rfl
        · cases e
        · subst e; cases hd
      · rcases h t ht with ⟨n, _, rfl⟩ | rfl
        · cases e
        · subst e; cases hd
    refine ⟨?_, ?_, fun I _ _ v => ?_⟩
    · rw [hT1]
      intro t ht
      rw [List.mem_singleton] at ht
      exact ht ▸ h T hm
    · rw [hT1, List.mem_singleton]
      exact ⟨fun e => e ▸ hm, fun h => heq d h⟩
    · exact ⟨fun hv => ⟨T, hm, hv⟩, fun ⟨t, ht, hv⟩ => heq t ht ▸ hv⟩
  · have hsame : ∀ t, t ∈ ts' ↔ t ∈ ts := by
      intro t
      rw [hts']
      refine ⟨And.left, fun ht => ⟨ht, ?_⟩⟩
      rcases h t ht with ⟨n, _, rfl⟩ | rfl
      · exact ⟨fun e => (by cases e), fun e => (by cases e)⟩
      · cases hd <;> exact ⟨fun e => (by cases e), fun e => (by cases e)⟩
    have h' : Mixed cfg d ts' := fun t ht => h t ((hsame t).1 ht)
    obtain ⟨ns, hns, hmem⟩ := unionGeneral_mixed hc ho hd h' (fun he hm => hb he ((hsame _).1 hm)) hg
    have hnames : ∀ n ∈ ns, n ∈ names cfg.tree := by
      intro n hn
      rcases h' _ ((hns n).1 hn).1 with ⟨k, hk, e⟩ | e
      · injection e with e; exact e ▸ hk
      · rw [← e] at hd; cases hd
    refine ⟨?_, ?_, fun I hr hx v => ?_⟩
    · intro m hm
      rcases (hmem m).1 hm with ⟨hm, _⟩ | ⟨n, hn, rfl⟩
      · exact h' m hm
      · exact .inl ⟨n, unionHier_names hc hnames n hn, rfl⟩
    · rw [hmem]
      constructor
      · rintro (⟨hm, _⟩ | ⟨n, hn, e⟩)
        · exact (hsame _).1 hm
        · rw [e] at hd; cases hd
      · intro hm; exact .inl ⟨(hsame _).2 hm, .inl rfl⟩
    · rw [den_members]
      constructor
      · rintro ⟨m, hm, hv⟩
        rcases (hmem m).1 hm with ⟨hm, _⟩ | ⟨n, hn, rfl⟩
        · exact ⟨m, (hsame _).1 hm, hv⟩
        · obtain ⟨k, hk, hkv⟩ := unionHier_lower hc hr hx hn hv
          exact ⟨_, (hsame _).1 ((hns k).1 hk).1, hkv⟩
      · rintro ⟨t, ht, hv⟩
        rw [← hsame] at ht
        rcases h' t ht with ⟨n, _, rfl⟩ | rfl
        · by_cases hl : n = ListN
          · exact ⟨_, (hmem _).2 (.inl ⟨ht, .inr (by rw [hl])⟩), hv⟩
          · obtain ⟨m, hm, hmv⟩ := unionHier_upper hc hr ((hns n).2 ⟨ht, hl⟩) hv
            exact ⟨_, (hmem _).2 (.inr ⟨m, hm, rfl⟩), hmv⟩
        · exact ⟨_, (hmem _).2 (.inl ⟨ht, .inl rfl⟩), hv⟩

/-! ### Splitting off `not_passed` -/

theorem splitOne_under (hc : CfgOk cfg) {B : Ty} {rec} {bs : List Ty} {a : String} (ha : a ∈ names cfg.tree) (hbs : ∀ b ∈ bs, ∃ n, b = .hier n)
    (hrec : ∀ (cs : List String) (bs' : List Ty) r, (∀ c ∈ cs, c ∈ names cfg.tree) → (∀ b ∈ bs', ∃ n, b = .hier n) → rec (cs.map .hier) bs' = some r →
      ∀ t ∈ r.2, ∃ c ∈ cs, ∃ k, t = .hier k ∧ Anc cfg.tree c k)
    {r} (h : splitOne cfg ord B rec bs (.hier a) = some r) : ∀ t ∈ r.2, ∃ k, t = .hier k ∧ Anc cfg.tree a k := by
  unfold splitOne at h
  dsimp only at h
  rw [if_neg (by simp : ¬ (Ty.hier a = Ty.tbd))] at h
  have hself : ∀ t ∈ [Ty.hier a], ∃ k, t = .hier k ∧ Anc cfg.tree a k := by
    intro t ht
    rw [List.mem_singleton] at ht
    exact ⟨a, ht, Anc.refl ha⟩
  split at h
  · injection h with h; subst h; exact hself
  · split at h
    · cases h
    · injection h with h; subst h; intro t ht; cases ht
    · split at h
      · cases h
      · injection h with h; subst h; exact hself
      · rename_i w hf hw
        have hwith : ∀ {xs ys : List Ty}, filterOpt (fun b => sub cfg b (.hier a)) xs = some ys → ∀ y ∈ ys, y ∈ xs := by
          intro xs
          induction xs with
          | nil => intro ys h; simp [filterOpt] at h; subst h; simp
          | cons x xs ih =>
            intro ys h
            rw [filterOpt] at h
            split at h
            · rename_i r' _ h'
              injection h with h; subst h
              intro y hy
              rcases List.mem_cons.1 hy with rfl | hy
              · simp
              · exact List.mem_cons_of_mem _ (ih h' y hy)
            · rename_i r' _ h'
              injection h with h; subst h
              intro y hy
              exact List.mem_cons_of_mem _ (ih h' y hy)
            · cases h
        have hwh : ∀ b ∈ w, ∃ n, b = .hier n := fun b hb => hbs b (hwith hw b hb)
        unfold breakDown at h
        dsimp only at h
        split at h
        · split at h
          · obtain ⟨n, e⟩ := hwh _ (List.mem_singleton.2 rfl)
            cases e
          · cases h
        · split at h
          · cases h
          · rename_i cs hcs
            have hcm := children_iff hc.nodup hcs
            intro t ht
            obtain ⟨c, hcc, k, e, hk⟩ := hrec cs w r (fun c hcc => ((hcm c).1 hcc).mem_right) hwh h t ht
            exact ⟨k, e, ((hcm c).1 hcc).anc.trans hc.nodup hk⟩

theorem splitRec_under (hc : CfgOk cfg) {B : Ty} : ∀ (n : Nat) (as : List String) (bs : List Ty) r, (∀ a ∈ as, a ∈ names cfg.tree) →
    (∀ b ∈ bs, ∃ n, b = .hier n) → splitRec cfg ord B n (as.map .hier) bs = some r →
    ∀ t ∈ r.2, ∃ a ∈ as, ∃ k, t = .hier k ∧ Anc cfg.tree a k := by
  intro n
  induction n with
  | zero => intro as bs r _ _ h; cases h
  | succ n ih =>
    intro as bs r has hbs h t ht
    rw [splitRec, Option.map_eq_some_iff] at h
    obtain ⟨rs, hrs, rfl⟩ := h
    obtain ⟨q, hq, hqt⟩ := List.mem_flatMap.1 ht
    obtain ⟨x, hx, e⟩ := (mem_mapM hrs q).1 hq
    obtain ⟨a, ha, rfl⟩ := List.mem_map.1 hx
    obtain ⟨k, e, hk⟩ := splitOne_under hc (has a ha) hbs (fun cs bs' r h1 h2 h3 => ih cs bs' r h1 h2 h3) e t hqt
    exact ⟨a, ha, k, e, hk⟩

/-- The compound type is not in `not_passed`. -/
theorem compound_apart (hc : CfgOk cfg) (hnp : HasNotPassed cfg) {d : Ty} (hd : Compound d) {I : Interp} (hr : Respects cfg I)
    (hdj : SiblingsDisjoint cfg I) {v : I.V} (hv : den cfg I d v) : ¬ I.named "not_passed" v := by
  intro hn
  have key : ∀ n ∈ ["List", "Record", "proc_"], I.named n v → False := by
    intro n hm hnv
    obtain ⟨h1, h2⟩ := hnp.apart n hm
    refine incomparable_disjoint hc hr hdj h1 hnp.mem h2 ?_ hnv hn
    intro h
    by_cases e : "not_passed" = n
    · subst e; exact h2 h
    · obtain ⟨c, hcc⟩ := exists_child hc.nodup h e
      exact hnp.leaf c hcc
  cases hd with
  | list t =>
    obtain ⟨l, hl, _⟩ := hv
    exact key "List" (by simp) (hr.list v l hl)
  | record s fs =>
    obtain ⟨hs, _⟩ := hv
    unfold HasSchema at hs
    split at hs
    · exact key "Record" (by simp) (hr.record v _ hs)
    · obtain ⟨i, j, _, hs, _⟩ := hs
      exact key "Record" (by simp) (hr.record v _ hs)
  | proc ps r => exact key "proc_" (by simp) (hr.proc _ _ v hv)

theorem namedSub_apart (hc : CfgOk cfg) (hnp : HasNotPassed cfg) {n : String} (hn : n ∈ ["List", "Record", "proc_"]) :
    namedSub cfg.tree n "not_passed" = some false := by
  obtain ⟨h1, h2⟩ := hnp.apart n hn
  have hne : ¬ Anc cfg.tree "not_passed" n := by
    intro h
    by_cases e : "not_passed" = n
    · subst e; exact h2 h
    · obtain ⟨c, hcc⟩ := exists_child hc.nodup h e
      exact hnp.leaf c hcc
  unfold namedSub
  rw [if_neg (by simp [Top])]
  obtain ⟨r, hr⟩ := hierSub_some h1 hnp.mem
  cases r with
  | false => exact hr
  | true =>
    rcases (hierSub_iff hc.nodup).1 hr with e | h
    · subst e; exact absurd (Anc.refl h1) h2
    · exact absurd h hne

theorem splitOne_compound (hc : CfgOk cfg) (hnp : HasNotPassed cfg) {d : Ty} (hd : Compound d) {rec} :
    splitOne cfg ord notPassed rec [notPassed] d = some ([], [d]) := by
  have h1 : sub cfg d notPassed = some false := by
    have hl := namedSub_apart hc hnp (n := "List") (by simp)
    have hr := namedSub_apart hc hnp (n := "Record") (by simp)
    have hp := namedSub_apart hc hnp (n := "proc_") (by simp)
    cases hd <;>
      simp [sub, rel, notPassed, subWith, memberWith, members, anyOpt, Top, ListN, RecordN, ProcN, hl, hr, hp]
  have h2 : sub cfg notPassed d = some false := by
    cases hd <;> simp [sub, rel, notPassed, subWith, memberWith, members, anyOpt]
  have hne : d ≠ .tbd := by rintro rfl; cases hd
  have hne' : ¬ (d = .hier NormalN ∧ notPassed = TCR) := by rintro ⟨_, h⟩; cases h
  unfold splitOne
  dsimp only
  rw [if_neg hne, if_neg hne', h1]
  simp [filterOpt, h2]

/-- The two parts of a parameter's type. -/
theorem split_param (hc : CfgOk cfg) (hleaf : IsLeaf cfg.tree "List") (ho : SetOrder ord) (hnp : HasNotPassed cfg) {d : Ty} (hd : Compound d) {A i o : Ty}
    (hA : Mixed cfg d (members A)) (hb : (∃ t, d = .list t) → ∀ n, .hier n ∈ members A → ¬ Anc cfg.tree n "List")
    (h : splitBy cfg ord A notPassed = some (i, o)) :
    Flat cfg i ∧ Mixed cfg d (members o) ∧ ∀ I : Interp, Respects cfg I → Exhaustive cfg I → SiblingsDisjoint cfg I → ∀ v : I.V,
      (den cfg I i v ↔ den cfg I A v ∧ I.named "not_passed" v) ∧ (den cfg I o v ↔ den cfg I A v ∧ ¬ I.named "not_passed" v) := by
  have hB : Named cfg (members notPassed) := by
    intro t ht
    simp only [notPassed, members, List.mem_singleton] at ht
    exact ⟨_, hnp.mem, ht⟩
  unfold splitBy at h
  split at h
  · rename_i he
    injection h with h; injection h with h1 h2
    subst h1 h2
    have hAm : ∀ m ∈ members A, m = notPassed := fun m hm => by simpa [members, notPassed] using he.1 hm
    have hAB : ∀ (I : Interp) (v : I.V), den cfg I A v ↔ I.named "not_passed" v := by
      intro I v
      rw [den_members]
      constructor
      · rintro ⟨m, hm, hv⟩
        rw [hAm m hm] at hv; exact hv
      · intro hv; exact ⟨notPassed, he.2 (by simp [members, notPassed]), hv⟩
    refine ⟨fun m hm => ⟨"not_passed", hnp.mem, hAm m hm⟩, fun t ht => by simp [T0, members] at ht, fun I _ _ _ v => ⟨?_, ?_⟩⟩
    · rw [hAB]; simp
    · rw [hAB]
      exact ⟨fun hv => absurd hv den_T0, fun ⟨h1, h2⟩ => absurd h1 h2⟩
  · split at h
    · cases h
    · rename_i i0 o0 hr
      split at h
      · rename_i i1 o1 hi ho1
        injection h with h; injection h with h1 h2
        subst h1 h2
        rw [splitRec, Option.map_eq_some_iff] at hr
        obtain ⟨rs, hrs, he⟩ := hr
        injection he with e1 e2
        subst e1 e2
        -- one member
        have hone : ∀ m ∈ members A, ∀ q, splitOne cfg ord notPassed (splitRec cfg ord notPassed (names cfg.tree).length) [notPassed] m = some q →
            Named cfg q.1 ∧ Mixed cfg d q.2 ∧ ((∃ t, d = .list t) → .hier "List" ∉ q.2) ∧
            ∀ I : Interp, Respects cfg I → Exhaustive cfg I → SiblingsDisjoint cfg I → ∀ v : I.V,
              (DenL cfg I q.1 v ↔ den cfg I m v ∧ I.named "not_passed" v) ∧ (DenL cfg I q.2 v ↔ den cfg I m v ∧ ¬ I.named "not_passed" v) := by
          intro m hm q hq
          rcases hA m hm with ⟨a, ha, rfl⟩ | rfl
          · obtain ⟨p, hp⟩ := Option.isSome_iff_exists.1 (path_isSome cfg.tree a ha)
            have hpp := path_pos hp
            obtain ⟨r, hr, hok⟩ := splitRec_ok (ord := ord) hc hleaf hB ((names cfg.tree).length + 1) [a] (members notPassed) (by
                intro a' ha'
                rw [List.mem_singleton] at ha'
                subst ha'
                exact ⟨p, hp, by omega⟩) (fun b hb => hb) (fun a _ b hb _ => hb) (by omega)
            have hr' : r = q := by
              rw [splitRec] at hr
              simp only [List.map_cons, List.map_nil, List.mapM_cons, List.mapM_nil] at hr
              have : members notPassed = [notPassed] := rfl
              rw [this, hq] at hr
              simp at hr
              exact hr.symm
            subst hr'
            have hund := splitRec_under (ord := ord) hc _ [a] (members notPassed) r (by simpa using ha) (by simp [notPassed, members]) hr
            refine ⟨hok.namedIn, fun t ht => .inl (hok.namedOut t ht), ?_, fun I h1 h2 h3 v => ⟨?_, ?_⟩⟩
            · intro hdl hl
              obtain ⟨a', ha', k, e, hk⟩ := hund _ hl
              rw [List.mem_singleton] at ha'
              injection e with e
              rw [ha', ← e] at hk
              exact hb hdl a hm hk
            · rw [hok.inside I h1 h2 h3 v]; simp [DenL, den, notPassed]
            · rw [hok.outside I h1 h2 h3 v]; simp [DenL, den, notPassed]
          · rw [splitOne_compound hc hnp hd] at hq
            injection hq with hq; subst hq
            refine ⟨fun t ht => (by cases ht), fun t ht => .inr (by simpa using ht), ?_, fun I h1 h2 h3 v => ⟨?_, ?_⟩⟩
            · rintro _ hl
              rw [List.mem_singleton] at hl
              rw [← hl] at hd; cases hd
            · exact ⟨fun ⟨t, ht, _⟩ => (by cases ht), fun ⟨hv, hn⟩ => absurd hn (compound_apart hc hnp hd h1 h3 hv)⟩
            · constructor
              · rintro ⟨t, ht, hv⟩
                simp only [List.mem_singleton] at ht
                subst ht
                exact ⟨hv, compound_apart hc hnp hd h1 h3 hv⟩
              · rintro ⟨hv, _⟩; exact ⟨_, List.mem_singleton.2 rfl, hv⟩
        have hback : ∀ q ∈ rs, ∃ m ∈ members A, splitOne cfg ord notPassed (splitRec cfg ord notPassed (names cfg.tree).length) [notPassed] m = some q :=
          fun q hq => (mem_mapM hrs q).1 hq
        have hfwd : ∀ m ∈ members A, ∃ q ∈ rs, splitOne cfg ord notPassed (splitRec cfg ord notPassed (names cfg.tree).length) [notPassed] m = some q :=
          fun m hm => by
            obtain ⟨q, hq, e⟩ := mapM_each hrs hm
            exact ⟨q, hq, e⟩
        have hi0 : ∀ t ∈ rs.flatMap (·.1), Flat cfg t := by
          intro t ht
          obtain ⟨q, hq, ht⟩ := List.mem_flatMap.1 ht
          obtain ⟨m, hm, e⟩ := hback q hq
          obtain ⟨n, hn, rfl⟩ := (hone m hm q e).1 t ht
          exact flat_hier hn
        have ho0 : Mixed cfg d (rs.flatMap (·.2)) := by
          intro t ht
          obtain ⟨q, hq, ht⟩ := List.mem_flatMap.1 ht
          obtain ⟨m, hm, e⟩ := hback q hq
          exact (hone m hm q e).2.1 t ht
        obtain ⟨i2, hi2, hf, hid⟩ := union_flat hc ho hi0
        rw [hi] at hi2
        injection hi2 with hi2
        subst hi2
        obtain ⟨hm1, _, hod⟩ := union_mixed hc ho hd ho0 (by
          intro hdl hl
          obtain ⟨q, hq, hl⟩ := List.mem_flatMap.1 hl
          obtain ⟨m, hm, e⟩ := hback q hq
          exact (hone m hm q e).2.2.1 hdl hl) ho1
        refine ⟨hf, hm1, fun I h1 h2 h3 v => ⟨?_, ?_⟩⟩
        · rw [hid I h1 h2 v, den_members (A := A)]
          constructor
          · rintro ⟨t, ht, hv⟩
            obtain ⟨q, hq, ht⟩ := List.mem_flatMap.1 ht
            obtain ⟨m, hm, e⟩ := hback q hq
            have := ((hone m hm q e).2.2.2 I h1 h2 h3 v).1.1 ⟨t, ht, hv⟩
            exact ⟨⟨m, hm, this.1⟩, this.2⟩
          · rintro ⟨⟨m, hm, hv⟩, hn⟩
            obtain ⟨q, hq, e⟩ := hfwd m hm
            obtain ⟨t, ht, hv⟩ := ((hone m hm q e).2.2.2 I h1 h2 h3 v).1.2 ⟨hv, hn⟩
            exact ⟨t, List.mem_flatMap.2 ⟨q, hq, ht⟩, hv⟩
        · rw [hod I h1 h2 v, den_members (A := A)]
          constructor
          · rintro ⟨t, ht, hv⟩
            obtain ⟨q, hq, ht⟩ := List.mem_flatMap.1 ht
            obtain ⟨m, hm, e⟩ := hback q hq
            have := ((hone m hm q e).2.2.2 I h1 h2 h3 v).2.1 ⟨t, ht, hv⟩
            exact ⟨⟨m, hm, this.1⟩, this.2⟩
          · rintro ⟨⟨m, hm, hv⟩, hn⟩
            obtain ⟨q, hq, e⟩ := hfwd m hm
            obtain ⟨t, ht, hv⟩ := ((hone m hm q e).2.2.2 I h1 h2 h3 v).2.2 ⟨hv, hn⟩
            exact ⟨t, List.mem_flatMap.2 ⟨q, hq, ht⟩, hv⟩
      · cases h

end Verif.Calls
