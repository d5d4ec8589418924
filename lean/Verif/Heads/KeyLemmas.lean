import Verif.Heads.TreeLemmas
import Verif.Uses.Props
import Verif.Sdo.Props
/-!
# Lemmas on the keys of headings
-/
namespace Verif.Heads
open Verif.Heads.Spec
open Verif.Sdo (Puk Tree NtDef label rulesFor)
open Verif.Defs (Str Block Arena Table process)
open Verif.Defs.Spec (IsArena Defines FinalRhss Defined Counts)
open Verif.Uses (Element itemsOf)
open Verif.Uses.Spec (Match treatment IsCase)
open Verif.Gram (Item BitsOk IKind)

theorem reduce_label (its : List Item) : Uses.reduce its = label its := by
  unfold Uses.reduce label
  have e : its.filterMap Uses.piece = its.flatMap (fun it => match it with
    | .plain (.gnt n _) => [n]
    | .qm (.gnt n _) => [n ++ ['?']]
    | .qm (.other _ t) => [t ++ ['?']]
    | .plain (.other k t) =>
      if k ∈ [IKind.BACKTICKED_THING, .NAMED_CHAR, .U_ANY, .U_PROP, .U_RANGE] then [t] else []) := by
    induction its with
    | nil => rfl
    | cons it its ih =>
      rw [List.flatMap_cons, ← ih, List.filterMap_cons]
      cases it with
      | qm s => cases s <;> rfl
      | plain s =>
        cases s with
        | gnt n ps => rfl
        | other k text => cases k <;> rfl
  rw [e]
  rfl

theorem mem_setOf {α : Type} [DecidableEq α] (x : α) : ∀ l : List α, x ∈ setOf l ↔ x ∈ l
  | [] => by simp [setOf]
  | y :: l => by
    simp only [setOf]
    split
    · rename_i h
      rw [mem_setOf x l, List.mem_cons]
      constructor
      · exact .inr
      · rintro (rfl | h')
        · exact h
        · exact h'
    · rw [List.mem_cons, List.mem_cons, mem_setOf x l]

theorem nodup_setOf {α : Type} [DecidableEq α] : ∀ l : List α, (setOf l).Nodup
  | [] => by simp [setOf]
  | y :: l => by
    simp only [setOf]
    split
    · exact nodup_setOf l
    · rename_i h
      exact List.nodup_cons.2 ⟨fun k => h ((mem_setOf y l).1 k), nodup_setOf l⟩

theorem mapM_mem {α β : Type} {f : α → Option β} {l : List α} {bs : List β} (h : l.mapM f = some bs) (b : β) :
    b ∈ bs ↔ ∃ a ∈ l, f a = some b := by
  obtain ⟨h1, h2⟩ := Uses.mapM_at f l bs h
  constructor
  · intro hb
    obtain ⟨i, hi⟩ := List.mem_iff_getElem?.1 hb
    have hlt : i < l.length := by rw [← h1]; exact (List.getElem?_eq_some_iff.1 hi).1
    obtain ⟨b', k1, k2⟩ := h2 i _ (List.getElem?_eq_getElem hlt)
    rw [hi] at k1
    cases k1
    exact ⟨_, List.getElem_mem hlt, k2⟩
  · rintro ⟨a, ha, hf⟩
    obtain ⟨i, hi⟩ := List.mem_iff_getElem?.1 ha
    obtain ⟨b', k1, k2⟩ := h2 i a hi
    rw [hf] at k2
    cases k2
    exact List.mem_of_getElem? k1

section
variable {doc : List Block} {ms : List Defs.Msg} {t : Table} (h : process doc = some (ms, t))
include h

theorem grammarA_iff (n : Str) (rhss : List (List Item)) : grammarA t n = .main rhss ↔ MainDef doc n rhss := by
  have hi := (Defs.process_some doc ms t h).1
  unfold grammarA
  cases hl : t.lookup n with
  | none =>
    simp only [reduceCtorEq, false_iff]
    rintro ⟨i, p, rs, h1, _⟩
    obtain ⟨info, k⟩ := (Defs.defined_iff hi n).2 ⟨i, _, p, h1⟩
    rw [hl] at k; cases k
  | some info =>
    cases ho : info.occs.lookup .A with
    | none =>
      simp only [ho, reduceCtorEq, false_iff]
      rintro ⟨i, p, rs, h1, _⟩
      exact (Defs.occ_none hi hl).1 ho ⟨i, p, h1⟩
    | some d =>
      simp only [ho, NtDef.main.injEq]
      obtain ⟨s, q, rs, k1, k2, k3, k4⟩ := Defs.occ_some hi hl ho
      have hd : d.prod.rhss = rs := by rw [k3]; rfl
      have hf := (Defs.finalRhss_iff k1 rs).1 k2
      rw [hd]
      constructor
      · rintro rfl
        exact ⟨d.docI, q, rs, k4, hf, (Uses.each_map Uses.rhs_iff _ _).2 rfl⟩
      · rintro ⟨i, p, rs', h1, h2, h3⟩
        obtain rfl := (Uses.each_map Uses.rhs_iff _ _).1 h3
        have := (Defs.once_of_inv hi k4 h1).1
        subst this
        rw [Uses.final_unique h hf h2]

theorem elementKeys_mem {el : Element} {ks : List Puk} (hk : elementKeys t el = some ks) (k : Puk) :
    k ∈ ks ↔ ∃ p ∈ el.prods, ∃ c, IsCase doc el p c ∧ k.lhs = p.lhs.name ∧ ∃ us ds st, us ∈ c.uss ∧ ds ∈ c.dss ∧ Match us ds st ∧
      k.reduced = label ds ∧ BitsOk (st.filterMap treatment) k.bits := by
  unfold elementKeys at hk
  cases hr : Uses.checkElement t el with
  | none => rw [hr] at hk; cases hk
  | some rs =>
    rw [hr] at hk
    cases hk
    rw [mem_setOf, List.mem_map]
    unfold Uses.pukSet
    constructor
    · rintro ⟨q, hq, rfl⟩
      obtain ⟨rep, hrep, hq⟩ := List.mem_flatMap.1 hq
      obtain ⟨p, hp, hu⟩ := (mapM_mem hr rep).1 hrep
      obtain ⟨a1, a2, a3⟩ := (Uses.check_case h el p).2 rep hu
      by_cases hd : Defined doc p.lhs.name
      · obtain ⟨c, hc⟩ := a2 hd
        obtain ⟨l, red, bits⟩ := q
        obtain ⟨e, us, ds, st, b1, b2, b3, b4, b5⟩ := ((a3 c hc).puks l red bits).1 hq
        refine ⟨p, hp, c, hc, ?_, us, ds, st, b1, b2, b3, ?_, b5⟩
        · obtain ⟨_, _, _, _, _, _, _, _, _, _, _, rfl⟩ := hc
          exact e
        · rw [← reduce_label]; exact b4
      · rw [a1 hd] at hq
        cases hq
    · rintro ⟨p, hp, c, hc, e, us, ds, st, b1, b2, b3, b4, b5⟩
      obtain ⟨i, hi⟩ := List.mem_iff_getElem?.1 hp
      obtain ⟨rep, k1, k2⟩ := (Uses.mapM_at _ _ _ hr).2 i p hi
      obtain ⟨_, _, a3⟩ := (Uses.check_case h el p).2 rep k2
      refine ⟨(k.lhs, k.reduced, k.bits), List.mem_flatMap.2 ⟨rep, List.mem_of_getElem? k1, ?_⟩, rfl⟩
      refine ((a3 c hc).puks _ _ _).2 ⟨?_, us, ds, st, b1, b2, b3, by rw [reduce_label]; exact b4, b5⟩
      obtain ⟨_, _, _, _, _, _, _, _, _, _, _, rfl⟩ := hc
      exact e

/-- A production of the main body is compared with the main definition. -/
theorem case_main {el : Element} (hm : Main doc el) {p : Defs.Prodn} (hp : p ∈ el.prods) :
    (∀ c, IsCase doc el p c → c.uss = p.rhss.map itemsOf ∧ MainDef doc p.lhs.name c.dss) ∧
    ∀ rhss, MainDef doc p.lhs.name rhss → ∃ c, IsCase doc el p c ∧ c.uss = p.rhss.map itemsOf ∧ c.dss = rhss := by
  constructor
  · rintro c ⟨a, i, q, rs, uss, dss, h1, h2, h3, h4, h5, rfl⟩
    refine ⟨(Uses.each_map Uses.rhs_iff _ _).1 h4, i, q, rs, ?_, h3, h5⟩
    rcases hm p hp a h1 with rfl | hn
    · rcases h2 with h2 | ⟨_, h2⟩ <;> exact h2
    · rcases h2 with h2 | ⟨_, h2⟩
      · exact absurd ⟨i, q, h2⟩ hn
      · exact h2
  · rintro rhss ⟨i, q, rs, h1, h2, h3⟩
    have ha : IsArena el.sec (Defs.arenaOf el.sec) := (Defs.arenaOf_iff ..).1 rfl
    refine ⟨_, ⟨Defs.arenaOf el.sec, i, q, rs, _, _, ha, ?_, h2, (Uses.each_map Uses.rhs_iff _ _).2 rfl, h3, rfl⟩, rfl, rfl⟩
    rcases hm p hp _ ha with e | hn
    · rw [e]; exact .inl h1
    · exact .inr ⟨hn, h1⟩

theorem keyIn_instance {el : Element} {ks : List Puk} (hk : elementKeys t el = some ks) (hm : Main doc el) (u : Tree) :
    KeyIn ks u ↔ Instance doc el u := by
  constructor
  · rintro ⟨k, hin, hu⟩
    obtain ⟨p, hp, c, hc, e, us, ds, st, b1, b2, b3, b4, b5⟩ := (elementKeys_mem h hk k).1 hin
    obtain ⟨e1, e2⟩ := (case_main h hm hp).1 c hc
    cases u with
    | leaf => cases hu
    | node s r b cs =>
      cases hu
      simp only at e b4 b5
      subst e; subst b4
      rw [e1] at b1
      obtain ⟨rr, hr, rfl⟩ := List.mem_map.1 b1
      exact ⟨_, _, ds, b, cs, rfl, e2, b2, p, hp, rfl, rr, hr, _, st, (Uses.rhs_iff _ _).2 rfl, b3, b5⟩
  · rintro ⟨s, rhss, its, bits, cs, rfl, h1, h2, p, hp, rfl, r, hr, us, st, h5, h3, h4⟩
    obtain rfl := (Uses.rhs_iff _ _).1 h5
    obtain ⟨c, hc, e1, e2⟩ := (case_main h hm hp).2 rhss h1
    refine keyIn_node.2 ((elementKeys_mem h hk _).2 ⟨p, hp, c, hc, rfl, itemsOf r, its, st, ?_, ?_, h3, rfl, h4⟩)
    · rw [e1]; exact List.mem_map_of_mem hr
    · rw [e2]; exact h2

theorem keyIn_isFor {els : List Element} {ks : List Puk} (hk : headKeys t (.uses els) = some ks) (hm : ∀ el ∈ els, Main doc el) (u : Tree) :
    KeyIn ks u ↔ IsFor doc (.uses els) u := by
  simp only [headKeys] at hk
  cases hr : els.mapM (elementKeys t) with
  | none => rw [hr] at hk; cases hk
  | some kss =>
    rw [hr] at hk
    cases hk
    simp only [IsFor]
    constructor
    · rintro ⟨k, hin, hu⟩
      rw [mem_setOf, List.mem_flatten] at hin
      obtain ⟨l, hl, hin⟩ := hin
      obtain ⟨el, hel, he⟩ := (mapM_mem hr l).1 hl
      exact ⟨el, hel, (keyIn_instance h he (hm el hel) u).1 ⟨k, hin, hu⟩⟩
    · rintro ⟨el, hel, hu⟩
      obtain ⟨i, hi⟩ := List.mem_iff_getElem?.1 hel
      obtain ⟨l, k1, k2⟩ := (Uses.mapM_at _ _ _ hr).2 i el hi
      obtain ⟨k, hin, hu⟩ := (keyIn_instance h k2 (hm el hel) u).2 hu
      exact ⟨k, (mem_setOf _ _).2 (List.mem_flatten.2 ⟨l, List.mem_of_getElem? k1, hin⟩), hu⟩

end

theorem headKeys_nodup {t : Table} {hd : Head} {ks : List Puk} (hk : headKeys t hd = some ks) : ks.Nodup := by
  cases hd with
  | default => cases hk; simp
  | uses els =>
    simp only [headKeys] at hk
    cases hr : els.mapM (elementKeys t) with
    | none => rw [hr] at hk; cases hk
    | some kss => rw [hr] at hk; cases hk; exact nodup_setOf _

/-- The bits of a match resolve the optional symbols of the definition. -/
theorem match_instance {us ds : List Item} {st : List Uses.Spec.Step} (h : Match us ds st) : ∀ {bits : List Char},
    BitsOk (st.filterMap treatment) bits → ∃ ns, Sdo.InstanceNts ds bits ns := by
  have plain : ∀ (s : Gram.Sym) {ds : List Item} {bits : List Char}, (∃ ns, Sdo.InstanceNts ds bits ns) → ∃ ns, Sdo.InstanceNts (.plain s :: ds) bits ns := by
    rintro s ds bits ⟨ns, h⟩
    cases s with
    | gnt n ps => exact ⟨_, .nt h⟩
    | other k text => exact ⟨_, .terminal h⟩
  have opt : ∀ (s : Gram.Sym) {ds : List Item} {b : Char} {bits : List Char}, b = '0' ∨ b = '1' → (∃ ns, Sdo.InstanceNts ds bits ns) →
      ∃ ns, Sdo.InstanceNts (.qm s :: ds) (b :: bits) ns := by
    rintro s ds b bits (rfl | rfl) ⟨ns, h⟩
    · exact ⟨_, .absent h⟩
    · cases s with
      | gnt n ps => exact ⟨_, .presentNt h⟩
      | other k text => exact ⟨_, .presentTerminal h⟩
  have bit : ∀ {o : Gram.Optionality} {b : Char}, Gram.BitOk o b → b = '0' ∨ b = '1' := by
    intro o b hb
    cases o <;> simp only [Gram.BitOk] at hb
    · exact .inl hb
    · exact .inr hb
    · exact hb
  have left : ∀ (d : Item) {ds : List Item} {st : List Uses.Spec.Step} {bits : List Char},
      (∀ {bits}, BitsOk (st.filterMap treatment) bits → ∃ ns, Sdo.InstanceNts ds bits ns) →
      BitsOk ((Uses.Spec.Step.left d :: st).filterMap treatment) bits → ∃ ns, Sdo.InstanceNts (d :: ds) bits ns := by
    intro d ds st bits ih hb
    cases d with
    | plain s => exact plain s (ih hb)
    | qm s =>
      rw [List.filterMap_cons] at hb
      simp only [treatment] at hb
      cases hb with
      | cons b1 b2 => exact opt s (bit b1) (ih b2)
  induction h with
  | done => intro bits hb; cases hb; exact ⟨_, .nil⟩
  | @keep u d us ds st hs _ ih =>
    intro bits hb
    cases d with
    | plain s =>
      refine plain s (ih ?_)
      rw [List.filterMap_cons] at hb
      cases u <;> exact hb
    | qm s =>
      rw [List.filterMap_cons] at hb
      cases u with
      | plain u =>
        simp only [treatment] at hb
        cases hb with
        | cons b1 b2 => exact opt s (bit b1) (ih b2)
      | qm u =>
        simp only [treatment] at hb
        cases hb with
        | cons b1 b2 => exact opt s (bit b1) (ih b2)
  | skip _ _ _ ih => intro bits hb; exact left _ ih hb
  | rest _ _ ih => intro bits hb; exact left _ ih hb

end Verif.Heads
