import Verif.StepRefs.LineLemmas
import Verif.StepRefs.DocLemmas
import Verif.Common
/-!
# C54: references to steps are reported completely, and where they are
-/
namespace Verif.StepRefs
open Verif.HTML (Str Attrs Node parse WordOk)
open Verif.Validate (nStart nStop nName nKids slice)

variable (cfg : Cfg)

theorem sorted_unique : ∀ (l l' : List Nat), l.Pairwise (· < ·) → l'.Pairwise (· < ·) → (∀ q, q ∈ l ↔ q ∈ l') → l = l'
  | [], [], _, _, _ => rfl
  | [], b :: l', _, _, h => absurd ((h b).2 List.mem_cons_self) (by simp)
  | a :: l, [], _, _, h => absurd ((h a).1 List.mem_cons_self) (by simp)
  | a :: l, b :: l', h1, h2, h => by
    rw [List.pairwise_cons] at h1 h2
    have hab : a = b := by
      rcases List.mem_cons.1 ((h a).1 List.mem_cons_self) with e | e
      · exact e
      · rcases List.mem_cons.1 ((h b).2 List.mem_cons_self) with e' | e'
        · exact e'.symm
        · have := h1.1 b e'
          have := h2.1 a e
          omega
    subst hab
    congr 1
    refine sorted_unique l l' h1.2 h2.2 (fun q => ⟨fun hq => ?_, fun hq => ?_⟩)
    · rcases List.mem_cons.1 ((h q).1 (List.mem_cons_of_mem _ hq)) with e | e
      · have := h1.1 q hq; omega
      · exact e
    · rcases List.mem_cons.1 ((h q).2 (List.mem_cons_of_mem _ hq)) with e | e
      · have := h2.1 q hq; omega
      · exact e

theorem entry_iff (sec : Option Node) (line x : Str) (hx : ∀ c ∈ x, idChar c = true) (e : Entry) :
    entry cfg sec line x = some e ↔ EntryFor cfg sec line x e := by
  unfold entry EntryFor
  constructor
  · intro h
    match hn : cfg.nodeWithId x, h with
    | some (alg :: anc), h =>
      simp only at h
      by_cases ha : nName alg = "emu-alg".toList
      · rw [if_pos ha, Option.map_eq_some_iff] at h
        obtain ⟨l, h1, rfl⟩ := h
        exact ⟨rfl, rfl, alg, anc, rfl, ha, (closest_iff _ _).1 rfl, (refdLine_iff cfg _ x l hx).1 h1⟩
      · rw [if_neg ha] at h; exact absurd h (by simp)
  · rintro ⟨rfl, rfl, alg, anc, h1, h2, h3, h4⟩
    rw [h1]
    simp only
    rw [if_pos h2, (refdLine_iff cfg _ x _ hx).2 h4, (closest_iff _ _).2 h3]
    rfl

theorem entries_iff (sec : Option Node) (line : Str) : ∀ (ids : List Str), (∀ x ∈ ids, ∀ c ∈ x, idChar c = true) → ∀ (es : List Entry),
    ids.mapM (entry cfg sec line) = some es ↔
      ids.length = es.length ∧ ∀ (k : Nat) x e, ids[k]? = some x → es[k]? = some e → EntryFor cfg sec line x e
  | [], _, es => by
    simp only [List.mapM_nil]
    constructor
    · intro h; injection h with h; subst h; simp
    · rintro ⟨h, _⟩
      cases es with
      | nil => rfl
      | cons _ _ => simp at h
  | x :: ids, hx, es => by
    have ih := entries_iff sec line ids (fun y hy => hx y (List.mem_cons_of_mem _ hy))
    simp only [List.mapM_cons, Option.pure_def, Option.bind_eq_bind, Option.bind_eq_some_iff, Option.some.injEq]
    constructor
    · rintro ⟨e, h1, es', h2, rfl⟩
      obtain ⟨g1, g2⟩ := (ih es').1 h2
      refine ⟨by simp [g1], ?_⟩
      intro k y f hy hf
      cases k with
      | zero =>
        simp only [List.getElem?_cons_zero, Option.some.injEq] at hy hf
        subst hy; subst hf
        exact (entry_iff cfg sec line x (hx x List.mem_cons_self) e).1 h1
      | succ k => exact g2 k y f (by simpa using hy) (by simpa using hf)
    · rintro ⟨g1, g2⟩
      cases es with
      | nil => simp at g1
      | cons e es =>
        refine ⟨e, (entry_iff cfg sec line x (hx x List.mem_cons_self) e).2 (g2 0 x e rfl rfl), es, ?_, rfl⟩
        exact (ih es).2 ⟨by simpa using g1, fun k y f hy hf => g2 (k + 1) y f (by simpa using hy) (by simpa using hf)⟩

variable {cfg} {doc : Node} {msgs : List (Nat × Str)}

theorem refAt_char {text : Str} {isWord : Char → Bool} {st : Nat} (h : RefAt text isWord st) : ∃ c, text[st]? = some c ∧ c ≠ '<' := by
  obtain ⟨pre, kw, d, rest, k, h1, h2, h3, _⟩ := h
  cases kw with
  | nil => simp at h3
  | cons c kw =>
    refine ⟨c, ?_, ?_⟩
    · rw [h1, ← h2, List.getElem?_append_right (Nat.le_refl _)]; simp
    · simp only [List.map_cons, List.cons_append, List.cons.injEq] at h3
      rintro rfl
      exact absurd h3.1 (by decide)

theorem atMatch_iff (hw : WordOk cfg.isWord) (hp : parse cfg.isWord cfg.text = some (doc, msgs)) {st : Nat}
    (hr : RefAt cfg.text cfg.isWord st) (es : List Entry) : atMatch cfg doc st = some es ↔ EntriesAt cfg doc st es := by
  obtain ⟨c, hc, hlt⟩ := refAt_char hr
  have hd := docOk_of_parse hw hp hc hlt
  unfold atMatch EntriesAt
  constructor
  · intro h
    cases hl : lineAt cfg st with
    | none => rw [hl] at h; exact absurd h (by simp)
    | some line =>
      rw [hl] at h
      simp only at h
      cases hde : deepest st [] doc with
      | none => rw [hde] at h; exact absurd h (by simp)
      | some path =>
        rw [hde] at h
        simp only at h
        by_cases hpo : parentOk path = true
        · rw [if_pos hpo] at h
          cases hs : stepIds (cfg.text.drop st) with
          | none => rw [hs] at h; exact absurd h (by simp)
          | some ids =>
            rw [hs] at h
            simp only at h
            obtain ⟨n, rest, rfl, h1, h2⟩ := (locate_iff hd path).1 hde
            cases rest with
            | nil => exact absurd hpo (by simp [parentOk])
            | cons parent anc =>
              have hids := (stepIds_iff _ _).1 hs
              have he := (entries_iff cfg _ _ ids (fun x hx => (refersTo_idChar hids x hx).2) es).1 h
              refine ⟨n, parent, anc, line, closest (n :: parent :: anc), ids, h1, h2, ?_, (lineAt_iff cfg st line).1 hl,
                (closest_at hd hde _).1 rfl, hids, he⟩
              simpa [parentOk] using hpo
        · rw [if_neg hpo] at h; exact absurd h (by simp)
  · rintro ⟨n, parent, anc, line, sec, ids, h1, h2, h3, h4, h5, h6, h7⟩
    have hde := (locate_iff hd (n :: parent :: anc)).2 ⟨n, _, rfl, h1, h2⟩
    rw [(lineAt_iff cfg st line).2 h4, hde]
    simp only
    have hpo : parentOk (n :: parent :: anc) = true := by simpa [parentOk] using h3
    rw [if_pos hpo, (stepIds_iff _ _).2 h6, (closest_at hd hde sec).2 h5]
    exact (entries_iff cfg _ _ ids (fun x hx => (refersTo_idChar h6 x hx).2) es).2 h7

theorem mapM_pairs {α β : Type} (f : α → Option β) : ∀ (l : List α) (ys : List β), l.mapM f = some ys ↔
    ∃ rs : List (α × β), rs.map (·.1) = l ∧ rs.map (·.2) = ys ∧ ∀ r ∈ rs, f r.1 = some r.2
  | [], ys => by
    simp only [List.mapM_nil]
    constructor
    · intro h; injection h with h; subst h; exact ⟨[], rfl, rfl, by simp⟩
    · rintro ⟨rs, h1, h2, _⟩
      cases rs with
      | nil => rw [← h2]; rfl
      | cons _ _ => simp at h1
  | a :: l, ys => by
    simp only [List.mapM_cons, Option.pure_def, Option.bind_eq_bind, Option.bind_eq_some_iff, Option.some.injEq]
    constructor
    · rintro ⟨y, h1, ys', h2, rfl⟩
      obtain ⟨rs, g1, g2, g3⟩ := (mapM_pairs f l ys').1 h2
      refine ⟨(a, y) :: rs, by simp [g1], by simp [g2], ?_⟩
      intro r hr
      rcases List.mem_cons.1 hr with rfl | hr
      · exact h1
      · exact g3 r hr
    · rintro ⟨rs, g1, g2, g3⟩
      cases rs with
      | nil => simp at g1
      | cons r rs =>
        simp only [List.map_cons, List.cons.injEq] at g1
        refine ⟨r.2, by rw [← g1.1]; exact g3 r List.mem_cons_self, rs.map (·.2),
          (mapM_pairs f l _).2 ⟨rs, g1.2, rfl, fun q hq => g3 q (List.mem_cons_of_mem _ hq)⟩, ?_⟩
        rw [← g2]; rfl

/-- C54: the entries are exactly those of the places where the word "step" or "steps" is followed by a digit or a tag, in order; it fails
iff one of these has no entries. -/
theorem c54_refs (hw : WordOk cfg.isWord) (hl : LettersOk cfg.isWord) (hp : parse cfg.isWord cfg.text = some (doc, msgs))
    (es : List Entry) : eachStepRef cfg doc = some es ↔
      ∃ refs : List (Nat × List Entry), (refs.map (·.1)).Pairwise (· < ·) ∧ (∀ st, st ∈ refs.map (·.1) ↔ RefAt cfg.text cfg.isWord st) ∧
        (∀ r ∈ refs, EntriesAt cfg doc r.1 r.2) ∧ es = refs.flatMap (·.2) := by
  obtain ⟨s1, s2⟩ := starts_spec hl cfg.text
  unfold eachStepRef
  rw [Option.map_eq_some_iff]
  constructor
  · rintro ⟨yss, h1, rfl⟩
    obtain ⟨rs, g1, g2, g3⟩ := (mapM_pairs _ _ _).1 h1
    refine ⟨rs, by rw [g1]; exact s2, by rw [g1]; exact s1, ?_, by rw [← g2, List.flatMap_def]⟩
    intro r hr
    exact (atMatch_iff hw hp ((s1 r.1).1 (by rw [← g1]; exact List.mem_map_of_mem hr)) r.2).1 (g3 r hr)
  · rintro ⟨rs, h1, h2, h3, rfl⟩
    refine ⟨rs.map (·.2), (mapM_pairs _ _ _).2 ⟨rs, ?_, rfl, ?_⟩, by rw [List.flatMap_def]⟩
    · exact sorted_unique _ _ h1 s2 (fun q => by rw [h2, s1])
    · intro r hr
      exact (atMatch_iff hw hp ((h2 r.1).1 (List.mem_map_of_mem hr)) r.2).2 (h3 r hr)

/-- C54: the node found for an offset is the one without children that the offset is in, and it comes with its ancestors. -/
theorem c54_locate (hw : WordOk cfg.isWord) (hp : parse cfg.isWord cfg.text = some (doc, msgs)) {p : Nat} {c : Char}
    (hc : cfg.text[p]? = some c) (hlt : c ≠ '<') (path : List Node) :
    deepest p [] doc = some path ↔ ∃ n anc, path = n :: anc ∧ Chain doc path ∧ Holds doc p n :=
  locate_iff (docOk_of_parse hw hp hc hlt) path

/-- C54: at an offset in a text (or another node without children), the search fails iff an element with content ends just there. -/
theorem c54_found (hw : WordOk cfg.isWord) (hp : parse cfg.isWord cfg.text = some (doc, msgs)) {p : Nat} {c : Char}
    (hc : cfg.text[p]? = some c) (hlt : c ≠ '<') {n : Node} (hn : In doc n) (hk : nKids n = []) (h1 : nStart n ≤ p) (h2 : p < nStop n) :
    deepest p [] doc = none ↔ ∃ m, In doc m ∧ nKids m ≠ [] ∧ nStop m = p := by
  have hd := docOk_of_parse hw hp hc hlt
  constructor
  · intro hnone
    refine Classical.byContradiction (fun hno => ?_)
    have hleaf : ∀ x, In doc x → Holds doc p x → False := by
      intro x hx hh
      obtain ⟨anc, ha⟩ := in_chain hx
      rw [(locate_iff hd (x :: anc)).2 ⟨x, anc, rfl, ha, hh⟩] at hnone
      exact absurd hnone (by simp)
    by_cases hm : nStart n = p ∧ ∃ m, In doc m ∧ nStop m = p
    · obtain ⟨_, m, hm, hs⟩ := hm
      have hw := hd.wide m hm hs
      refine hleaf m hm ⟨?_, by omega, by omega, fun e => absurd e (by omega)⟩
      exact Classical.byContradiction (fun hkm => hno ⟨m, hm, hkm, hs⟩)
    · refine hleaf n hn ⟨hk, h1, by omega, fun e m hmi hs => hm ⟨e, m, hmi, hs⟩⟩
  · rintro ⟨m, hm, hkm, hs⟩
    exact doc_none hd hm hkm hs

/-! ### The report -/

theorem readBack_loop : ∀ (es : List Entry) (cur : Option (Node × Option Str)) (outs : List Out) (r : Option Node) (s0 : Option Node) (l0 : Option Str),
    reportLoop cur es = some outs → (∀ s l, cur = some (s, l) → s0 = some s ∧ (∀ x, l = some x → l0 = some x)) →
    (∀ s t, (cur.map (·.1) = some s ∨ ∃ e ∈ es, e.sec = some s ∨ e.refdSec = some s) →
      (cur.map (·.1) = some t ∨ ∃ e ∈ es, e.sec = some t ∨ e.refdSec = some t) → nStart s = nStart t → s = t) →
    readBack s0 l0 r outs = es
  | [], cur, outs, r, s0, l0, h, _, _ => by
    simp only [reportLoop, Option.some.injEq] at h
    subst h
    rfl
  | e :: es, cur, outs, r, s0, l0, h, hc, hu => by
    obtain ⟨sec, line, refdSec, refdLine⟩ := e
    rw [reportLoop] at h
    match sec, refdSec, h with
    | some s, some t, h =>
      simp only [Option.map_eq_some_iff] at h
      obtain ⟨outs', h1, rfl⟩ := h
      have hu' : ∀ a b, ((some (s, some line)).map (·.1) = some a ∨ ∃ e ∈ es, e.sec = some a ∨ e.refdSec = some a) →
          ((some (s, some line)).map (·.1) = some b ∨ ∃ e ∈ es, e.sec = some b ∨ e.refdSec = some b) → nStart a = nStart b → a = b := by
        have hlift : ∀ a, ((some (s, some line)).map (·.1) = some a ∨ ∃ e ∈ es, e.sec = some a ∨ e.refdSec = some a) →
            (cur.map (·.1) = some a ∨ ∃ e ∈ (⟨some s, line, some t, refdLine⟩ :: es : List Entry), e.sec = some a ∨ e.refdSec = some a) := by
          rintro a (h | ⟨e, he, h⟩)
          · exact Or.inr ⟨_, List.mem_cons_self, Or.inl h⟩
          · exact Or.inr ⟨e, List.mem_cons_of_mem _ he, h⟩
        intro a b ha hb
        exact hu a b (hlift a ha) (hlift b hb)
      have ih := fun (l0 : Str) (hl : l0 = line) r => readBack_loop es (some (s, some line)) outs' r (some s) (some l0) h1
        (by intro s' l' e; injection e with e; injection e with e1 e2; subst e1; subst e2; subst hl
            exact ⟨rfl, fun x hx => hx⟩) hu'
      have htail : ∀ outs0, readBack (some s) (some line) r
          ((if nStart t = nStart s then Out.same else Out.other t) :: Out.refd refdLine :: outs0) =
            ⟨some s, line, some t, refdLine⟩ :: readBack (some s) (some line) (some t) outs0 := by
        intro outs0
        by_cases ht : nStart t = nStart s
        · have hts := hu t s (Or.inr ⟨_, List.mem_cons_self, Or.inr rfl⟩) (Or.inr ⟨_, List.mem_cons_self, Or.inl rfl⟩) ht
          rw [if_pos ht, hts]
          rfl
        · rw [if_neg ht]
          rfl
      have hmain : ∀ l? : Option Str, (∀ x, l? = some x → l0 = some x) →
          readBack (some s) l0 r ((if l? = some line then [] else [Out.line line]) ++
            ((if nStart t = nStart s then Out.same else Out.other t) :: Out.refd refdLine :: outs')) =
            ⟨some s, line, some t, refdLine⟩ :: es := by
        intro l? hl
        by_cases hll : l? = some line
        · rw [if_pos hll, hl line hll, List.nil_append, htail, ih line rfl]
        · rw [if_neg hll]
          simp only [List.singleton_append, readBack]
          rw [htail, ih line rfl]
      match cur, hc, hu with
      | none, hc, hu =>
        have := hmain none (by simp)
        simpa [readBack] using this
      | some (s', l'), hc, hu =>
        obtain ⟨hs0, hl0⟩ := hc s' l' rfl
        simp only
        by_cases hss : nStart s = nStart s'
        · have hse : s = s' := hu s s' (Or.inr ⟨_, List.mem_cons_self, Or.inl rfl⟩) (Or.inl rfl) hss
          simp only [if_pos hss]
          rw [hs0, ← hse]
          have := hmain l' hl0
          simpa [readBack] using this
        · simp only [if_neg hss]
          have := hmain none (by simp)
          simpa [readBack] using this

/-- C54: the report says everything about every reference: read back, it gives the entries.  The ids belong to nodes of the document. -/
theorem c54_report (hw : WordOk cfg.isWord) (hl : LettersOk cfg.isWord) (hp : parse cfg.isWord cfg.text = some (doc, msgs))
    (hids : ∀ x path, cfg.nodeWithId x = some path → Chain doc path) (outs : List Out) (h : report cfg doc = some outs) :
    ∃ es, eachStepRef cfg doc = some es ∧ readBack none none none outs = es := by
  unfold report at h
  rw [Option.bind_eq_some_iff] at h
  obtain ⟨es, h1, h2⟩ := h
  refine ⟨es, h1, readBack_loop es none outs none none none h2 (by simp) ?_⟩
  obtain ⟨refs, g1, g2, g3, rfl⟩ := (c54_refs hw hl hp es).1 h1
  have hsec : ∀ s, (∃ e ∈ refs.flatMap (·.2), e.sec = some s ∨ e.refdSec = some s) → In doc s ∧ Section s := by
    rintro s ⟨e, he, hes⟩
    obtain ⟨r, hr, he⟩ := List.mem_flatMap.1 he
    obtain ⟨n, parent, anc, line, sec, ids, _, _, _, _, k1, _, k2, k3⟩ := g3 r hr
    obtain ⟨k, hk⟩ := List.getElem?_of_mem he
    have hlt : k < ids.length := by
      rw [k2]
      rcases Nat.lt_or_ge k r.2.length with h | h
      · exact h
      · rw [List.getElem?_eq_none h] at hk; exact absurd hk (by simp)
    obtain ⟨q1, _, alg, anc', q2, _, q3, _⟩ := k3 k ids[k] e (List.getElem?_eq_getElem hlt) hk
    rcases hes with hes | hes
    · rw [q1] at hes
      subst hes
      exact ⟨k1.1, k1.2.1⟩
    · rw [hes] at q3
      obtain ⟨a, b, h3, h4, _⟩ := q3
      exact ⟨chain_in (hids _ _ q2) s (by rw [h3]; simp), h4⟩
  intro s t hs ht he
  rcases hs with hs | hs
  · simp at hs
  · rcases ht with ht | ht
    · simp at ht
    · obtain ⟨a1, a2⟩ := hsec s hs
      obtain ⟨b1, b2⟩ := hsec t ht
      exact sections_unique hw hp a1 b1 a2 b2 he

/-- C54: a report comes out iff there are entries, all with sections. -/
theorem c54_report_iff (cfg : Cfg) (doc : Node) : (∃ outs, report cfg doc = some outs) ↔
    ∃ es, eachStepRef cfg doc = some es ∧ ∀ e ∈ es, e.sec ≠ none ∧ e.refdSec ≠ none := by
  have hloop : ∀ (es : List Entry) cur, (∃ outs, reportLoop cur es = some outs) ↔ ∀ e ∈ es, e.sec ≠ none ∧ e.refdSec ≠ none := by
    intro es
    induction es with
    | nil => intro cur; simp [reportLoop]
    | cons e es ih =>
      intro cur
      obtain ⟨sec, line, refdSec, refdLine⟩ := e
      rw [List.forall_mem_cons]
      match sec, refdSec with
      | some s, some t =>
        have := ih (some (s, some line))
        rw [← this, reportLoop]
        simp only [Option.map_eq_some_iff, ne_eq, reduceCtorEq, not_false_eq_true, and_self, true_and]
        constructor
        · rintro ⟨_, a, h, _⟩; exact ⟨a, h⟩
        · rintro ⟨a, h⟩; exact ⟨_, a, h, rfl⟩
      | none, x => simp [reportLoop]
      | some s, none => simp [reportLoop]
  unfold report
  constructor
  · rintro ⟨outs, h⟩
    obtain ⟨es, h1, h2⟩ := Option.bind_eq_some_iff.1 h
    exact ⟨es, h1, (hloop es none).1 ⟨outs, h2⟩⟩
  · rintro ⟨es, h1, h2⟩
    obtain ⟨outs, h⟩ := (hloop es none).2 h2
    exact ⟨outs, by rw [h1]; exact h⟩

/-! ### Cases -/

/-- ASCII letters, digits and underscores. -/
def exWord (c : Char) : Bool := Verif.HTML.isLower c || ('A' ≤ c && c ≤ 'Z') || isDigit c || c = '_' || c = 'K' || c = 'ſ' || c = 'İ' || c = 'ı'
def exSpace (c : Char) : Bool := c = ' ' || c = '\n'

/-- The place of an algorithm in a document, with its ancestors. -/
def exAlg (doc : Node) : Option (List Node) :=
  (nKids doc).findSome? (fun sec => (nKids sec).findSome? (fun a => if nName a = "emu-alg".toList then some [a, sec, doc] else none))

def exCfg (text : Str) : Cfg where
  text := text
  isWord := exWord
  space := exSpace
  nodeWithId x := if x ∈ ["step-a".toList, "step-b".toList] then
      (parse exWord text).bind (fun d => exAlg d.1)
    else none

structure Shown where
  sec : Option Nat
  line : Str
  refdSec : Option Nat
  refdLine : Str
deriving DecidableEq

/-- The entries, with the sections given by where they start. -/
def shown (text : Str) : Option (List Shown) :=
  (parse exWord text).bind (fun d => (eachStepRef (exCfg text) d.1).map (·.map (fun e => ⟨e.sec.map nStart, e.line, e.refdSec.map nStart, e.refdLine⟩)))

def exText : Str :=
  "<emu-clause>\n<emu-alg>\n  1. [id=\"step-a\"] A.\n  1. [id=\"step-b\"] B.\n</emu-alg></emu-clause><emu-clause>\n<p>\n  See steps <emu-xref href=\"#step-a\"></emu-xref> and <emu-xref href=\"#step-b\"></emu-xref>.\n</p></emu-clause>".toList

example : shown exText = some
    [⟨some 90, "See steps <emu-xref href=\"#step-a\"></emu-xref> and <emu-xref href=\"#step-b\"></emu-xref>.".toList, some 0, "1. [id=\"step-a\"] A.".toList⟩,
     ⟨some 90, "See steps <emu-xref href=\"#step-a\"></emu-xref> and <emu-xref href=\"#step-b\"></emu-xref>.".toList, some 0, "1. [id=\"step-b\"] B.".toList⟩] := by
  decide +kernel

theorem exWord_ok : WordOk exWord := by
  refine ⟨?_, ?_, by decide, by decide, by decide⟩
  · intro c h; simp [exWord, h]
  · intro c h1 h2; simp [exWord, isDigit, h1, h2]

theorem exWord_letters : LettersOk exWord := by
  intro c hc
  unfold fold at hc
  by_cases hA : 'A' ≤ c ∧ c ≤ 'Z'
  · simp [exWord, hA.1, hA.2]
  rw [if_neg hA] at hc
  by_cases hK : c = 'K'
  · subst hK; decide
  rw [if_neg hK] at hc
  by_cases hS : c = 'ſ'
  · subst hS; decide
  rw [if_neg hS] at hc
  by_cases hI : c = 'İ' ∨ c = 'ı'
  · rcases hI with rfl | rfl <;> decide
  rw [if_neg hI] at hc
  simp only [List.mem_cons, List.not_mem_nil, or_false] at hc
  rcases hc with rfl | rfl | rfl | rfl <;> decide

theorem exMet (text : Str) (k : Nat) (h : ((parse exWord text).bind (fun d => (eachStepRef (exCfg text) d.1).map List.length)) = some k) :
    WordOk (exCfg text).isWord ∧ LettersOk (exCfg text).isWord ∧ ∃ doc msgs, parse (exCfg text).isWord (exCfg text).text = some (doc, msgs) ∧
      ∃ es, eachStepRef (exCfg text) doc = some es ∧ es.length = k := by
  refine ⟨exWord_ok, exWord_letters, ?_⟩
  obtain ⟨⟨d, ms⟩, h1, h2⟩ := Option.bind_eq_some_iff.1 h
  obtain ⟨es, h3, h4⟩ := Option.map_eq_some_iff.1 h2
  exact ⟨d, ms, h1, es, h3, h4⟩

/-- The hypotheses are met. -/
example := exMet exText 2 (by decide +kernel)

/-- Only the lists with the forms above are read to their end: of two steps after "step", the second isn't reported, as the text fits
the last form. -/
theorem c54_cut_short_witness : shown
    "<emu-clause>\n<emu-alg>\n  1. [id=\"step-a\"] A.\n  1. See step <emu-xref href=\"#step-a\"></emu-xref>, <emu-xref href=\"#step-b\"></emu-xref>.\n</emu-alg></emu-clause>".toList =
      some [⟨some 0, "1. See step <emu-xref href=\"#step-a\"></emu-xref>, <emu-xref href=\"#step-b\"></emu-xref>.".toList, some 0,
        "1. [id=\"step-a\"] A.".toList⟩] := by decide +kernel

def exAfter (gap : Str) : Str :=
  "<emu-clause>\n<emu-alg>\n  1. [id=\"step-a\"] A.\n  1. <b>See</b>".toList ++ gap ++
    "step <emu-xref href=\"#step-a\"></emu-xref>.\n</emu-alg></emu-clause>".toList

/-- A reference just after an element with content makes the program fail; with a space between them, it doesn't. -/
theorem c54_after_element_witness : (shown (exAfter [])).map List.length = none ∧ (shown (exAfter [' '])).map List.length = some 1 := by
  decide +kernel

/-- Cross-references with something between them. -/
def exRefs (w : Str) : List (Str × Str) → Str
  | [] => w
  | (x, sep) :: r => exRefs (w ++ "<emu-xref href=\"#".toList ++ x ++ "\"></emu-xref>".toList ++ sep) r

/-- "steps" with a lone step isn't one of the forms. -/
example : stepIds (exRefs "steps ".toList [(['a'], ['.'])]) = none := by decide +kernel
example : stepIds (exRefs "Step ".toList [(['a'], ['.'])]) = some [['a']] := by decide +kernel
example : stepIds (exRefs "steps ".toList [(['a'], ", ".toList), (['b'], ", and ".toList), (['c'], ['.'])]) = some [['a'], ['b'], ['c']] := by decide +kernel
example : stepIds (exRefs "steps ".toList [(['a'], ", ".toList), (['b'], ", ".toList), (['c'], ['.'])]) = none := by decide +kernel
example : stepIds (exRefs "STEPS ".toList [(['a'], "–".toList), (['b'], ['.'])]) = some [['a'], ['b']] := by decide +kernel
example : stepIds (exRefs "steps ".toList [(['a'], "-".toList), (['b'], ['.'])]) = some [['a'], ['b']] := by decide +kernel
example : stepIds (exRefs "step ".toList [(['a'], ", ".toList), (['b'], ", ".toList), (['c'], ", ".toList), (['d'], ['.'])]) =
    some [['a'], ['b'], ['c'], ['d']] := by decide +kernel
example : stepIds (exRefs "step ".toList [(['a'], ", ".toList), (['b'], ", ".toList), (['c'], ", ".toList), (['d'], ", ".toList), (['e'], [])]) =
    some [['a'], ['b'], ['c'], ['d'], ['e']] := by decide +kernel
example : stepIds (exRefs "step ".toList [(['a'], ", ".toList), (['b'], ", ".toList), (['c'], ['.'])]) = some [['a']] := by decide +kernel

/-- Where references are found. -/
example : starts exWord 0 none 0 "Step 1, footstep 2, steps <, stepss 3, step x, STEPS 4".toList = [0, 20, 29, 47] := by decide +kernel

end Verif.StepRefs
