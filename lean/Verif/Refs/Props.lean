import Verif.Refs.ArgLemmas
import Verif.Refs.ProdLemmas
import Verif.Defs.Props
/-!
# C57: references to nonterminals, in the text and in annex A, are checked against the definitions
-/
namespace Verif.Refs
open Verif.Refs.Spec
open Verif.Defs (Str Table Block process)
open Verif.Defs.Spec (Defines Defined Counts Before prodns)

/-! ## Annex A -/

/-- The check of the references of annex A stops exactly if one of them has no name, names something without a definition in the main body, or is to
a part of a production without an earlier one to the whole. -/
theorem c57_annex_stops (doc : List Block) (ds : List Defs.Msg) (t : Table) (h : process doc = some (ds, t)) (rs : List ProdRef) :
    checkProdRefs t rs = none ↔ ∃ k : Nat, StopsAt doc rs k := by
  have hi := (Defs.process_some doc ds t h).1
  obtain ⟨h1, _⟩ := refLoop_spec hi rs [] [] (by simp)
  simp only [List.nil_append, List.length_nil, Nat.zero_le, true_and] at h1
  rw [← h1]
  unfold checkProdRefs
  cases refLoop t rs [] with
  | none => simp
  | some x => simp

/-- Otherwise there is a warning at each reference to a whole production that isn't the first to it, in the order of the document; and an error at
each definition of the main body without a reference, in the order of the places. -/
theorem c57_annex (doc : List Block) (ds : List Defs.Msg) (t : Table) (h : process doc = some (ds, t)) (rs : List ProdRef) (r : ProdReport)
    (hr : checkProdRefs t rs = some r) :
    (∃ ks : List Nat, ks.Pairwise (· < ·) ∧ (∀ k, k ∈ ks ↔ Second rs k) ∧ r.second.map some = ks.map (fun k => (rs[k]?).map (·.pos))) ∧
    ∃ l, InOrder l ∧ (∀ p n, (p, n) ∈ l ↔ (∃ i q, Defines doc i .A n q ∧ q.lhs.pos = p) ∧ ¬∃ k : Nat, Whole rs k n) ∧
      r.missing = l.map (·.1) := by
  have hi := (Defs.process_some doc ds t h).1
  obtain ⟨_, h2⟩ := refLoop_spec hi rs [] [] (by simp)
  simp only [List.nil_append, List.length_nil, Nat.zero_le, true_and] at h2
  unfold checkProdRefs at hr
  split at hr
  · cases hr
  · rename_i second names hl
    cases hr
    obtain ⟨h3, h4⟩ := h2 _ _ hl
    refine ⟨h4, (sortPairs (mainNames t)).filter (fun x => !(x.2 ∈ names)), ?_, ?_, ?_⟩
    · refine ((sorted_sortPairs _ (nodup_mainNames t hi.nodup)).filter _).imp ?_
      intro a b hab
      rw [pairLt_iff, Defs.strLt_iff] at hab
      exact hab
    · intro p n
      rw [List.mem_filter, mem_sortPairs, mem_mainNames hi, ← h3]
      simp
    · simp only
      induction sortPairs (mainNames t) with
      | nil => rfl
      | cons x l ih =>
        rw [List.flatMap_cons, List.filter_cons, ih]
        by_cases hx : x.2 ∈ names <;> simp [hx]

/-! ## The text -/

/-- What is taken for references is determined by the text. -/
theorem c57_references_unique (word : Char → Bool) (text : Str) (l l' : List (Nat × Str)) (h : Refs word text l) (h' : Refs word text l') : l = l' :=
  refs_unique word h h'

section
variable (word : Char → Bool) (hb : word '[' = false) (hq : word '?' = false)
include hb hq

/-- What becomes of one reference. -/
theorem refMsgs_spec {doc : List Block} {ds : List Defs.Msg} {t : Table} (h : process doc = some (ds, t)) (text : Str) (p : Nat) (b : Str) :
    (refMsgs word t text p b = none ↔ Stops word doc text p b) ∧
    ∀ ms, refMsgs word t text p b = some ms ↔ Says word doc text p b ms := by
  have hi := (Defs.process_some doc ds t h).1
  cases hp : partsOf word b with
  | none =>
    have hn := (partsOf_none word hb hq b).1 hp
    simp only [refMsgs, hp]
    refine ⟨?_, ?_⟩
    · simp only [reduceCtorEq, false_iff]
      rintro ⟨nt, a, as, h1, _⟩
      exact hn ⟨nt, some a, h1⟩
    · intro ms
      constructor
      · intro h; cases h; exact .malformed hn
      · intro h
        cases h with
        | malformed _ => rfl
        | unrecognized nt a h1 _ => exact absurd ⟨nt, a, h1⟩ hn
        | plain nt h1 _ => exact absurd ⟨nt, none, h1⟩ hn
        | agree nt a _ _ _ _ _ _ h1 => exact absurd ⟨nt, some a, h1⟩ hn
        | differ nt a _ _ _ _ _ _ h1 => exact absurd ⟨nt, some a, h1⟩ hn
  | some x =>
    obtain ⟨nt, args⟩ := x
    have hpp := (partsOf_iff word hb hq b nt args).1 hp
    cases hl : t.lookup nt with
    | none =>
      have hnd : ¬Defined doc nt := by
        rw [← Defs.defined_iff hi]
        rintro ⟨info, hinfo⟩
        rw [hl] at hinfo
        cases hinfo
      have hnc : ∀ a i q, ¬Counts doc a nt i q := by
        rintro a i q (hc | ⟨_, hc⟩)
        · exact hnd ⟨_, _, _, hc⟩
        · exact hnd ⟨_, _, _, hc⟩
      simp only [refMsgs, hp, hl]
      refine ⟨?_, ?_⟩
      · simp only [reduceCtorEq, false_iff]
        rintro ⟨nt', a, as, h1, h2, _⟩
        obtain ⟨rfl, _⟩ := parts_unique word hb hq hpp h1
        exact hnd h2
      · intro ms
        constructor
        · intro h; cases h; exact .unrecognized nt args hpp hnd
        · intro h
          cases h with
          | malformed hn => exact absurd ⟨nt, args, hpp⟩ hn
          | unrecognized nt' a h1 _ => obtain ⟨rfl, _⟩ := parts_unique word hb hq hpp h1; rfl
          | plain nt' h1 h2 => obtain ⟨rfl, _⟩ := parts_unique word hb hq hpp h1; exact absurd h2 hnd
          | agree nt' a _ _ _ _ _ _ h1 _ _ _ h2 => obtain ⟨rfl, _⟩ := parts_unique word hb hq hpp h1; exact absurd h2 (hnc _ _ _)
          | differ nt' a _ _ _ _ _ _ h1 _ _ _ h2 => obtain ⟨rfl, _⟩ := parts_unique word hb hq hpp h1; exact absurd h2 (hnc _ _ _)
    | some info =>
      have hd : Defined doc nt := (Defs.defined_iff hi nt).1 ⟨info, hl⟩
      cases args with
      | none =>
        simp only [refMsgs, hp, hl]
        refine ⟨?_, ?_⟩
        · simp only [reduceCtorEq, false_iff]
          rintro ⟨nt', a, as, h1, _⟩
          cases (parts_unique word hb hq hpp h1).2
        · intro ms
          constructor
          · intro h; cases h; exact .plain nt hpp hd
          · intro h
            cases h with
            | malformed hn => exact absurd ⟨nt, none, hpp⟩ hn
            | unrecognized nt' a h1 h2 => obtain ⟨rfl, _⟩ := parts_unique word hb hq hpp h1; exact absurd hd h2
            | plain nt' _ _ => rfl
            | agree nt' a _ _ _ _ _ _ h1 => cases (parts_unique word hb hq hpp h1).2
            | differ nt' a _ _ _ _ _ _ h1 => cases (parts_unique word hb hq hpp h1).2
      | some a =>
        have hpc := pieces_splitGo a
        have hpl := (arenaAt_iff text p _).1 rfl
        have place_eq : ∀ x, Place text p x → x = arenaAt text p := fun x hx => ((arenaAt_iff text p x).2 hx).symm
        simp only [refMsgs, hp, hl]
        cases hloop : argLoop p (splitGo false [] a) with
        | none =>
          have hemp := (argLoop_none _ _).1 hloop
          simp only
          refine ⟨⟨fun _ => ⟨nt, a, _, hpp, hd, hpc, Or.inl hemp⟩, fun _ => trivial⟩, ?_⟩
          intro ms
          simp only [reduceCtorEq, false_iff]
          intro h
          have noargs : ∀ as ns bs, Pieces a as → ¬Args as ns bs := by
            intro as ns bs h1 h2
            rw [pieces_unique h1 hpc] at h2
            rw [(argLoop_iff p _ _ ns).2 ⟨bs, h2, rfl⟩] at hloop
            cases hloop
          cases h with
          | malformed hn => exact absurd ⟨nt, _, hpp⟩ hn
          | unrecognized nt' a h1 h2 => obtain ⟨rfl, _⟩ := parts_unique word hb hq hpp h1; exact absurd hd h2
          | plain nt' h1 _ => cases (parts_unique word hb hq hpp h1).2
          | agree nt' a' _ _ _ _ _ _ h1 h2 h3 => cases (parts_unique word hb hq hpp h1).2; exact noargs _ _ _ h2 h3
          | differ nt' a' _ _ _ _ _ _ h1 h2 h3 => cases (parts_unique word hb hq hpp h1).2; exact noargs _ _ _ h2 h3
        | some y =>
          obtain ⟨ms0, ns⟩ := y
          obtain ⟨bs, hargs, rfl⟩ := (argLoop_iff _ _ _ _).1 hloop
          have hne : [] ∉ splitGo false [] a := by
            rw [← argLoop_none p, hloop]
            simp
          cases happ : Defs.appropriate info (arenaAt text p) with
          | none =>
            have hnc := (Defs.appropriate_none hi hl).1 happ
            simp only
            refine ⟨⟨fun _ => ⟨nt, a, _, hpp, hd, hpc, Or.inr ⟨_, hpl, hnc⟩⟩, fun _ => trivial⟩, ?_⟩
            intro ms
            simp only [reduceCtorEq, false_iff]
            intro h
            cases h with
            | malformed hn => exact absurd ⟨nt, _, hpp⟩ hn
            | unrecognized nt' a h1 h2 => obtain ⟨rfl, _⟩ := parts_unique word hb hq hpp h1; exact absurd hd h2
            | plain nt' h1 _ => cases (parts_unique word hb hq hpp h1).2
            | agree nt' a' _ _ _ x i q h1 h2 h3 h4 h5 =>
              obtain ⟨rfl, e⟩ := parts_unique word hb hq hpp h1
              rw [place_eq x h4] at h5
              exact hnc ⟨i, q, h5⟩
            | differ nt' a' _ _ _ x i q h1 h2 h3 h4 h5 =>
              obtain ⟨rfl, e⟩ := parts_unique word hb hq hpp h1
              rw [place_eq x h4] at h5
              exact hnc ⟨i, q, h5⟩
          | some d =>
            obtain ⟨s, q, rs, k1, k2, k3, k4⟩ := Defs.appropriate_some hi hl happ
            have hpar : d.prod.params = q.lhs.args.map (·.name) := by rw [k3]; rfl
            simp only [hpar]
            refine ⟨?_, ?_⟩
            · simp only [reduceCtorEq, false_iff]
              rintro ⟨nt', a', as, h1, h2, h3, h4⟩
              obtain ⟨rfl, e⟩ := parts_unique word hb hq hpp h1
              cases e
              rcases h4 with h4 | ⟨x, h4, h5⟩
              · rw [pieces_unique h3 hpc] at h4
                exact hne h4
              · rw [place_eq x h4] at h5
                exact h5 ⟨_, _, k4⟩
            · intro ms
              constructor
              · intro h
                cases h
                by_cases hns : ns = q.lhs.args.map (·.name)
                · have := Says.agree (word := word) (text := text) nt a _ bs ns _ _ q hpp hpc hargs hpl k4 hns
                  simp only [hns, ne_eq, not_true_eq_false, if_false, List.append_nil]
                  exact this
                · have := Says.differ (word := word) (text := text) nt a _ bs ns _ _ q hpp hpc hargs hpl k4 hns
                  simp only [ne_eq, hns, not_false_eq_true, if_true]
                  exact this
              · intro h
                cases h with
                | malformed hn => exact absurd ⟨nt, _, hpp⟩ hn
                | unrecognized nt' a h1 h2 => obtain ⟨rfl, _⟩ := parts_unique word hb hq hpp h1; exact absurd hd h2
                | plain nt' h1 _ => cases (parts_unique word hb hq hpp h1).2
                | agree nt' a' as bs' ns' x i q' h1 h2 h3 h4 h5 h6 =>
                  obtain ⟨rfl, e⟩ := parts_unique word hb hq hpp h1
                  cases e
                  rw [pieces_unique h2 hpc] at h3
                  obtain ⟨rfl, rfl⟩ := args_unique hargs h3
                  rw [place_eq x h4] at h5
                  obtain ⟨_, rfl⟩ := Defs.counts_unique hi k4 h5
                  simp [h6]
                | differ nt' a' as bs' ns' x i q' h1 h2 h3 h4 h5 h6 =>
                  obtain ⟨rfl, e⟩ := parts_unique word hb hq hpp h1
                  cases e
                  rw [pieces_unique h2 hpc] at h3
                  obtain ⟨rfl, rfl⟩ := args_unique hargs h3
                  rw [place_eq x h4] at h5
                  obtain ⟨_, rfl⟩ := Defs.counts_unique hi k4 h5
                  simp only [ne_eq, h6, not_false_eq_true, if_true]

/-- The check of the text stops exactly if one of the references does that. -/
theorem c57_stops (doc : List Block) (ds : List Defs.Msg) (t : Table) (h : process doc = some (ds, t)) (text : Str) :
    checkRefs word t text = none ↔ ∃ l, Refs word text l ∧ ∃ x ∈ l, Stops word doc text x.1 x.2 := by
  unfold checkRefs
  rw [Option.map_eq_none_iff]
  have key : ∀ l : List (Nat × Str), l.mapM (fun x => refMsgs word t text x.1 x.2) = none ↔ ∃ x ∈ l, Stops word doc text x.1 x.2 := by
    intro l
    induction l with
    | nil => simp
    | cons a l ih =>
      have ha := (refMsgs_spec word hb hq h text a.1 a.2).1
      rw [List.mapM_cons]
      cases he : refMsgs word t text a.1 a.2 with
      | none => exact ⟨fun _ => ⟨a, List.mem_cons_self .., ha.1 he⟩, fun _ => rfl⟩
      | some m =>
        have hna : ¬Stops word doc text a.1 a.2 := fun h2 => by rw [ha.2 h2] at he; cases he
        cases hl : l.mapM (fun x => refMsgs word t text x.1 x.2) with
        | none =>
          obtain ⟨x, hx, h2⟩ := ih.1 hl
          exact ⟨fun _ => ⟨x, List.mem_cons_of_mem _ hx, h2⟩, fun _ => rfl⟩
        | some ms =>
          refine ⟨(fun h2 => by cases h2), ?_⟩
          rintro ⟨x, hx, h2⟩
          rcases List.mem_cons.1 hx with rfl | hx
          · exact absurd h2 hna
          · have := ih.2 ⟨x, hx, h2⟩
            rw [hl] at this
            cases this
  rw [key]
  constructor
  · intro h2
    exact ⟨_, scan_refs word text, h2⟩
  · rintro ⟨l, h1, h2⟩
    rw [refs_unique word (scan_refs word text) h1]
    exact h2

/-- Otherwise the messages are those on the references, one reference after the other. -/
theorem c57_messages (doc : List Block) (ds : List Defs.Msg) (t : Table) (h : process doc = some (ds, t)) (text : Str) (ms : List Msg)
    (hm : checkRefs word t text = some ms) :
    ∃ (l : List (Nat × Str)) (parts : List (List Msg)), Refs word text l ∧ parts.length = l.length ∧
      (∀ (i : Nat) x, l[i]? = some x → ∃ m, parts[i]? = some m ∧ Says word doc text x.1 x.2 m) ∧ ms = parts.flatten := by
  unfold checkRefs at hm
  rw [Option.map_eq_some_iff] at hm
  obtain ⟨parts, h1, rfl⟩ := hm
  refine ⟨_, parts, scan_refs word text, ?_⟩
  have key : ∀ (l : List (Nat × Str)) (parts : List (List Msg)), l.mapM (fun x => refMsgs word t text x.1 x.2) = some parts →
      parts.length = l.length ∧ ∀ (i : Nat) x, l[i]? = some x → ∃ m, parts[i]? = some m ∧ Says word doc text x.1 x.2 m := by
    intro l
    induction l with
    | nil =>
      intro parts h
      cases h
      exact ⟨rfl, by simp⟩
    | cons a l ih =>
      intro parts hp
      simp only [List.mapM_cons, Option.pure_def, Option.bind_eq_bind, Option.bind_eq_some_iff, Option.some.injEq] at hp
      obtain ⟨m, hm, ms, hms, rfl⟩ := hp
      obtain ⟨k1, k2⟩ := ih ms hms
      refine ⟨by simp [k1], ?_⟩
      intro i x hx
      cases i with
      | zero =>
        simp only [List.getElem?_cons_zero, Option.some.injEq] at hx
        subst hx
        exact ⟨m, rfl, ((refMsgs_spec word hb hq h text a.1 a.2).2 m).1 hm⟩
      | succ i => exact k2 i x hx
  obtain ⟨k1, k2⟩ := key _ _ h1
  exact ⟨k1, k2, rfl⟩

/-- What is said on a reference is determined. -/
theorem c57_says_unique (doc : List Block) (ds : List Defs.Msg) (t : Table) (h : process doc = some (ds, t)) (text : Str) (p : Nat) (b : Str)
    (ms ms' : List Msg) (h1 : Says word doc text p b ms) (h2 : Says word doc text p b ms') : ms = ms' := by
  rw [← (refMsgs_spec word hb hq h text p b).2] at h1 h2
  rw [h1] at h2
  cases h2
  rfl

end

/-! ## The small grammar of C55 -/

/-- ASCII letters and digits. -/
def w (c : Char) : Bool := c.isAlphanum || c = '_'

def theTable : Table := ((process Defs.exDoc).map (·.2)).getD []

example : (process Defs.exDoc).isSome := by decide +kernel
example : process Defs.exDoc = some (((process Defs.exDoc).map (·.1)).getD [], theTable) := by decide +kernel
example : w '[' = false ∧ w '?' = false := by decide

/-- References that are as they should be, and others: without a sign, in the wrong order, to nothing, and malformed. -/
example : checkRefs w theTable
    "a |Stmt[?Yield]| b |IfStmt[Yield]|, |Yexpr[+In,  ~Yield]?|; |Yexpr[?Yield, ?In]| c |Nope| d |Stmt or so| |Word?| |Word[]| namespace=\"annexB\"".toList =
    some [⟨19, .noPrefix "Yield".toList⟩,
      ⟨60, .mismatch "?Yield, ?In".toList ["In".toList, "Yield".toList]⟩,
      ⟨83, .unrecognized "Nope".toList⟩, ⟨92, .malformed⟩, ⟨113, .malformed⟩] := by decide +kernel

/-- An empty argument stops it. -/
example : checkRefs w theTable "|Yexpr[+In, , ~Yield]|".toList = none := by decide +kernel
example : checkRefs w theTable "|Yexpr[+In, ]|".toList = none := by decide +kernel

/-- So do arguments for a nonterminal that only annex B defines, before the mark of annex B; after it they are compared. -/
example : checkRefs w theTable "|Decl[+In]| namespace=\"annexB\"".toList = none := by decide +kernel
example : checkRefs w theTable "namespace=\"annexB\" |Decl[+In]|".toList = some [⟨19, .mismatch "+In".toList []⟩] := by decide +kernel

/-- The references in annex A: the one of `Yexpr` is missing, and there are two of `Stmt`. -/
example : checkProdRefs theTable [⟨1, some "Stmt".toList, false⟩, ⟨2, some "Word".toList, false⟩, ⟨3, some "Stmt".toList, true⟩,
    ⟨4, some "Stmt".toList, false⟩] = some ⟨[4], [200, 300]⟩ := by decide +kernel
example : checkProdRefs theTable [⟨1, some "Stmt".toList, true⟩, ⟨2, some "Stmt".toList, false⟩] = none := by decide +kernel
example : checkProdRefs theTable [⟨1, some "Decl".toList, false⟩] = none := by decide +kernel
example : checkProdRefs theTable [⟨1, none, false⟩] = none := by decide +kernel

/-! ## What the check of the text misses, and what it shouldn't look at -/

/-- A reference to a nonterminal with a name of one letter isn't looked at: there is no such nonterminal, and no message. -/
theorem c57_one_letter_witness : ∃ text : Str, (∃ a b, text = a ++ "|N|".toList ++ b) ∧ theTable.lookup "N".toList = none ∧ checkRefs w theTable text = some [] :=
  ⟨"See |N|.".toList, ⟨"See ".toList, ".".toList, rfl⟩, by decide +kernel, by decide +kernel⟩

/-- What is between two such references can be taken for one. -/
theorem c57_between_witness : checkRefs w theTable "|N|and then|M|".toList = some [⟨2, .malformed⟩] := by decide +kernel

/-- If the text has no mark of annex B then the definitions of annex B are taken for the whole text: the reference fits the definition of the main
body, and there is a message. -/
theorem c57_no_mark_witness : ∃ (doc : List Block) (ds : List Defs.Msg) (t : Table) (i : Nat) (q : Defs.Prodn), process doc = some (ds, t) ∧
    Defines doc i .A "Word".toList q ∧ q.lhs.args.map (·.name) = ["In".toList] ∧
    checkRefs w t "|Word[?In]|".toList = some [⟨0, .mismatch "?In".toList []⟩] := by
  refine ⟨[⟨true, Defs.clause "Words" "12.7", true, [{ Defs.word with lhs := Defs.nt 400 "Word" [Defs.arg 401 .bare "In"] }]⟩,
    ⟨true, Defs.clause "Other Words" "B.1", true, [Defs.word]⟩], _, _, 0, _, rfl, ⟨_, rfl, rfl, .main (by decide) ?_⟩, rfl, by decide +kernel⟩
  rintro ⟨r, hr⟩
  cases hr

end Verif.Refs
