import Verif.Kinds.TitleLemmas
import Verif.Util.Props
/-!
# The sections that change what is defined elsewhere
-/
namespace Verif.Kinds
open Verif.Util
open Spec

/-! ## Sentences -/

/-- The expressions say what the parts say, one by one. -/
inductive Same : List Rx → List Part → Prop
  | nil : Same [] []
  | cons {r p rs ps} : (∀ s, Matches r s ↔ p.Is s) → Same rs ps → Same (r :: rs) (p :: ps)

theorem same_reads {rs : List Rx} {ps : List Part} (h : Same rs ps) (s : Str) : Matches (cat rs) s ↔ Reads ps s := by
  induction h generalizing s with
  | nil => rw [m_cat_nil]; exact ⟨fun e => e ▸ .nil, fun h => (by cases h; rfl)⟩
  | cons h _ ih =>
    rw [m_cat]
    constructor
    · rintro ⟨u, v, rfl, h1, h2⟩; exact .cons ((h u).1 h1) ((ih v).1 h2)
    · intro hr
      cases hr with
      | cons h1 h2 => exact ⟨_, _, rfl, (h _).2 h1, (ih _).2 h2⟩

theorem is_text (t : String) : ∀ s, Matches (lit t) s ↔ (Part.text t).Is s := fun _ => m_lit

theorem is_word : ∀ s, Matches (plus w) s ↔ Part.word.Is s := fun _ => m_word

theorem is_any : ∀ s, Matches dot s ↔ Part.any.Is s := fun _ => m_dot

theorem is_rest : ∀ s, Matches (plus dot) s ↔ Part.rest.Is s := fun _ => m_line

theorem tags_iff (x : Str) : (∀ c ∈ x, (c != '<' && c != '>') = true) ↔ NoTags x := by
  simp only [Bool.and_eq_true, bne_iff_ne, ne_eq, NoTags]
  constructor
  · intro h; exact ⟨fun h' => (h _ h').1 rfl, fun h' => (h _ h').2 rfl⟩
  · rintro ⟨h1, h2⟩ c hc; exact ⟨fun e => h1 (e ▸ hc), fun e => h2 (e ▸ hc)⟩

theorem is_xref (s : Str) : Matches emuXref s ↔ Part.xref.Is s := by
  unfold emuXref
  rw [m_cat]
  simp only [m_lit]
  constructor
  · rintro ⟨u, v, rfl, rfl, h⟩
    obtain ⟨a, t, rfl, ha, h⟩ := m_cat.1 h
    obtain ⟨b, hb, rfl⟩ := m_between.1 h
    obtain ⟨a1, a2⟩ := m_plus_chars.1 ha
    exact ⟨a, b, a1, (tags_iff a).1 a2, (tags_iff b).1 (m_chars.1 hb), by simp only [List.append_assoc]⟩
  · rintro ⟨a, b, a1, a2, hb, rfl⟩
    refine ⟨_, a ++ (">".toList ++ b ++ "</emu-xref>".toList), by simp only [List.append_assoc], rfl, ?_⟩
    exact m_cat.2 ⟨a, _, rfl, m_plus_chars.2 ⟨a1, (tags_iff a).2 a2⟩, m_between.2 ⟨b, m_chars.2 ((tags_iff b).2 hb), rfl⟩⟩

theorem is_grammar (s : Str) : Matches emuGrammar s ↔ Part.grammar.Is s := by
  unfold emuGrammar
  rw [m_between]
  simp only [m_plus_chars, tags_iff, and_assoc]
  rfl

theorem is_nonterminal (s : Str) : Matches nonterminal s ↔ Part.nonterminal.Is s := by
  unfold nonterminal
  rw [m_between]
  simp only [m_word]
  rfl

theorem is_choice2 (a b : String) (s : Str) : Matches (any [lit a, lit b]) s ↔ (Part.choice [a, b]).Is s := by
  rw [m_any]
  simp only [Part.Is, List.mem_cons, List.not_mem_nil, or_false, exists_eq_or_imp, exists_eq_left, m_lit]

theorem is_choice3 (a b c : String) (s : Str) : Matches (any [lit a, lit b, lit c]) s ↔ (Part.choice [a, b, c]).Is s := by
  rw [m_any]
  simp only [Part.Is, List.mem_cons, List.not_mem_nil, or_false, exists_eq_or_imp, exists_eq_left, m_lit]

theorem is_choice_n (s : Str) : Matches (any [lit "n", .empty]) s ↔ (Part.choice ["n", ""]).Is s := by
  rw [m_any]
  simp only [Part.Is, List.mem_cons, List.not_mem_nil, or_false, exists_eq_or_imp, exists_eq_left, m_lit, m_empty]
  rfl

/-! ## Blocks -/

/-- The atoms of a pattern are what the specification expects. -/
inductive SameAtoms : List Atom → List Block → Prop
  | nil : SameAtoms [] []
  | element {x as bs} : SameAtoms as bs → SameAtoms (.name x :: as) (.element x :: bs)
  | says {rs ps as bs} : Same rs ps → SameAtoms as bs → SameAtoms (p rs :: as) (.says ps :: bs)

theorem same_fits {as : List Atom} {bs : List Block} (h : SameAtoms as bs) (ns : List HNode) : PatternMatches as ns ↔ Fits bs ns := by
  induction h generalizing ns with
  | nil =>
    constructor
    · intro h; cases h; exact .nil
    · intro h; cases h; exact .nil
  | element _ ih =>
    constructor
    · intro h; cases h with | name h1 h2 => exact .element h1 ((ih _).1 h2)
    · intro h; cases h with | element h1 h2 => exact .name h1 ((ih _).2 h2)
  | says hs _ ih =>
    constructor
    · intro h
      cases h with
      | content h1 h2 h3 => exact .says h1 ((same_reads hs _).1 ((full_iff _ _).1 h2)) ((ih _).1 h3)
    · intro h
      cases h with
      | says h1 h2 h3 => exact .content h1 ((full_iff _ _).2 ((same_reads hs _).2 h2)) ((ih _).2 h3)

/-- The units are the forms that the specification expects. -/
inductive SameUnits : List (NUnit Unit) → List (List Block) → Prop
  | nil : SameUnits [] []
  | cons {u f us fs} : SameAtoms u.pattern f → SameUnits us fs → SameUnits (u :: us) (f :: fs)

attribute [local irreducible] lit cat any plus full emuXref emuGrammar nonterminal dot w

theorem subpattern_same : SameUnits subpatternUnits subpattern :=
  .cons (.says (.cons (is_text _) (.cons is_word (.cons (is_text _) .nil))) .nil) <|
  .cons (.says (.cons (is_text _) (.cons is_grammar (.cons (is_text _) (.cons is_grammar (.cons (is_text _) (.cons is_nonterminal (.cons (is_text _)
    (.cons is_nonterminal (.cons (is_text _) .nil))))))))) .nil) .nil

theorem assertion_same : SameUnits assertionUnits assertion :=
  .cons (.says (.cons is_word (.cons (is_text _) (.cons is_grammar (.cons (is_text _) (.cons is_grammar (.cons (is_text _) (.cons is_nonterminal (.cons (is_text _)
    (.cons is_nonterminal (.cons (is_text _) (.cons is_nonterminal (.cons is_any .nil)))))))))))) .nil) .nil

theorem atom_same : SameUnits atomUnits atom :=
  .cons (.says (.cons is_word (.cons (is_text _) (.cons is_nonterminal (.cons (is_text _) (.cons is_grammar (.cons (is_text _) (.cons is_nonterminal (.cons (is_text _)
    (.cons is_nonterminal (.cons (is_text _) (.cons is_nonterminal (.cons is_any (.cons (is_text _) .nil))))))))))))) .nil) <|
  .cons (.element (.element .nil)) .nil

theorem charSet_same : SameUnits charSetUnits charSet :=
  .cons (.says (.cons (is_text _) (.cons is_xref (.cons (is_text _) .nil))) .nil) <|
  .cons (.says (.cons (is_text _) (.cons is_any .nil)) .nil) <|
  .cons (.says (.cons (is_text _) (.cons is_any .nil)) .nil) <|
  .cons (.element (.element .nil)) <| .cons (.element .nil) .nil

theorem parsePattern_same : SameUnits parsePatternUnits parsePattern :=
  .cons (.says (.cons (is_text _) (.cons is_xref (.cons (is_text _) .nil))) <| .says (.cons (is_text _) (.cons is_rest .nil)) <| .element .nil) .nil

theorem forIn_same : SameUnits forInUnits forIn :=
  .cons (.says (.cons (is_text _) (.cons is_nonterminal (.cons (is_text _) (.cons is_xref (.cons (is_text _) .nil))))) <| .element <|
    .says (.cons (is_text _) (.cons is_any .nil)) .nil) <|
  .cons (.says (.cons (is_text _) (.cons (is_choice2 _ _) (.cons (is_text _) (.cons is_word (.cons (is_text _) (.cons is_xref (.cons (is_text _) .nil))))))) <|
    .element <| .element .nil) .nil

theorem unused_iff (s : Str) : full unusedText s = true ↔ Unused s := by
  rw [full_iff]
  exact same_reads (.cons (is_text _) (.cons (is_choice3 _ _ _) (.cons (is_text _) (.cons is_choice_n (.cons (is_text _) (.cons is_word (.cons (is_text _)
    (.cons is_any .nil)))))))) s

/-! ## Which form -/

theorem same_unit {us : List (NUnit Unit)} {fs : List (List Block)} (h : SameUnits us fs) {u : NUnit Unit} (hu : u ∈ us) :
    ∃ f ∈ fs, ∀ ns, PatternMatches u.pattern ns ↔ Fits f ns := by
  induction h with
  | nil => cases hu
  | cons ha _ ih =>
    rcases List.mem_cons.1 hu with rfl | hu
    · exact ⟨_, .head _, same_fits ha⟩
    · obtain ⟨f, hf, h⟩ := ih hu
      exact ⟨f, .tail _ hf, h⟩

theorem same_form {us : List (NUnit Unit)} {fs : List (List Block)} (h : SameUnits us fs) {f : List Block} (hf : f ∈ fs) :
    ∃ u ∈ us, ∀ ns, PatternMatches u.pattern ns ↔ Fits f ns := by
  induction h with
  | nil => cases hf
  | cons ha _ ih =>
    rcases List.mem_cons.1 hf with rfl | hf
    · exact ⟨_, .head _, same_fits ha⟩
    · obtain ⟨u, hu, h⟩ := ih hf
      exact ⟨u, .tail _ hu, h⟩

/-- How the parts begin. -/
def starts (ps : List Part) : List String :=
  match ps with
  | .text a :: .choice ts :: _ => ts.map (a ++ ·)
  | .text a :: _ => [a]
  | _ => []

theorem starts_of {ps : List Part} {s : Str} (h : Reads ps s) (hn : starts ps ≠ []) : ∃ a ∈ starts ps, ∃ r, s = a.toList ++ r := by
  cases h with
  | nil => exact absurd rfl hn
  | @cons p ps s t hp h =>
    cases p with
    | text a =>
      have hs : s = a.toList := hp
      cases h with
      | nil => exact ⟨a, by simp [starts], [], by simp [hs]⟩
      | @cons q qs s' t' hq h =>
        cases q with
        | choice ts =>
          obtain ⟨x, hx, rfl⟩ := hq
          exact ⟨a ++ x, List.mem_map.2 ⟨x, hx, rfl⟩, t', by simp [hs]⟩
        | _ => exact ⟨a, .head _, _, by rw [hs]⟩
    | _ => exact absurd rfl hn

/-- The first blocks of two forms cannot be the same. -/
def apart (f g : List Block) : Bool :=
  match f, g with
  | .element x :: _, .element y :: _ => x != y
  | .element x :: _, .says _ :: _ => x != "p"
  | .says _ :: _, .element y :: _ => y != "p"
  | .says ps :: _, .says qs :: _ => !(starts ps).isEmpty && !(starts qs).isEmpty &&
      (starts ps).all (fun a => (starts qs).all (fun b => !a.toList.isPrefixOf b.toList && !b.toList.isPrefixOf a.toList))
  | _, _ => false

theorem not_apart {f g : List Block} {n : HNode} {ms ms' : List HNode} (hf : Fits f (n :: ms)) (hg : Fits g (n :: ms')) : apart f g = false := by
  cases hf with
  | element h1 _ =>
    cases hg with
    | element h2 _ => simp [apart, ← h1, ← h2]
    | says h2 _ _ => simp [apart, ← h1, h2]
  | @says ps bs _ _ h1 h2 _ =>
    cases hg with
    | element h3 _ => simp [apart, ← h3, h1]
    | @says qs bs' _ _ _ h4 _ =>
      cases e : apart (.says ps :: bs) (.says qs :: bs') with
      | false => rfl
      | true =>
        simp only [apart, Bool.and_eq_true, Bool.not_eq_true', List.isEmpty_eq_false_iff, List.all_eq_true] at e
        obtain ⟨⟨e1, e2⟩, e3⟩ := e
        obtain ⟨a, ha, r, hr⟩ := starts_of h2 e1
        obtain ⟨b, hb, r', hr'⟩ := starts_of h4 e2
        obtain ⟨n1, n2⟩ := e3 a ha b hb
        have hp : a.toList <+: n.innerText := ⟨r, hr.symm⟩
        have hq : b.toList <+: n.innerText := ⟨r', hr'.symm⟩
        rcases Nat.le_total a.toList.length b.toList.length with hl | hl
        · have := List.isPrefixOf_iff_prefix.2 (List.prefix_of_prefix_length_le hp hq hl)
          rw [this] at n1; cases n1
        · have := List.isPrefixOf_iff_prefix.2 (List.prefix_of_prefix_length_le hq hp hl)
          rw [this] at n2; cases n2

/-- The forms of a section are told apart by their first blocks. -/
def distinct : List (List Block) → Bool
  | [] => true
  | f :: fs => fs.all (fun g => apart f g && apart g f) && distinct fs

theorem all_distinct : distinct subpattern = true ∧ distinct assertion = true ∧ distinct atom = true ∧ distinct charSet = true ∧ distinct parsePattern = true ∧
    distinct forIn = true := by decide +kernel

theorem distinct_eq {fs : List (List Block)} (h : distinct fs = true) {f g : List Block} (hf : f ∈ fs) (hg : g ∈ fs) (ha : apart f g = false) : f = g := by
  induction fs with
  | nil => cases hf
  | cons x fs ih =>
    simp only [distinct, Bool.and_eq_true, List.all_eq_true] at h
    rcases List.mem_cons.1 hf with e1 | m1 <;> rcases List.mem_cons.1 hg with e2 | m2
    · rw [e1, e2]
    · rw [e1, (h.1 g m2).1] at ha; cases ha
    · rw [e2, (h.1 f m1).2] at ha; cases ha
    · exact ih h.2 m1 m2

theorem fits_length {f : List Block} {ms : List HNode} (h : Fits f ms) : ms.length = f.length := by
  induction h <;> simp [*]

/-- Two stretches at the start of the same nodes are the same. -/
theorem fits_same {fs : List (List Block)} (h : distinct fs = true) (hne : ∀ f ∈ fs, f ≠ []) {f g : List Block} (hf : f ∈ fs) (hg : g ∈ fs)
    {m m' r r' : List HNode} (h1 : Fits f m) (h2 : Fits g m') (e : m ++ r = m' ++ r') : m = m' ∧ r = r' := by
  have hm := fits_length h1
  have hm' := fits_length h2
  cases m with
  | nil => exact absurd (List.length_eq_zero_iff.1 hm.symm) (hne f hf)
  | cons x m =>
    cases m' with
    | nil => exact absurd (List.length_eq_zero_iff.1 hm'.symm) (hne g hg)
    | cons y m' =>
      have hxy : x = y := by injection e
      subst hxy
      have := distinct_eq h hf hg (not_apart h1 h2)
      subst this
      exact List.append_inj e (hm.trans hm'.symm)

theorem chunks_inv {fs : List (List Block)} {ns : List HNode} (h : Chunks fs ns) (hn : ns ≠ []) : ∃ f ∈ fs, ∃ m r, ns = m ++ r ∧ Fits f m ∧ Chunks fs r := by
  cases h with
  | nil => exact absurd rfl hn
  | cons hf hm hr => exact ⟨_, hf, _, _, rfl, hm, hr⟩

theorem chopped_chunks {us : List (NUnit Unit)} {fs : List (List Block)} (h : SameUnits us fs) {ns end_ : List HNode} {used : List (Nat × List HNode)} {rs : List Unit}
    (hc : Chopped us ns used rs end_) : Chunks fs (used.flatMap (·.2)) ∧ ns = used.flatMap (·.2) ++ end_ := by
  induction hc with
  | nil => exact ⟨.nil, rfl⟩
  | cons _ hf _ ih =>
    obtain ⟨h1, rfl, h3, -⟩ := hf
    obtain ⟨f, hf, hm⟩ := same_unit h (List.mem_of_getElem? h1)
    obtain ⟨ih1, ih2⟩ := ih
    refine ⟨.cons hf ((hm _).1 h3) ih1, ?_⟩
    rw [ih2, List.flatMap_cons, List.append_assoc]

/-- If the nodes are all in their places, nothing is left over. -/
theorem chopped_end {us : List (NUnit Unit)} {fs : List (List Block)} (h : SameUnits us fs) (hd : distinct fs = true) (hne : ∀ f ∈ fs, f ≠ [])
    {ns end_ : List HNode} {used : List (Nat × List HNode)} {rs : List Unit} (hc : Chopped us ns used rs end_) (hk : Chunks fs ns) : Chunks fs end_ := by
  induction hc with
  | nil => exact hk
  | cons hn hf _ ih =>
    obtain ⟨h1, rfl, h3, -⟩ := hf
    obtain ⟨f, hf, hm⟩ := same_unit h (List.mem_of_getElem? h1)
    obtain ⟨g, hg, m', r', e, hfit, hr⟩ := chunks_inv hk hn
    obtain ⟨-, rfl⟩ := fits_same hd hne hf hg ((hm _).1 h3) hfit e
    exact ih hr

theorem units_ne {us : List (NUnit Unit)} {fs : List (List Block)} (h : SameUnits us fs) (hne : ∀ f ∈ fs, f ≠ []) : ∀ u ∈ us, u.pattern ≠ [] := by
  induction h with
  | nil => simp
  | cons ha _ ih =>
    intro u hu
    rcases List.mem_cons.1 hu with rfl | hu
    · intro e
      rw [e] at ha
      cases ha
      exact hne [] (by simp) rfl
    · exact ih (fun f hf => hne f (by simp [hf])) u hu

/-- The scan of such a section. -/
theorem scan_changes {us : List (NUnit Unit)} {fs : List (List Block)} (h : SameUnits us fs) (hd : distinct fs = true) (hne : ∀ f ∈ fs, f ≠ []) (ns : List HNode) :
    ∃ r, scanSection us ns ns.length = some r ∧
      ((r.msg = none ∧ Chunks fs ns ∧ r.used.flatMap (·.2) = ns) ∨
       (¬ Chunks fs ns ∧ ∃ pre b post, ns = pre ++ b :: post ∧ Chunks fs pre ∧ (∀ f ∈ fs, ∀ m rest, b :: post = m ++ rest → ¬ Fits f m) ∧
          r.msg = some b.startPosn ∧ r.used.flatMap (·.2) = pre)) := by
  obtain ⟨r, hr⟩ := c11_scan_terminates us (units_ne h hne) ns ns.length (Nat.le_refl _)
  refine ⟨r, hr, ?_⟩
  cases hm : r.msg with
  | none =>
    obtain ⟨h1, h2⟩ := c11_scan_complete us ns _ r hr hm
    obtain ⟨h3, -⟩ := chopped_chunks h h1
    exact .inl ⟨rfl, by rw [h2]; exact h3, h2.symm⟩
  | some q =>
    obtain ⟨-, rs, b, post, h1, h2, h3, h4⟩ := c11_scan_reports us ns _ r q hr hm
    obtain ⟨h5, -⟩ := chopped_chunks h h1
    have nof : ∀ f ∈ fs, ∀ m rest, b :: post = m ++ rest → ¬ Fits f m := by
      intro f hf m rest e hfit
      obtain ⟨u, hu, hiff⟩ := same_form h hf
      exact h4 u hu m rest e ((hiff m).2 hfit)
    refine .inr ⟨?_, _, b, post, h3, h5, nof, by rw [h2], rfl⟩
    intro hk
    obtain ⟨f, hf, m, rest, e, hfit, -⟩ := chunks_inv (chopped_end h hd hne h1 hk) (by simp)
    exact nof f hf m rest e hfit

end Verif.Kinds
