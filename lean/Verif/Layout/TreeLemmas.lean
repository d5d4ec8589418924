import Verif.Layout.RowLemmas
/-! # Lemmas about the elements -/
namespace Verif.Layout
open Verif.HTML (Str Attrs Node litName commentName docName)
open Verif.Validate (nStart nStop nName nAttrs nInner nKids slice className Kind Suf slice_suf suf_tail suf_head suf_nil)

variable {white : Char → Bool} {kind : Str → Option Kind} {text : Str}

theorem doc_eq : docName = "#DOC".toList := by decide
theorem lit_eq : litName = "#LITERAL".toList := by decide
theorem comment_eq : commentName = "#COMMENT".toList := by decide
theorem class_eq : className = "class".toList := by decide

theorem says_iff (k : Nat) (s e : Nat) (name : Str) (attrs : Attrs) (inner : Option (Nat × Nat)) (kids : List Node) (m : Msg) :
    Says white kind text k (.mk s e name attrs inner kids) m ↔
      (name ≠ "#LITERAL".toList ∧ TagSays white text s s name k m) ∨
      (Tall text (.mk s e name attrs inner kids) ∧ (
        (name = "#COMMENT".toList ∧ ContentSays white text (s + 4) (e - 3) (s - lineStart text s + 2) m) ∨
        (∃ s' e' attrs' a b kids', name = "pre".toList ∧ kids = [.mk s' e' "code".toList attrs' (some (a, b)) kids'] ∧
          (ContentSays white text a b (s - lineStart text s + 2) m ∨ TagSays white text e b "code".toList k m)) ∨
        (Ordinary (.mk s e name attrs inner kids) ∧ ∃ a b, inner = some (a, b) ∧
          (¬ Opened kind (.mk s e name attrs inner kids) ∧ ContentSays white text a b (s - lineStart text s + 2) m ∨
           ¬ (name = "p".toList ∧ HasBreak kind (.mk s e name attrs inner kids) ∧ ¬ (a < b ∧ text[a]? = some '\n')) ∧ TagSays white text e b name k m)))) := by
  constructor
  · intro h
    generalize hn : Node.mk s e name attrs inner kids = n at h
    cases h with
    | startTag h1 h2 => cases hn; exact .inl ⟨h1, h2⟩
    | comment h1 h2 h3 =>
      cases hn
      rw [lineStart_iff.1 h2] at h3
      exact .inr ⟨h1, .inl ⟨rfl, h3⟩⟩
    | code h1 h2 h3 =>
      cases hn
      rw [lineStart_iff.1 h2] at h3
      exact .inr ⟨h1, .inr (.inl ⟨_, _, _, _, _, _, rfl, rfl, .inl h3⟩)⟩
    | endCode h1 h2 => cases hn; exact .inr ⟨h1, .inr (.inl ⟨_, _, _, _, _, _, rfl, rfl, .inr h2⟩)⟩
    | content h1 h2 h3 h4 h5 =>
      cases hn
      rw [lineStart_iff.1 h4] at h5
      exact .inr ⟨h1, .inr (.inr ⟨h2, _, _, rfl, .inl ⟨h3, h5⟩⟩)⟩
    | endTag h1 h2 h3 h4 => cases hn; exact .inr ⟨h1, .inr (.inr ⟨h2, _, _, rfl, .inr ⟨h3, h4⟩⟩)⟩
  · rintro (⟨h1, h2⟩ | ⟨ht, ⟨rfl, h⟩ | ⟨s', e', attrs', a, b, kids', rfl, rfl, h | h⟩ | ⟨ho, a, b, rfl, ⟨h1, h2⟩ | ⟨h1, h2⟩⟩⟩)
    · exact .startTag h1 h2
    · exact .comment ht (lineStart_spec ..) h
    · exact .code ht (lineStart_spec ..) h
    · exact .endCode ht h
    · exact .content ht ho h1 (lineStart_spec ..) h2
    · exact .endTag ht ho h1 h2

theorem stops_iff (s e : Nat) (name : Str) (attrs : Attrs) (inner : Option (Nat × Nat)) (kids : List Node) :
    Stops text (.mk s e name attrs inner kids) ↔ name = "#DOC".toList ∨ (Tall text (.mk s e name attrs inner kids) ∧ (
      (∃ s' e' attrs' inner' kids', name = "pre".toList ∧ kids = [.mk s' e' "code".toList attrs' inner' kids'] ∧ (attrs'.lookup "class".toList ≠ some (some "javascript".toList) ∨ inner' = none)) ∨
      (Ordinary (.mk s e name attrs inner kids) ∧ inner = none))) := by
  constructor
  · intro h
    generalize hn : Node.mk s e name attrs inner kids = n at h
    cases h with
    | doc => cases hn; exact .inl rfl
    | code h1 h2 => cases hn; exact .inr ⟨h1, .inl ⟨_, _, _, _, _, rfl, rfl, h2⟩⟩
    | «open» h1 h2 => cases hn; exact .inr ⟨h1, .inr ⟨h2, rfl⟩⟩
  · rintro (rfl | ⟨h1, ⟨_, _, _, _, _, rfl, rfl, h2⟩ | ⟨h2, rfl⟩⟩)
    · exact .doc
    · exact .code h1 h2
    · exact .open h1 h2

theorem tall_iff (s e : Nat) (name : Str) (attrs : Attrs) (inner : Option (Nat × Nat)) (kids : List Node) (h : s ≤ e) :
    Tall text (.mk s e name attrs inner kids) ↔ name ≠ docName ∧ name ≠ litName ∧ lineStart text s ≠ lineStart text e := by
  rw [← broken_iff h, doc_eq, lit_eq]
  constructor
  · intro g
    generalize hn : Node.mk s e name attrs inner kids = n at g
    cases g with
    | mk h1 h2 => cases hn; simp only [List.mem_cons, List.not_mem_nil, or_false, not_or] at h1; exact ⟨h1.1, h1.2, h2⟩
  · rintro ⟨h1, h2, h3⟩
    exact .mk (by simp only [List.mem_cons, List.not_mem_nil, or_false, not_or]; exact ⟨h1, h2⟩) h3

theorem preCode_some {name : Str} {kids : List Node} {c : Node} (h : preCode name kids = some c) :
    ∃ s e attrs inner kids', c = .mk s e "code".toList attrs inner kids' ∧ name = "pre".toList ∧ kids = [.mk s e "code".toList attrs inner kids'] := by
  unfold preCode at h
  split at h
  · rename_i d
    split at h
    · rename_i hc
      cases h
      obtain ⟨s, e, n, attrs, inner, kids'⟩ := c
      obtain ⟨h1, h2⟩ := hc
      have h2' : n = "code".toList := h2
      subst h2'
      exact ⟨s, e, attrs, inner, kids', rfl, h1, rfl⟩
    · cases h
  · cases h

theorem preCode_pre {s e attrs inner kids'} : preCode "pre".toList [.mk s e "code".toList attrs inner kids'] = some (.mk s e "code".toList attrs inner kids') := by
  rw [preCode, if_pos ⟨rfl, rfl⟩]

theorem listing_of {name : Str} {kids : List Node} {s e : Nat} {attrs : Attrs} {inner : Option (Nat × Nat)} (h : Listing (.mk s e name attrs inner kids)) : preCode name kids ≠ none := by
  generalize hn : Node.mk s e name attrs inner kids = n at h
  cases h with
  | mk => cases hn; rw [preCode_pre]; exact fun h => by cases h

theorem ordinary_iff (s e : Nat) (name : Str) (attrs : Attrs) (inner : Option (Nat × Nat)) (kids : List Node) :
    Ordinary (.mk s e name attrs inner kids) ↔ name ≠ commentName ∧ preCode name kids = none := by
  rw [comment_eq]
  constructor
  · intro h
    generalize hn : Node.mk s e name attrs inner kids = n at h
    cases h with
    | mk h1 h2 =>
      cases hn
      refine ⟨h1, ?_⟩
      cases hp : preCode name kids with
      | none => rfl
      | some c =>
        obtain ⟨_, _, _, _, _, _, rfl, rfl⟩ := preCode_some hp
        exact absurd .mk h2
  · rintro ⟨h1, h2⟩
    exact .mk h1 (fun h => listing_of h h2)

theorem hasBlock_iff (s e : Nat) (name : Str) (attrs : Attrs) (inner : Option (Nat × Nat)) (kids : List Node) :
    HasBlock kind (.mk s e name attrs inner kids) ↔ hasBlocks kind kids = true := by
  rw [hasBlocks, List.any_eq_true, comment_eq, lit_eq]
  constructor
  · intro h
    generalize hn : Node.mk s e name attrs inner kids = n at h
    cases h with
    | mk h1 h2 h3 =>
      cases hn
      simp only [List.mem_cons, List.not_mem_nil, or_false, not_or] at h2
      refine ⟨_, h1, ?_⟩
      simp only [nName, Bool.and_eq_true, bne_iff_ne, ne_eq]
      exact ⟨⟨h2.1, h2.2⟩, decide_eq_true h3⟩
  · rintro ⟨⟨s', e', n', attrs', inner', kids'⟩, h1, h2⟩
    simp only [nName, Bool.and_eq_true, bne_iff_ne, ne_eq] at h2
    exact .mk h1 (by simp only [List.mem_cons, List.not_mem_nil, or_false, not_or]; exact ⟨h2.1.1, h2.1.2⟩) (of_decide_eq_true h2.2)

theorem hasBreak_iff (s e : Nat) (name : Str) (attrs : Attrs) (inner : Option (Nat × Nat)) (kids : List Node) :
    HasBreak kind (.mk s e name attrs inner kids) ↔ hasBreaks kind kids = true := by
  rw [hasBreaks, List.any_eq_true]
  constructor
  · intro h
    generalize hn : Node.mk s e name attrs inner kids = n at h
    cases h with
    | mk h1 h2 =>
      cases hn
      refine ⟨_, h1, ?_⟩
      simp only [nName, Bool.and_eq_true, beq_self_eq_true, true_and]
      exact decide_eq_true h2
  · rintro ⟨⟨s', e', n', attrs', inner', kids'⟩, h1, h2⟩
    simp only [nName, Bool.and_eq_true, beq_iff_eq] at h2
    obtain ⟨rfl, h3⟩ := h2
    exact .mk h1 (of_decide_eq_true h3)

theorem opened_iff (s e : Nat) (name : Str) (attrs : Attrs) (inner : Option (Nat × Nat)) (kids : List Node) :
    Opened kind (.mk s e name attrs inner kids) ↔ ¬ (name ∈ ["emu-grammar".toList, "emu-alg".toList, "emu-eqn".toList] ∨ hasBlocks kind kids = false) := by
  rw [not_or, Bool.not_eq_false, ← hasBlock_iff s e name attrs inner kids]
  constructor
  · intro h
    generalize hn : Node.mk s e name attrs inner kids = n at h
    cases h with
    | mk h1 h2 => cases hn; exact ⟨h1, h2⟩
  · rintro ⟨h1, h2⟩
    exact .mk h1 h2

theorem inside_iff (name : Str) (s k j : Nat) : Inside white text name s k j ↔ j = childIndent white text name s k := by
  have hne : slice text (lineEnd text s + 1) (lineEnd text s + 1 + k + 2) ≠ [] ↔ lineEnd text s + 1 < text.length := by
    rw [← List.length_pos_iff, slice, List.length_drop, List.length_take]
    omega
  have hcond : (slice text (lineEnd text s + 1) (lineEnd text s + 1 + k + 2) ≠ [] ∧ (slice text (lineEnd text s + 1) (lineEnd text s + 1 + k + 2)).all white = true) ↔
      (lineEnd text s + 1 < text.length ∧ Clear white text (lineEnd text s + 1) (lineEnd text s + 1 + k + 2)) := by rw [hne, slice_all]
  have key : Inside white text name s k (childIndent white text name s k) := by
    rw [childIndent]
    by_cases h1 : name ∈ ["html".toList, "head".toList, "body".toList]
    · rw [if_pos h1]; exact .same h1
    · rw [if_neg h1]
      by_cases h2 : name ∈ ["thead".toList, "tbody".toList]
      · rw [if_pos h2]
        dsimp only
        by_cases h3 : lineEnd text s + 1 < text.length ∧ Clear white text (lineEnd text s + 1) (lineEnd text s + 1 + k + 2)
        · rw [if_pos (hcond.2 h3)]
          exact .rows h2 (lineEnd_spec text s) h3.1 h3.2
        · rw [if_neg (fun g => h3 (hcond.1 g))]
          exact .flat h2 (lineEnd_spec text s) h3
      · rw [if_neg h2]
        refine .deeper fun h => ?_
        rw [show ["html".toList, "head".toList, "body".toList, "thead".toList, "tbody".toList] = ["html".toList, "head".toList, "body".toList] ++ ["thead".toList, "tbody".toList] from rfl,
          List.mem_append] at h
        exact h.elim h1 h2
  have disj : ¬ (name ∈ ["html".toList, "head".toList, "body".toList] ∧ name ∈ ["thead".toList, "tbody".toList]) := by
    rintro ⟨h1, h2⟩
    have hall : ∀ x ∈ ["html".toList, "head".toList, "body".toList], x ∉ ["thead".toList, "tbody".toList] := by decide
    exact hall name h1 h2
  have app : ∀ h : name ∉ ["html".toList, "head".toList, "body".toList, "thead".toList, "tbody".toList],
      name ∉ ["html".toList, "head".toList, "body".toList] ∧ name ∉ ["thead".toList, "tbody".toList] := by
    intro h
    rw [show ["html".toList, "head".toList, "body".toList, "thead".toList, "tbody".toList] = ["html".toList, "head".toList, "body".toList] ++ ["thead".toList, "tbody".toList] from rfl,
      List.mem_append, not_or] at h
    exact h
  refine ⟨fun h => ?_, fun h => h ▸ key⟩
  rw [childIndent]
  cases h with
  | same h1 => rw [if_pos h1]
  | @rows e h1 h2 h3 h4 =>
    rw [lineEnd_unique h2 (lineEnd_spec text s)] at h3 h4
    rw [if_neg (fun g => disj ⟨g, h1⟩), if_pos h1]
    dsimp only
    rw [if_pos (hcond.2 ⟨h3, h4⟩)]
  | @flat e h1 h2 h3 =>
    rw [lineEnd_unique h2 (lineEnd_spec text s)] at h3
    rw [if_neg (fun g => disj ⟨g, h1⟩), if_pos h1]
    dsimp only
    rw [if_neg (fun g => h3 (hcond.1 g))]
  | deeper h1 => rw [if_neg (app h1).1, if_neg (app h1).2]

/-! ### The walk -/

/-- As `Visited`, from above. -/
inductive Reach (white : Char → Bool) (kind : Str → Option Kind) (text : Str) : Nat → List Node → Node → Nat → Prop
  | here {k ns n} : n ∈ ns → Reach white kind text k ns n k
  | inside {k ns s e name attrs inner kids n i} : .mk s e name attrs inner kids ∈ ns → Tall text (.mk s e name attrs inner kids) →
      Ordinary (.mk s e name attrs inner kids) → Opened kind (.mk s e name attrs inner kids) →
      Reach white kind text (childIndent white text name s (s - lineStart text s)) kids n i → Reach white kind text k ns n i

theorem reach_visited {doc : List Node} {k : Nat} {ns : List Node} {n : Node} {j : Nat} (h : Reach white kind text k ns n j) (hv : ∀ n ∈ ns, Visited white kind text doc n k) :
    Visited white kind text doc n j := by
  induction h with
  | here h => exact hv _ h
  | inside h1 h2 h3 h4 _ ih =>
    exact ih fun c hc => .inside (hv _ h1) h2 h3 h4 (lineStart_spec ..) ((inside_iff ..).2 rfl) hc

theorem reach_snoc {k : Nat} {ns : List Node} {n : Node} {j : Nat} (h : Reach white kind text k ns n j) :
    ∀ {s e name attrs inner kids c}, n = .mk s e name attrs inner kids → Tall text n → Ordinary n → Opened kind n → c ∈ kids →
      Reach white kind text k ns c (childIndent white text name s (s - lineStart text s)) := by
  induction h with
  | here h => rintro s e name attrs inner kids c rfl h1 h2 h3 hc; exact .inside h h1 h2 h3 (.here hc)
  | inside h1 h2 h3 h4 _ ih => rintro s e name attrs inner kids c rfl g1 g2 g3 hc; exact .inside h1 h2 h3 h4 (ih rfl g1 g2 g3 hc)

theorem visited_iff {doc : List Node} {n : Node} {j : Nat} : Visited white kind text doc n j ↔ Reach white kind text 0 doc n j := by
  constructor
  · intro h
    induction h with
    | top h => exact .here h
    | inside _ h2 h3 h4 h5 h6 h7 ih =>
      rw [lineStart_iff.1 h5, inside_iff] at h6
      subst h6
      exact reach_snoc ih rfl h2 h3 h4 h7
  · exact fun h => reach_visited h fun n hn => .top hn

theorem reach_cons {k : Nat} {c : Node} {ns : List Node} {n : Node} {j : Nat} : Reach white kind text k (c :: ns) n j ↔ Reach white kind text k [c] n j ∨ Reach white kind text k ns n j := by
  constructor
  · intro h
    generalize hg : c :: ns = l at h
    cases h with
    | here h =>
      subst hg
      rcases List.mem_cons.1 h with rfl | h
      · exact .inl (.here (List.mem_cons_self ..))
      · exact .inr (.here h)
    | inside h1 h2 h3 h4 h5 =>
      subst hg
      rcases List.mem_cons.1 h1 with rfl | h1
      · exact .inl (.inside (List.mem_cons_self ..) h2 h3 h4 h5)
      · exact .inr (.inside h1 h2 h3 h4 h5)
  · rintro (h | h)
    · cases h with
      | here h => rw [List.mem_singleton.1 h]; exact .here (List.mem_cons_self ..)
      | inside h1 h2 h3 h4 h5 => exact .inside (List.mem_cons.2 (.inl (List.mem_singleton.1 h1))) h2 h3 h4 h5
    · cases h with
      | here h => exact .here (List.mem_cons_of_mem _ h)
      | inside h1 h2 h3 h4 h5 => exact .inside (List.mem_cons_of_mem _ h1) h2 h3 h4 h5

theorem reach_one {k : Nat} {s e : Nat} {name : Str} {attrs : Attrs} {inner : Option (Nat × Nat)} {kids : List Node} {n : Node} {j : Nat} :
    Reach white kind text k [.mk s e name attrs inner kids] n j ↔ (n = .mk s e name attrs inner kids ∧ j = k) ∨
      (Tall text (.mk s e name attrs inner kids) ∧ Ordinary (.mk s e name attrs inner kids) ∧ Opened kind (.mk s e name attrs inner kids) ∧
        Reach white kind text (childIndent white text name s (s - lineStart text s)) kids n j) := by
  constructor
  · intro h
    cases h with
    | here h => exact .inl ⟨List.mem_singleton.1 h, rfl⟩
    | inside h1 h2 h3 h4 h5 => cases List.mem_singleton.1 h1; exact .inr ⟨h2, h3, h4, h5⟩
  · rintro (⟨rfl, rfl⟩ | ⟨h2, h3, h4, h5⟩)
    · exact .here (List.mem_cons_self ..)
    · exact .inside (List.mem_cons_self ..) h2 h3 h4 h5

/-- What the walk over some elements gives. -/
def Good (white : Char → Bool) (kind : Str → Option Kind) (text : Str) (k : Nat) (ns : List Node) (o : Option (List Msg)) : Prop :=
  (∀ ms, o = some ms → (∀ m, m ∈ ms ↔ ∃ n j, Reach white kind text k ns n j ∧ Says white kind text j n m) ∧ ¬ ∃ n j, Reach white kind text k ns n j ∧ Stops text n) ∧
  (o = none → ∃ n j, Reach white kind text k ns n j ∧ Stops text n)

/-- An element of which nothing inside is looked at. -/
theorem good_leaf {k : Nat} {s e : Nat} {name : Str} {attrs : Attrs} {inner : Option (Nat × Nat)} {kids : List Node} {o : Option (List Msg)}
    (hc : ¬ (Tall text (.mk s e name attrs inner kids) ∧ Ordinary (.mk s e name attrs inner kids) ∧ Opened kind (.mk s e name attrs inner kids)))
    (h1 : ∀ ms, o = some ms → (∀ m, m ∈ ms ↔ Says white kind text k (.mk s e name attrs inner kids) m) ∧ ¬ Stops text (.mk s e name attrs inner kids))
    (h2 : o = none → Stops text (.mk s e name attrs inner kids)) : Good white kind text k [.mk s e name attrs inner kids] o := by
  refine ⟨fun ms hm => ⟨fun m => ?_, ?_⟩, fun ho => ⟨_, _, .here (List.mem_cons_self ..), h2 ho⟩⟩
  · rw [(h1 ms hm).1]
    constructor
    · exact fun h => ⟨_, _, .here (List.mem_cons_self ..), h⟩
    · rintro ⟨n, j, hr, hs⟩
      rcases reach_one.1 hr with ⟨rfl, rfl⟩ | ⟨g1, g2, g3, _⟩
      · exact hs
      · exact absurd ⟨g1, g2, g3⟩ hc
  · rintro ⟨n, j, hr, hs⟩
    rcases reach_one.1 hr with ⟨rfl, rfl⟩ | ⟨g1, g2, g3, _⟩
    · exact (h1 ms hm).2 hs
    · exact hc ⟨g1, g2, g3⟩

theorem endTag_cond {a b : Nat} : (slice text a b).head? ≠ some '\n' ↔ ¬ (a < b ∧ text[a]? = some '\n') := by
  have := slice_suf text a b 0
  rw [Nat.add_zero] at this
  rw [List.head?_eq_getElem?, this]
  by_cases h : a < b
  · rw [if_pos h]; simp [h]
  · rw [if_neg h]; simp [h]

mutual
theorem good_node (hw : WhiteOk white) (k : Nat) : ∀ n, Ordered text [n] → Good white kind text k [n] (indentNode white kind text k n)
  | .mk s e name attrs inner kids, hord => by
    cases hord with
    | cons hse hel hin hkids _ =>
      have hsl : s ≤ text.length := by omega
      have htall := tall_iff (text := text) s e name attrs inner kids hse
      have hordi := ordinary_iff s e name attrs inner kids
      have hopen := opened_iff (kind := kind) s e name attrs inner kids
      rw [indentNode]
      by_cases h1 : name = docName
      · rw [if_pos h1]
        refine good_leaf (fun h => (htall.1 h.1).1 h1) (fun ms h => by cases h) (fun _ => ?_)
        rw [h1, doc_eq]; exact .doc
      rw [if_neg h1]
      by_cases h2 : name = litName
      · rw [if_pos h2]
        refine good_leaf (fun h => (htall.1 h.1).2.1 h2) (fun ms h => ?_) (fun h => by cases h)
        cases h
        refine ⟨fun m => ?_, ?_⟩
        · rw [says_iff]
          refine ⟨fun h => (by cases h), ?_⟩
          rintro (⟨g, _⟩ | ⟨g, _⟩)
          · exact absurd (h2.trans lit_eq) g
          · exact absurd h2 (htall.1 g).2.1
        · rw [stops_iff]
          rintro (g | ⟨g, _⟩)
          · exact h1 (g.trans doc_eq.symm)
          · exact (htall.1 g).2.1 h2
      rw [if_neg h2]
      dsimp only
      have hlit : name ≠ "#LITERAL".toList := fun g => h2 (g.trans lit_eq.symm)
      have hfirst := tagMsgs_iff white text s s name k hsl
      by_cases h3 : lineStart text s = lineStart text e
      · rw [if_pos h3]
        refine good_leaf (fun h => (htall.1 h.1).2.2 h3) (fun ms h => ?_) (fun h => by cases h)
        cases h
        refine ⟨fun m => ?_, ?_⟩
        · rw [says_iff, hfirst]
          refine ⟨fun h => .inl ⟨hlit, h⟩, ?_⟩
          rintro (⟨_, g⟩ | ⟨g, _⟩)
          · exact g
          · exact absurd h3 (htall.1 g).2.2
        · rw [stops_iff]
          rintro (g | ⟨g, _⟩)
          · exact h1 (g.trans doc_eq.symm)
          · exact (htall.1 g).2.2 h3
      rw [if_neg h3]
      have ht := htall.2 ⟨h1, h2, h3⟩
      by_cases h4 : name = commentName
      · rw [if_pos h4]
        have hno : ¬ Ordinary (.mk s e name attrs inner kids) := fun g => (hordi.1 g).1 h4
        have hnp : name ≠ "pre".toList := by rw [h4]; decide
        refine good_leaf (fun h => hno h.2.1) (fun ms h => ?_) (fun h => by cases h)
        cases h
        refine ⟨fun m => ?_, ?_⟩
        · rw [says_iff, List.mem_append, hfirst, contentSays_iff hw]
          constructor
          · rintro (h | h)
            · exact .inl ⟨hlit, h⟩
            · exact .inr ⟨ht, .inl ⟨h4.trans comment_eq, h⟩⟩
          · rintro (⟨_, g⟩ | ⟨_, ⟨_, g⟩ | ⟨_, _, _, _, _, _, g, _⟩ | ⟨g, _⟩⟩)
            · exact .inl g
            · exact .inr g
            · exact absurd g hnp
            · exact absurd g hno
        · rw [stops_iff]
          rintro (g | ⟨_, ⟨_, _, _, _, _, g, _⟩ | ⟨g, _⟩⟩)
          · exact h1 (g.trans doc_eq.symm)
          · exact hnp g
          · exact hno g
      rw [if_neg h4]
      have hncom : name ≠ "#COMMENT".toList := fun g => h4 (g.trans comment_eq.symm)
      cases hpc : preCode name kids with
      | some code =>
        dsimp only
        have hno : ¬ Ordinary (.mk s e name attrs inner kids) := fun g => by have := (hordi.1 g).2; rw [hpc] at this; cases this
        obtain ⟨s', e', attrs', inner', kids', rfl, hpre, hk⟩ := preCode_some hpc
        by_cases hcl : attrs'.lookup className = some (some "javascript".toList)
        · rw [show nAttrs (.mk s' e' "code".toList attrs' inner' kids') = attrs' from rfl, if_pos hcl, show nInner (.mk s' e' "code".toList attrs' inner' kids') = inner' from rfl]
          cases inner' with
          | none =>
            dsimp only
            refine good_leaf (fun h => hno h.2.1) (fun ms h => by cases h) (fun _ => ?_)
            rw [stops_iff]
            exact .inr ⟨ht, .inl ⟨_, _, _, _, _, hpre, hk, .inr rfl⟩⟩
          | some ab =>
            obtain ⟨a, b⟩ := ab
            have hbl : b ≤ text.length := by
              subst hk
              cases hkids with
              | cons _ _ h _ _ => exact h a b rfl
            dsimp only
            refine good_leaf (fun h => hno h.2.1) (fun ms h => ?_) (fun h => by cases h)
            cases h
            refine ⟨fun m => ?_, ?_⟩
            · rw [says_iff, List.mem_append, List.mem_append, hfirst, contentSays_iff hw, tagMsgs_iff white text e b codeName k hbl]
              constructor
              · rintro ((h | h) | h)
                · exact .inl ⟨hlit, h⟩
                · exact .inr ⟨ht, .inr (.inl ⟨_, _, _, _, _, _, hpre, hk, .inl h⟩)⟩
                · exact .inr ⟨ht, .inr (.inl ⟨_, _, _, _, _, _, hpre, hk, .inr h⟩)⟩
              · rintro (⟨_, g⟩ | ⟨_, ⟨g, _⟩ | ⟨_, _, _, _, _, _, _, gk, g⟩ | ⟨g, _⟩⟩)
                · exact .inl (.inl g)
                · exact absurd g hncom
                · rw [hk] at gk
                  cases gk
                  rcases g with g | g
                  · exact .inl (.inr g)
                  · exact .inr g
                · exact absurd g hno
            · rw [stops_iff]
              rintro (g | ⟨_, ⟨_, _, _, _, _, _, gk, g⟩ | ⟨g, _⟩⟩)
              · exact h1 (g.trans doc_eq.symm)
              · rw [hk] at gk
                cases gk
                rcases g with g | g
                · exact g hcl
                · cases g
              · exact hno g
        · rw [show nAttrs (.mk s' e' "code".toList attrs' inner' kids') = attrs' from rfl, if_neg hcl]
          refine good_leaf (fun h => hno h.2.1) (fun ms h => by cases h) (fun _ => ?_)
          rw [stops_iff]
          exact .inr ⟨ht, .inl ⟨_, _, _, _, _, hpre, hk, .inl hcl⟩⟩
      | none =>
        dsimp only
        have ho := hordi.2 ⟨h4, hpc⟩
        have hnpre : ¬ ∃ s' e' attrs' inner' kids', name = "pre".toList ∧ kids = [.mk s' e' "code".toList attrs' inner' kids'] := by
          rintro ⟨_, _, _, _, _, rfl, rfl⟩
          rw [preCode_pre] at hpc; cases hpc
        cases inner with
        | none =>
          dsimp only
          refine ⟨fun ms h => (by cases h), fun _ => ⟨_, _, .here (List.mem_cons_self ..), ?_⟩⟩
          exact .open ht ho
        | some ab =>
          obtain ⟨a, b⟩ := ab
          have hbl := hin a b rfl
          dsimp only
          have hnst : ¬ Stops text (.mk s e name attrs (some (a, b)) kids) := by
            rw [stops_iff]
            rintro (g | ⟨_, ⟨_, _, _, _, _, g1, g2, _⟩ | ⟨_, g⟩⟩)
            · exact h1 (g.trans doc_eq.symm)
            · exact hnpre ⟨_, _, _, _, _, g1, g2⟩
            · cases g
          have hlast : ∀ m, m ∈ (if name = "p".toList ∧ hasBreaks kind kids = true ∧ (slice text a b).head? ≠ some '\n' then [] else tagMsgs white text (lineStart text e) b name k) ↔
              (¬ (name = "p".toList ∧ HasBreak kind (.mk s e name attrs (some (a, b)) kids) ∧ ¬ (a < b ∧ text[a]? = some '\n')) ∧ TagSays white text e b name k m) := by
            intro m
            rw [hasBreak_iff, ← endTag_cond]
            by_cases hq : name = "p".toList ∧ hasBreaks kind kids = true ∧ (slice text a b).head? ≠ some '\n'
            · rw [if_pos hq]
              exact ⟨fun h => (by cases h), fun h => absurd hq h.1⟩
            · rw [if_neg hq, tagMsgs_iff white text e b name k hbl]
              exact ⟨fun h => ⟨hq, h⟩, fun h => h.2⟩
          by_cases h5 : name ∈ ["emu-grammar".toList, "emu-alg".toList, "emu-eqn".toList] ∨ hasBlocks kind kids = false
          · rw [if_pos h5]
            have hnop : ¬ Opened kind (.mk s e name attrs (some (a, b)) kids) := fun g => hopen.1 g h5
            refine good_leaf (fun h => hnop h.2.2) (fun ms h => ?_) (fun h => by cases h)
            cases h
            refine ⟨fun m => ?_, hnst⟩
            rw [says_iff, List.mem_append, List.mem_append, hfirst, contentSays_iff hw, hlast]
            constructor
            · rintro ((h | h) | h)
              · exact .inl ⟨hlit, h⟩
              · exact .inr ⟨ht, .inr (.inr ⟨ho, _, _, rfl, .inl ⟨hnop, h⟩⟩)⟩
              · exact .inr ⟨ht, .inr (.inr ⟨ho, _, _, rfl, .inr h⟩)⟩
            · rintro (⟨_, g⟩ | ⟨_, ⟨g, _⟩ | ⟨_, _, _, _, _, _, g1, g2, _⟩ | ⟨_, _, _, gi, g⟩⟩)
              · exact .inl (.inl g)
              · exact absurd g hncom
              · exact absurd ⟨_, _, _, _, _, g1, g2⟩ hnpre
              · cases gi
                rcases g with g | g
                · exact .inl (.inr g.2)
                · exact .inr g
          · rw [if_neg h5]
            have hop := hopen.2 h5
            have ih := good_nodes hw (childIndent white text name s (s - lineStart text s)) kids hkids
            cases hb : indentNodes white kind text (childIndent white text name s (s - lineStart text s)) kids with
            | none =>
              dsimp only
              obtain ⟨n, j, hr, hs⟩ := ih.2 hb
              exact ⟨fun ms h => (by cases h), fun _ => ⟨n, j, reach_one.2 (.inr ⟨ht, ho, hop, hr⟩), hs⟩⟩
            | some body =>
              dsimp only
              obtain ⟨i1, i2⟩ := ih.1 body hb
              refine ⟨fun ms h => ?_, fun h => by cases h⟩
              cases h
              refine ⟨fun m => ?_, ?_⟩
              · rw [List.mem_append, List.mem_append, hfirst, i1, hlast]
                constructor
                · rintro ((h | ⟨n, j, hr, hs⟩) | h)
                  · exact ⟨_, _, .here (List.mem_cons_self ..), .startTag hlit h⟩
                  · exact ⟨n, j, reach_one.2 (.inr ⟨ht, ho, hop, hr⟩), hs⟩
                  · exact ⟨_, _, .here (List.mem_cons_self ..), .endTag ht ho h.1 h.2⟩
                · rintro ⟨n, j, hr, hs⟩
                  rcases reach_one.1 hr with ⟨rfl, rfl⟩ | ⟨_, _, _, hr⟩
                  · rw [says_iff] at hs
                    rcases hs with ⟨_, g⟩ | ⟨_, ⟨g, _⟩ | ⟨_, _, _, _, _, _, g1, g2, _⟩ | ⟨_, _, _, gi, g⟩⟩
                    · exact .inl (.inl g)
                    · exact absurd g hncom
                    · exact absurd ⟨_, _, _, _, _, g1, g2⟩ hnpre
                    · cases gi
                      rcases g with g | g
                      · exact absurd hop g.1
                      · exact .inr g
                  · exact .inl (.inr ⟨n, j, hr, hs⟩)
              · rintro ⟨n, j, hr, hs⟩
                rcases reach_one.1 hr with ⟨rfl, rfl⟩ | ⟨_, _, _, hr⟩
                · exact hnst hs
                · exact i2 ⟨n, j, hr, hs⟩
theorem good_nodes (hw : WhiteOk white) (k : Nat) : ∀ ns, Ordered text ns → Good white kind text k ns (indentNodes white kind text k ns)
  | [], _ => by
    rw [indentNodes]
    refine ⟨fun ms h => ?_, fun h => by cases h⟩
    cases h
    have hno : ∀ n j, ¬ Reach white kind text k [] n j := by
      intro n j h
      cases h with
      | here h => cases h
      | inside h => cases h
    exact ⟨fun m => ⟨fun h => (by cases h), fun ⟨n, j, h, _⟩ => absurd h (hno n j)⟩, fun ⟨n, j, h, _⟩ => hno n j h⟩
  | n :: ns, hord => by
    have ho1 : Ordered text [n] := by cases hord with | cons h1 h2 h3 h4 h5 => exact .cons h1 h2 h3 h4 .nil
    have ho2 : Ordered text ns := by cases hord with | cons h1 h2 h3 h4 h5 => exact h5
    have g1 := good_node hw k n ho1
    have g2 := good_nodes hw k ns ho2
    rw [indentNodes]
    cases hn : indentNode white kind text k n with
    | none =>
      obtain ⟨x, j, hr, hs⟩ := g1.2 hn
      exact ⟨fun ms h => (by cases h), fun _ => ⟨x, j, reach_cons.2 (.inl hr), hs⟩⟩
    | some ms =>
      obtain ⟨a1, a2⟩ := g1.1 ms hn
      dsimp only
      cases hns : indentNodes white kind text k ns with
      | none =>
        obtain ⟨x, j, hr, hs⟩ := g2.2 hns
        exact ⟨fun ms h => (by cases h), fun _ => ⟨x, j, reach_cons.2 (.inr hr), hs⟩⟩
      | some ks =>
        obtain ⟨b1, b2⟩ := g2.1 ks hns
        refine ⟨fun xs h => ?_, fun h => by cases h⟩
        cases h
        refine ⟨fun m => ?_, ?_⟩
        · rw [List.mem_append, a1, b1]
          constructor
          · rintro (⟨x, j, hr, hs⟩ | ⟨x, j, hr, hs⟩)
            · exact ⟨x, j, reach_cons.2 (.inl hr), hs⟩
            · exact ⟨x, j, reach_cons.2 (.inr hr), hs⟩
          · rintro ⟨x, j, hr, hs⟩
            rcases reach_cons.1 hr with hr | hr
            · exact .inl ⟨x, j, hr, hs⟩
            · exact .inr ⟨x, j, hr, hs⟩
        · rintro ⟨x, j, hr, hs⟩
          rcases reach_cons.1 hr with hr | hr
          · exact a2 ⟨x, j, hr, hs⟩
          · exact b2 ⟨x, j, hr, hs⟩
end

end Verif.Layout
