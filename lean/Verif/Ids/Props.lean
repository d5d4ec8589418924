import Verif.Ids.Lemmas
/-! # C51: ids, references to them, and defined terms -/
namespace Verif.Ids
open Verif.HTML (Str Attrs Node)
open Verif.Validate (nStart nStop nName nAttrs nInner nKids slice)

variable (cfg : Cfg)

/-- The nodes that are visited are those of the document, each before what is in it. -/
theorem c51_nodes (doc : Node) : (∀ n, n ∈ preorder doc ↔ In doc n) ∧ preorder doc = doc :: (nKids doc).flatMap preorder := by
  refine ⟨mem_preorder doc, ?_⟩
  obtain ⟨s, e, nm, a, i, k⟩ := doc
  have : ∀ cs, preorderL cs = cs.flatMap preorder := by
    intro cs
    induction cs with
    | nil => rfl
    | cons c cs ih => rw [preorderL, ih]; rfl
  rw [preorder, this]; rfl

theorem splitComma_ne (s : Str) : splitComma s ≠ [] := by
  cases s with
  | nil => simp [splitComma]
  | cons c s =>
    rw [splitComma]
    split
    · simp
    · split <;> simp

/-- Lists of ids and of variants are taken apart at the commas. -/
theorem c51_split (s : Str) : joinComma (splitComma s) = s ∧ ∀ p ∈ splitComma s, ',' ∉ p := by
  induction s with
  | nil => simp [splitComma, joinComma]
  | cons c s ih =>
    rw [splitComma]
    have hne := splitComma_ne s
    cases hs : splitComma s with
    | nil => exact absurd hs hne
    | cons p ps =>
      rw [hs] at ih
      by_cases hc : c = ','
      · rw [if_pos hc]
        constructor
        · rw [joinComma, ih.1, hc]; rfl
        · intro q hq
          rcases List.mem_cons.1 hq with rfl | hq
          · simp
          · exact ih.2 q hq
      · rw [if_neg hc]
        constructor
        · cases ps with
          | nil => simpa [joinComma] using ih.1
          | cons q r =>
            have := ih.1
            rw [joinComma] at this ⊢
            rw [List.cons_append, this]
        · intro q hq
          rcases List.mem_cons.1 hq with rfl | hq
          · rw [List.mem_cons, not_or]
            exact ⟨fun h => hc h.symm, ih.2 p (by simp)⟩
          · exact ih.2 q (by simp [hq])

/-- If the checks finish, they have issued exactly the messages there is a reason for. -/
theorem c51_messages (doc : Node) (dict : List (Str × Node)) (ids : List Str) (ms : List (Node × Say))
    (h : checkIds cfg doc = some (dict, ids, ms)) (m : Node × Say) :
    m ∈ ms ↔ Fault cfg doc (decls cfg (preorder doc)) m := by
  obtain ⟨h1, _, h3⟩ := checkIds_some doc dict ids ms h
  have hnot : ¬ (checkIds cfg doc = none) := by rw [h]; simp
  rw [checkIds_none] at hnot
  rw [h3]
  constructor
  · rintro (hd | ⟨n, hn, x, ks, ha, hk, hm⟩ | ⟨n, x, ks, hn, hr, hk, hm⟩ | ⟨x, n, hn, hu, hc, he, rfl⟩)
    · obtain ⟨pre, post, x, n, h4, h5, rfl⟩ := (dup_iff _ _ _).1 hd
      exact .duplicate h4 (by simpa using h5)
    · rcases hm with hm | hm
      · rcases (mem_prefixMsgs n x m).1 hm with ⟨p, hp, hy, rfl⟩ | ⟨hp, ⟨p, hpm, y, hy⟩, rfl⟩
        · exact .wantPrefix hn ha ((prefixFor_iff _ _).1 hp) hy
        · exact .oddPrefix hn ha ((prefixFor_none _).1 hp) hpm hy
      · obtain ⟨a, p, hb, hp, hx, rfl⟩ := (aoidMsgs_some n x ks hk m).1 hm
        exact .wantId hn ha hb hp hx
    · rw [h1] at hk
      rcases (refMsgs_some _ n x ks hk m).1 hm with ⟨hx, hi, rfl⟩ | ⟨d, hl, hd, hl', rfl⟩ | ⟨d, hl, hd, rfl⟩
      · exact .missing hn hr hx hi
      · exact .needless hn hr hl hd hl'
      · exact .oddTarget hn hr hl hd
    · rw [h1, mem_lookup _ (nodup_putAll _ _ (by simp)), lookup_dict] at hn
      exact .unreferenced hn hu hc he
  · intro hf
    have hrefs : ∀ (n : Node) (x : Str), In doc n → Refers n x → ∃ ks, refMsgs cfg dict n x = some ks := by
      intro n x hn hr
      cases hk : refMsgs cfg dict n x with
      | some ks => exact ⟨ks, rfl⟩
      | none =>
        exfalso
        rw [h1] at hk
        exact hnot (.inr (.inr (.inr ⟨n, hn, (ref1_none _ _).2 (.inr ⟨x, hr, hk⟩)⟩)))
    have hao : ∀ (n : Node) (x : Str), In doc n → attr n aId = some (some x) → ∃ ks, aoidMsgs cfg n x = some ks := by
      intro n x hn ha
      cases hk : aoidMsgs cfg n x with
      | some ks => exact ⟨ks, rfl⟩
      | none => exact absurd (.inl ⟨n, hn, .inr (.inl ⟨x, ha, hk⟩)⟩) hnot
    cases hf with
    | duplicate hD hx => exact .inl ((dup_iff _ _ _).2 ⟨_, _, _, _, hD, .inr hx, rfl⟩)
    | wantPrefix hn ha hp hy =>
      obtain ⟨ks, hk⟩ := hao _ _ hn ha
      exact .inr (.inl ⟨_, hn, _, ks, ha, hk, .inl ((mem_prefixMsgs _ _ _).2 (.inl ⟨_, (prefixFor_iff _ _).2 hp, hy, rfl⟩))⟩)
    | oddPrefix hn ha hp hpm hy =>
      obtain ⟨ks, hk⟩ := hao _ _ hn ha
      exact .inr (.inl ⟨_, hn, _, ks, ha, hk, .inl ((mem_prefixMsgs _ _ _).2 (.inr ⟨(prefixFor_none _).2 hp, ⟨_, hpm, _, hy⟩, rfl⟩))⟩)
    | wantId hn ha hb hp hx =>
      obtain ⟨ks, hk⟩ := hao _ _ hn ha
      exact .inr (.inl ⟨_, hn, _, ks, ha, hk, .inr ((aoidMsgs_some _ _ _ hk _).2 ⟨_, _, hb, hp, hx, rfl⟩)⟩)
    | missing hn hr hx hi =>
      obtain ⟨ks, hk⟩ := hrefs _ _ hn hr
      refine .inr (.inr (.inl ⟨_, _, ks, hn, hr, hk, ?_⟩))
      rw [h1] at hk
      exact (refMsgs_some _ _ _ _ hk _).2 (.inl ⟨hx, hi, rfl⟩)
    | needless hn hr hl hd hn' =>
      obtain ⟨ks, hk⟩ := hrefs _ _ hn hr
      refine .inr (.inr (.inl ⟨_, _, ks, hn, hr, hk, ?_⟩))
      rw [h1] at hk
      exact (refMsgs_some _ _ _ _ hk _).2 (.inr (.inl ⟨_, hl, hd, hn', rfl⟩))
    | oddTarget hn hr hl hd =>
      obtain ⟨ks, hk⟩ := hrefs _ _ hn hr
      refine .inr (.inr (.inl ⟨_, _, ks, hn, hr, hk, ?_⟩))
      rw [h1] at hk
      exact (refMsgs_some _ _ _ _ hk _).2 (.inr (.inr ⟨_, hl, hd, rfl⟩))
    | unreferenced hl hu hc he =>
      refine .inr (.inr (.inr ⟨_, _, ?_, hu, hc, he, rfl⟩))
      rw [h1, mem_lookup _ (nodup_putAll _ _ (by simp)), lookup_dict]
      exact hl

/-- The checks stop the program exactly in the listed cases. -/
theorem c51_finishes (doc : Node) : checkIds cfg doc = none ↔ Fatal cfg doc (decls cfg (preorder doc)) := by
  rw [checkIds_none]
  constructor
  · rintro (⟨n, hn, h | ⟨x, h, h'⟩ | ⟨h, x, hx, h'⟩ | h⟩ | h | ⟨n, x, hn, h, h'⟩ | ⟨n, hn, h⟩)
    · exact .noValue hn (by simp) h
    · obtain ⟨v, hv, h''⟩ := (aoidMsgs_none n x).1 h'
      exact .aoid hn h hv h''
    · exact .step hn h hx (pre_false.1 h')
    · exact .noValue hn (by simp) h
    · exact .oldTwice h
    · exact .oldAndNew hn h h'
    · rcases (ref1_none _ _).1 h with ⟨h1, h2⟩ | ⟨x, hr, h1⟩
      · exact .href hn h1 h2
      · obtain ⟨d, h2, h3, h4⟩ := (refMsgs_none _ _ _).1 h1
        exact .dfn hn hr h2 h3 h4
  · intro hf
    cases hf with
    | noValue hn ha h =>
      simp only [List.mem_cons, List.not_mem_nil, or_false] at ha
      rcases ha with rfl | rfl
      · exact .inl ⟨_, hn, .inl h⟩
      · exact .inl ⟨_, hn, .inr (.inr (.inr h))⟩
    | aoid hn h hv h' => exact .inl ⟨_, hn, .inr (.inl ⟨_, h, (aoidMsgs_none _ _).2 ⟨_, hv, h'⟩⟩)⟩
    | step hn h hx h' => exact .inl ⟨_, hn, .inr (.inr (.inl ⟨h, _, hx, pre_false.2 h'⟩))⟩
    | oldTwice h => exact .inr (.inl h)
    | oldAndNew hn h h' => exact .inr (.inr (.inl ⟨_, _, hn, h, h'⟩))
    | href hn h h' => exact .inr (.inr (.inr ⟨_, hn, (ref1_none _ _).2 (.inl ⟨h, h'⟩)⟩))
    | dfn hn hr hl hd h =>
      exact .inr (.inr (.inr ⟨_, hn, (ref1_none _ _).2 (.inr ⟨_, hr, (refMsgs_none _ _ _).2 ⟨_, hl, hd, h⟩⟩)⟩))

/-- Afterwards every declared id stands for the node that declares it last; the file of ids lists every current and every old id once. -/
theorem c51_table (doc : Node) (dict : List (Str × Node)) (ids : List Str) (ms : List (Node × Say))
    (h : checkIds cfg doc = some (dict, ids, ms)) :
    (∀ x n, dict.lookup x = some n ↔ LastDecl (decls cfg (preorder doc)) x n) ∧
    (∀ x, x ∈ ids ↔ ∃ n, In doc n ∧ (x ∈ idsAt cfg n ∨ x ∈ oldsAt n)) ∧ ids.Nodup := by
  obtain ⟨h1, h2, _⟩ := checkIds_some doc dict ids ms h
  have hnot : ¬ (checkIds cfg doc = none) := by rw [h]; simp
  rw [checkIds_none, not_or, not_or, not_or] at hnot
  have hk : ∀ x, x ∈ dict.map (·.1) ↔ x ∈ (decls cfg (preorder doc)).map (·.1) := by
    intro x; rw [h1, keys_putAll]; simp
  have hk' : ∀ x, x ∈ (decls cfg (preorder doc)).map (·.1) ↔ ∃ n, In doc n ∧ x ∈ idsAt cfg n := by
    intro x
    simp only [decls, List.map_flatMap, List.map_map, List.mem_flatMap, mem_preorder, Function.comp_def, List.map_id']
  refine ⟨?_, ?_, ?_⟩
  · intro x n; rw [h1, lookup_dict]
  · intro x
    rw [h2, List.mem_append, hk, hk', List.mem_flatMap]
    simp only [mem_preorder]
    constructor
    · rintro (⟨n, a, b⟩ | ⟨n, a, b⟩)
      · exact ⟨n, a, .inr b⟩
      · exact ⟨n, a, .inl b⟩
    · rintro ⟨n, a, b | b⟩
      · exact .inr ⟨n, a, b⟩
      · exact .inl ⟨n, a, b⟩
  · rw [h2, List.nodup_append]
    refine ⟨Classical.byContradiction hnot.2.1, by rw [h1]; exact nodup_putAll _ _ (by simp), ?_⟩
    intro a ha b hb hab
    subst hab
    rw [List.mem_flatMap] at ha
    obtain ⟨n, hn, ha⟩ := ha
    exact hnot.2.2.1 ⟨n, a, (mem_preorder _ _).1 hn, ha, (hk a).1 hb⟩

/-- If there is no message at all, every id is declared
once and every reference reaches a declared id (or one of the imported ones). -/
theorem c51_clean (doc : Node) (dict : List (Str × Node)) (ids : List Str) (h : checkIds cfg doc = some (dict, ids, [])) :
    ((decls cfg (preorder doc)).map (·.1)).Nodup ∧
    ∀ n x, In doc n → Refers n x → x ∈ imported ∨ ∃ d, In doc d ∧ x ∈ idsAt cfg d ∧ dict.lookup x = some d := by
  have hm := c51_messages cfg doc dict ids [] h
  have ht := (c51_table cfg doc dict ids [] h).1
  have key : ∀ D : List (Str × Node), (¬ ∃ pre post x n, D = pre ++ (x, n) :: post ∧ x ∈ pre.map (·.1)) → (D.map (·.1)).Nodup := by
    intro D
    induction D with
    | nil => intro _; simp
    | cons p D ih =>
      intro hno
      rw [List.map_cons, List.nodup_cons]
      constructor
      · intro hp
        obtain ⟨q, hq, he⟩ := List.mem_map.1 hp
        obtain ⟨a, b, hab⟩ := List.append_of_mem hq
        exact hno ⟨p :: a, b, q.1, q.2, by rw [hab]; rfl, by simp [he]⟩
      · apply ih
        rintro ⟨pre, post, x, n, h1, h2⟩
        exact hno ⟨p :: pre, post, x, n, by rw [h1]; rfl, by rw [List.map_cons]; exact List.mem_cons_of_mem _ h2⟩
  constructor
  · apply key
    rintro ⟨pre, post, x, n, h1, h2⟩
    have := (hm _).2 (.duplicate h1 h2)
    cases this
  · intro n x hn hr
    by_cases hi : x ∈ imported
    · exact .inl hi
    · right
      by_cases hx : x ∈ (decls cfg (preorder doc)).map (·.1)
      · cases hd : dict.lookup x with
        | some d =>
          obtain ⟨pre, post, he, _⟩ := (ht x d).1 hd
          have : (x, d) ∈ decls cfg (preorder doc) := by rw [he]; simp
          simp only [decls, List.mem_flatMap, List.mem_map, mem_preorder] at this
          obtain ⟨k, h1, y, h2, h3⟩ := this
          injection h3 with h3 h4
          subst h3; subst h4
          exact ⟨_, h1, h2, rfl⟩
        | none =>
          exfalso
          have h1 := (checkIds_some doc dict ids [] h).1
          rw [lookup_none, h1, keys_putAll] at hd
          exact hd (.inr hx)
      · have := (hm _).2 (.missing hn hr hx hi)
        cases this

/-- The table of defined terms: it is made exactly if all definitions are closed and no term is defined twice, and then gives for each
term the definition it is the content or a variant of. -/
theorem c51_terms (doc : Node) :
    (checkDfns cfg doc ≠ none ↔ (∀ d, In doc d → nName d = sDfn → inner cfg d ≠ none) ∧
      (((preorder doc).filter (fun n => nName n = sDfn)).flatMap (definesList cfg)).Nodup) ∧
    ∀ t, checkDfns cfg doc = some t →
      (t.map (·.1)).Nodup ∧ ∀ x d, (x, d) ∈ t ↔ In doc d ∧ nName d = sDfn ∧ Defines cfg d x := by
  have hto : ∀ d, termsOf cfg d ≠ none ↔ inner cfg d ≠ none := by
    intro d
    unfold termsOf
    cases inner cfg d with
    | none => simp
    | some t => simp only; split <;> simp
  have hlist : ∀ d, inner cfg d ≠ none → (termsOf cfg d).getD [] = definesList cfg d := by
    intro d hd
    unfold termsOf definesList
    cases hi : inner cfg d with
    | none => exact absurd hi hd
    | some t =>
      simp only
      cases attr d aVariants with
      | none => rfl
      | some v =>
        cases v with
        | none => rfl
        | some v =>
          cases v with
          | nil => rfl
          | cons c cs => simp
  have hdef : ∀ d x, x ∈ definesList cfg d ↔ Defines cfg d x := by
    intro d x
    unfold definesList
    rw [List.mem_append, Option.mem_toList]
    constructor
    · rintro (h | h)
      · exact .content h
      · split at h
        · rename_i v hv
          split at h
          · cases h
          · rename_i hne; exact .variant hv hne h
        · cases h
    · rintro (h | ⟨hv, hne, h⟩)
      · exact .inl h
      · right; rw [hv]; simp only; rw [if_neg hne]; exact h
  have hl := dfnsLoop_spec (cfg := cfg) ((preorder doc).filter (fun n => nName n = sDfn)) [] (by simp)
  have hmem : ∀ d, d ∈ (preorder doc).filter (fun n => nName n = sDfn) ↔ In doc d ∧ nName d = sDfn := by
    intro d; rw [List.mem_filter, mem_preorder]; simp
  have hcl : (∀ d ∈ (preorder doc).filter (fun n => nName n = sDfn), termsOf cfg d ≠ none) ↔
      (∀ d, In doc d → nName d = sDfn → inner cfg d ≠ none) := by
    constructor
    · intro h d h1 h2; exact (hto d).1 (h d ((hmem d).2 ⟨h1, h2⟩))
    · intro h d hd; exact (hto d).2 (h d ((hmem d).1 hd).1 ((hmem d).1 hd).2)
  have hflat : (∀ d, In doc d → nName d = sDfn → inner cfg d ≠ none) →
      ((preorder doc).filter (fun n => nName n = sDfn)).flatMap (fun d => (termsOf cfg d).getD []) =
      ((preorder doc).filter (fun n => nName n = sDfn)).flatMap (definesList cfg) := by
    intro h
    rw [List.flatMap_def, List.flatMap_def]
    congr 1
    apply List.map_congr_left
    intro d hd
    exact hlist d (h d ((hmem d).1 hd).1 ((hmem d).1 hd).2)
  constructor
  · constructor
    · intro h
      cases ht : checkDfns cfg doc with
      | none => exact absurd ht h
      | some t =>
        obtain ⟨h1, h2, h3⟩ := hl.1 t ht
        have h1 := hcl.1 h1
        refine ⟨h1, ?_⟩
        rw [← hflat h1]
        rw [h3] at h2
        simpa [List.map_flatMap, Function.comp_def] using h2
    · rintro ⟨h1, h2⟩
      apply hl.2 (hcl.2 h1)
      rw [hflat h1]
      simpa using h2
  · intro t ht
    obtain ⟨h1, h2, h3⟩ := hl.1 t ht
    have h1 := hcl.1 h1
    refine ⟨h2, ?_⟩
    intro x d
    rw [h3, List.nil_append, List.mem_flatMap]
    constructor
    · rintro ⟨e, he, hx⟩
      obtain ⟨y, hy, heq⟩ := List.mem_map.1 hx
      injection heq with e1 e2
      subst e1; subst e2
      have he := (hmem e).1 he
      rw [hlist e (h1 e he.1 he.2), hdef] at hy
      exact ⟨he.1, he.2, hy⟩
    · rintro ⟨h4, h5, h6⟩
      refine ⟨d, (hmem d).2 ⟨h4, h5⟩, List.mem_map.2 ⟨x, ?_, rfl⟩⟩
      rw [hlist d (h1 d h4 h5), hdef]
      exact h6

/-! ## Cases -/

def S (s : String) : Str := s.toList
def a1 (k v : String) : Str × Option Str := (S k, some (S v))

def cfg0 : Cfg := ⟨S "Liststep-aLists", fun n => if nStart n = 5 then [S "step-a"] else [], fun p a => [p ++ a]⟩

/-- A clause with an old id, a definition with a variant, an algorithm with a step, and a reference to each. -/
def doc0 : Node := .mk 0 20 (S "#DOC") [] none [
  .mk 1 9 (S "emu-clause") [a1 "id" "sec-x", a1 "oldids" "sec-y,sec-z", a1 "aoid" "x"] (some (0, 4)) [
    .mk 2 4 (S "dfn") [a1 "id" "list", a1 "variants" "Lists,lists"] (some (0, 4)) [],
    .mk 5 6 (S "emu-alg") [] (some (4, 10)) [],
    .mk 6 7 (S "emu-xref") [a1 "href" "#sec-x"] (some (0, 0)) [],
    .mk 7 8 (S "emu-xref") [a1 "href" "#step-a"] (some (0, 0)) [],
    .mk 8 9 (S "emu-xref") [a1 "href" "#list"] (some (0, 2)) []]]

/-- Nothing to report. -/
example : (checkIds cfg0 doc0).map (fun r => (r.1.map (·.1), r.2.1, r.2.2.length)) =
    some ([S "sec-x", S "list", S "step-a"], [S "sec-y", S "sec-z", S "sec-x", S "list", S "step-a"], 0) := by decide +kernel

example : (checkDfns cfg0 doc0).map (·.map (fun p => (p.1, nStart p.2))) =
    some [(S "List", 2), (S "Lists", 2), (S "lists", 2)] := by decide +kernel

/-- A tag for what a message says. -/
def tag : Say → Nat × Str
  | .duplicate x => (0, x)
  | .wantPrefix x => (1, x)
  | .oddPrefix => (2, [])
  | .wantId x => (3, x)
  | .missing x => (4, x)
  | .needless x => (5, x)
  | .oddTarget => (6, [])
  | .unreferenced x => (7, x)

/-- One of everything. -/
def doc1 : Node := .mk 0 30 (S "#DOC") [] none [
  .mk 1 2 (S "emu-clause") [a1 "id" "x"] none [],
  .mk 2 3 (S "emu-eqn") [a1 "id" "eqn-e", a1 "aoid" "f"] none [],
  .mk 3 4 (S "p") [a1 "id" "sec-p"] none [],
  .mk 4 5 (S "dfn") [a1 "id" "x", a1 "variants" "Lists"] (some (0, 4)) [],
  .mk 6 7 (S "emu-xref") [a1 "href" "#x"] (some (0, 0)) [],
  .mk 7 8 (S "emu-xref") [a1 "href" "#x"] (some (10, 15)) [],
  .mk 8 9 (S "emu-xref") [a1 "href" "#nowhere"] (some (0, 0)) [],
  .mk 9 10 (S "emu-xref") [a1 "href" "#table-unicode-script-values"] (some (0, 0)) [],
  .mk 10 11 (S "emu-xref") [a1 "href" "#sec-p"] (some (0, 0)) [],
  .mk 11 12 (S "emu-note") [a1 "id" "n"] none [],
  .mk 12 13 (S "div") [a1 "id" "metadata-block"] none [],
  .mk 13 14 (S "emu-figure") [a1 "id" "figure-f"] none []]

example : (checkIds cfg0 doc1).map (fun r => r.2.2.map (fun m => (nStart m.1, tag m.2))) = some [
    (1, 1, S "sec-"), (2, 3, S "f"), (3, 2, []), (4, 0, S "x"), (6, 5, S "x"), (7, 5, S "x"), (8, 4, S "nowhere"), (3, 6, []),
    (11, 7, S "n")] := by decide +kernel

/-- The program stops: at a step whose id is not that of a step, an old id that is in use, an aoid on something else than a clause or
equation, a reference without target. -/
example : checkIds ⟨[], fun _ => [S "sec-a"], fun _ _ => []⟩ (.mk 0 1 (S "emu-alg") [] none []) = none := by rfl
example : checkIds cfg0 (.mk 0 1 (S "p") [a1 "id" "a", a1 "oldids" "b,a"] none []) = none := by rfl
example : checkIds cfg0 (.mk 0 1 (S "p") [a1 "oldids" "b,b"] none []) = none := by rfl
example : checkIds cfg0 (.mk 0 1 (S "p") [a1 "id" "a", a1 "aoid" "a"] none []) = none := by rfl
example : checkIds cfg0 (.mk 0 1 (S "emu-xref") [] none []) = none := by rfl
/-- A term that is defined twice. -/
example : checkDfns cfg0 (.mk 0 1 (S "p") [] none [
  .mk 0 1 (S "dfn") [a1 "variants" "Lists"] (some (0, 4)) [], .mk 0 1 (S "dfn") [] (some (10, 15)) []]) = none := by rfl

/-- A note about a reference: when an id is declared twice, references are judged by its last declaration only. -/
theorem c51_last_decl_witness : (checkIds cfg0 (.mk 0 9 (S "#DOC") [] none [
    .mk 1 2 (S "dfn") [a1 "id" "x"] (some (0, 4)) [],
    .mk 2 3 (S "emu-note") [a1 "id" "x"] none [],
    .mk 3 4 (S "emu-xref") [a1 "href" "#x"] (some (0, 0)) []])).map (fun r => r.2.2.map (fun m => (nStart m.1, tag m.2))) =
    some [(2, 0, S "x")] := by decide +kernel

end Verif.Ids
