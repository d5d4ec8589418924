import Verif.Sections.PathLemmas
import Verif.Sections.ParamLemmas
/-!
# C38, C44, C45, C46
-/
namespace Verif.Sections

/-! ## C38: the section tree and section numbers -/

/-- C38: the section tree that is built is exactly the outline of the document: each section has its heading, its blocks, its parts without
number and its subsections, in the order of the document, with nothing lost or added. -/
theorem c38_tree (n : Nat) (doc : HNode) (level : Nat) (s : Sec) (hn : depth doc ≤ n) : makeTree n doc level = some s ↔ Outline doc level s :=
  ⟨makeTree_sound n doc level s, fun h => makeTree_complete n doc level s h hn⟩

/-- C38: sections are built and numbered if, and only if, each of them starts with an h1 and has an id, and there are at most 26 annexes. -/
theorem c38_succeeds (n : Nat) (doc : HNode) (hn : depth doc ≤ n) :
    (∃ r, makeSections n doc = some r) ↔
      (∀ c, Inside doc c → Headed c ∧ c.id ≠ none) ∧ countKind doc .annex (sectionsIn doc).length ≤ 26 := by
  constructor
  · intro ⟨r, h⟩
    obtain ⟨ho, hr⟩ := makeSections_some h
    have h1 := ((outline_exists n doc 0 hn).1 ⟨_, ho⟩).2
    have h2 := (setRoot_exists ho).1 ⟨r, hr⟩
    exact ⟨fun c hc => ⟨h1 c hc, h2.1 c hc⟩, h2.2⟩
  · intro ⟨hin, ha⟩
    obtain ⟨root, ho⟩ := (outline_exists n doc 0 hn).2 ⟨fun h => absurd rfl h, fun c hc => (hin c hc).1⟩
    obtain ⟨r, hr⟩ := (setRoot_exists ho).2 ⟨fun c hc => (hin c hc).2, ha⟩
    exact ⟨r, by simp only [makeSections, makeTree_complete n doc 0 root ho hn, hr]⟩

/-- C38: the numbered sections are those of the document, at the same places, with their own ids and titles. -/
theorem c38_places (n : Nat) (doc : HNode) (r : NSec) (h : makeSections n doc = some r) (p : List Nat) :
    ((sectionAt r p).isSome = (docAt doc p).isSome) ∧
    ∀ s, p ≠ [] → sectionAt r p = some s → ∃ d, docAt doc p = some d ∧ s.id = d.id ∧ s.title = (flow d).head?.map HNode.text ∧
      Outline d p.length s.sec := by
  have hroot := makeSections_some h
  cases p with
  | nil => exact ⟨rfl, fun s hp => absurd rfl hp⟩
  | cons i js =>
    refine ⟨?_, ?_⟩
    · obtain ⟨ho, hr⟩ := hroot
      obtain ⟨he, hl, hi⟩ := (setRoot_iff ho r).1 hr
      rw [sectionAt, docAt]
      cases hc : r.subs[i]? with
      | none =>
        have : (sectionsIn doc)[i]? = none := by rw [List.getElem?_eq_none_iff] at hc ⊢; omega
        simp [this]
      | some r' =>
        have hi' := (List.getElem?_eq_some_iff.1 hc).1
        have hd : (sectionsIn doc)[i]? = some ((sectionsIn doc)[i]'(by omega)) := List.getElem?_eq_getElem _
        obtain ⟨s, hs, hos⟩ := ho.get' hd
        obtain ⟨k, hk, ha26, hn⟩ := hi i s _ r' hd hs hc
        simp only [hd]
        exact below_exists js hos hn
    · intro s _ ha
      obtain ⟨c, k, s1, r', hc, hk, ho, hr', hn, hat, _⟩ := at_info h ha
      obtain ⟨d, lv, u, nm, h1, h2, h3, h4⟩ := below_info js ho (by omega) hn hat
      have hi := setNum_info h2 (by omega) h4
      refine ⟨d, by rw [docAt, hc]; exact h1, hi.1, hi.2, ?_⟩
      rw [(setNum_some h4).2.1]
      have : lv = (i :: js).length := by simp only [List.length_cons]; omega
      rw [← this]
      exact h2

/-- C38: the number of a section says where it is: the number of the top-level section, then the position among its siblings at each level. -/
theorem c38_number (n : Nat) (doc : HNode) (r : NSec) (h : makeSections n doc = some r) (i : Nat) (js : List Nat) (c : HNode) (k : SecKind) (s : NSec)
    (hc : (sectionsIn doc)[i]? = some c) (hk : c.kind = .sec k) (hs : sectionAt r (i :: js) = some s) : s.num = some (label doc i k js) := by
  obtain ⟨c', k', s1, r', hc', hk', ho, hr', hn, hat, _⟩ := at_info h hs
  rw [hc] at hc'
  injection hc' with hc'
  subst hc'
  rw [hk] at hk'
  injection hk' with hk'
  subst hk'
  exact setNum_path js _ _ _ _ hn hat

/-- C38: no two sections have the same number, if there is at most one introduction. -/
theorem c38_distinct (n : Nat) (doc : HNode) (r : NSec) (h : makeSections n doc = some r) (h1 : OneIntro doc) (p q : List Nat) (s t : NSec)
    (hp : p ≠ []) (hq : q ≠ []) (hs : sectionAt r p = some s) (ht : sectionAt r q = some t) (he : s.num = t.num) : p = q := by
  cases p with
  | nil => exact absurd rfl hp
  | cons i js =>
    cases q with
    | nil => exact absurd rfl hq
    | cons j ks =>
      obtain ⟨c, k, s1, r1, hc, hk, ho, hr1, hn, hat, ha⟩ := at_info h hs
      obtain ⟨d, l, s2, r2, hd, hl, ho2, hr2, hn2, hat2, ha2⟩ := at_info h ht
      rw [setNum_path js _ _ _ _ hn hat, setNum_path ks _ _ _ _ hn2 hat2] at he
      injection he with he
      obtain ⟨e1, e2⟩ := words_inj (topLabel_nodot doc i k ha) (topLabel_nodot doc j l ha2) he
      rw [topLabel_inj doc h1 hc hd hk hl ha ha2 e1, e2]

/-- C38: going through all sections visits each section exactly once, in the order of the document. -/
theorem c38_order (n : Nat) (doc : HNode) (r : NSec) (h : makeSections n doc = some r) (hd : ¬ IsSection doc) :
    ∃ ps : List (List Nat), ps.Pairwise (· < ·) ∧ (∀ p, p ∈ ps ↔ p ≠ [] ∧ (docAt doc p).isSome = true) ∧ ps.map (sectionAt r) = (eachSection r).map some := by
  obtain ⟨ho, hr⟩ := makeSections_some h
  obtain ⟨he, hl, hi⟩ := (setRoot_iff ho r).1 hr
  have hsub : ∀ c ∈ r.subs, Proper c := by
    intro x hx
    obtain ⟨j, hj⟩ := List.getElem?_of_mem hx
    have hj' := (List.getElem?_eq_some_iff.1 hj).1
    have hdj : (sectionsIn doc)[j]? = some ((sectionsIn doc)[j]'(by omega)) := List.getElem?_eq_getElem _
    obtain ⟨s, hs, hos⟩ := ho.get' hdj
    obtain ⟨k, hk, ha26, hn⟩ := hi j s _ x hdj hs hj
    exact setNum_proper hos ⟨k, hk⟩ hn
  have hnode : r.sec.node = doc := ho.node_eq
  have hkind : ∀ k, r.sec.node.kind ≠ .sec k := fun k hk => hd ⟨k, by rw [← hnode]; exact hk⟩
  have hplaces := fun p => (c38_places n doc r h p).1
  refine ⟨pathsL r.subs 0, sorted_pathsL _ _, ?_, ?_⟩
  · intro p
    rw [← hplaces p, mem_pathsL]
    cases p with
    | nil => simp
    | cons a p =>
      simp only [sectionAt, ne_eq, reduceCtorEq, not_false_eq_true, true_and, List.cons.injEq]
      constructor
      · rintro ⟨i, q, ⟨rfl, rfl⟩, _, h⟩
        exact h
      · intro h; exact ⟨a, p, ⟨rfl, rfl⟩, by omega, h⟩
  · obtain ⟨s, nm, i, t, subs⟩ := r
    have := pathsL_map subs hsub [] rfl
    simp only [List.length_nil, List.nil_append] at this
    have e : eachSection (.mk s nm i t subs) = eachSections subs := by
      rw [eachSection]
      split
      · next k hk => exact absurd hk (hkind k)
      · simp
    rw [e, ← this]
    apply List.map_congr_left
    intro p hp
    have hne := pathsL_ne subs 0 p hp
    cases p with
    | nil => exact absurd rfl hne
    | cons a p => rfl

/-- C38: so the numbers in the list of all sections are all different. -/
theorem c38_list (n : Nat) (doc : HNode) (r : NSec) (h : makeSections n doc = some r) (hd : ¬ IsSection doc) (h1 : OneIntro doc) :
    ((eachSection r).map NSec.num).Nodup := by
  obtain ⟨ps, hsort, hmem, hmap⟩ := c38_order n doc r h hd
  rw [List.Nodup, List.pairwise_map]
  have hlen : ps.length = (eachSection r).length := by simpa using congrArg List.length hmap
  rw [List.pairwise_iff_getElem]
  intro a b ha hb hab he
  have key : ∀ (i : Nat) (hi : i < (eachSection r).length), sectionAt r (ps[i]'(by omega)) = some (eachSection r)[i] := by
    intro i hi
    have := congrArg (fun (l : List (Option NSec)) => l[i]?) hmap
    simpa [hi, hlen ▸ hi] using this
  have hpa := (hmem _).1 (List.getElem_mem (show a < ps.length by omega))
  have hpb := (hmem _).1 (List.getElem_mem (show b < ps.length by omega))
  have heq := c38_distinct n doc r h h1 _ _ _ _ hpa.1 hpb.1 (key a ha) (key b hb) he
  have hlt := List.pairwise_iff_getElem.1 hsort a b (by omega) (by omega) hab
  rw [heq] at hlt
  exact absurd hlt (List.lt_irrefl _)

def exH1 (t : String) : HNode := .mk .h1 none t []
def exSec (k : SecKind) (i t : String) (kids : List HNode) : HNode := .mk (.sec k) (some i) "" (.mk .space none "\n" [] :: exH1 t :: kids)
def exDoc : HNode := .mk .other none "" [exSec .intro "sec-intro" "Introduction" [], exSec .clause "sec-a" "A" [],
  exSec .clause "sec-b" "B" [.mk .other none "<p>x</p>" [], .mk .h2 none "part" [], .mk .other none "<p>y</p>" [], exSec .clause "sec-c" "C" [], exSec .annex "sec-d" "D" []],
  exSec .annex "sec-e" "E" [exSec .clause "sec-f" "F" []]]

/-- The document meets the hypotheses, and gets the numbers 0, 1, 2, 2.1, 2.2, A, A.1. -/
example : (makeSections 4 exDoc).map (fun r => (eachSection r).map (fun s => (s.num, s.id))) =
    some [(some ['0'], some "sec-intro"), (some ['1'], some "sec-a"), (some ['2'], some "sec-b"), (some ['2', '.', '1'], some "sec-c"),
      (some ['2', '.', '2'], some "sec-d"), (some ['A'], some "sec-e"), (some ['A', '.', '1'], some "sec-f")] := by decide +kernel
example : depth exDoc ≤ 4 := by decide +kernel
example : OneIntro exDoc := by unfold OneIntro; decide +kernel
example : ¬ IsSection exDoc := by decide +kernel

def exTwo : HNode := .mk .other none "" [exSec .intro "sec-a" "A" [], exSec .intro "sec-b" "B" []]

/-- C38 is false for a document with two introductions: both get the number 0. -/
theorem c38_intro_witness : ∃ r, makeSections 3 exTwo = some r ∧ (∃ s t, sectionAt r [0] = some s ∧ sectionAt r [1] = some t ∧ s.num = t.num) := by
  have h : (makeSections 3 exTwo).isSome = true := by decide +kernel
  obtain ⟨r, hr⟩ := Option.isSome_iff_exists.1 h
  refine ⟨r, hr, ?_⟩
  have h0 : ((makeSections 3 exTwo).bind (sectionAt · [0])).map NSec.num = some (some ['0']) := by decide +kernel
  have h1 : ((makeSections 3 exTwo).bind (sectionAt · [1])).map NSec.num = some (some ['0']) := by decide +kernel
  rw [hr] at h0 h1
  simp only [Option.bind_some, Option.map_eq_some_iff] at h0 h1
  obtain ⟨s, hs, es⟩ := h0
  obtain ⟨t, ht, et⟩ := h1
  exact ⟨s, t, hs, ht, by rw [es, et]⟩

/-! ## C44: lists of parameters -/

/-- C44: a list of required and then optional parameters is read as it was written. -/
theorem c44_optional (req opts : List (List Char)) (hr : ∀ x ∈ req, IsName x) (ho : ∀ x ∈ opts, IsName x) :
    paramsOf (renderOptional req opts) = some (req.map (fun x => (x, .plain)) ++ opts.map (fun x => (x, .optional))) := by
  cases req with
  | nil =>
    cases opts with
    | nil => rfl
    | cons o os =>
      have ho' := ho o (by simp)
      have hos := fun x hx => ho x (List.mem_cons_of_mem o hx)
      have e : renderOptional [] (o :: os) = ('[' :: ' ' :: o) ++ renderOpts os ++ closer 1 := by simp [renderOptional, closer]
      have hst : strip (renderOptional [] (o :: os)) = renderOptional [] (o :: os) :=
        strip_self (a := '[') (b := ']') (m := ' ' :: o ++ renderOpts os ++ closer 1) (m' := ('[' :: ' ' :: o) ++ renderOpts os ++ [' '])
          (by rw [e]; rfl) (by rw [e]; simp [closer]) (by decide) (by decide)
      unfold paramsOf
      rw [hst]
      have hne : (renderOptional [] (o :: os)).isEmpty = false := by rw [e]; rfl
      simp only [hne, Bool.false_eq_true, if_false]
      rw [e, opts_split os _ 1 (by simp [name_nocomma ho'])]
      cases os with
      | nil =>
        simp only [eachParam]
        rw [one_opt false ho' (closer_head 1), closers_closer]
        simp
      | cons o' os =>
        simp only [eachParam]
        rw [one_opt false ho' (by simp; decide)]
        simp only [not_sp, Bool.false_eq_true, if_false, if_true]
        rw [opts_ok os o' 2 (hos o' (by simp)) (fun x hx => hos x (List.mem_cons_of_mem _ hx))]
        simp
  | cons n req =>
    have hn := hr n (by simp)
    have hq := fun x hx => hr x (List.mem_cons_of_mem n hx)
    have e : renderOptional (n :: req) opts = renderPlain (n :: req) ++ renderOpts opts := by simp [renderOptional]
    obtain ⟨w, hw⟩ := name_ne hn
    obtain ⟨r, hfirst⟩ := plain_first n req '_' w hw
    have hlast : ∃ m b, b ≠ ' ' ∧ renderOptional (n :: req) opts = m ++ [b] := by
      by_cases hop : opts = []
      · obtain ⟨i, a, hia, hmem⟩ := snoc_of_ne (l := n :: req) (by simp)
        obtain ⟨m, hm⟩ := plain_last i a (name_last (hr a (by simpa using hmem)))
        refine ⟨m, '_', by decide, ?_⟩
        rw [e, hop, hia, hm]
        simp [renderOpts]
      · obtain ⟨m, hm⟩ := opts_last opts hop
        exact ⟨renderPlain (n :: req) ++ m, ']', by decide, by rw [e, hm, List.append_assoc]⟩
    obtain ⟨m', b, hb, hl⟩ := hlast
    have hst : strip (renderOptional (n :: req) opts) = renderOptional (n :: req) opts :=
      strip_self (a := '_') (b := b) (m := r ++ renderOpts opts) (by rw [e, hfirst]; rfl) hl (by decide) hb
    unfold paramsOf
    rw [hst]
    have hne : (renderOptional (n :: req) opts).isEmpty = false := by rw [e, hfirst]; rfl
    simp only [hne, Bool.false_eq_true, if_false]
    rw [e]
    exact plain_ok req n opts hn hq ho

/-- C44: the same for a list that ends in a rest parameter. -/
theorem c44_rest (req : List (List Char)) (r : List Char) (hr : ∀ x ∈ req, IsName x) (hn : IsName r) :
    paramsOf (renderRest req r) = some (req.map (fun x => (x, .plain)) ++ [(r, .rest)]) := by
  obtain ⟨w, hw⟩ := name_last hn
  obtain ⟨m', hl⟩ := plain_last req (['.', '.', '.'] ++ r) ⟨['.', '.', '.'] ++ w, by rw [hw]; simp⟩
  have hfirst : ∃ a m, a ≠ ' ' ∧ renderRest req r = a :: m := by
    unfold renderRest
    cases req with
    | nil => exact ⟨'.', '.' :: '.' :: r, by decide, rfl⟩
    | cons n req =>
      obtain ⟨w, hw⟩ := name_ne (hr n (by simp))
      obtain ⟨m, hm⟩ := plain_first n (req ++ [['.', '.', '.'] ++ r]) '_' w hw
      exact ⟨'_', m, by decide, hm⟩
  obtain ⟨a, m, ha, hf⟩ := hfirst
  have hst : strip (renderRest req r) = renderRest req r := strip_self hf hl ha (by decide)
  unfold paramsOf
  rw [hst]
  have hne : (renderRest req r).isEmpty = false := by rw [hf]; rfl
  simp only [hne, Bool.false_eq_true, if_false]
  exact rest_ok req r hr hn

/-- C44: whatever text is accepted: it consists of the names, in order, and punctuation and blanks; and after an optional parameter all are optional. -/
theorem c44_sound (s : List Char) (ps : List (List Char × Punct)) (h : paramsOf s = some ps) :
    (∀ p ∈ ps, IsName p.1) ∧ (s.filter (fun c => !(c == ' ' || c == ',' || c == '[' || c == ']' || c == '.'))) = (ps.map (·.1)).flatten ∧
    ps.Pairwise (fun p q => p.2 = .optional → q.2 = .optional) := by
  have e : (s.filter (fun c => !(c == ' ' || c == ',' || c == '[' || c == ']' || c == '.'))) = content s := rfl
  rw [e, ← content_strip]
  unfold paramsOf at h
  dsimp only at h
  split at h
  · next hs =>
    simp only [Option.some.injEq] at h
    subst h
    rw [List.isEmpty_iff.1 hs]
    simp [content]
  · obtain ⟨h1, h2, _, _, h5⟩ := each_sound _ _ _ h
    exact ⟨h1, by rw [content_split, h2], h5⟩

/-- `_a_, _b_ [ , _c_ [ , _d_ ] ]` and `_a_, ..._b_`. -/
example : paramsOf "_a_, _b_ [ , _c_ [ , _d_ ] ]".toList = some [("_a_".toList, .plain), ("_b_".toList, .plain), ("_c_".toList, .optional), ("_d_".toList, .optional)] := by
  decide +kernel
example : renderOptional ["_a_".toList, "_b_".toList] ["_c_".toList, "_d_".toList] = "_a_, _b_ [ , _c_ [ , _d_ ] ]".toList := by decide +kernel
example : paramsOf " _a_, ..._b_".toList = some [("_a_".toList, .plain), ("_b_".toList, .rest)] := by decide +kernel
example : paramsOf "_a_ [ , ..._b_ ]".toList = none := by decide +kernel
example : paramsOf "_a_, b".toList = none := by decide +kernel
example : paramsOf "_a_ x".toList = none := by decide +kernel

/-! ## C45: pipelines -/

/-- C45: the result of a pipeline is the set of everything that its steps can make of the string, each once. -/
theorem c45_pipeline {A : Type} [DecidableEq A] (a : A) (steps : List (Step A)) :
    (pipeline a steps).Nodup ∧ ∀ b, b ∈ pipeline a steps ↔ Makes steps a b := by
  obtain ⟨h1, h2⟩ := pipeline_ok steps [a] (by simp)
  refine ⟨h1, fun b => ?_⟩
  unfold pipeline
  rw [h2]
  simp

example : pipeline 1 [.alts [none, some (· + 1)], .skip, .one (· * 2), .alts [none, some (· + 2)]] = [2, 4, 6] := by decide

/-! ## C46: left-recursive lists -/

/-- C46: the items of a left-recursive list are its items, in order. -/
theorem c46_items {T : Type} (n : Nat) (l : ANode T) (as : List (ANode T)) : 
    (eachItem n l = some as → IsList l as) ∧ (IsList l as → as.length ≤ n → eachItem n l = some as) :=
  ⟨eachItem_sound n l as, fun h hn => eachItem_complete h n hn⟩

example : IsList (.node [.node [.node [.leaf 1], .leaf 2], .leaf 3]) [ANode.leaf 1, .leaf 2, .leaf 3] := .snoc (.snoc .one)

end Verif.Sections
