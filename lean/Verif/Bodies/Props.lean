import Verif.Bodies.OpLemmas
/-!
# C78: each algorithm of a section becomes one definition
-/
namespace Verif.Bodies
open Verif.Util

/-! ## Which handler -/

theorem handle_early (t : Titles) (d : Doc) (s : Sec) (h : EarlySection s) : handle t d s = early d s := by
  rw [handle, if_neg (by simp [h.1]), if_pos h.2]

theorem handle_later (t : Titles) (d : Doc) (s : Sec) (h : Later s) : handle t d s = (match sdo d s with
    | some r => r
    | none => match oddball t.unusedText s with
      | some r => r
      | none => match otherOp d s with
        | some r => r
        | none => match function t.isXref t.fnKind s with
          | some r => r
          | none => match changes t.changes s with
            | some r => r
            | none => other t.kindOf s) := by
  rw [handle, if_neg (by simp [h.1]), if_neg h.2]
  rfl

theorem structured_of {d : Doc} {s : Sec} {body : List HNode} (h : HeaderFirst d s body) (type : String) :
    structured d s type = (headerKind s type).map (·, body) := by
  obtain ⟨dl, e, n, hd⟩ := h
  rw [structured, e]
  exact if_pos ⟨n, hd⟩

theorem handle_sdo (t : Titles) (d : Doc) (s : Sec) (body : List HNode) (h : SdoSection d s body) : handle t d s = sdoBody d body := by
  cases h with
  | evaluation h1 h2 h3 =>
    rw [handle_later t d s h1, sdo, if_pos h2, if_pos h3]
  | part h1 h2 h3 =>
    rw [handle_later t d s h1, sdo, if_neg h2, if_pos (by simpa [sdoTitles, PartTitle] using h3)]
  | header h1 h2 h3 h4 h5 =>
    rw [handle_later t d s h1, sdo, if_pos h2, if_neg h3, structured_of h4]
    have : headerKind s "sdo" = some "syntax_directed_operation" := by
      rw [headerKind, if_neg (by decide)]; rfl
    simp [this, h5]

theorem sdo_none {d : Doc} {s : Sec} (h1 : s.type ≠ some "sdo") (h2 : ¬ PartTitle s.title) : sdo d s = none := by
  rw [sdo, if_neg h1, if_neg (by simpa [sdoTitles, PartTitle] using h2)]

theorem odd_none {u : Str → Bool} {s : Sec} (h : ¬ Odd s) : oddball u s = none := by
  simp only [Odd, not_or, List.mem_cons, List.not_mem_nil, or_false] at h
  obtain ⟨⟨a1, a2, a3, a4, a5⟩, b1, b2, b3, b4, b5⟩ := h
  rw [oddball, if_neg (by simp [unusedIds, a1, a2, a3, a4]), oddStart, if_neg a5, if_neg (by simp [b1, b2, b3]), if_neg (by simp [b4, b5])]
  rfl

theorem kind_of {s : Sec} {type kind : String} (h : KindOf s type kind) : headerKind s type = some kind ∧ type ≠ "sdo" ∧ type ≠ "built-in function" := by
  cases h with
  | env h => exact ⟨by rw [headerKind, if_pos rfl, if_pos h], by decide, by decide⟩
  | module h1 h2 => exact ⟨by rw [headerKind, if_pos rfl, if_neg h1, if_pos h2], by decide, by decide⟩
  | abs => exact ⟨by rw [headerKind, if_neg (by decide)]; rfl, by decide, by decide⟩
  | numeric => exact ⟨by rw [headerKind, if_neg (by decide)]; rfl, by decide, by decide⟩
  | internal => exact ⟨by rw [headerKind, if_neg (by decide)]; rfl, by decide, by decide⟩
  | host => exact ⟨by rw [headerKind, if_neg (by decide)]; rfl, by decide, by decide⟩
  | impl => exact ⟨by rw [headerKind, if_neg (by decide)]; rfl, by decide, by decide⟩

theorem handle_op (t : Titles) (d : Doc) (s : Sec) (kind : String) (h : Heading) (body : List HNode) (hs : OpSection d s kind h body) :
    handle t d s = opBody kind h body := by
  obtain ⟨h1, h2, h3, h4, h5, type, h6, h7⟩ := hs
  obtain ⟨k1, k2, k3⟩ := kind_of h7
  rw [handle_later t d s h1, sdo_none (by rw [h6]; simpa using k2) h2, odd_none h3, otherOp, h6]
  dsimp only
  rw [if_neg k3, structured_of h4, k1]
  simp [h5]

theorem handle_fn (t : Titles) (d : Doc) (s : Sec) (hs : FnSection t s) : handle t d s = (do
    let kind ← t.fnKind s.title
    match algBlocks s.blocks with
    | [] => return ⟨kind, [], [], none⟩
    | [alg] => return ⟨kind, [.simple alg], [], none⟩
    | _ => none) := by
  obtain ⟨h1, h2, h3, h4, h5⟩ := hs
  rw [handle_later t d s h1, sdo_none (by rw [h4]; decide) h2, odd_none h3, otherOp, h4]
  dsimp only
  rw [if_pos rfl, function, if_neg (by simp [h5]), if_pos h4]
  rfl

/-! ## C78 -/

/-- C78: in the section of a syntax-directed operation without lists, either every block is in its place, and there is one definition for
each algorithm, in order, for the grammar before it; or there is a message at the first block that is not in its place, and no definition. -/
theorem c78_sdo (t : Titles) (d : Doc) (s : Sec) (body : List HNode) (h : SdoSection d s body) (hu : ∀ b ∈ body, ¬ Named "ul" b) :
    ∃ o, handle t d s = some o ∧ o.kind = "syntax_directed_operation" ∧ o.also = [] ∧
      ((AllPlaced SdoPlace body ∧ o.msg = none ∧ o.defns = sdoDefns none body) ∨
       (∃ b, FirstMisplaced SdoPlace body b ∧ o.msg = some b.startPosn ∧ o.defns = [])) := by
  obtain ⟨r, hr, h2⟩ := sdo_scan body
  have nu : ¬ body.any (fun b => el b == "ul") = true := by
    simp only [List.any_eq_true, beq_iff_eq, not_exists, not_and]
    exact fun b hb e => hu b hb e
  refine ⟨⟨"syntax_directed_operation", r.results.map (fun b => .usual b.1 b.2), [], r.msg⟩, ?_, rfl, rfl, ?_⟩
  · rw [handle_sdo t d s body h, sdoBody, if_neg nu, hr]; rfl
  · rcases h2 with ⟨a, b, c⟩ | ⟨b, a1, a2, a3⟩
    · exact .inl ⟨b, a, c⟩
    · exact .inr ⟨b, a2, a1, by rw [a3]; rfl⟩

/-- C78: the definitions of such a section are for its algorithms, all of them, each once and in order. -/
theorem c78_sdo_algs (q : Option HNode) (bs : List HNode) : (sdoDefns q bs).filterMap Defn.alg = algsOf bs := by
  induction bs generalizing q with
  | nil => rfl
  | cons b bs ih =>
    by_cases h : b.elementName = "emu-alg"
    · have e : sdoDefns q (b :: bs) = .usual (asGrammar q) b :: sdoDefns (some b) bs := by simp [sdoDefns, h]
      rw [e]
      simp [Defn.alg, ih, algsOf, h]
    · have e : sdoDefns q (b :: bs) = sdoDefns (some b) bs := by simp [sdoDefns, h]
      rw [e, ih]
      simp [algsOf, h]

/-- C78: if the rules are in lists, there is one definition for each item; anything that does not belong there stops the program. -/
theorem c78_inline (t : Titles) (d : Doc) (s : Sec) (body : List HNode) (h : SdoSection d s body) (hu : ∃ b ∈ body, Named "ul" b) (o : Out) :
    handle t d s = some o ↔ (∀ b ∈ body, InlinePlace d b) ∧ o = ⟨"syntax_directed_operation", inlineDefns d body, [], none⟩ := by
  have nu : body.any (fun b => el b == "ul") = true := by
    obtain ⟨b, h1, h2⟩ := hu
    simp only [List.any_eq_true, beq_iff_eq]
    exact ⟨b, h1, h2⟩
  rw [handle_sdo t d s body h, sdoBody, if_pos nu, Option.map_eq_some_iff]
  constructor
  · rintro ⟨ds, h1, rfl⟩
    obtain ⟨h2, rfl⟩ := (inline_iff d body ds).1 h1
    exact ⟨h2, rfl⟩
  · rintro ⟨h1, rfl⟩
    exact ⟨_, (inline_iff d body _).2 ⟨h1, rfl⟩, rfl⟩

/-- C78: in a section of early errors whose blocks are in their places, there is one definition for each list, with all the items of the list and the
grammar before it; what is neither an item nor blank stops the program. -/
theorem c78_early (t : Titles) (d : Doc) (s : Sec) (h : EarlySection s) (hp : AllPlaced EarlyPlace s.blocks) (o : Out) :
    handle t d s = some o ↔ (∀ p ∈ earlyLists none s.blocks, JustItems (d.kids p.2)) ∧
      o = ⟨"early_errors", (earlyLists none s.blocks).map (fun p => .early p.1 p.2 (lis (d.kids p.2))), [], none⟩ := by
  obtain ⟨r, hr, h2⟩ := early_scan s.blocks
  rcases h2 with ⟨a, -, c⟩ | ⟨b, -, ⟨pre, post, e, n, -⟩, -⟩
  · rw [handle_early t d s h, early, hr]
    simp only [Option.bind_eq_bind, Option.bind_some, c, a]
    constructor
    · intro e
      cases hm : (earlyLists none s.blocks).mapM (earlyDefn d) with
      | none => rw [hm] at e; cases e
      | some ds =>
        have hj : ∀ p ∈ earlyLists none s.blocks, JustItems (d.kids p.2) := by
          intro p hp
          obtain ⟨y, hy⟩ := (mapM_some_iff _ _).1 ⟨ds, hm⟩ p hp
          obtain ⟨xs, hx, -⟩ := Option.map_eq_some_iff.1 hy
          exact items_some _ _ hx
        refine ⟨hj, ?_⟩
        rw [mapM_map (earlyDefn d) (fun p => .early p.1 p.2 (lis (d.kids p.2))) _ (fun p hp => by rw [earlyDefn, items_ok _ (hj p hp)]; rfl)] at e
        cases e; rfl
    · rintro ⟨hj, rfl⟩
      rw [mapM_map (earlyDefn d) (fun p => .early p.1 p.2 (lis (d.kids p.2))) _ (fun p hp => by rw [earlyDefn, items_ok _ (hj p hp)]; rfl)]
      rfl
  · exact absurd (hp pre b post e) n

/-- C78: if they are not, there is a message at the first that is not, and no definition. -/
theorem c78_early_misplaced (t : Titles) (d : Doc) (s : Sec) (h : EarlySection s) (hp : ¬ AllPlaced EarlyPlace s.blocks) :
    ∃ b, FirstMisplaced EarlyPlace s.blocks b ∧ handle t d s = some ⟨"early_errors", [], [], some b.startPosn⟩ := by
  obtain ⟨r, hr, h2⟩ := early_scan s.blocks
  rcases h2 with ⟨-, a, -⟩ | ⟨b, a1, a2, a3⟩
  · exact absurd a hp
  · refine ⟨b, a2, ?_⟩
    rw [handle_early t d s h, early, hr]
    simp [a3, a1]

/-- C78: an operation has one algorithm, which is its definition, for the type it is for; only those that are defined elsewhere may have none.
Anything else stops the program. -/
theorem c78_operation (t : Titles) (d : Doc) (s : Sec) (kind : String) (h : Heading) (body : List HNode) (hs : OpSection d s kind h body) (o : Out) :
    handle t d s = some o ↔ OpBody kind h body o.defns ∧ o = ⟨kind, o.defns, [], none⟩ := by
  rw [handle_op t d s kind h body hs]
  exact opBody_iff kind h body o

/-- C78: a function has at most one algorithm, which is its definition. -/
theorem c78_function (t : Titles) (d : Doc) (s : Sec) (hs : FnSection t s) (o : Out) :
    handle t d s = some o ↔ ∃ kind, t.fnKind s.title = some kind ∧
      ((algsOf s.blocks = [] ∧ o = ⟨kind, [], [], none⟩) ∨ (∃ a, algsOf s.blocks = [a] ∧ o = ⟨kind, [.simple a], [], none⟩)) := by
  rw [handle_fn t d s hs, algBlocks_eq]
  cases t.fnKind s.title with
  | none => simp
  | some kind =>
    match algsOf s.blocks with
    | [] => simp [eq_comm]
    | [a] => simp [eq_comm]
    | a :: b :: r => simp

/-- C78: an operation that is known by its id or title has its algorithm right after its first paragraph. -/
theorem c78_odd (t : Titles) (d : Doc) (s : Sec) (start : String) (hs : OddSection s start) (o : Out) :
    handle t d s = some o ↔ ∃ p a rest r, s.blocks = p :: a :: rest ∧ Named "p" p ∧ p.innerText = start.toList ++ r ∧ Named "emu-alg" a ∧
      o = ⟨"abstract_operation", [.simple a], [], none⟩ := by
  obtain ⟨h1, h2, h3, h4, h5⟩ := hs
  have e : oddStart s = some start := by
    rw [oddStart]
    cases h4 with
    | weak h => rw [if_pos h]
    | reads h h' => rw [if_neg h, if_pos h']
    | races h h' =>
      rw [if_neg h, if_neg, if_pos h']
      intro h''
      simp only [List.mem_cons, List.not_mem_nil, or_false] at h' h''
      rcases h' with h' | h' <;> rw [h'] at h'' <;> revert h'' <;> decide
  rw [handle_later t d s h1, sdo_none h3 h2]
  dsimp only
  rw [oddball, if_neg (by simpa [unusedIds] using h5), e]
  simp only [Option.map_some]
  match hb : s.blocks with
  | [] => simp
  | [p] => simp
  | p :: a :: rest =>
    dsimp only
    by_cases hc : el p = "p" ∧ (stripPrefix start.toList p.innerText).isSome = true ∧ el a = "emu-alg"
    · rw [if_pos hc]
      obtain ⟨c1, c2, c3⟩ := hc
      obtain ⟨r, hr⟩ := Option.isSome_iff_exists.1 c2
      constructor
      · intro h
        cases h
        exact ⟨p, a, rest, r, rfl, c1, (stripPrefix_iff _ _ _).1 hr, c3, rfl⟩
      · rintro ⟨p', a', rest', r', e1, -, -, -, rfl⟩
        cases e1; rfl
    · rw [if_neg hc]
      refine ⟨fun h => (by cases h), ?_⟩
      rintro ⟨p', a', rest', r', e1, c1, c2, c3, -⟩
      cases e1
      exact absurd ⟨c1, by rw [(stripPrefix_iff _ _ _).2 c2]; rfl, c3⟩ hc

/-- C78: other sections may have algorithms only where that is known of them. -/
theorem c78_other (t : Titles) (d : Doc) (s : Sec) (hs : OtherSection t s) (o : Out) :
    handle t d s = some o ↔ ∃ kind, t.kindOf s = some kind ∧ OtherBody kind s.title s.blocks o.defns ∧ o = ⟨kind, o.defns, [], none⟩ := by
  obtain ⟨h1, h2, h3, h4, h5, h6⟩ := hs
  rw [handle_later t d s h1, sdo_none (by rw [h4]; simp) h2, odd_none h3, otherOp, h4, function, if_neg (by simp [h5]), if_neg (by rw [h4]; simp), changes, h6]
  simp only [Option.map_none]
  obtain ⟨ok, od, oa, om⟩ := o
  rw [other, algBlocks_eq]
  cases t.kindOf s with
  | none => simp
  | some kind =>
    simp only [Option.bind_eq_bind, Option.bind_some, Option.some.injEq, exists_eq_left']
    match ha : algsOf s.blocks with
    | [] =>
      constructor
      · intro h; cases h; exact ⟨.none ha, rfl⟩
      · rintro ⟨h, e⟩
        cases e
        cases h with
        | none => rfl
        | sample e => rw [ha] at e; cases e
        | initial e => rw [ha] at e; cases e
        | several e => rw [ha] at e; simp at e
    | [a] =>
      dsimp only
      by_cases hc : s.title = "Algorithm Conventions" ∨ s.title = "The Abstract Closure Specification Type"
      · rw [if_pos hc]
        constructor
        · intro h; cases h; exact ⟨.sample ha hc, rfl⟩
        · rintro ⟨h, e⟩
          cases e
          cases h with
          | none e => rw [ha] at e; cases e
          | sample e => rfl
          | initial e e2 => rw [e2] at hc; exact absurd hc (by decide)
          | several e => rw [ha] at e; simp at e
      · rw [if_neg hc]
        by_cases hc2 : s.title = "Array.prototype [ %Symbol.unscopables% ]"
        · rw [if_pos hc2]
          constructor
          · intro h; cases h; exact ⟨.initial ha hc2, rfl⟩
          · rintro ⟨h, e⟩
            cases e
            cases h with
            | none e => rw [ha] at e; cases e
            | sample _ e => exact absurd e hc
            | initial e e2 => rw [ha] at e; cases e; rfl
            | several e => rw [ha] at e; simp at e
        · rw [if_neg hc2]
          refine ⟨fun h => (by cases h), ?_⟩
          rintro ⟨h, e⟩
          cases e
          cases h with
          | none e => rw [ha] at e; cases e
          | sample _ e => exact absurd e hc
          | initial _ e => exact absurd e hc2
          | several e => rw [ha] at e; simp at e
    | a :: b :: r =>
      dsimp only
      by_cases hc : kind = "shorthand" ∨ s.title = "Evaluation Order" ∨ s.title = "Syntax-Directed Operations"
      · rw [if_pos hc]
        constructor
        · intro h; cases h; exact ⟨.several (by rw [ha]; simp) hc, rfl⟩
        · rintro ⟨h, e⟩
          cases e
          cases h with
          | none e => rw [ha] at e; cases e
          | sample e => rfl
          | initial e => rw [ha] at e; cases e
          | several e => rfl
      · rw [if_neg hc]
        refine ⟨fun h => (by cases h), ?_⟩
        rintro ⟨h, e⟩
        cases e
        cases h with
        | none e => rw [ha] at e; cases e
        | sample e => rw [ha] at e; cases e
        | initial e => rw [ha] at e; cases e
        | several _ e => exact absurd e hc

theorem content_iff {x : Defn} {ns : List HNode} : Content x ns ↔ ns = x.parses := by
  constructor
  · intro h; cases h <;> rfl
  · rintro rfl; cases x <;> constructor

theorem contents_iff {xs : List Defn} {nss : List (List HNode)} : Contents xs nss ↔ nss = xs.map Defn.parses := by
  constructor
  · intro h
    induction h with
    | nil => rfl
    | cons h _ ih => rw [content_iff.1 h, ih]; rfl
  · rintro rfl
    induction xs with
    | nil => exact .nil
    | cons x xs ih => exact .cons (content_iff.2 rfl) ih

/-- C78: whatever the section, no node is parsed twice, what the definitions are made of is parsed, every algorithm in it, at any depth, is parsed unless it is the
example of layout, and nothing else is. -/
theorem c78_parsed_once (t : Titles) (d : Doc) (s : Sec) (o : Out) (ps : List HNode) (h : parsed t d s = some (o, ps)) :
    handle t d s = some o ∧ ps.Nodup ∧ (∀ x ∈ o.defns, ∃ ns, Content x ns ∧ ∀ n ∈ ns, n ∈ ps) ∧
    (∀ b ∈ s.blocks, ∀ a ∈ d.algs b, a ∈ ps ∨ Example a) ∧
    (∀ n ∈ ps, (∃ x ∈ o.defns, ∃ ns, Content x ns ∧ n ∈ ns) ∨ n ∈ o.also ∨ ∃ b ∈ s.blocks, n ∈ d.algs b ∧ ¬ Example n) := by
  rw [parsed] at h
  cases h1 : handle t d s with
  | none => rw [h1] at h; cases h
  | some o' =>
    rw [h1] at h
    simp only [Option.bind_eq_bind, Option.bind_some] at h
    cases h2 : parseAll [] (o'.defns.flatMap Defn.parses ++ o'.also) with
    | none => rw [h2] at h; cases h
    | some done =>
      rw [h2] at h
      cases h
      obtain ⟨hn, hd⟩ := (parseAll_iff [] _ _ List.nodup_nil).1 h2
      simp only [List.nil_append] at hn hd
      subst hd
      obtain ⟨e1, ⟨more, e2, e3⟩, e4⟩ := ensure_spec _ (s.blocks.flatMap d.algs) hn
      refine ⟨rfl, e1, ?_, ?_, ?_⟩
      · intro x hx
        refine ⟨_, content_iff.2 rfl, fun n hn => ?_⟩
        rw [e2]
        simp only [List.mem_append, List.mem_flatMap]
        exact .inl (.inl ⟨x, hx, hn⟩)
      · intro b hb a ha
        rcases e4 a (List.mem_flatMap.2 ⟨b, hb, ha⟩) with h | h
        · exact .inl h
        · exact .inr ((example_iff _).1 h)
      · intro n hn
        rw [e2] at hn
        simp only [List.mem_append, List.mem_flatMap] at hn
        rcases hn with (⟨x, hx, h⟩ | h) | h
        · exact .inl ⟨x, hx, _, content_iff.2 rfl, h⟩
        · exact .inr (.inl h)
        · obtain ⟨h3, h4⟩ := e3 n h
          obtain ⟨b, hb, hm⟩ := List.mem_flatMap.1 h3
          exact .inr (.inr ⟨b, hb, hm, fun e => by rw [(example_iff _).2 e] at h4; cases h4⟩)

/-- C78: two different places in the list of definitions never have the same algorithm or item. -/
theorem c78_no_sharing (t : Titles) (d : Doc) (s : Sec) (o : Out) (ps : List HNode) (nss : List (List HNode)) (h : parsed t d s = some (o, ps)) (hc : Contents o.defns nss) :
    nss.flatten.Nodup := by
  rw [contents_iff.1 hc, ← List.flatMap_def]
  clear hc
  rw [parsed] at h
  cases h1 : handle t d s with
  | none => rw [h1] at h; cases h
  | some o' =>
    rw [h1] at h
    simp only [Option.bind_eq_bind, Option.bind_some] at h
    cases h2 : parseAll [] (o'.defns.flatMap Defn.parses ++ o'.also) with
    | none => rw [h2] at h; cases h
    | some done =>
      rw [h2] at h
      cases h
      obtain ⟨hn, -⟩ := (parseAll_iff [] _ _ List.nodup_nil).1 h2
      simp only [List.nil_append] at hn
      exact (List.nodup_append.1 hn).1

/-! ## Examples -/

/-- A node for the examples. -/
def nd (name text : String) (i : Nat) : HNode := ⟨name, text.toList, i⟩

/-- A document: items of lists are at the places after the lists, and have a grammar each. -/
def exDoc : Doc where
  isHeader b := b.startPosn == 1
  kids b := if b.elementName = "ul" then [nd "#LITERAL" "\n  " 900, nd "li" "x" (b.startPosn + 1), nd "#LITERAL" "\n" 901, nd "li" "y" (b.startPosn + 2)]
    else if b.elementName = "li" then [nd "emu-grammar" "A : B" (b.startPosn + 500)] else []
  algs b := if b.elementName = "emu-alg" then [b] else if b.elementName = "emu-note" then [nd "emu-alg" "1. Return." (b.startPosn + 700)] else []

/-- Titles for the examples. -/
def exTitles : Titles where
  unusedText _ := true
  isXref _ := false
  fnKind _ := some "function_property"
  changes _ := none
  kindOf _ := some "catchall"

/-- An operation with a rule for a grammar, a note, and a default. -/
def exBody : List HNode :=
  [nd "emu-grammar" "A : B" 10, nd "emu-alg" "1. Return 1." 11, nd "emu-note" "n" 12,
   nd "p" "Every grammar production alternative in this specification which is not listed below implicitly has the following default definition of Contains:" 13, nd "emu-alg" "1. Return 2." 14]

def exSdo : Sec := ⟨false, "Static Semantics: Contains", some "sdo", "sec-contains", [], "", "", some ⟨"Contains", none⟩, nd "dl" "" 1 :: exBody⟩

/-- The same, with a grammar without an algorithm. -/
def exBadSdo : Sec := { exSdo with blocks := exSdo.blocks ++ [nd "emu-grammar" "C : D" 15, nd "p" "x" 16, nd "emu-alg" "1. Return 3." 17] }

theorem exSdo_ok : SdoSection exDoc exSdo exBody := .header ⟨rfl, by decide⟩ rfl (by decide) ⟨_, rfl, rfl, rfl⟩ rfl

example : (∀ b ∈ exBody, ¬ Named "ul" b) ∧ (handle exTitles exDoc exSdo).map Out.defns = some
    [.usual (some (nd "emu-grammar" "A : B" 10)) (nd "emu-alg" "1. Return 1." 11), .usual none (nd "emu-alg" "1. Return 2." 14)] := by
  refine ⟨?_, by decide +kernel⟩
  intro b hb
  simp only [exBody, List.mem_cons, List.not_mem_nil, or_false] at hb
  rcases hb with rfl | rfl | rfl | rfl | rfl <;> simp [Named, nd]

example : (handle exTitles exDoc exBadSdo).map (fun o => (o.defns, o.msg)) = some ([], some 15) := by decide +kernel

example : (parsed exTitles exDoc exSdo).map Prod.snd = some [nd "emu-alg" "1. Return 1." 11, nd "emu-alg" "1. Return 2." 14, nd "emu-alg" "1. Return." 712] := by decide +kernel

/-- Rules in a list. -/
def exInline : Sec := ⟨false, "Static Semantics: MV", none, "sec-mv", [], "", "", none, [nd "p" "t" 20, nd "ul" "" 30, nd "emu-table" "" 40]⟩

example : SdoSection exDoc exInline exInline.blocks ∧ (handle exTitles exDoc exInline).map (fun o => o.defns.map Defn.parses) = some [[nd "li" "x" 31], [nd "li" "y" 32]] :=
  ⟨.part ⟨rfl, by decide⟩ (by decide) (by simp [PartTitle, exInline]), by decide +kernel⟩

/-- Early errors. -/
def exEarly : Sec := ⟨false, "Static Semantics: Early Errors", none, "sec-e", [], "", "", none, [nd "emu-grammar" "A : B" 10, nd "ul" "" 20, nd "emu-note" "" 30]⟩

example : EarlySection exEarly ∧ (handle exTitles exDoc exEarly).map Out.defns = some [.early (nd "emu-grammar" "A : B" 10) (nd "ul" "" 20) [nd "li" "x" 21, nd "li" "y" 22]] :=
  ⟨⟨rfl, rfl⟩, by decide +kernel⟩

example : ¬ AllPlaced EarlyPlace [nd "ul" "" 20] := by
  intro h
  have := h [] _ [] rfl
  simp [EarlyPlace, Named, nd] at this

/-- An internal method. -/
def exOp : Sec := ⟨false, "[[Get]]", some "internal method", "sec-g", [], "", "", some ⟨"[[Get]]", some "an ordinary object _O_".toList⟩, [nd "dl" "" 1, nd "emu-alg" "1. Return." 10, nd "emu-note" "" 11]⟩

example : OpSection exDoc exOp "internal_method" ⟨"[[Get]]", some "an ordinary object _O_".toList⟩ exOp.blocks.tail ∧
    (handle exTitles exDoc exOp).map Out.defns = some [.typed "ordinary object".toList (nd "emu-alg" "1. Return." 10)] :=
  ⟨⟨⟨rfl, by decide⟩, by simp [PartTitle, exOp], by simp [Odd, exOp], ⟨_, rfl, rfl, rfl⟩, rfl, _, rfl, .internal⟩, by decide +kernel⟩

/-- A function. -/
def exFn : Sec := ⟨false, "Array.of ( )", some "built-in function", "sec-f", [], "", "", none, [nd "p" "" 1, nd "emu-alg" "1. Return." 10]⟩

example : FnSection exTitles exFn ∧ (handle exTitles exDoc exFn).map Out.defns = some [.simple (nd "emu-alg" "1. Return." 10)] :=
  ⟨⟨⟨rfl, by decide⟩, by simp [PartTitle, exFn], by simp [Odd, exFn], rfl, rfl⟩, by decide +kernel⟩

/-- An operation that is known by its title, with two algorithms. -/
def exOdd : Sec := ⟨false, "Races", none, "sec-races", [], "", "", none,
  [nd "p" "For an execution _execution_ and events _eventA_ and _eventB_ that are contained in SharedDataBlockEventSet(_execution_), ..." 1, nd "emu-alg" "1. Return." 10, nd "emu-alg" "1. Return 2." 11]⟩

example : OddSection exOdd "For an execution _execution_ and events _eventA_ and _eventB_ that are contained in SharedDataBlockEventSet(_execution_)" :=
  ⟨⟨rfl, by decide⟩, by simp [PartTitle, exOdd], by decide, .races (by decide) (by decide), by decide⟩

/-- C78: the second algorithm of such a section is in no definition, and nothing is said. -/
theorem c78_odd_drops_witness : (handle exTitles exDoc exOdd).map (fun o => (o.defns.filterMap Defn.alg, o.msg)) = some ([nd "emu-alg" "1. Return." 10], none) ∧
    algsOf exOdd.blocks = [nd "emu-alg" "1. Return." 10, nd "emu-alg" "1. Return 2." 11] := by
  constructor <;> decide +kernel

/-- A section without algorithms, and one with one. -/
def exOther : Sec := ⟨false, "Overview", none, "sec-o", [], "", "", none, [nd "p" "" 1]⟩

example : OtherSection exTitles exOther ∧ (handle exTitles exDoc exOther).map Out.kind = some "catchall" ∧
    (handle exTitles exDoc { exOther with blocks := [nd "emu-alg" "" 1] }).map Out.kind = none :=
  ⟨⟨⟨rfl, by decide⟩, by simp [PartTitle, exOther], by simp [Odd, exOther], rfl, rfl, rfl⟩, by decide +kernel, by decide +kernel⟩

end Verif.Bodies
