import Verif.Pseudo.Spec
/-! # Lemmas on the grammar files -/
namespace Verif.Pseudo

theorem splitLines_line {l : List Char} (h : '\n' ∉ l) : splitLines l = [l] := by
  induction l with
  | nil => rfl
  | cons c cs ih =>
    rw [List.mem_cons, not_or] at h
    rw [splitLines, if_neg (fun e => h.1 e.symm), ih h.2]

theorem splitLines_first {l rest : List Char} (h : '\n' ∉ l) :
    splitLines (l ++ '\n' :: rest) = l :: splitLines rest := by
  induction l with
  | nil => rw [List.nil_append, splitLines, if_pos rfl]
  | cons c cs ih =>
    rw [List.mem_cons, not_or] at h
    rw [List.cons_append, splitLines, if_neg (fun e => h.1 e.symm), ih h.2]

theorem splitLines_join : ∀ (lines : List (List Char)), lines ≠ [] → (∀ l ∈ lines, '\n' ∉ l) →
    splitLines (joinLines lines) = lines
  | [], h, _ => absurd rfl h
  | [l], _, h => by
    rw [joinLines]
    exact splitLines_line (h l (List.mem_cons_self ..))
  | l :: m :: ls, _, h => by
    rw [joinLines, splitLines_first (h l (List.mem_cons_self ..)),
      splitLines_join (m :: ls) (by simp) (fun x hx => h x (List.mem_cons_of_mem _ hx))]
    simp

theorem ntTail_spec : ∀ (l a b : List Char), ntTail l = some (a, b) → l = a ++ '}' :: b ∧ ∀ c ∈ a, ntRest c = true
  | [], _, _, h => by cases h
  | c :: cs, a, b, h => by
    rw [ntTail] at h
    split at h
    · rename_i hc
      injection h with h; injection h with h1 h2
      subst h1 h2
      exact ⟨by rw [hc]; rfl, by simp⟩
    · split at h
      · rename_i hr
        cases ht : ntTail cs with
        | none => rw [ht] at h; cases h
        | some r =>
          obtain ⟨a', b'⟩ := r
          rw [ht] at h
          injection h with h; injection h with h1 h2
          obtain ⟨i1, i2⟩ := ntTail_spec cs a' b' ht
          dsimp only at h1 h2
          subst h1 h2
          refine ⟨by rw [i1]; rfl, ?_⟩
          intro d hd
          rcases List.mem_cons.mp hd with e | hd
          · subst e; exact hr
          · exact i2 d hd
      · cases h

theorem ntRest_ne_brace {c : Char} (h : ntRest c = true) : c ≠ '}' := by
  intro e; subst e; revert h; decide

theorem ntTail_make : ∀ (a b : List Char), (∀ c ∈ a, ntRest c = true) → ntTail (a ++ '}' :: b) = some (a, b)
  | [], b, _ => by rw [List.nil_append, ntTail, if_pos rfl]
  | c :: cs, b, h => by
    have hc := h c (List.mem_cons_self ..)
    rw [List.cons_append, ntTail, if_neg (ntRest_ne_brace hc), if_pos hc,
      ntTail_make cs b (fun d hd => h d (List.mem_cons_of_mem _ hd))]
    rfl

theorem ntPrefix_spec {l a b : List Char} (h : ntPrefix l = some (a, b)) : Nonterminal a ∧ l = a ++ b := by
  rw [ntPrefix.eq_def] at h
  split at h
  · rename_i c cs
    split at h
    · rename_i hc
      cases ht : ntTail cs with
      | none => rw [ht] at h; cases h
      | some r =>
        obtain ⟨x, y⟩ := r
        rw [ht] at h
        injection h with h; injection h with h1 h2
        obtain ⟨i1, i2⟩ := ntTail_spec _ _ _ ht
        dsimp only at h1 h2
        subst h1 h2
        exact ⟨⟨c, x, rfl, hc, i2⟩, by rw [i1]; simp⟩
    · cases h
  · cases h

theorem ntPrefix_make {a : List Char} (b : List Char) (h : Nonterminal a) : ntPrefix (a ++ b) = some (a, b) := by
  obtain ⟨c, cs, rfl, hc, hcs⟩ := h
  have e : '{' :: c :: (cs ++ ['}']) ++ b = '{' :: c :: (cs ++ '}' :: b) := by simp
  rw [e, ntPrefix, if_pos hc, ntTail_make cs b hcs]
  rfl

theorem isNt_iff (item : List Char) : isNt item = true ↔ Nonterminal item := by
  rw [isNt, decide_eq_true_iff]
  constructor
  · intro h
    cases hp : ntPrefix item with
    | none => rw [hp] at h; cases h
    | some r =>
      obtain ⟨a, b⟩ := r
      rw [hp] at h
      injection h with h
      dsimp only at h
      subst h
      obtain ⟨h1, h2⟩ := ntPrefix_spec hp
      rw [List.append_nil] at h2
      rw [h2]; exact h1
  · intro h
    have := ntPrefix_make [] h
    rw [List.append_nil] at this
    rw [this]; rfl

theorem lhsOf_iff (line nt : List Char) : lhsOf line = some nt ↔ Nonterminal nt ∧ line = nt ++ [' ', ':'] := by
  constructor
  · intro h
    rw [lhsOf] at h
    split at h
    · rename_i x hp
      injection h with h
      subst h
      exact ntPrefix_spec hp
    · cases h
  · rintro ⟨h, rfl⟩
    rw [lhsOf, ntPrefix_make _ h]
    rfl

theorem isComment_iff : ∀ (l : List Char),
    isComment l = true ↔ (l.dropWhile (fun c => decide (c = ' '))).head? = some '#'
  | [] => by simp [isComment]
  | c :: cs => by
    rw [isComment]
    by_cases hc : c = ' '
    · rw [if_pos hc, List.dropWhile_cons_of_pos (by simpa using hc)]
      exact isComment_iff cs
    · rw [if_neg hc, List.dropWhile_cons_of_neg (by simpa using hc)]
      simp

/-! ### Pieces -/

theorem pieces_sound {G : GrammarEnv} {rhs : List Char} : ∀ (n p : Nat) (ts : List (List Char)),
    pieces G rhs n p = .ok ts → Pieces G rhs p ts
  | 0, _, _, h => by cases h
  | n + 1, p, ts, h => by
    rw [pieces] at h
    split at h
    · rename_i hp
      injection h with h
      subst h hp
      exact .done
    · rename_i hp
      cases he : G.piece rhs p with
      | none => rw [he] at h; cases h
      | some e =>
        rw [he] at h
        dsimp only at h
        cases ht : pieceText G (slice rhs p e) with
        | none => rw [ht] at h; cases h
        | some t =>
          rw [ht] at h
          dsimp only at h
          cases hr : pieces G rhs n e with
          | error x => rw [hr] at h; cases h
          | ok ts' =>
            rw [hr] at h
            injection h with h
            subst h
            refine .piece hp he ?_ (pieces_sound n e ts' hr)
            rw [pieceText] at ht
            split at ht
            · rw [if_pos ‹_›]; exact ht
            · rw [if_neg ‹_›]; injection ht with ht; exact ht.symm

theorem Pieces.bound {G : GrammarEnv} (hG : G.Proper) {rhs : List Char} {p : Nat} {ts : List (List Char)}
    (h : Pieces G rhs p ts) : p + ts.length ≤ rhs.length := by
  induction h with
  | done => simp
  | piece _ he _ _ ih =>
    have := (hG _ _ _ he).1
    simp only [List.length_cons]
    omega

theorem pieces_complete {G : GrammarEnv} {rhs : List Char} {p : Nat} {ts : List (List Char)}
    (h : Pieces G rhs p ts) : ∀ (n : Nat), ts.length < n → pieces G rhs n p = .ok ts := by
  induction h with
  | done =>
    intro n hn
    cases n with
    | zero => cases hn
    | succ n => rw [pieces, if_pos rfl]
  | @piece p e t ts hp he ht _ ih =>
    intro n hn
    cases n with
    | zero => cases hn
    | succ n =>
      simp only [List.length_cons] at hn
      rw [pieces, if_neg hp, he]
      dsimp only
      have : pieceText G (slice rhs p e) = some t := by
        rw [pieceText]
        split at ht
        · rw [if_pos ‹_›]; exact ht
        · rw [if_neg ‹_›, ht]
      rw [this]
      dsimp only
      rw [ih n (by omega)]

theorem Pieces.unique {G : GrammarEnv} {rhs : List Char} {p : Nat} {ts ts' : List (List Char)}
    (h : Pieces G rhs p ts) (h' : Pieces G rhs p ts') : ts = ts' := by
  have a := pieces_complete h (ts.length + ts'.length + 1) (by omega)
  have b := pieces_complete h' (ts.length + ts'.length + 1) (by omega)
  rw [a] at b
  injection b

theorem alternative_iff {G : GrammarEnv} (hG : G.Proper) (lhs : Option (List Char)) (line : List Char)
    (prod : Production) : alternative G lhs line = .ok prod ↔
      prod.lhs = lhs ∧ prod.rhs = line.dropWhile G.white ∧ Items G line prod.pieces := by
  constructor
  · intro h
    rw [alternative] at h
    cases hp : pieces G (line.dropWhile G.white) ((line.dropWhile G.white).length + 1) 0 with
    | error x => rw [hp] at h; cases h
    | ok ps =>
      rw [hp] at h
      dsimp only at h
      have hs := pieces_sound _ _ _ hp
      split at h
      · split at h
        · rename_i he
          injection h with h
          subst h
          exact ⟨rfl, rfl, Or.inl ⟨rfl, by rw [← he]; exact hs⟩⟩
        · cases h
      · rename_i he
        injection h with h
        subst h
        exact ⟨rfl, rfl, Or.inr ⟨he, hs⟩⟩
  · rintro ⟨h1, h2, h3⟩
    obtain ⟨l, r, ps⟩ := prod
    dsimp only at h1 h2 h3
    subst h1 h2
    rw [alternative]
    rcases h3 with ⟨h3, h4⟩ | ⟨h3, h4⟩
    · subst h3
      rw [pieces_complete h4 _ (by have := h4.bound hG; omega)]
      dsimp only
      rw [if_pos (List.mem_singleton.mpr rfl), if_pos rfl]
    · rw [pieces_complete h4 _ (by have := h4.bound hG; omega)]
      dsimp only
      rw [if_neg h3]

/-! ### Lines -/

/-- `AlternativeOf` below lines that have declared `cur` last. -/
def AltFrom (G : GrammarEnv) (cur : Option (List Char)) (lines : List (List Char)) (i : Nat)
    (prod : Production) : Prop :=
  ∃ line, lines[i]? = some line ∧ classify line = .alt ∧
    prod.lhs = ((declared (lines.take i)).getLast?).or cur ∧ prod.rhs = line.dropWhile G.white ∧
    Items G line prod.pieces

/-- The productions of some lines below lines that have declared `cur` last. -/
def EachFrom (G : GrammarEnv) (cur : Option (List Char)) (lines : List (List Char)) (prods : List Production) : Prop :=
  prods.length = (alternatives lines).length ∧
  ∀ (k i : Nat) (prod : Production), (alternatives lines)[k]? = some i → prods[k]? = some prod →
    AltFrom G cur lines i prod

theorem alternatives_cons (l : List Char) (ls : List (List Char)) :
    alternatives (l :: ls) =
      (if classify l = .alt then [0] else []) ++ (alternatives ls).map (· + 1) := by
  rw [alternatives, List.length_cons, List.range_succ_eq_map, List.filter_cons, List.filter_map, alternatives]
  simp only [List.getElem?_cons_zero, Option.map_some, Option.some.injEq, decide_eq_true_eq]
  have : ((fun i => decide (Option.map classify (l :: ls)[i]? = some Line.alt)) ∘ Nat.succ) =
      fun i => decide (Option.map classify ls[i]? = some Line.alt) := by
    funext i
    simp
  rw [this]
  split <;> rfl

theorem declared_cons_other {l : List Char} (h : classify l ≠ .lhs) (ls : List (List Char)) :
    declared (l :: ls) = declared ls := by
  rw [declared, List.filter_cons_of_neg (by simpa using h), declared]

theorem declared_cons_lhs {l : List Char} (h : classify l = .lhs) (ls : List (List Char)) :
    declared (l :: ls) = l.take (l.length - 2) :: declared ls := by
  rw [declared, List.filter_cons_of_pos (by simpa using h), declared, List.map_cons]

/-- The declaration in force after a line. -/
def curAfter (cur : Option (List Char)) (l : List Char) : Option (List Char) :=
  if classify l = .lhs then some (l.take (l.length - 2)) else cur

theorem altFrom_succ {G : GrammarEnv} {cur : Option (List Char)} {l : List Char} {ls : List (List Char)} {i : Nat}
    {prod : Production} : AltFrom G cur (l :: ls) (i + 1) prod ↔ AltFrom G (curAfter cur l) ls i prod := by
  rw [AltFrom, AltFrom, List.getElem?_cons_succ, List.take_succ_cons]
  have : ((declared (l :: ls.take i)).getLast?).or cur = ((declared (ls.take i)).getLast?).or (curAfter cur l) := by
    rw [curAfter]
    by_cases h : classify l = .lhs
    · rw [if_pos h, declared_cons_lhs h, List.getLast?_cons]
      cases (declared (List.take i ls)).getLast? <;> rfl
    · rw [if_neg h, declared_cons_other h]
  rw [this]

theorem altFrom_zero {G : GrammarEnv} {cur : Option (List Char)} {l : List Char} {ls : List (List Char)}
    {prod : Production} : AltFrom G cur (l :: ls) 0 prod ↔
      classify l = .alt ∧ prod.lhs = cur ∧ prod.rhs = l.dropWhile G.white ∧ Items G l prod.pieces := by
  rw [AltFrom]
  simp [declared]

theorem eachFrom_nil {G : GrammarEnv} {cur : Option (List Char)} {prods : List Production} :
    EachFrom G cur [] prods ↔ prods = [] := by
  rw [EachFrom]
  constructor
  · rintro ⟨h, _⟩
    exact List.length_eq_zero_iff.mp h
  · rintro rfl
    exact ⟨rfl, fun k i prod h => by simp [alternatives] at h⟩

theorem eachFrom_other {G : GrammarEnv} {cur : Option (List Char)} {l : List Char} {ls : List (List Char)}
    {prods : List Production} (h : classify l ≠ .alt) :
    EachFrom G cur (l :: ls) prods ↔ EachFrom G (curAfter cur l) ls prods := by
  rw [EachFrom, EachFrom, alternatives_cons, if_neg h, List.nil_append, List.length_map]
  constructor
  · rintro ⟨h1, h2⟩
    refine ⟨h1, fun k i prod hk hp => ?_⟩
    exact altFrom_succ.mp (h2 k (i + 1) prod (by rw [List.getElem?_map, hk]; rfl) hp)
  · rintro ⟨h1, h2⟩
    refine ⟨h1, fun k i prod hk hp => ?_⟩
    rw [List.getElem?_map, Option.map_eq_some_iff] at hk
    obtain ⟨j, hj, e⟩ := hk
    subst e
    exact altFrom_succ.mpr (h2 k j prod hj hp)

theorem eachFrom_alt {G : GrammarEnv} {cur : Option (List Char)} {l : List Char} {ls : List (List Char)}
    {prods : List Production} (h : classify l = .alt) :
    EachFrom G cur (l :: ls) prods ↔ ∃ prod ps, prods = prod :: ps ∧
      (prod.lhs = cur ∧ prod.rhs = l.dropWhile G.white ∧ Items G l prod.pieces) ∧ EachFrom G cur ls ps := by
  have hc : curAfter cur l = cur := by rw [curAfter, if_neg (by rw [h]; decide)]
  rw [EachFrom, alternatives_cons, if_pos h]
  constructor
  · rintro ⟨h1, h2⟩
    cases prods with
    | nil => simp at h1
    | cons prod ps =>
      refine ⟨prod, ps, rfl, (altFrom_zero.mp (h2 0 0 prod rfl rfl)).2, ?_, ?_⟩
      · simpa using h1
      · intro k i prod' hk hp
        have := h2 (k + 1) (i + 1) prod' (by
          rw [List.singleton_append, List.getElem?_cons_succ, List.getElem?_map, hk]; rfl)
          (by rw [List.getElem?_cons_succ]; exact hp)
        rw [← hc]
        exact altFrom_succ.mp this
  · rintro ⟨prod, ps, rfl, h1, h2, h3⟩
    refine ⟨by simpa using h2, ?_⟩
    intro k i prod' hk hp
    cases k with
    | zero =>
      simp only [List.singleton_append, List.getElem?_cons_zero, Option.some.injEq] at hk hp
      subst hk hp
      exact altFrom_zero.mpr ⟨h, h1⟩
    | succ k =>
      rw [List.singleton_append, List.getElem?_cons_succ, List.getElem?_map, Option.map_eq_some_iff] at hk
      obtain ⟨j, hj, e⟩ := hk
      subst e
      rw [List.getElem?_cons_succ] at hp
      refine altFrom_succ.mpr ?_
      rw [hc]
      exact h3 k j prod' hj hp

theorem classify_skip {l : List Char} : classify l = .skip ↔ l = [] ∨ isComment l = true := by
  rw [classify, isComment_iff]
  constructor
  · intro h
    split at h
    · assumption
    · split at h <;> cases h
  · intro h; rw [if_pos h]

theorem classify_not_skip {l : List Char} (h1 : l ≠ []) (h2 : isComment l ≠ true) :
    classify l = if l.head? = some ' ' then .alt else .lhs := by
  rw [classify, if_neg]
  rw [← isComment_iff]
  rintro (h | h)
  · exact h1 h
  · exact h2 h

theorem convertLines_skip {G : GrammarEnv} {l : List Char} {ls seen : List (List Char)} {cur : Option (List Char)}
    (h : l = [] ∨ isComment l = true) : convertLines G (l :: ls) seen cur = convertLines G ls seen cur := by
  rw [convertLines]
  rcases h with h | h
  · rw [if_pos h]
  · rw [if_pos h]
    split <;> rfl

/-- The loop over the lines does what the specification says. -/
theorem convertLines_iff {G : GrammarEnv} (hG : G.Proper) : ∀ (lines seen : List (List Char))
    (cur : Option (List Char)) (seen' : List (List Char)) (prods : List Production), seen.Nodup →
    (convertLines G lines seen cur = .ok (seen', prods) ↔
      seen' = seen ++ declared lines ∧ (∀ l ∈ lines, classify l = .lhs → LhsLine l) ∧
      (seen ++ declared lines).Nodup ∧ EachFrom G cur lines prods)
  | [], seen, cur, seen', prods, hn => by
    rw [convertLines, eachFrom_nil]
    simp [declared, hn, eq_comm]
  | l :: ls, seen, cur, seen', prods, hn => by
    by_cases hs : l = [] ∨ isComment l = true
    · have hc := classify_skip.mpr hs
      rw [convertLines_skip hs, convertLines_iff hG ls seen cur seen' prods hn, eachFrom_other (by rw [hc]; decide),
        declared_cons_other (by rw [hc]; decide)]
      have hcur : curAfter cur l = cur := by rw [curAfter, if_neg (by rw [hc]; decide)]
      rw [hcur]
      refine and_congr Iff.rfl (and_congr ⟨fun h x hx => ?_, fun h x hx => ?_⟩ Iff.rfl)
      · rcases List.mem_cons.mp hx with e | hx
        · subst e; rw [hc]; exact fun h => by cases h
        · exact h x hx
      · exact h x (List.mem_cons_of_mem _ hx)
    · rw [not_or] at hs
      have hc := classify_not_skip hs.1 hs.2
      rw [convertLines, if_neg hs.1, if_neg hs.2]
      by_cases hb : l.head? = some ' '
      · rw [if_pos hb] at hc
        rw [if_neg (fun h => h hb), eachFrom_alt hc, declared_cons_other (by rw [hc]; decide)]
        have hl : (∀ x ∈ l :: ls, classify x = .lhs → LhsLine x) ↔ ∀ x ∈ ls, classify x = .lhs → LhsLine x := by
          refine ⟨fun h x hx => h x (List.mem_cons_of_mem _ hx), fun h x hx => ?_⟩
          rcases List.mem_cons.mp hx with e | hx
          · subst e; rw [hc]; exact fun h => by cases h
          · exact h x hx
        rw [hl]
        constructor
        · intro h
          cases ha : alternative G cur l with
          | error x => rw [ha] at h; cases h
          | ok prod =>
            rw [ha] at h
            dsimp only at h
            cases hr : convertLines G ls seen cur with
            | error x => rw [hr] at h; cases h
            | ok r =>
              obtain ⟨seen'', ps⟩ := r
              rw [hr] at h
              injection h with h
              injection h with e1 e2
              subst e1 e2
              obtain ⟨h1, h2, h3, h4⟩ := (convertLines_iff hG ls seen cur seen'' ps hn).mp hr
              exact ⟨h1, h2, h3, prod, ps, rfl, (alternative_iff hG cur l prod).mp ha, h4⟩
        · rintro ⟨h1, h2, h3, prod, ps, rfl, h4, h5⟩
          rw [(alternative_iff hG cur l prod).mpr h4]
          dsimp only
          rw [(convertLines_iff hG ls seen cur seen' ps hn).mpr ⟨h1, h2, h3, h5⟩]
      · rw [if_neg hb] at hc
        rw [if_pos hb, eachFrom_other (by rw [hc]; decide), declared_cons_lhs hc]
        have hcur : curAfter cur l = some (l.take (l.length - 2)) := by rw [curAfter, if_pos hc]
        rw [hcur]
        constructor
        · intro h
          cases hl : lhsOf l with
          | none => rw [hl] at h; cases h
          | some nt =>
            rw [hl] at h
            dsimp only at h
            split at h
            · cases h
            · rename_i hmem
              obtain ⟨h1, h2⟩ := (lhsOf_iff l nt).mp hl
              have e : l.take (l.length - 2) = nt := by rw [h2]; simp
              have hn' : (seen ++ [nt]).Nodup := by
                rw [List.nodup_append]
                refine ⟨hn, by simp, ?_⟩
                intro a ha b hb eab
                rw [List.mem_singleton] at hb
                subst hb eab
                exact hmem ha
              obtain ⟨i1, i2, i3, i4⟩ := (convertLines_iff hG ls (seen ++ [nt]) (some nt) seen' prods hn').mp h
              rw [e]
              refine ⟨by rw [i1]; simp, ?_, by simpa using i3, i4⟩
              intro x hx hx'
              rcases List.mem_cons.mp hx with e | hx
              · subst e; exact ⟨nt, h1, h2⟩
              · exact i2 x hx hx'
        · rintro ⟨h1, h2, h3, h4⟩
          obtain ⟨nt, k1, k2⟩ := h2 l (List.mem_cons_self ..) hc
          have e : l.take (l.length - 2) = nt := by rw [k2]; simp
          rw [e] at h1 h3 h4
          rw [(lhsOf_iff l nt).mpr ⟨k1, k2⟩]
          dsimp only
          have hmem : nt ∉ seen := by
            rw [List.nodup_append] at h3
            intro hm
            exact h3.2.2 nt hm nt (List.mem_cons_self ..) rfl
          rw [if_neg hmem]
          have hn' : (seen ++ [nt]).Nodup := by
            rw [List.nodup_append]
            refine ⟨hn, by simp, ?_⟩
            intro a ha b hb eab
            rw [List.mem_singleton] at hb
            subst hb eab
            exact hmem ha
          refine (convertLines_iff hG ls (seen ++ [nt]) (some nt) seen' prods hn').mpr
            ⟨by rw [h1]; simp, fun x hx => h2 x (List.mem_cons_of_mem _ hx), by simpa using h3, h4⟩

/-- The whole conversion. -/
theorem convertGrammar_iff {G : GrammarEnv} (hG : G.Proper) (lines : List (List Char)) (hne : lines ≠ [])
    (hnl : ∀ l ∈ lines, '\n' ∉ l) (prods : List Production) :
    convertGrammar G (joinLines lines) = .ok prods ↔ Accepted G lines prods := by
  rw [convertGrammar, splitLines_join lines hne hnl]
  have hor : ∀ i prod, AltFrom G none lines i prod ↔ AlternativeOf G lines i prod := by
    intro i prod
    rw [AltFrom, AlternativeOf, Option.or_none]
  have hall : ∀ (seen : List (List Char)) (ps : List Production),
      ps.all (fun p => p.pieces.all (fun r => !isNt r || decide (r ∈ seen))) = true ↔
        ∀ prod ∈ ps, ∀ item ∈ prod.pieces, Nonterminal item → item ∈ seen := by
    intro seen ps
    rw [List.all_eq_true]
    refine forall_congr' fun p => forall_congr' fun _ => ?_
    rw [List.all_eq_true]
    refine forall_congr' fun r => forall_congr' fun _ => ?_
    rw [← isNt_iff]
    cases isNt r <;> simp
  constructor
  · intro h
    cases hc : convertLines G lines [] none with
    | error x => rw [hc] at h; cases h
    | ok r =>
      obtain ⟨seen, ps⟩ := r
      rw [hc] at h
      dsimp only at h
      split at h
      · rename_i hd
        injection h with h
        subst h
        obtain ⟨h1, h2, h3, h4, h5⟩ := (convertLines_iff hG lines [] none seen ps List.nodup_nil).mp hc
        rw [List.nil_append] at h1 h3
        subst h1
        exact ⟨h2, h3, h4, fun k i prod hk hp => (hor i prod).mp (h5 k i prod hk hp), (hall _ _).mp hd⟩
      · cases h
  · rintro ⟨h1, h2, h3, h4, h5⟩
    rw [(convertLines_iff hG lines [] none (declared lines) prods List.nodup_nil).mpr
      ⟨rfl, h1, h2, h3, fun k i prod hk hp => (hor i prod).mpr (h4 k i prod hk hp)⟩]
    dsimp only
    rw [if_pos ((hall _ _).mpr h5)]

end Verif.Pseudo
