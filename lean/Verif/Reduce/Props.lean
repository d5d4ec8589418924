import Verif.Reduce.Spec
/-!
# C105: the nodes of parsed pseudocode
-/
namespace Verif.Reduce

theorem braced_iff (t : Str) : braced t = true ↔ Braced t := by
  unfold braced Braced
  rw [Bool.and_eq_true, beq_iff_eq, beq_iff_eq]
  constructor
  · rintro ⟨h1, h2⟩
    cases t with
    | nil => exact nomatch h1
    | cons c cs =>
      have hc : c = '{' := Option.some.inj h1
      subst hc
      cases cs with
      | nil => exact absurd (Option.some.inj h2) (by decide)
      | cons d ds =>
        rw [List.getLast?_cons_cons] at h2
        obtain ⟨ys, hy⟩ := List.getLast?_eq_some_iff.1 h2
        exact ⟨ys, by rw [hy]; rfl⟩
  · rintro ⟨s, rfl⟩
    exact ⟨rfl, List.getLast?_concat⟩

instance (t : Str) : Decidable (Braced t) := decidable_of_iff _ (braced_iff t)

theorem not_braced_an : ¬ Braced "an?".toList := by
  intro h
  have := (braced_iff _).2 h
  exact absurd this (by decide)

theorem matchToken_isSome (tok : Tok) (t : Str) : (∃ n, matchToken tok t = some n) ↔ Fits tok t := by
  unfold matchToken
  by_cases hb : braced t = true
  · have hB := (braced_iff t).1 hb
    rw [if_pos hb]
    constructor
    · rintro ⟨n, h⟩
      split at h
      · next e => exact .name hB e
      · exact nomatch h
    · intro h
      cases h with
      | name _ e => rw [if_pos e]; split <;> exact ⟨_, rfl⟩
      | article _ => exact absurd hB not_braced_an
      | word h _ _ => exact absurd hB h
  · have hB : ¬ Braced t := fun h => hb ((braced_iff t).2 h)
    rw [if_neg hb]
    by_cases ha : t = "an?".toList
    · subst ha
      rw [if_pos rfl]
      constructor
      · rintro ⟨n, h⟩
        split at h
        · next e =>
          rw [List.contains_iff_mem, List.mem_cons, List.mem_singleton] at e
          exact .article e
        · exact nomatch h
      · intro h
        cases h with
        | name h _ => exact absurd h hB
        | article e =>
          rw [if_pos (by rw [List.contains_iff_mem, List.mem_cons, List.mem_singleton]; exact e)]
          exact ⟨_, rfl⟩
        | word _ h _ => exact absurd rfl h
    · rw [if_neg ha]
      constructor
      · rintro ⟨n, h⟩
        split at h
        · next e => exact .word hB ha e
        · exact nomatch h
      · intro h
        cases h with
        | name h _ => exact absurd h hB
        | article _ => exact absurd rfl ha
        | word _ _ e => rw [if_pos e]; exact ⟨_, rfl⟩

theorem mem_layout (t : Str) : t ∈ layout ↔ Layout t := by
  unfold layout Layout
  rw [List.mem_cons, List.mem_cons, List.mem_singleton]

theorem matchToken_node {tok : Tok} {t : Str} {n : Option Node} (h : matchToken tok t = some n) :
    n = if Braced t ∧ ¬ Layout t then some (.node tok.lhs [.text tok.text] tok.s tok.e) else none := by
  unfold matchToken at h
  by_cases hb : braced t = true
  · have hB := (braced_iff t).1 hb
    rw [if_pos hb] at h
    split at h
    · by_cases hl : Layout t
      · rw [if_pos (List.contains_iff_mem.2 ((mem_layout t).2 hl))] at h
        rw [if_neg (fun e => e.2 hl)]
        exact (Option.some.inj h).symm
      · rw [if_neg (fun e => hl ((mem_layout t).1 (List.contains_iff_mem.1 e)))] at h
        rw [if_pos ⟨hB, hl⟩]
        exact (Option.some.inj h).symm
    · exact nomatch h
  · have hB : ¬ Braced t := fun h => hb ((braced_iff t).2 h)
    rw [if_neg hb] at h
    rw [if_neg (fun e => hB e.1)]
    split at h
    · split at h
      · exact (Option.some.inj h).symm
      · exact nomatch h
    · split at h
      · exact (Option.some.inj h).symm
      · exact nomatch h

/-- **C105.**  Of the terminals that the parser asks for, just those are matched that fit the token, in their order, each going on to the next token; there is a node for it just if the terminal is a name in braces that is
not one of the three for the layout, and the node has the name, the text and the extent of the token. -/
theorem c105_matched {toks : List Tok} {i : Nat} {terminals : List Str} {ms : List (Str × Nat × Option Node)} (h : matcher toks i terminals = some ms) :
    ∃ tok, toks[i]? = some tok ∧ (ms.map Prod.fst).Sublist terminals ∧
      ∀ t j n, (t, j, n) ∈ ms ↔ t ∈ terminals ∧ Fits tok t ∧ j = i + 1 ∧
        n = if Braced t ∧ ¬ Layout t then some (.node tok.lhs [.text tok.text] tok.s tok.e) else none := by
  obtain ⟨tok, h1, rfl⟩ := Option.map_eq_some_iff.1 h
  refine ⟨tok, h1, ?_, fun t j n => ?_⟩
  · induction terminals with
    | nil => exact .slnil
    | cons t ts ih =>
      have ih := ih (by unfold matcher; rw [h1]; rfl)
      rw [List.filterMap_cons]
      cases hm : matchToken tok t with
      | none => exact .cons _ ih
      | some n => exact .cons_cons _ ih
  · rw [List.mem_filterMap]
    constructor
    · rintro ⟨t', ht, hm⟩
      obtain ⟨n', hn, he⟩ := Option.map_eq_some_iff.1 hm
      injection he with e1 e2
      injection e2 with e2 e3
      subst e1; subst e2; subst e3
      exact ⟨ht, (matchToken_isSome tok _).1 ⟨_, hn⟩, rfl, matchToken_node hn⟩
    · rintro ⟨ht, hf, rfl, hn⟩
      obtain ⟨n', hn'⟩ := (matchToken_isSome tok t).2 hf
      refine ⟨t, ht, ?_⟩
      rw [hn', hn, ← matchToken_node hn']
      rfl

theorem InOrder.le {a b : Nat} {ns : List Node} (h : InOrder a b ns) : a ≤ b := by
  induction h with
  | nil h => exact h
  | text _ ih => exact ih
  | node h _ _ ih1 ih2 => exact Nat.le_trans h (Nat.le_trans ih1 ih2)

theorem InOrder.mono {a a' b : Nat} {ns : List Node} (h : InOrder a b ns) (ha : a' ≤ a) : InOrder a' b ns := by
  induction h with
  | nil h => exact .nil (Nat.le_trans ha h)
  | text _ ih => exact .text (ih ha)
  | node h h1 h2 _ _ => exact .node (Nat.le_trans ha h) h1 h2

theorem kids_inOrder : ∀ {rs : List (Option Node)} {ns : List Node} {a b : Nat}, kids rs = some ns → InOrder a b (rs.filterMap id) → InOrder a b ns
  | [], ns, a, b, h, ho => by
    rw [← Option.some.inj h]; exact ho
  | none :: rs, ns, a, b, h, ho => kids_inOrder (rs := rs) h ho
  | some (.text t) :: rs, ns, a, b, h, ho => nomatch h
  | some (.node lhs cs s e) :: rs, ns, a, b, h, ho => by
    rw [List.filterMap_cons_some (f := @id (Option Node)) (b := .node lhs cs s e) rfl] at ho
    rw [kids] at h
    cases ho with
    | node h1 h2 h3 =>
      split at h
      · exact (kids_inOrder h h3).mono (Nat.le_trans h1 h2.le)
      · obtain ⟨ns', hn, rfl⟩ := Option.map_eq_some_iff.1 h
        exact .node h1 h2 (kids_inOrder hn h3)

theorem Built.le {toks : List Tok} {i k : Nat} {rs : List (Option Node)} (h : Built toks i k rs) : i ≤ k := by
  induction h with
  | nil => exact Nat.le_refl _
  | token _ _ _ ih => omega
  | reduce _ _ _ ih1 ih2 => exact Nat.le_trans ih1 ih2

theorem reducer_some {toks : List Tok} {lhs : Str} {pieces : Nat} {rs : List (Option Node)} {i j : Nat} {r : Option Node} (h : reducer toks lhs pieces rs i j = some r) :
    rs.length = pieces ∧ (("{_".toList <+: lhs ∧ r = none) ∨
      (¬ "{_".toList <+: lhs ∧ ∃ ns a b, kids rs = some ns ∧ toks[i]? = some a ∧ toks[j]? = some b ∧ r = some (.node lhs ns a.s b.s))) := by
  unfold reducer at h
  split at h
  · exact nomatch h
  · next hl =>
    refine ⟨Classical.byContradiction hl, ?_⟩
    split at h
    · next hp => exact .inl ⟨List.isPrefixOf_iff_prefix.1 hp, (Option.some.inj h).symm⟩
    · next hp =>
      obtain ⟨ns, h1, h2⟩ := Option.bind_eq_some_iff.1 h
      split at h2
      · next a b ha hb => exact .inr ⟨fun e => hp (List.isPrefixOf_iff_prefix.2 e), ns, a, b, h1, ha, hb, (Option.some.inj h2).symm⟩
      · exact nomatch h2

/-- **C105.**  Whatever the grammar and the order of the steps: in all nodes that are made from tokens that stand one after the other, the children stand one after the other within the extent of their parent, down to the tokens. -/
theorem c105_extents {toks : List Tok} (ht : TokensInOrder toks) {i k : Nat} {rs : List (Option Node)} (h : Built toks i k rs) :
    ∀ {a b : Tok}, toks[i]? = some a → toks[k]? = some b → InOrder a.s b.s (rs.filterMap id) := by
  induction h with
  | nil i =>
    intro a b ha hb
    rw [ha] at hb
    rw [Option.some.inj hb]
    exact .nil (Nat.le_refl _)
  | @token i k tok t n rs h1 h2 h3 ih =>
    intro a b ha hb
    rw [h1] at ha
    cases Option.some.inj ha
    have hk : k < toks.length := (List.getElem?_eq_some_iff.1 hb).1
    have hi : i + 1 < toks.length := Nat.lt_of_le_of_lt h3.le hk
    have hnext := List.getElem?_eq_getElem hi
    have hse : tok.s ≤ tok.e := ht.1 tok (List.mem_of_getElem? h1)
    have hes := ht.2 i tok _ h1 hnext
    have := ih hnext hb
    cases hn : n with
    | none =>
      rw [List.filterMap_cons_none (f := @id (Option Node)) rfl]
      exact this.mono (Nat.le_trans hse hes)
    | some m =>
      have hm := matchToken_node h2
      rw [hn] at hm
      split at hm
      · rw [Option.some.inj hm, List.filterMap_cons_some (f := @id (Option Node)) rfl]
        exact .node (Nat.le_refl _) (.text (.nil hse)) (this.mono hes)
      · exact nomatch hm
  | @reduce i j k lhs pieces rs' r rs h1 h2 h3 ih1 ih2 =>
    intro a b ha hb
    have hk : k < toks.length := (List.getElem?_eq_some_iff.1 hb).1
    have hj : j < toks.length := Nat.lt_of_le_of_lt h3.le hk
    have hjt := List.getElem?_eq_getElem hj
    have k1 := ih1 ha hjt
    have k2 := ih2 hjt hb
    rcases (reducer_some h2).2 with ⟨_, rfl⟩ | ⟨_, ns, a', b', e1, e2, e3, rfl⟩
    · rw [List.filterMap_cons_none (f := @id (Option Node)) rfl]
      exact k2.mono k1.le
    · rw [ha] at e2
      rw [hjt] at e3
      cases Option.some.inj e2
      cases Option.some.inj e3
      rw [List.filterMap_cons_some (f := @id (Option Node)) rfl]
      exact .node (Nat.le_refl _) (kids_inOrder e1 k1) k2

theorem kids_eq : ∀ {rs : List (Option Node)} {ns : List Node}, kids rs = some ns →
    ns.Sublist (rs.filterMap id) ∧ ∀ n, n ∈ ns ↔ some n ∈ rs ∧ ∀ cs s e, n ≠ .node "{space}".toList cs s e
  | [], ns, h => by
    rw [← Option.some.inj h]
    exact ⟨.slnil, fun n => ⟨fun e => (nomatch e), fun e => (nomatch e.1)⟩⟩
  | none :: rs, ns, h => by
    obtain ⟨h1, h2⟩ := kids_eq (rs := rs) h
    refine ⟨h1, fun n => (h2 n).trans (and_congr_left' ⟨.tail _, fun e => ?_⟩)⟩
    cases e with
    | tail _ e => exact e
  | some (.text t) :: rs, ns, h => nomatch h
  | some (.node lhs cs s e) :: rs, ns, h => by
    rw [List.filterMap_cons_some (f := @id (Option Node)) (b := .node lhs cs s e) rfl]
    rw [kids] at h
    split at h
    · next hl =>
      obtain ⟨h1, h2⟩ := kids_eq h
      refine ⟨.cons _ h1, fun n => (h2 n).trans ⟨fun e => ⟨.tail _ e.1, e.2⟩, fun e => ⟨?_, e.2⟩⟩⟩
      rcases List.mem_cons.1 e.1 with e1 | e1
      · rw [hl] at e1; exact absurd (Option.some.inj e1) (e.2 _ _ _)
      · exact e1
    · next hl =>
      obtain ⟨ns', hn, rfl⟩ := Option.map_eq_some_iff.1 h
      obtain ⟨h1, h2⟩ := kids_eq hn
      refine ⟨.cons_cons _ h1, fun n => ?_⟩
      rw [List.mem_cons, List.mem_cons, h2]
      constructor
      · rintro (rfl | e)
        · exact ⟨.inl rfl, fun _ _ _ e => hl (Node.node.inj e).1⟩
        · exact ⟨.inr e.1, e.2⟩
      · rintro ⟨e1 | e1, e2⟩
        · exact .inl (Option.some.inj e1)
        · exact .inr ⟨e1, e2⟩

/-- **C105.**  A reduction by a production whose name begins with `{_` gives nothing; another one gives a node with this name whose children are the nodes for the pieces of the production, in their order, but for those
for spaces. -/
theorem c105_reduced {toks : List Tok} {lhs : Str} {pieces : Nat} {rs : List (Option Node)} {i j : Nat} {r : Option Node} (h : reducer toks lhs pieces rs i j = some r) :
    rs.length = pieces ∧ (r = none ↔ "{_".toList <+: lhs) ∧
    ∀ n, r = some n → ∃ ns s e, n = .node lhs ns s e ∧ ns.Sublist (rs.filterMap id) ∧ ∀ c, c ∈ ns ↔ some c ∈ rs ∧ ∀ cs s e, c ≠ .node "{space}".toList cs s e := by
  obtain ⟨h1, ⟨h2, rfl⟩ | ⟨h2, ns, a, b, h3, _, _, rfl⟩⟩ := reducer_some h
  · exact ⟨h1, ⟨fun _ => h2, fun _ => rfl⟩, fun n e => (nomatch e)⟩
  · refine ⟨h1, ⟨fun e => (nomatch e), fun e => absurd e h2⟩, fun n e => ?_⟩
    obtain ⟨k1, k2⟩ := kids_eq h3
    exact ⟨ns, _, _, (Option.some.inj e).symm, k1, k2⟩

/-- **C105.**  `is_a` gives the first node with the name on the way down through only children, and nothing if there is none. -/
theorem c105_is_a (lhs : Str) : ∀ (n m : Node), isA lhs n = some m ↔ ∃ ls, Unit n m ls ∧ lhs ∉ ls ∧ ∃ cs s e, m = .node lhs cs s e
  | .text t, m => ⟨fun h => (nomatch h), fun ⟨_, h, _⟩ => (nomatch h)⟩
  | .node l cs s e, m => by
    unfold isA
    by_cases hl : l = lhs
    · rw [if_pos hl]
      constructor
      · intro h
        rw [← Option.some.inj h]
        exact ⟨[], .refl _ _ _ _, fun h => (nomatch h), cs, s, e, by rw [hl]⟩
      · rintro ⟨ls, hu, hn, _⟩
        cases hu with
        | refl => rfl
        | step _ => exact absurd (by rw [hl]; exact .head _) hn
    · rw [if_neg hl]
      match cs with
      | [] =>
        refine ⟨fun h => (nomatch h), ?_⟩
        rintro ⟨ls, hu, _, _, _, _, hm⟩
        cases hu with
        | refl => exact absurd (Node.node.inj hm).1 hl
      | [c] =>
        dsimp only
        rw [c105_is_a lhs c m]
        constructor
        · rintro ⟨ls, hu, hn, hm⟩
          refine ⟨l :: ls, .step hu, fun h => ?_, hm⟩
          rcases List.mem_cons.1 h with h | h
          · exact hl h.symm
          · exact hn h
        · rintro ⟨ls, hu, hn, hm⟩
          cases hu with
          | refl =>
            obtain ⟨_, _, _, hm⟩ := hm
            exact absurd (Node.node.inj hm).1 hl
          | step hu => exact ⟨_, hu, fun h => hn (.tail _ h), hm⟩
      | _ :: _ :: _ =>
        refine ⟨fun h => (nomatch h), ?_⟩
        rintro ⟨ls, hu, _, _, _, _, hm⟩
        cases hu with
        | refl => exact absurd (Node.node.inj hm).1 hl

/-! ## Examples -/

def toks0 : List Tok := [⟨"{var}".toList, 0, 3, "_x_".toList⟩, ⟨"{space}".toList, 3, 4, " ".toList⟩, ⟨"{word}".toList, 4, 5, "a".toList⟩, ⟨"{EOI}".toList, 5, 5, []⟩]

example : TokensInOrder toks0 := by
  refine ⟨by decide, fun i a b ha hb => ?_⟩
  match i with
  | 0 => cases ha; cases hb; decide
  | 1 => cases ha; cases hb; decide
  | 2 => cases ha; cases hb; decide
  | i + 3 => rw [toks0] at hb; simp at hb

example : matcher toks0 0 ["{var}".toList, "a".toList, "{word}".toList] = some [("{var}".toList, 1, some (.node "{var}".toList [.text "_x_".toList] 0 3))] := rfl
example : matcher toks0 2 ["an?".toList, "{var}".toList, "a".toList] = some [("an?".toList, 3, none), ("a".toList, 3, none)] := rfl
example : Built toks0 0 3 [some (.node "{EX}".toList [.node "{var}".toList [.text "_x_".toList] 0 3] 0 5)] :=
  .reduce (lhs := "{EX}".toList) (pieces := 3) (.token (t := "{var}".toList) rfl rfl (.token (t := "{space}".toList) rfl rfl (.token (t := "an?".toList) rfl rfl (.nil _)))) rfl (.nil _)

end Verif.Reduce
