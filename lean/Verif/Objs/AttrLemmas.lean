import Verif.Objs.Spec
import Verif.Preambles.Props
import Verif.Wki.Lemmas
/-!
# Attributes
-/
namespace Verif.Objs
open Verif.Kinds (Rx full lit plus cat any w dot Matches)
open Verif.Sections (isWord)
open Verif.Preambles (after after_iff word_chars)
open Verif.Wki (before before_iff)
open Verif.Titles (takeWhile_all)
open Verif.Tables (put)
open Verif.Paths.Spec (Word)
open Verif.Kinds.Spec (Line Some')
open Spec

/-! ## Greedy groups -/

theorem greedy_some {f : Str → Str → Option α} : ∀ {s a : Str} {x : α}, greedy f a s = some x →
    ∃ u v, s = u ++ v ∧ f (a ++ u) v = some x ∧ ∀ u' v', s = u' ++ v' → u.length < u'.length → f (a ++ u') v' = none
  | [], a, x, h => ⟨[], [], rfl, by rw [List.append_nil]; exact h, fun u' v' e hl => by
      cases u' with
      | nil => simp at hl
      | cons _ _ => cases e⟩
  | c :: s, a, x, h => by
    unfold greedy at h
    cases hg : greedy f (a ++ [c]) s with
    | some y =>
      rw [hg] at h
      obtain rfl := Option.some.inj h
      obtain ⟨u, v, rfl, h1, h2⟩ := greedy_some hg
      refine ⟨c :: u, v, rfl, by simpa using h1, fun u' v' e hl => ?_⟩
      cases u' with
      | nil => simp at hl
      | cons d u' =>
        simp only [List.cons_append, List.cons.injEq] at e
        obtain ⟨rfl, e⟩ := e
        have := h2 u' v' e (by simpa using hl)
        simpa using this
    | none =>
      rw [hg] at h
      refine ⟨[], c :: s, rfl, by rw [List.append_nil]; exact h, fun u' v' e hl => ?_⟩
      cases u' with
      | nil => simp at hl
      | cons d u' =>
        simp only [List.cons_append, List.cons.injEq] at e
        obtain ⟨rfl, e⟩ := e
        have := greedy_none hg u' v' e
        simpa using this
where
  greedy_none {α} {f : Str → Str → Option α} : ∀ {s a : Str}, greedy f a s = none → ∀ u v, s = u ++ v → f (a ++ u) v = none
    | [], a, h, u, v, e => by
      cases u with
      | nil => cases v with
        | nil => rw [List.append_nil]; exact h
        | cons _ _ => cases e
      | cons _ _ => cases e
    | c :: s, a, h, u, v, e => by
      unfold greedy at h
      cases hg : greedy f (a ++ [c]) s with
      | some y => rw [hg] at h; cases h
      | none =>
        rw [hg] at h
        cases u with
        | nil => rw [List.nil_append] at e; subst e; rw [List.append_nil]; exact h
        | cons d u =>
          simp only [List.cons_append, List.cons.injEq] at e
          obtain ⟨rfl, e⟩ := e
          have := greedy_none hg u v e
          simpa using this

/-! ## Commas -/

theorem noComma_nil : NoComma [] := by rintro ⟨a, b, e⟩; simp at e

theorem splitComma_noComma : ∀ {s a : Str}, NoComma (a ++ s) → splitComma a s = [a ++ s]
  | [], a, _ => by simp [splitComma]
  | c :: s, a, h => by
    unfold splitComma
    split
    · rename_i e; cases e
    · rename_i t e
      simp only [List.cons.injEq] at e
      obtain ⟨rfl, rfl⟩ := e
      exact absurd ⟨a, t, by simp⟩ h
    · rename_i d t _ e
      simp only [List.cons.injEq] at e
      obtain ⟨rfl, rfl⟩ := e
      rw [splitComma_noComma (by simpa using h)]
      simp

theorem splitComma_more : ∀ {s a t : Str}, NoComma (a ++ s) → splitComma a (s ++ ", ".toList ++ t) = (a ++ s) :: splitComma [] t
  | [], a, t, _ => by simp [splitComma]
  | c :: s, a, t, h => by
    rw [List.cons_append, List.cons_append]
    conv => lhs; unfold splitComma
    split
    · rename_i e; cases e
    · rename_i t' e
      simp only [List.cons.injEq] at e
      obtain ⟨rfl, e⟩ := e
      cases s with
      | nil => simp at e
      | cons d s =>
        simp only [List.cons_append, List.cons.injEq] at e
        obtain ⟨rfl, e⟩ := e
        exact absurd ⟨a, s, by simp⟩ h
    · rename_i d t' _ e
      simp only [List.cons.injEq] at e
      obtain ⟨rfl, rfl⟩ := e
      rw [splitComma_more (by simpa using h)]
      simp

theorem splitComma_inv : ∀ {s a : Str}, NoComma a → ((∃ b, a = b ++ [',']) → s.head? ≠ some ' ') →
    (splitComma a s = [a ++ s] ∧ NoComma (a ++ s)) ∨ ∃ x t, s = x ++ ", ".toList ++ t ∧ NoComma (a ++ x) ∧ splitComma a s = (a ++ x) :: splitComma [] t
  | [], a, h, _ => .inl ⟨by simp [splitComma], by simpa using h⟩
  | c :: s, a, h, hc => by
    by_cases hp : c = ',' ∧ ∃ t, s = ' ' :: t
    · obtain ⟨rfl, t, rfl⟩ := hp
      exact .inr ⟨[], t, by simp, by simpa using h, by simp [splitComma]⟩
    · have hn : NoComma (a ++ [c]) := by
        rintro ⟨x, y, e⟩
        rcases List.eq_nil_or_concat y with rfl | ⟨y, d, rfl⟩
        · have e' : a ++ [c] = (x ++ [',']) ++ [' '] := by simpa using e
          obtain ⟨rfl, e2⟩ := List.append_inj' e' rfl
          simp only [List.cons.injEq, and_true] at e2
          subst e2
          exact hc ⟨x, rfl⟩ rfl
        · rw [List.concat_eq_append, ← List.append_assoc] at e
          obtain ⟨rfl, -⟩ := List.append_inj' e rfl
          exact h ⟨x, y, rfl⟩
      have hh : (∃ b, a ++ [c] = b ++ [',']) → s.head? ≠ some ' ' := by
        rintro ⟨b, e⟩ hs
        obtain ⟨-, e2⟩ := List.append_inj' e rfl
        simp only [List.cons.injEq, and_true] at e2
        cases s with
        | nil => simp at hs
        | cons d s =>
          simp only [List.head?_cons, Option.some.injEq] at hs
          exact hp ⟨e2, s, by rw [hs]⟩
      have he : splitComma a (c :: s) = splitComma (a ++ [c]) s := by
        conv => lhs; unfold splitComma
        split
        · rename_i e; cases e
        · rename_i t e
          simp only [List.cons.injEq] at e
          exact absurd ⟨e.1, t, e.2⟩ hp
        · rename_i d t _ e
          simp only [List.cons.injEq] at e
          obtain ⟨rfl, rfl⟩ := e
          rfl
      rcases splitComma_inv hn hh with ⟨h1, h2⟩ | ⟨x, t, rfl, h2, h3⟩
      · exact .inl ⟨by rw [he, h1]; simp, by simpa using h2⟩
      · exact .inr ⟨c :: x, t, by simp, by simpa using h2, by rw [he, h3]; simp⟩

/-! ## Fields -/

theorem notWord_head {t : String} {r : Str} (c : Char) (cs : Str) (ht : t.toList = c :: cs) (hc : isWord c = false) : ∀ d, (t.toList ++ r).head? = some d → isWord d = false := by
  intro d hd
  rw [ht] at hd
  simp only [List.cons_append, List.head?_cons, Option.some.injEq] at hd
  rw [← hd]; exact hc

theorem word_split (r : Str) : r = r.takeWhile isWord ++ r.dropWhile isWord := (List.takeWhile_append_dropWhile).symm

theorem word_take {r : Str} (h : r.takeWhile isWord ≠ []) : Word (r.takeWhile isWord) :=
  word_chars.2 ⟨h, fun c hc => by
    have : ∀ (l : Str), ∀ c ∈ l.takeWhile isWord, isWord c = true := by
      intro l
      induction l with
      | nil => simp
      | cons a l ih =>
        intro c hc
        rw [List.takeWhile_cons] at hc
        split at hc
        · rcases List.mem_cons.1 hc with rfl | hc
          · assumption
          · exact ih c hc
        · simp at hc
    exact this r c hc⟩

theorem word_then {x r : Str} (hx : Word x) (hr : ∀ c, r.head? = some c → isWord c = false) : (x ++ r).takeWhile isWord = x ∧ (x ++ r).dropWhile isWord = r :=
  takeWhile_all (word_chars.1 hx).2 hr

theorem field_iff {s : Str} {p : Str × Str} : field s = some p ↔ Field p s := by
  unfold field
  constructor
  · intro h
    cases ha : after "[[" s with
    | none => rw [ha] at h; cases h
    | some r =>
      rw [ha] at h
      dsimp only at h
      split at h
      · cases h
      · rename_i hw
        cases hb : after "]]: " (r.dropWhile isWord) with
        | none => rw [hb] at h; cases h
        | some v =>
          rw [hb] at h
          dsimp only at h
          split at h
          · rename_i hv
            obtain rfl := Option.some.inj h
            refine ⟨_, word_take hw, rfl, hv, ?_⟩
            rw [after_iff.1 ha]
            conv => lhs; rw [word_split r, after_iff.1 hb]
            simp
          · cases h
  · rintro ⟨n, hn, h1, hv, rfl⟩
    obtain ⟨k, v⟩ := p
    dsimp only at h1 hv
    subst h1
    dsimp only
    obtain ⟨e1, e2⟩ := word_then (r := "]]: ".toList ++ v) hn (notWord_head ']' _ rfl (by decide))
    rw [after_iff.2 (show _ = "[[".toList ++ (n ++ ("]]: ".toList ++ v)) by simp)]
    dsimp only
    rw [e1, e2, if_neg hn.1, after_iff.2 rfl]
    dsimp only
    rw [if_pos (show v ≠ [] ∧ '\n' ∉ v from hv)]

theorem listed_iff : ∀ {fs : List (Str × Str)} {x : Str}, Listed fs x ↔ (splitComma [] x).mapM field = some fs := by
  intro fs x
  constructor
  · intro h
    induction h with
    | one hf hn =>
      rw [splitComma_noComma (a := []) (by simpa using hn)]
      simp [List.mapM_cons, field_iff.2 hf]
    | more hf hn _ ih =>
      rw [splitComma_more (a := []) (by simpa using hn)]
      simp [List.mapM_cons, field_iff.2 hf, ih]
  · intro h
    generalize hl : x.length = m
    induction m using Nat.strongRecOn generalizing x fs with
    | ind m ih =>
      rcases splitComma_inv (s := x) (a := []) noComma_nil (by rintro ⟨b, e⟩; simp at e) with ⟨h1, h2⟩ | ⟨y, t, rfl, h2, h3⟩
      · rw [h1] at h
        simp only [List.nil_append] at h h2
        cases hf : field x with
        | none => simp [List.mapM_cons, hf] at h
        | some p =>
          simp [List.mapM_cons, hf] at h
          subst h
          exact .one (field_iff.1 hf) h2
      · rw [h3] at h
        simp only [List.nil_append] at h h2
        cases hf : field y with
        | none => simp [List.mapM_cons, hf] at h
        | some p =>
          cases hg : (splitComma [] t).mapM field with
          | none => simp [List.mapM_cons, hf, hg] at h
          | some ps =>
            simp [List.mapM_cons, hf, hg] at h
            subst h
            exact .more (field_iff.1 hf) h2 (ih t.length (by simp at hl; omega) hg rfl)

theorem listed_some {fs : List (Str × Str)} {x : Str} (h : Listed fs x) : Some' x := by
  have hf : ∀ {p s}, Field p s → Some' s := by
    rintro p s ⟨n, hn, h1, hv, rfl⟩
    rw [h1]
    refine ⟨by simp, ?_⟩
    unfold Line
    simp only [List.mem_append, not_or]
    refine ⟨⟨⟨⟨by decide, fun h => ?_⟩, by decide⟩, by decide⟩, hv.2⟩
    have := (word_chars.1 hn).2 _ h
    simp [isWord] at this
  induction h with
  | one h _ => exact hf h
  | more h _ _ ih =>
    refine ⟨by simp, ?_⟩
    unfold Line
    simp only [List.mem_append, not_or]
    exact ⟨⟨(hf h).2, by decide⟩, ih.2⟩

theorem attrs_iff {s : Str} {fs : List (Str × Str)} : attrFields s = some fs ↔ Attrs fs s := by
  unfold attrFields braced
  constructor
  · intro h
    cases ha : after "{ " s with
    | none => rw [ha] at h; cases h
    | some r =>
      rw [ha] at h
      dsimp only at h
      cases hb : before " }" r with
      | none => rw [hb] at h; cases h
      | some x =>
        rw [hb] at h
        dsimp only at h
        by_cases hx : x ≠ [] ∧ '\n' ∉ x
        · rw [if_pos hx] at h
          exact ⟨x, listed_iff.2 h, by rw [after_iff.1 ha, before_iff.1 hb]; simp⟩
        · rw [if_neg hx] at h; cases h
  · rintro ⟨x, hx, rfl⟩
    rw [after_iff.2 (show _ = "{ ".toList ++ (x ++ " }".toList) by simp)]
    dsimp only
    rw [before_iff.2 rfl]
    dsimp only
    rw [if_pos (show x ≠ [] ∧ '\n' ∉ x from listed_some hx)]
    exact listed_iff.1 hx

/-! ## The dict -/

theorem put_keys (d : List (Str × Str)) (x v : Str) : (put d x v).map Prod.fst = if x ∈ d.map Prod.fst then d.map Prod.fst else d.map Prod.fst ++ [x] := by
  induction d with
  | nil => simp [put]
  | cons p d ih =>
    obtain ⟨y, w⟩ := p
    unfold put
    by_cases h : y = x
    · rw [if_pos h]; simp [h]
    · rw [if_neg h, List.map_cons, ih]
      by_cases hx : x ∈ d.map Prod.fst
      · rw [if_pos hx, if_pos (by simp only [List.map_cons]; exact List.mem_cons_of_mem _ hx)]; rfl
      · rw [if_neg hx, if_neg]
        · simp
        · simp only [List.map_cons, List.mem_cons, not_or]
          exact ⟨fun e => h e.symm, hx⟩

theorem put_mem {d : List (Str × Str)} (hn : (d.map Prod.fst).Nodup) (x v k u : Str) : (k, u) ∈ put d x v ↔ (k = x ∧ u = v) ∨ (k ≠ x ∧ (k, u) ∈ d) := by
  induction d with
  | nil => simp [put]
  | cons p d ih =>
    obtain ⟨y, w⟩ := p
    simp only [List.map_cons, List.nodup_cons] at hn
    unfold put
    by_cases h : y = x
    · subst h
      rw [if_pos rfl]
      simp only [List.mem_cons, Prod.mk.injEq]
      constructor
      · rintro (h | h)
        · exact .inl h
        · refine .inr ⟨fun e => hn.1 (e ▸ List.mem_map_of_mem (f := Prod.fst) h), .inr h⟩
      · rintro (h | ⟨h1, ⟨h2, -⟩ | h2⟩)
        · exact .inl h
        · exact absurd h2 h1
        · exact .inr h2
    · rw [if_neg h, List.mem_cons, ih hn.2]
      simp only [List.mem_cons, Prod.mk.injEq]
      constructor
      · rintro (⟨rfl, rfl⟩ | h' | ⟨h1, h2⟩)
        · exact .inr ⟨h, .inl ⟨rfl, rfl⟩⟩
        · exact .inl h'
        · exact .inr ⟨h1, .inr h2⟩
      · rintro (h' | ⟨h1, h2 | h2⟩)
        · exact .inr (.inl h')
        · exact .inl h2
        · exact .inr (.inr ⟨h1, h2⟩)

theorem firsts_nodup {vs ws : List Str} (h : Preambles.Spec.Firsts vs ws) : ws.Nodup := by
  induction h with
  | nil => exact List.nodup_nil
  | old _ _ ih => exact ih
  | new _ hv ih => exact List.nodup_append.2 ⟨ih, by simp, by rintro a ha b hb rfl; simp at hb; exact hv (hb ▸ ha)⟩

theorem last_snoc {ps : List (Str × Str)} {x v k u : Str} : Last (ps ++ [(x, v)]) k u ↔ (k = x ∧ u = v) ∨ (k ≠ x ∧ Last ps k u) := by
  constructor
  · rintro ⟨a, b, e, hb⟩
    rcases List.eq_nil_or_concat b with rfl | ⟨b, q, rfl⟩
    · obtain ⟨-, e2⟩ := List.append_inj' e rfl
      simp only [List.cons.injEq, Prod.mk.injEq, and_true] at e2
      exact .inl ⟨e2.1.symm, e2.2.symm⟩
    · rw [List.concat_eq_append] at e hb
      have e' : ps ++ [(x, v)] = (a ++ (k, u) :: b) ++ [q] := by rw [e]; simp
      obtain ⟨rfl, e2⟩ := List.append_inj' e' rfl
      simp only [List.cons.injEq, and_true] at e2
      subst e2
      simp only [List.map_append, List.map_cons, List.map_nil, List.mem_append, List.mem_singleton, not_or] at hb
      exact .inr ⟨hb.2, a, b, rfl, hb.1⟩
  · rintro (⟨rfl, rfl⟩ | ⟨h, a, b, rfl, hb⟩)
    · exact ⟨ps, [], rfl, by simp⟩
    · refine ⟨a, b ++ [(x, v)], by simp, ?_⟩
      simp only [List.map_append, List.map_cons, List.map_nil, List.mem_append, List.mem_singleton, not_or]
      exact ⟨hb, h⟩

theorem dict_put {ps d : List (Str × Str)} (h : Dict ps d) (x v : Str) : Dict (ps ++ [(x, v)]) (put d x v) := by
  obtain ⟨h1, h2⟩ := h
  refine ⟨?_, fun k u => ?_⟩
  · rw [put_keys, List.map_append]
    by_cases hx : x ∈ d.map Prod.fst
    · rw [if_pos hx]; exact .old h1 hx
    · rw [if_neg hx]; exact .new h1 hx
  · rw [put_mem (firsts_nodup h1), last_snoc, h2]

theorem dict_putAll {ps d fs : List (Str × Str)} (h : Dict ps d) : Dict (ps ++ fs) (putAll d fs) := by
  induction fs generalizing ps d with
  | nil => simpa [putAll] using h
  | cons f fs ih =>
    have := ih (dict_put h f.1 f.2)
    simpa [putAll] using this

theorem dict_one (x v : Str) : Dict [(x, v)] [(x, v)] := by
  refine ⟨.new .nil (by simp), fun k u => ?_⟩
  have := last_snoc (ps := []) (x := x) (v := v) (k := k) (u := u)
  simp only [List.nil_append] at this
  rw [this]
  constructor
  · intro h; simp only [List.mem_singleton, Prod.mk.injEq] at h; exact .inl h
  · rintro (⟨rfl, rfl⟩ | ⟨-, a, b, e, -⟩)
    · simp
    · simp at e

theorem same_entries : ∀ {d e : List (Str × Str)}, d.map Prod.fst = e.map Prod.fst → (d.map Prod.fst).Nodup → (∀ k v, (k, v) ∈ d ↔ (k, v) ∈ e) → d = e
  | [], [], _, _, _ => rfl
  | [], _ :: _, h, _, _ => by simp at h
  | _ :: _, [], h, _, _ => by simp at h
  | (k, v) :: d, (k', v') :: e, h, hn, hm => by
    simp only [List.map_cons, List.cons.injEq] at h
    obtain ⟨rfl, h⟩ := h
    simp only [List.map_cons, List.nodup_cons] at hn
    have hv : v = v' := by
      rcases List.mem_cons.1 ((hm k v).1 (by simp)) with e1 | e1
      · exact (Prod.mk.inj e1).2
      · exact absurd (List.mem_map_of_mem (f := Prod.fst) e1) (h ▸ hn.1)
    subst hv
    congr 1
    refine same_entries h hn.2 (fun x u => ?_)
    have := hm x u
    simp only [List.mem_cons, Prod.mk.injEq] at this
    constructor
    · intro hx
      rcases this.1 (.inr hx) with ⟨rfl, -⟩ | hx'
      · exact absurd (List.mem_map_of_mem (f := Prod.fst) hx) hn.1
      · exact hx'
    · intro hx
      rcases this.2 (.inr hx) with ⟨rfl, -⟩ | hx'
      · exact absurd (List.mem_map_of_mem (f := Prod.fst) hx) (h ▸ hn.1)
      · exact hx'

theorem dict_iff {u k : Str} {fs d : List (Str × Str)} : Dict ((k, u) :: fs) d ↔ d = putAll [(k, u)] fs := by
  have h := dict_putAll (fs := fs) (dict_one k u)
  simp only [List.singleton_append] at h
  constructor
  · intro hd
    refine same_entries ?_ (firsts_nodup hd.1) (fun x v => by rw [hd.2, h.2])
    rw [← Preambles.firsts_iff.1 hd.1, ← Preambles.firsts_iff.1 h.1]
  · rintro rfl; exact h

end Verif.Objs
