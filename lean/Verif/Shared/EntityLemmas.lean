import Verif.Shared.Spec
/-! # Lemmas for `decode_entities` -/
namespace Verif.Shared

/-- Text tokens: a literal character or one of the five entities. -/
inductive Tok | lit (c : Char) | amp | lt | gt | ldquo | rdquo
deriving DecidableEq

def Tok.str : Tok → List Char
  | .lit c => [c]
  | .amp => ['&', 'a', 'm', 'p', ';']
  | .lt => ['&', 'l', 't', ';']
  | .gt => ['&', 'g', 't', ';']
  | .ldquo => ['&', 'l', 'd', 'q', 'u', 'o', ';']
  | .rdquo => ['&', 'r', 'd', 'q', 'u', 'o', ';']

def Tok.val : Tok → Char
  | .lit c => c
  | .amp => '&'
  | .lt => '<'
  | .gt => '>'
  | .ldquo => '“'
  | .rdquo => '”'

def Tok.isLit : Tok → Bool
  | .lit _ => true
  | _ => false

/-- Replace the entity `e` by a literal. -/
def Tok.dec (e t : Tok) : Tok := if t = e then .lit e.val else t

theorem dropPrefix?_append (p s : List Char) : dropPrefix? p (p ++ s) = some s := by
  induction p with
  | nil => rfl
  | cons c cs ih => simp [dropPrefix?, ih]

theorem go_nil (pat : List Char) (rep : Char) (n : Nat) : replaceAll.go pat rep [] n = [] := by
  cases n <;> rfl

theorem go_cons (pat : List Char) (rep : Char) (c : Char) (cs : List Char) (n : Nat) :
    replaceAll.go pat rep (c :: cs) (n + 1) =
      match dropPrefix? pat (c :: cs) with
      | some rest => rep :: replaceAll.go pat rep rest n
      | none => c :: replaceAll.go pat rep cs n := rfl

/-- Scanning over characters that cannot start the pattern. -/
theorem go_skip (e : Tok) (he : e.isLit = false) (rep : Char) :
    ∀ (xs s : List Char) (n : Nat), '&' ∉ xs →
      replaceAll.go e.str rep (xs ++ s) (xs.length + n) = xs ++ replaceAll.go e.str rep s n := by
  intro xs
  induction xs with
  | nil => intro s n _; simp
  | cons x xs ih =>
    intro s n hx
    simp only [List.mem_cons, not_or] at hx
    have : (x :: xs).length + n = (xs.length + n) + 1 := by simp; omega
    rw [this, List.cons_append, go_cons]
    have hd : dropPrefix? e.str (x :: (xs ++ s)) = none := by
      cases e <;> simp [Tok.isLit] at he <;> simp [Tok.str, dropPrefix?, hx.1]
    rw [hd]
    simp [ih s n hx.2]

theorem go_tok_other (e t : Tok) (he : e.isLit = false) (hte : t ≠ e) (hlit : t ≠ .lit '&')
    (rep : Char) (s : List Char) (n : Nat) :
    replaceAll.go e.str rep (t.str ++ s) (t.str.length + n) = t.str ++ replaceAll.go e.str rep s n := by
  cases t with
  | lit c =>
    apply go_skip e he
    simp [Tok.str]
    intro h; exact hlit (by rw [h])
  | amp =>
    have h1 := go_skip e he rep ['a', 'm', 'p', ';'] s n (by decide)
    have : Tok.amp.str ++ s = '&' :: (['a', 'm', 'p', ';'] ++ s) := rfl
    rw [this]
    have hl : Tok.amp.str.length + n = (['a', 'm', 'p', ';'].length + n) + 1 := by simp [Tok.str]; omega
    rw [hl, go_cons]
    have hd : dropPrefix? e.str ('&' :: (['a', 'm', 'p', ';'] ++ s)) = none := by
      cases e <;> simp_all [Tok.isLit, Tok.str, dropPrefix?]
    rw [hd]
    simp only [h1]; rfl
  | lt =>
    have h1 := go_skip e he rep ['l', 't', ';'] s n (by decide)
    have : Tok.lt.str ++ s = '&' :: (['l', 't', ';'] ++ s) := rfl
    rw [this]
    have hl : Tok.lt.str.length + n = (['l', 't', ';'].length + n) + 1 := by simp [Tok.str]; omega
    rw [hl, go_cons]
    have hd : dropPrefix? e.str ('&' :: (['l', 't', ';'] ++ s)) = none := by
      cases e <;> simp_all [Tok.isLit, Tok.str, dropPrefix?]
    rw [hd]
    simp only [h1]; rfl
  | gt =>
    have h1 := go_skip e he rep ['g', 't', ';'] s n (by decide)
    have : Tok.gt.str ++ s = '&' :: (['g', 't', ';'] ++ s) := rfl
    rw [this]
    have hl : Tok.gt.str.length + n = (['g', 't', ';'].length + n) + 1 := by simp [Tok.str]; omega
    rw [hl, go_cons]
    have hd : dropPrefix? e.str ('&' :: (['g', 't', ';'] ++ s)) = none := by
      cases e <;> simp_all [Tok.isLit, Tok.str, dropPrefix?]
    rw [hd]
    simp only [h1]; rfl
  | ldquo =>
    have h1 := go_skip e he rep ['l', 'd', 'q', 'u', 'o', ';'] s n (by decide)
    have : Tok.ldquo.str ++ s = '&' :: (['l', 'd', 'q', 'u', 'o', ';'] ++ s) := rfl
    rw [this]
    have hl : Tok.ldquo.str.length + n = (['l', 'd', 'q', 'u', 'o', ';'].length + n) + 1 := by simp [Tok.str]; omega
    rw [hl, go_cons]
    have hd : dropPrefix? e.str ('&' :: (['l', 'd', 'q', 'u', 'o', ';'] ++ s)) = none := by
      cases e <;> simp_all [Tok.isLit, Tok.str, dropPrefix?]
    rw [hd]
    simp only [h1]; rfl
  | rdquo =>
    have h1 := go_skip e he rep ['r', 'd', 'q', 'u', 'o', ';'] s n (by decide)
    have : Tok.rdquo.str ++ s = '&' :: (['r', 'd', 'q', 'u', 'o', ';'] ++ s) := rfl
    rw [this]
    have hl : Tok.rdquo.str.length + n = (['r', 'd', 'q', 'u', 'o', ';'].length + n) + 1 := by simp [Tok.str]; omega
    rw [hl, go_cons]
    have hd : dropPrefix? e.str ('&' :: (['r', 'd', 'q', 'u', 'o', ';'] ++ s)) = none := by
      cases e <;> simp_all [Tok.isLit, Tok.str, dropPrefix?]
    rw [hd]
    simp only [h1]; rfl

/-- More fuel than characters makes no difference. -/
theorem go_fuel (pat : List Char) (hp : pat ≠ []) (rep : Char) : ∀ (n m : Nat) (s : List Char),
    s.length ≤ n → s.length ≤ m → replaceAll.go pat rep s n = replaceAll.go pat rep s m := by
  intro n
  induction n with
  | zero =>
    intro m s h _
    have : s = [] := List.length_eq_zero_iff.1 (by omega)
    subst this; simp [go_nil]
  | succ n ih =>
    intro m s h h'
    cases s with
    | nil => simp [go_nil]
    | cons c cs =>
      cases m with
      | zero => simp at h'
      | succ m =>
        rw [go_cons, go_cons]
        have hlen : ∀ (p t r : List Char), dropPrefix? p t = some r → r.length + p.length = t.length := by
          intro p
          induction p with
          | nil => intro t r h; simp [dropPrefix?] at h; simp [h]
          | cons a as iha =>
            intro t r h
            cases t with
            | nil => simp [dropPrefix?] at h
            | cons b bs =>
              simp only [dropPrefix?] at h
              split at h
              · have := iha _ _ h; simp; omega
              · cases h
        split
        · rename_i rest hd
          have := hlen _ _ _ hd
          have hpl : 0 < pat.length := List.length_pos_iff.2 hp
          simp at this h h'
          rw [ih m rest (by omega) (by omega)]
        · simp at h h'
          rw [ih m cs (by omega) (by omega)]

theorem replaceAll_toks (e : Tok) (he : e.isLit = false) : ∀ (ts : List Tok), (∀ t ∈ ts, t ≠ .lit '&') →
    replaceAll e.str e.val (ts.flatMap Tok.str) = (ts.map e.dec).flatMap Tok.str := by
  have hne : e.str ≠ [] := by cases e <;> simp [Tok.str]
  suffices ∀ (ts : List Tok), (∀ t ∈ ts, t ≠ .lit '&') →
      replaceAll.go e.str e.val (ts.flatMap Tok.str) (ts.flatMap Tok.str).length
        = (ts.map e.dec).flatMap Tok.str from this
  intro ts
  induction ts with
  | nil => intro _; simp [go_nil]
  | cons t ts ih =>
    intro h
    have ih := ih (fun x hx => h x (by simp [hx]))
    simp only [List.flatMap_cons, List.map_cons, List.length_append]
    by_cases hte : t = e
    · subst hte
      have hd : t.dec t = .lit t.val := by simp [Tok.dec]
      rw [hd]
      cases hs : t.str with
      | nil => exact absurd hs hne
      | cons c cs =>
        have : (c :: cs).length + (ts.flatMap Tok.str).length
            = (cs.length + (ts.flatMap Tok.str).length) + 1 := by simp; omega
        rw [this, List.cons_append, go_cons, ← List.cons_append, ← hs, dropPrefix?_append]
        dsimp only
        rw [go_fuel t.str hne _ _ (ts.flatMap Tok.str).length _ (by omega) (by omega), ih]
        simp [Tok.str]
    · have hd : e.dec t = t := by simp [Tok.dec, hte]
      rw [hd, go_tok_other e t he hte (h t (by simp)), ih]

theorem encodes_toks {s e : List Char} (h : Encodes s e) :
    ∃ ts : List Tok, e = ts.flatMap Tok.str ∧ s = ts.map Tok.val ∧
      ∀ t ∈ ts, t ≠ .lit '&' ∧ t ≠ .lit '<' := by
  induction h with
  | nil => exact ⟨[], by simp⟩
  | cons hw _ ih =>
    obtain ⟨ts, rfl, rfl, h3⟩ := ih
    cases hw with
    | plain _ h1 h2 =>
      rename_i c hh
      refine ⟨.lit c :: ts, by simp [Tok.str], by simp [Tok.val], ?_⟩
      intro t ht
      rcases List.mem_cons.1 ht with rfl | ht
      · simp [h1, h2]
      · exact h3 t ht
    | amp => exact ⟨.amp :: ts, by simp [Tok.str], by simp [Tok.val], by simpa using h3⟩
    | lt => exact ⟨.lt :: ts, by simp [Tok.str], by simp [Tok.val], by simpa using h3⟩
    | gt => exact ⟨.gt :: ts, by simp [Tok.str], by simp [Tok.val], by simpa using h3⟩
    | ldquo => exact ⟨.ldquo :: ts, by simp [Tok.str], by simp [Tok.val], by simpa using h3⟩
    | rdquo => exact ⟨.rdquo :: ts, by simp [Tok.str], by simp [Tok.val], by simpa using h3⟩

theorem dec_ne_amp {e t : Tok} (h : t ≠ .lit '&') (he : e.val ≠ '&') : e.dec t ≠ .lit '&' := by
  unfold Tok.dec
  split
  · simpa using he
  · exact h

theorem decode_toks (ts : List Tok) (h : ∀ t ∈ ts, t ≠ .lit '&' ∧ t ≠ .lit '<') :
    decodeEntities (ts.flatMap Tok.str) = some (ts.map Tok.val) := by
  unfold decodeEntities
  have hlt : '<' ∉ ts.flatMap Tok.str := by
    simp only [List.mem_flatMap, not_exists, not_and]
    intro t ht hm
    have := (h t ht).2
    cases t <;> simp [Tok.str] at hm this
    exact this hm.symm
  rw [if_neg hlt]
  have h0 : ∀ t ∈ ts, t ≠ Tok.lit '&' := fun t ht => (h t ht).1
  have step : ∀ (e : Tok), e.val ≠ '&' → ∀ l : List Tok, (∀ t ∈ l, t ≠ Tok.lit '&') →
      ∀ t ∈ l.map e.dec, t ≠ Tok.lit '&' := by
    intro e he l hl t ht
    obtain ⟨u, hu, rfl⟩ := List.mem_map.1 ht
    exact dec_ne_amp (hl u hu) he
  have h1 := step .lt (by decide) _ h0
  have h2 := step .gt (by decide) _ h1
  have h3 := step .ldquo (by decide) _ h2
  have h4 := step .rdquo (by decide) _ h3
  have r1 := replaceAll_toks .lt rfl ts h0
  have r2 := replaceAll_toks .gt rfl _ h1
  have r3 := replaceAll_toks .ldquo rfl _ h2
  have r4 := replaceAll_toks .rdquo rfl _ h3
  have r5 := replaceAll_toks .amp rfl _ h4
  simp only [Tok.str, Tok.val] at r1 r2 r3 r4 r5
  have hfin : ∀ l : List Tok, ((((((l.map Tok.lt.dec).map Tok.gt.dec).map Tok.ldquo.dec).map
      Tok.rdquo.dec).map Tok.amp.dec).flatMap Tok.str) = l.map Tok.val := by
    intro l
    induction l with
    | nil => rfl
    | cons t l ih =>
      simp only [List.map_cons, List.flatMap_cons, ih]
      cases t <;> simp [Tok.dec, Tok.val, Tok.str]
  rw [← hfin ts, r1, r2, r3, r4, r5]

end Verif.Shared
