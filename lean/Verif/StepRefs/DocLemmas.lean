import Verif.StepRefs.TreeLemmas
/-! Lemmas on the documents that are parsed. -/
namespace Verif.StepRefs
open Verif.HTML
open Verif.Validate (nStart nStop nName nKids)

theorem getElem_shift {pre s : Str} {i p : Nat} (h : p + pre.length ≤ i) : (pre ++ s)[i - p]? = s[i - (p + pre.length)]? := by
  rw [List.getElem?_append_right (by omega)]
  congr 1
  omega

theorem leaf_sub {x m : Node} (h : Sub x m) (hk : nKids x = []) : m = x := by
  cases h with
  | here => rfl
  | step hc _ => rw [hk] at hc; exact absurd hc (by simp)

/-- A tag or a comment starts with `<`, and there are no empty texts except before an end-tag. -/
theorem lt_at (f : Forest) : ∀ (nm : Str) (b : Bool) (p : Nat) (t : Str), WF nm b f → ∀ c ∈ nodesOf p f, ∀ m, Sub c m →
    (nName m ≠ litName ∨ nStart m = nStop m) → p ≤ nStart m ∧ (src f ++ t)[nStart m - p]? = some '<' := by
  induction f with
  | nil => intro nm b p t _ c hc; simp [nodesOf] at hc
  | text s r ih =>
    intro nm b p t hw c hc m hm ho
    simp only [nodesOf, List.mem_cons] at hc
    simp only [src, List.append_assoc]
    rcases hc with rfl | hc
    · have := leaf_sub hm rfl
      subst this
      rcases ho with ho | ho
      · exact absurd rfl ho
      · simp only [nStart, nStop] at ho
        exact absurd (List.length_eq_zero_iff.1 (by omega)) hw.2.1
    · obtain ⟨h1, h2⟩ := ih nm true (p + s.length) t hw.2.2.2 c hc m hm ho
      exact ⟨by omega, by rw [getElem_shift h1]; exact h2⟩
  | comment s r ih =>
    intro nm b p t hw c hc m hm ho
    simp only [nodesOf, List.mem_cons] at hc
    simp only [src, List.append_assoc]
    rcases hc with rfl | hc
    · have := leaf_sub hm rfl
      subst this
      simp [nStart, commentText]
    · obtain ⟨h1, h2⟩ := ih nm false _ t hw.2 c hc m hm ho
      exact ⟨by omega, by rw [getElem_shift h1]; exact h2⟩
  | decl r ih =>
    intro nm b p t hw c hc m hm ho
    simp only [nodesOf, List.mem_cons] at hc
    simp only [src, List.append_assoc]
    rcases hc with rfl | hc
    · have := leaf_sub hm rfl
      subst this
      simp [nStart, declText]
    · obtain ⟨h1, h2⟩ := ih nm false _ t hw c hc m hm ho
      exact ⟨by omega, by rw [getElem_shift h1]; exact h2⟩
  | stray n r ih =>
    intro nm b p t hw c hc m hm ho
    simp only [nodesOf] at hc
    simp only [src, List.append_assoc]
    obtain ⟨h1, h2⟩ := ih nm false _ t hw.2.2 c hc m hm ho
    exact ⟨by omega, by rw [getElem_shift h1]; exact h2⟩
  | void n as r ih =>
    intro nm b p t hw c hc m hm ho
    simp only [nodesOf, List.mem_cons] at hc
    simp only [src, List.append_assoc]
    rcases hc with rfl | hc
    · have := leaf_sub hm rfl
      subst this
      simp [nStart, startTag]
    · obtain ⟨h1, h2⟩ := ih nm false _ t hw.2.2 c hc m hm ho
      exact ⟨by omega, by rw [getElem_shift h1]; exact h2⟩
  | style as s r ih =>
    intro nm b p t hw c hc m hm ho
    simp only [nodesOf, List.mem_cons] at hc
    simp only [src, List.append_assoc]
    rcases hc with rfl | hc
    · cases hm with
      | here => simp [nStart, startTag]
      | step hk hm =>
        simp only [nKids, List.mem_singleton] at hk
        subst hk
        have := leaf_sub hm rfl
        subst this
        rcases ho with ho | ho
        · exact absurd rfl ho
        · simp only [nStart, nStop] at ho ⊢
          have hs : s = [] := List.length_eq_zero_iff.1 (by omega)
          refine ⟨by omega, ?_⟩
          rw [getElem_shift (Nat.le_refl _), hs]
          simp [endTag]
    · obtain ⟨h1, h2⟩ := ih nm false _ t hw.2.2 c hc m hm ho
      refine ⟨by omega, ?_⟩
      rw [getElem_shift (by omega), getElem_shift (by omega), getElem_shift (by omega)]
      exact h2
  | elem n as k r ihk ihr =>
    intro nm b p t hw c hc m hm ho
    simp only [nodesOf, List.mem_cons] at hc
    simp only [src, List.append_assoc]
    rcases hc with rfl | hc
    · cases hm with
      | here => simp [nStart, startTag]
      | step hk hm =>
        obtain ⟨h1, h2⟩ := ihk n false _ (endTag n ++ (src r ++ t)) hw.2.2.2.2.1 _ hk m hm ho
        exact ⟨by omega, by rw [getElem_shift (by omega)]; exact h2⟩
    · obtain ⟨h1, h2⟩ := ihr nm false _ t hw.2.2.2.2.2 c hc m hm ho
      refine ⟨by omega, ?_⟩
      rw [getElem_shift (by omega), getElem_shift (by omega), getElem_shift (by omega)]
      exact h2

theorem section_name {n : Node} (h : Section n) : nName n ≠ litName ∧ nName n ≠ docName := by
  rcases h with h | h | h <;> rw [h] <;> decide

/-- In a parsed document, everything needed holds of an offset that isn't at a `<`. -/
theorem docOk_of_parse {isWord : Char → Bool} (hw : WordOk isWord) {text : Str} {doc : Node} {msgs : List (Nat × Str)}
    (h : parse isWord text = some (doc, msgs)) {p : Nat} {c : Char} (hc : text[p]? = some c) (hlt : c ≠ '<') : DocOk doc p := by
  obtain ⟨f, h1, h2, h3, h4, _⟩ := (c12_parse_exact hw text doc msgs).1 h
  have hlen : p < text.length := by
    rcases Nat.lt_or_ge p text.length with h | h
    · exact h
    · rw [List.getElem?_eq_none h] at hc; exact absurd hc (by simp)
  have hchar : ∀ m, In doc m → m ≠ doc → (nName m ≠ litName ∨ nStart m = nStop m) → nStart m ≠ p := by
    intro m hm hne ho he
    have hs := in_sub hm
    rw [h3] at hs
    cases hs with
    | here => exact hne h3.symm
    | step hk hs =>
      have := (lt_at f docName false 0 [] h1 _ hk m hs ho).2
      rw [List.append_nil, h2, he, Nat.sub_zero, hc] at this
      injection this with this
      exact hlt this
  have hweak : Weak doc := by
    have := nested_nodesOf f 0
    rw [h2, Nat.zero_add] at this
    rw [h3]
    exact ⟨0, text.length, Nat.le_refl _, Nat.le_refl _, this⟩
  have hstop : nStop doc = text.length := by rw [h3]; rfl
  have hdoc : ¬ Section doc := by
    intro hs
    exact (section_name hs).2 (by rw [h3]; rfl)
  refine ⟨hweak, by rw [hstop]; exact hlen, ?_, ?_, hdoc⟩
  · intro m hm hp
    have hne : m ≠ doc := by rintro rfl; omega
    rcases (weak_sub hweak (in_sub hm)).2.2 with h | h
    · exact absurd h hne
    · have hle := nested_le h
      rw [start_eq, stop_eq] at hle
      rcases Nat.lt_or_ge (nStart m) p with g | g
      · exact g
      · exact absurd (show nStart m = p by omega) (hchar m hm hne (Or.inr (by omega)))
  · intro m hm hs
    exact hchar m hm (by rintro rfl; exact hdoc hs) (Or.inl (section_name hs).1)

theorem wide_at (f : Forest) : ∀ (p : Nat), ∀ c ∈ nodesOf p f, ∀ m, Sub c m → nName m ≠ litName → nStart m < nStop m := by
  induction f with
  | nil => intro p c hc; simp [nodesOf] at hc
  | stray n r ih => intro p c hc; exact ih _ c hc
  | text s r ih =>
    intro p c hc m hm ho
    rcases List.mem_cons.1 hc with rfl | hc
    · rw [leaf_sub hm rfl] at ho; exact absurd rfl ho
    · exact ih _ c hc m hm ho
  | comment s r ih =>
    intro p c hc m hm ho
    rcases List.mem_cons.1 hc with rfl | hc
    · rw [leaf_sub hm rfl]; simp [nStart, nStop, commentText]
    · exact ih _ c hc m hm ho
  | decl r ih =>
    intro p c hc m hm ho
    rcases List.mem_cons.1 hc with rfl | hc
    · rw [leaf_sub hm rfl]; simp [nStart, nStop, declText]
    · exact ih _ c hc m hm ho
  | void n as r ih =>
    intro p c hc m hm ho
    rcases List.mem_cons.1 hc with rfl | hc
    · rw [leaf_sub hm rfl]; simp [nStart, nStop, startTag]
    · exact ih _ c hc m hm ho
  | style as s r ih =>
    intro p c hc m hm ho
    rcases List.mem_cons.1 hc with rfl | hc
    · cases hm with
      | here => simp [nStart, nStop, startTag]; omega
      | step hk hm =>
        simp only [nKids, List.mem_singleton] at hk
        subst hk
        rw [leaf_sub hm rfl] at ho
        exact absurd rfl ho
    · exact ih _ c hc m hm ho
  | elem n as k r ihk ihr =>
    intro p c hc m hm ho
    rcases List.mem_cons.1 hc with rfl | hc
    · cases hm with
      | here => simp [nStart, nStop, startTag]; omega
      | step hk hm => exact ihk _ _ hk m hm ho
    · exact ihr _ c hc m hm ho

/-- Siblings that overlap are the same. -/
theorem siblings {l : List Node} {a b : Nat} (h : NestedSeq a l b) {c d : Node} (hc : c ∈ l) (hd : d ∈ l) {q : Nat}
    (h1 : nStart c ≤ q) (h2 : q < nStop c) (h3 : nStart d ≤ q) (h4 : q < nStop d) : c = d := by
  obtain ⟨pre, post, rfl⟩ := List.append_of_mem hc
  rcases List.mem_append.1 hd with hd | hd
  · have := seq_order c post pre a h d hd
    omega
  · rcases List.mem_cons.1 hd with hd | hd
    · exact hd.symm
    · obtain ⟨u, v, rfl⟩ := List.append_of_mem hd
      have := seq_order d v (pre ++ c :: u) a (by simpa using h) c (by simp)
      omega

theorem same_start {x m : Node} (hm : Sub x m) : ∀ {n : Node}, Nested x → Sub x n → nStart m = nStart n → nStart m < nStop m →
    nStart n < nStop n → m = n := by
  induction hm with
  | here =>
    intro n hx hn he h1 h2
    cases hn with
    | here => rfl
    | step hc hn =>
      obtain ⟨i, j, w1, w2, w3⟩ := nested_strict hx (List.ne_nil_of_mem hc)
      obtain ⟨b1, b2, b3⟩ := seq_bounds _ _ w3 _ hc
      have := (weak_sub (nested_weak b3) hn).1
      omega
  | @step x c m hc hs ih =>
    intro n hx hn he h1 h2
    obtain ⟨i, j, w1, w2, w3⟩ := nested_strict hx (List.ne_nil_of_mem hc)
    obtain ⟨b1, b2, b3⟩ := seq_bounds _ _ w3 _ hc
    obtain ⟨g1, g2, _⟩ := weak_sub (nested_weak b3) hs
    cases hn with
    | here => omega
    | @step _ d _ hd hn =>
      obtain ⟨b1', b2', b3'⟩ := seq_bounds _ _ w3 _ hd
      obtain ⟨g1', g2', _⟩ := weak_sub (nested_weak b3') hn
      have := siblings w3 hc hd (q := nStart m) (by omega) (by omega) (by omega) (by omega)
      subst this
      exact ih b3 hn he h1 h2

/-- No two sections start at the same place. -/
theorem sections_unique {isWord : Char → Bool} (hw : WordOk isWord) {text : Str} {doc : Node} {msgs : List (Nat × Str)}
    (h : parse isWord text = some (doc, msgs)) {a b : Node} (ha : In doc a) (hb : In doc b) (hsa : Section a) (hsb : Section b)
    (he : nStart a = nStart b) : a = b := by
  obtain ⟨f, h1, h2, h3, h4, _⟩ := (c12_parse_exact hw text doc msgs).1 h
  have hseq := nested_nodesOf f 0
  have ha' := in_sub ha
  have hb' := in_sub hb
  rw [h3] at ha' hb'
  cases ha' with
  | here => exact absurd rfl (section_name hsa).2
  | @step _ c _ hc hsc =>
    cases hb' with
    | here => exact absurd rfl (section_name hsb).2
    | @step _ d _ hd hsd =>
      have wa := wide_at f 0 c hc a hsc (section_name hsa).1
      have wb := wide_at f 0 d hd b hsd (section_name hsb).1
      obtain ⟨_, _, nc⟩ := seq_bounds _ _ hseq c hc
      obtain ⟨_, _, nd⟩ := seq_bounds _ _ hseq d hd
      obtain ⟨g1, g2, _⟩ := weak_sub (nested_weak nc) hsc
      obtain ⟨g1', g2', _⟩ := weak_sub (nested_weak nd) hsd
      have := siblings hseq hc hd (q := nStart a) (by omega) (by omega) (by omega) (by omega)
      subst this
      exact same_start hsc nc hsd he wa wb

end Verif.StepRefs
