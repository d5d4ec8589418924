import Verif.Front.Lemmas
/-! # The parser accepts the grammar, with its values -/
namespace Verif.Front

variable {word space : Char → Bool}

/-! ## Soundness -/

theorem entryVal_value (coll : List Line → Option Val)
    (hcoll : ∀ ls v, coll ls = some v → ∃ n, Coll word space n ls v)
    (n : Nat) (rest : List Char) (body : List Line) (v : Val) (hb : Body n body)
    (h : entryVal space coll rest body = some v) : Value word space n rest body v := by
  cases body with
  | nil => exact inlineVal_value word space n rest v h
  | cons l ls =>
    simp only [entryVal] at h
    by_cases hr : rest = [' ', '|'] ∨ rest = [' ', '>']
    · rw [if_pos hr] at h
      injection h with h; subst h
      rw [joinLines_eq]
      rcases hr with rfl | rfl
      · exact .block (.inl rfl) hb (by simp)
      · exact .block (.inr rfl) hb (by simp)
    · rw [if_neg hr] at h
      by_cases hs : rest.all space = true
      · rw [if_pos hs] at h
        obtain ⟨m, hm⟩ := hcoll _ _ h
        exact .coll (fun c hc => List.all_eq_true.1 hs c hc) hb hm
      · rw [if_neg hs] at h; cases h

theorem mapItems_entries (hc : word ':' = false) (coll : List Line → Option Val)
    (hcoll : ∀ ls v, coll ls = some v → ∃ n, Coll word space n ls v)
    (n : Nat) {ls : List Line} {gs : List (Line × List Line)} (hG : G n ls gs) :
    ∀ seen kvs, mapItems word space coll seen gs = some kvs →
      Entries word space n ls kvs ∧ (kvs.map (·.1)).Nodup ∧ ∀ k ∈ kvs.map (·.1), k ∉ seen := by
  induction hG with
  | nil => intro seen kvs h; injection h with h; subst h; exact ⟨.nil, by simp, by simp⟩
  | @cons l body bs ls gs hi hr hbody hbs _ ih =>
    intro seen kvs h
    simp only [mapItems] at h
    cases hk : splitKey word l.rest with
    | none => simp only [hk] at h; cases h
    | some p =>
      obtain ⟨key, rest⟩ := p
      simp only [hk] at h
      by_cases hs : key ∈ seen
      · rw [if_pos hs] at h; cases h
      · rw [if_neg hs] at h
        cases he : entryVal space coll rest body with
        | none => simp only [he] at h; cases h
        | some v =>
          simp only [he] at h
          cases hm : mapItems word space coll (key :: seen) gs with
          | none => simp only [hm] at h; cases h
          | some kvs' =>
            simp only [hm] at h
            injection h with h; subst h
            obtain ⟨h1, h2, h3⟩ := (splitKey_iff word hc _ _ _).1 hk
            obtain ⟨e1, e2, e3⟩ := ih _ _ hm
            have : l = ⟨n, key ++ ':' :: rest⟩ := by cases l; simp_all
            subst this
            refine ⟨Entries.cons (bs := bs) h1 h2 (entryVal_value coll hcoll n rest body v hbody he) hbs e1, ?_, ?_⟩
            · simp only [List.map_cons, List.nodup_cons]
              exact ⟨fun hm => e3 _ hm (by simp), e2⟩
            · intro k hk
              simp only [List.map_cons, List.mem_cons] at hk
              rcases hk with rfl | hk
              · exact hs
              · exact fun hks => e3 k hk (by simp [hks])

theorem items_ne {n : Nat} {ls : List Line} {vs : List (List Char)} (h : Items n ls vs) (hl : ls ≠ []) : vs ≠ [] := by
  cases h with
  | nil => exact absurd rfl hl
  | cons _ _ _ _ => simp

theorem parseColl_sound (hc : word ':' = false) : ∀ (k : Nat) (ls : List Line) (v : Val),
    parseColl word space k ls = some v → ∃ n, Coll word space n ls v := by
  intro k
  induction k with
  | zero => intro ls v h; simp [parseColl] at h
  | succ k ih =>
    intro ls v h
    simp only [parseColl] at h
    cases ls with
    | nil => cases h
    | cons l ls =>
      simp only at h
      cases hr : l.rest with
      | nil => simp only [hr] at h; cases h
      | cons c cs =>
        simp only [hr] at h
        cases hg : groups l.indent (l :: ls) with
        | none => simp only [hg] at h; cases h
        | some r =>
          obtain ⟨p, gs⟩ := r
          simp only [hg] at h
          obtain ⟨ls', he, hd, hG⟩ := groups_some _ _ _ _ hg
          have hp : p = [] := by
            cases p with
            | nil => rfl
            | cons x xs =>
              injection he with h1 h2; subst h1
              rcases hd l (by simp) with h | h
              · rw [hr] at h; cases h
              · omega
          subst hp
          rw [List.nil_append] at he; subst he
          by_cases hdash : c = '-'
          · rw [if_pos hdash] at h
            cases hs : seqItems gs with
            | none => rw [hs] at h; cases h
            | some vs =>
              rw [hs] at h; injection h with h; subst h
              refine ⟨l.indent, .seq (items_of _ hG _ hs) ?_⟩
              exact items_ne (items_of _ hG _ hs) (by simp)
          · rw [if_neg hdash] at h
            by_cases hcs : hasColonSpace (c :: cs) = true
            · rw [if_pos hcs] at h
              cases hm : mapItems word space (parseColl word space k) [] gs with
              | none => rw [hm] at h; cases h
              | some kvs =>
                rw [hm] at h; injection h with h; subst h
                obtain ⟨e1, e2, _⟩ := mapItems_entries hc _ (fun ls v h => ih ls v h) _ hG _ _ hm
                refine ⟨l.indent, .map e1 e2 ?_ ?_⟩
                · rw [hr]; exact (hasColonSpace_iff _).1 hcs
                · rw [hr]; simpa using hdash
            · rw [if_neg hcs] at h; cases h

/-! ## Completeness -/

theorem G_head {n : Nat} {l : Line} {ls : List Line} {gs : List (Line × List Line)} (h : G n (l :: ls) gs) :
    l.indent = n ∧ l.rest ≠ [] := by
  cases h with
  | cons hi hr _ _ _ => exact ⟨hi, hr⟩

theorem parseColl_complete (hc : word ':' = false) (hb : space '|' = false) (hg : space '>' = false)
    {n : Nat} {ls : List Line} {v : Val} (h : Coll word space n ls v) :
    ∀ k, ls.length ≤ k → parseColl word space k ls = some v := by
  refine Coll.rec (word := word) (space := space)
    (motive_1 := fun _ ls v _ => ∀ k, ls.length ≤ k → parseColl word space k ls = some v)
    (motive_2 := fun n ls kvs _ => ∀ k, ls.length ≤ k + 1 → ∃ gs, G n ls gs ∧ ∀ seen,
      (kvs.map (·.1)).Nodup → (∀ x ∈ kvs.map (·.1), x ∉ seen) →
        mapItems word space (parseColl word space k) seen gs = some kvs)
    (motive_3 := fun n rest body v _ => Body n body ∧ ∀ k, body.length ≤ k →
        entryVal space (parseColl word space k) rest body = some v)
    ?_ ?_ ?_ ?_ ?_ ?_ ?_ ?_ ?_ h
  · intro n ls vs hi hne k hk
    cases hi with
    | nil => exact absurd rfl hne
    | @cons v bs ls vs hv hh hbs hi =>
      obtain ⟨gs, hG, hs⟩ := of_items n (Items.cons hv hh hbs hi)
      cases k with
      | zero => simp at hk
      | succ k =>
        simp only [parseColl, groups_of n hG, if_pos, hs]
        rfl
  · intro n l ls kvs he hnd hcs hdash ih k hk
    cases k with
    | zero => simp at hk
    | succ k =>
      obtain ⟨gs, hG, hm⟩ := ih k hk
      obtain ⟨h1, h2⟩ := G_head hG
      have hm := hm [] hnd (by simp)
      cases hr : l.rest with
      | nil => exact absurd hr h2
      | cons c cs =>
        rw [hr] at hcs hdash
        have hdash : ¬ c = '-' := by simpa using hdash
        have hcs := (hasColonSpace_iff _).2 hcs
        have hG' := groups_of n hG
        rw [← h1] at hG'
        simp only [parseColl, hr, hG', if_neg hdash, hcs, if_true, hm]
        rfl
  · intro n k _
    exact ⟨[], .nil, fun _ _ _ => rfl⟩
  · intro n key rest body bs ls v kvs hk hw hv hbs he ihv ihe k hlen
    simp only [List.length_cons, List.length_append] at hlen
    obtain ⟨hbody, hev⟩ := ihv
    obtain ⟨gs, hG, hm⟩ := ihe k (by omega)
    refine ⟨(⟨n, key ++ ':' :: rest⟩, body) :: gs, G.cons (l := ⟨n, key ++ ':' :: rest⟩) rfl (by simp) hbody hbs hG, ?_⟩
    intro seen hnd hdis
    simp only [List.map_cons, List.nodup_cons] at hnd
    have hsk : splitKey word (key ++ ':' :: rest) = some (key, rest) := (splitKey_iff word hc _ _ _).2 ⟨hk, hw, rfl⟩
    have hm := hm (key :: seen) hnd.2 (by
      intro x hx hmem
      rcases List.mem_cons.1 hmem with rfl | hmem
      · exact hnd.1 hx
      · exact hdis x (by simp only [List.map_cons, List.mem_cons]; exact .inr hx) hmem)
    have hks : key ∉ seen := hdis key (by simp)
    simp only [mapItems, hsk, if_neg hks, hev k (by omega), hm]
  · intro n s hs
    exact ⟨body_nil n, fun k _ => inlineVal_scalar s hs⟩
  · intro n j
    refine ⟨body_nil n, fun k _ => ?_⟩
    have : (List.replicate j ' ').all (· = ' ') = true := by
      apply List.all_eq_true.2
      intro c hc
      simp [List.eq_of_mem_replicate hc]
    rw [entryVal.eq_def]
    simp only [inlineVal_flow, this, if_true]
  · intro n t as hne hf
    refine ⟨body_nil n, fun k _ => ?_⟩
    have : ¬ t.all (· = ' ') = true := by
      intro ha
      obtain ⟨c, hc, hcc⟩ := hne
      exact hcc (by simpa using List.all_eq_true.1 ha c hc)
    rw [entryVal.eq_def]
    simp only [inlineVal_flow, if_neg this, flow_splitComma hf]
  · intro n c body hcc hbody hne
    refine ⟨hbody, fun k _ => ?_⟩
    cases body with
    | nil => exact absurd rfl hne
    | cons l ls =>
      rw [← joinLines_eq]
      have : [' ', c] = [' ', '|'] ∨ [' ', c] = [' ', '>'] := by
        rcases hcc with rfl | rfl
        · exact .inl rfl
        · exact .inr rfl
      simp only [entryVal, if_pos this]
  · intro n m rest body v hsp hbody _ ih
    refine ⟨hbody, fun k hk => ?_⟩
    have h1 := ih k hk
    cases body with
    | nil =>
      cases k with
      | zero => simp [parseColl] at h1
      | succ k => simp [parseColl] at h1
    | cons l ls =>
      have hn : ¬ (rest = [' ', '|'] ∨ rest = [' ', '>']) := by
        rintro (rfl | rfl)
        · have := hsp '|' (by simp); rw [hb] at this; cases this
        · have := hsp '>' (by simp); rw [hg] at this; cases this
      simp only [entryVal, if_neg hn, List.all_eq_true.2 hsp, if_true, h1]

/-! ## Lines of a text -/

theorem splitNl_no (a : List Char) (h : '\n' ∉ a) : splitNl a = [a] := by
  induction a with
  | nil => rfl
  | cons c cs ih =>
    simp only [List.mem_cons, not_or] at h
    simp [splitNl, ih h.2, Ne.symm h.1]

theorem splitNl_nl (a s : List Char) (h : '\n' ∉ a) : splitNl (a ++ '\n' :: s) = a :: splitNl s := by
  induction a with
  | nil => simp [splitNl]
  | cons c cs ih =>
    simp only [List.mem_cons, not_or] at h
    simp [splitNl, ih h.2, Ne.symm h.1]

theorem splitNl_join (ls : List (List Char)) (hne : ls ≠ []) (h : ∀ l ∈ ls, '\n' ∉ l) :
    splitNl (['\n'].intercalate ls) = ls := by
  induction ls with
  | nil => exact absurd rfl hne
  | cons l ls ih =>
    cases ls with
    | nil => simpa [List.intercalate] using splitNl_no l (h l (by simp))
    | cons m ms =>
      have ih := ih (by simp) (fun x hx => h x (by simp [hx]))
      have : ['\n'].intercalate (l :: m :: ms) = l ++ '\n' :: ['\n'].intercalate (m :: ms) := by
        simp [List.intercalate]
      rw [this, splitNl_nl _ _ (h l (by simp)), ih]

theorem toLine_text (l : Line) (h : l.rest.head? ≠ some ' ') :
    toLine (List.replicate l.indent ' ' ++ l.rest) = l := by
  obtain ⟨n, r⟩ := l
  simp only at h ⊢
  have h1 : ∀ n, (List.replicate n ' ' ++ r).takeWhile (· = ' ') = List.replicate n ' ' ∧
      (List.replicate n ' ' ++ r).dropWhile (· = ' ') = r := by
    intro n
    induction n with
    | zero =>
      cases r with
      | nil => simp
      | cons c cs =>
        have : ¬ c = ' ' := by simpa using h
        simp [this]
    | succ n ih => simp [List.replicate_succ, ih.1, ih.2]
  simp [toLine, (h1 n).1, (h1 n).2]

theorem splitNl_ne (s : List Char) : splitNl s ≠ [] := by
  cases s with
  | nil => simp [splitNl]
  | cons c cs =>
    simp only [splitNl]
    split
    · simp
    · split <;> simp

theorem splitNl_spec (s : List Char) :
    ['\n'].intercalate (splitNl s) = s ∧ ∀ l ∈ splitNl s, '\n' ∉ l := by
  induction s with
  | nil => exact ⟨rfl, by simp [splitNl]⟩
  | cons c cs ih =>
    obtain ⟨h1, h2⟩ := ih
    simp only [splitNl]
    by_cases hc : c = '\n'
    · rw [if_pos hc]
      refine ⟨?_, ?_⟩
      · cases hs : splitNl cs with
        | nil => exact absurd hs (splitNl_ne cs)
        | cons l ls => rw [hs] at h1; subst hc; rw [← h1]; simp [List.intercalate]
      · intro l hl
        rcases List.mem_cons.1 hl with rfl | hl
        · simp
        · exact h2 l hl
    · rw [if_neg hc]
      cases hs : splitNl cs with
      | nil => exact absurd hs (splitNl_ne cs)
      | cons l ls =>
        rw [hs] at h1 h2
        refine ⟨?_, ?_⟩
        · rw [← h1]
          cases ls <;> simp [List.intercalate]
        · intro x hx
          rcases List.mem_cons.1 hx with rfl | hx
          · simp only [List.mem_cons, not_or]
            exact ⟨Ne.symm hc, h2 l (by simp)⟩
          · exact h2 x (by simp [hx])

theorem text_toLine (s : List Char) :
    List.replicate (toLine s).indent ' ' ++ (toLine s).rest = s ∧ (toLine s).rest.head? ≠ some ' ' := by
  induction s with
  | nil => simp [toLine]
  | cons c cs ih =>
    by_cases hc : c = ' '
    · subst hc
      simpa [toLine, List.replicate_succ] using ih
    · simp [toLine, hc]

end Verif.Front
