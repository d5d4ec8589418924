import Verif.Sections.NumLemmas
/-!
# Lemmas about paths, and about the order of sections
-/
namespace Verif.Sections

theorem setNum_info {c level s} (h : Outline c level s) (hl : level ≠ 0) {num r} (hr : setNum s num = some r) :
    r.id = c.id ∧ r.title = (flow c).head?.map HNode.text := by
  cases h with
  | @mk _ _ heading blocks numless subs h1 h2 h3 h4 h5 h6 =>
    simp only [hl, if_false] at h4
    obtain ⟨h', rfl, _⟩ := h4
    rw [setNum.eq_def] at hr
    dsimp only at hr
    cases hid : c.id with
    | none => simp [hid] at hr
    | some i =>
      simp only [hid] at hr
      cases hs : setNums subs num 0 with
      | none => simp [hs] at hr
      | some rs =>
        simp only [hs, Option.some.injEq] at hr
        subst hr
        rw [← h1]
        simp [NSec.id, NSec.title]

/-- Sections below a numbered section. -/
theorem below_info (js : List Nat) : ∀ {c level s num r t}, Outline c level s → level ≠ 0 → setNum s num = some r → sectionAt r js = some t →
    ∃ d lv u nm, docAt c js = some d ∧ Outline d lv u ∧ lv = level + js.length ∧ setNum u nm = some t := by
  induction js with
  | nil =>
    intro c level s num r t ho hl hr ha
    simp only [sectionAt, Option.some.injEq] at ha
    subst ha
    exact ⟨c, level, s, num, rfl, ho, by simp, hr⟩
  | cons j js ih =>
    intro c level s num r t ho hl hr ha
    rw [sectionAt] at ha
    cases hc : r.subs[j]? with
    | none => simp [hc] at ha
    | some r' =>
      simp only [hc] at ha
      obtain ⟨s', hs', hn⟩ := (setNum_some hr).2.2.2 j r' hc
      obtain ⟨c', hc', ho'⟩ := ho.get hs'
      obtain ⟨d, lv, u, nm, h1, h2, h3, h4⟩ := ih ho' (by omega) hn ha
      refine ⟨d, lv, u, nm, ?_, h2, by simp only [List.length_cons]; omega, h4⟩
      rw [docAt, hc']
      exact h1

theorem below_exists (js : List Nat) : ∀ {c level s num r}, Outline c level s → setNum s num = some r →
    ((sectionAt r js).isSome = (docAt c js).isSome) := by
  induction js with
  | nil => intro c level s num r _ _; rfl
  | cons j js ih =>
    intro c level s num r ho hr
    rw [sectionAt, docAt]
    have hlen : r.subs.length = (sectionsIn c).length := by rw [(setNum_some hr).2.2.1, ho.len]
    cases hc : r.subs[j]? with
    | none =>
      have : (sectionsIn c)[j]? = none := by rw [List.getElem?_eq_none_iff] at hc ⊢; omega
      simp [this]
    | some r' =>
      obtain ⟨s', hs', hn⟩ := (setNum_some hr).2.2.2 j r' hc
      obtain ⟨c', hc', ho'⟩ := ho.get hs'
      simp only [hc']
      exact ih ho' hn

theorem makeSections_some {n doc r} (h : makeSections n doc = some r) : Outline doc 0 r.sec ∧ setRoot r.sec = some r := by
  unfold makeSections at h
  cases ht : makeTree n doc 0 with
  | none => simp [ht] at h
  | some root =>
    simp only [ht] at h
    have ho := makeTree_sound n _ _ _ ht
    have := ((setRoot_iff ho r).1 h).1
    have hs : r.sec = root := by rw [this]; rfl
    rw [hs]
    exact ⟨ho, h⟩

/-- A section of the document: where it comes from. -/
theorem at_info {n doc r} (h : makeSections n doc = some r) {i : Nat} {js : List Nat} {t} (ha : sectionAt r (i :: js) = some t) :
    ∃ c k s r', (sectionsIn doc)[i]? = some c ∧ c.kind = .sec k ∧ Outline c 1 s ∧ r.subs[i]? = some r' ∧ setNum s (topLabel doc i k) = some r' ∧ sectionAt r' js = some t ∧
      (k = .annex → countKind doc .annex i < 26) := by
  obtain ⟨ho, hr⟩ := makeSections_some h
  obtain ⟨he, hl, hi⟩ := (setRoot_iff ho r).1 hr
  rw [sectionAt] at ha
  cases hc : r.subs[i]? with
  | none => simp [hc] at ha
  | some r' =>
    simp only [hc] at ha
    have hi' := (List.getElem?_eq_some_iff.1 hc).1
    have hd : (sectionsIn doc)[i]? = some ((sectionsIn doc)[i]'(by omega)) := List.getElem?_eq_getElem _
    obtain ⟨s, hs, hos⟩ := ho.get' hd
    obtain ⟨k, hk, ha26, hn⟩ := hi i s _ r' hd hs hc
    exact ⟨_, k, s, r', hd, hk, hos, rfl, hn, ha, ha26⟩

/-! ### Labels -/

theorem words_inj {u v : List Char} (hu : '.' ∉ u) (hv : '.' ∉ v) : ∀ {js ks : List Nat},
    u ++ js.flatMap (fun j => '.' :: Nat.toDigits 10 (j + 1)) = v ++ ks.flatMap (fun j => '.' :: Nat.toDigits 10 (j + 1)) → u = v ∧ js = ks := by
  intro js
  induction js generalizing u v with
  | nil =>
    intro ks h
    cases ks with
    | nil => simp at h; exact ⟨h, rfl⟩
    | cons k ks =>
      exfalso
      apply hu
      simp only [List.flatMap_nil, List.append_nil] at h
      rw [h]; simp
  | cons j js ih =>
    intro ks h
    cases ks with
    | nil =>
      exfalso
      apply hv
      simp only [List.flatMap_nil, List.append_nil] at h
      rw [← h]; simp
    | cons k ks =>
      simp only [List.flatMap_cons, List.cons_append] at h
      have key : ∀ (u v r r' : List Char), '.' ∉ u → '.' ∉ v → u ++ '.' :: r = v ++ '.' :: r' → u = v ∧ r = r' := by
        intro u
        induction u with
        | nil =>
          intro v r r' _ hv h
          cases v with
          | nil => simpa using h
          | cons a v => simp at h; exact absurd (by simp [← h.1]) hv
        | cons a u ihu =>
          intro v r r' hu hv h
          cases v with
          | nil => simp at h; exact absurd (by simp [h.1]) hu
          | cons b v =>
            simp only [List.cons_append, List.cons.injEq] at h
            simp only [List.mem_cons, not_or] at hu hv
            obtain ⟨e1, e2⟩ := ihu v r r' hu.2 hv.2 h.2
            exact ⟨by rw [h.1, e1], e2⟩
      obtain ⟨e1, e2⟩ := key _ _ _ _ hu hv h
      obtain ⟨e3, e4⟩ := ih (str_nodot _) (str_nodot _) e2
      have := str_inj e3
      exact ⟨e1, by rw [e4, show j = k by omega]⟩

theorem letter_facts : ∀ a : Fin 26, (Char.ofNat ('A'.toNat + a.1)) ≠ '.' ∧ (Char.ofNat ('A'.toNat + a.1)).isDigit = false := by decide

theorem letter_inj : ∀ a b : Fin 26, Char.ofNat ('A'.toNat + a.1) = Char.ofNat ('A'.toNat + b.1) → a = b := by decide

theorem topLabel_nodot (doc : HNode) (i : Nat) (k : SecKind) (h : k = .annex → countKind doc .annex i < 26) : '.' ∉ topLabel doc i k := by
  cases k with
  | intro => simp [topLabel]
  | clause => exact str_nodot _
  | annex =>
    have := (letter_facts ⟨_, h rfl⟩).1
    simp only [topLabel, List.mem_singleton]
    exact fun he => this he.symm

theorem topLabel_inj (doc : HNode) {i j : Nat} {k l : SecKind} {c d : HNode} (h1 : OneIntro doc)
    (hi : (sectionsIn doc)[i]? = some c) (hj : (sectionsIn doc)[j]? = some d) (hk : c.kind = .sec k) (hl : d.kind = .sec l)
    (ai : k = .annex → countKind doc .annex i < 26) (aj : l = .annex → countKind doc .annex j < 26)
    (he : topLabel doc i k = topLabel doc j l) : i = j := by
  have same : ∀ k, c.kind = .sec k → d.kind = .sec k → countKind doc k i = countKind doc k j → i = j := by
    intro k hk hl hc
    rcases Nat.lt_trichotomy i j with h | h | h
    · have := countKind_lt doc k h hi hk; omega
    · exact h
    · have := countKind_lt doc k h hj hl; omega
  have zero : ∀ n, ['0'] ≠ Nat.toDigits 10 (n + 1) := by
    intro n h
    have h0 : Nat.toDigits 10 0 = ['0'] := by decide
    rw [← h0] at h
    have := str_inj h
    omega
  have dig : ∀ n a, a < 26 → Nat.toDigits 10 n ≠ [Char.ofNat ('A'.toNat + a)] := by
    intro n a ha h
    have := Nat.isDigit_of_mem_toDigits (b := 10) (n := n) (c := Char.ofNat ('A'.toNat + a)) (by omega) (by omega) (by rw [h]; simp)
    rw [(letter_facts ⟨a, ha⟩).2] at this
    cases this
  have z : Nat.toDigits 10 0 = ['0'] := by decide
  cases k <;> cases l <;> simp only [topLabel] at he
  · -- two introductions
    rcases Nat.lt_trichotomy i j with h | h | h
    · have e1 := countKind_lt doc .intro h hi hk
      have e2 := countKind_lt doc .intro (List.getElem?_eq_some_iff.1 hj).1 hj hl
      unfold OneIntro at h1; omega
    · exact h
    · have e1 := countKind_lt doc .intro h hj hl
      have e2 := countKind_lt doc .intro (List.getElem?_eq_some_iff.1 hi).1 hi hk
      unfold OneIntro at h1; omega
  · exact absurd he (zero _)
  · rw [← z] at he; exact absurd he (dig _ _ (aj rfl))
  · exact absurd he.symm (zero _)
  · have := str_inj he
    exact same _ hk hl (by omega)
  · exact absurd he (dig _ _ (aj rfl))
  · rw [← z] at he; exact absurd he.symm (dig _ _ (ai rfl))
  · exact absurd he.symm (dig _ _ (ai rfl))
  · simp only [List.cons.injEq, and_true] at he
    have := letter_inj ⟨_, ai rfl⟩ ⟨_, aj rfl⟩ he
    exact same _ hk hl (by simpa using this)

/-! ### Preorder -/

mutual
def pathsS : NSec → List (List Nat)
  | .mk _ _ _ _ subs => [] :: pathsL subs 0
def pathsL : List NSec → Nat → List (List Nat)
  | [], _ => []
  | s :: ss, k => (pathsS s).map (k :: ·) ++ pathsL ss (k + 1)
end

def pathAt (ss : List NSec) (p : List Nat) : Option NSec :=
  match p with
  | [] => none
  | i :: is => match ss[i]? with
    | none => none
    | some c => sectionAt c is

/-- All sections in the tree are sections of the document. -/
inductive Proper : NSec → Prop
  | mk {s n i t subs} : IsSection s.node → (∀ c ∈ subs, Proper c) → Proper (.mk s n i t subs)

mutual
theorem pathsS_map : ∀ (s : NSec), Proper s → (pathsS s).map (sectionAt s) = (eachSection s).map some
  | .mk s n i t subs, h => by
    cases h with
    | mk hs hc =>
      obtain ⟨k, hk⟩ := hs
      have := pathsL_map subs hc [] rfl
      simp only [pathsS, eachSection, hk, List.map_cons, sectionAt, List.map_append, List.map_nil, List.cons_append, List.nil_append, List.cons.injEq, true_and]
      rw [← this]
      apply List.map_congr_left
      intro p hp
      have hne := pathsL_ne subs 0 p hp
      cases p with
      | nil => exact absurd rfl hne
      | cons a p => rfl
theorem pathsL_map : ∀ (ss : List NSec), (∀ c ∈ ss, Proper c) → ∀ (pre : List NSec), pre.length = pre.length →
    (pathsL ss pre.length).map (pathAt (pre ++ ss)) = (eachSections ss).map some
  | [], _, _, _ => by simp [pathsL, eachSections]
  | s :: ss, h, pre, _ => by
    have h1 := pathsS_map s (h s (by simp))
    have h2 := pathsL_map ss (fun c hc => h c (List.mem_cons_of_mem _ hc)) (pre ++ [s]) rfl
    simp only [List.length_append, List.length_cons, List.length_nil, List.append_assoc, List.cons_append, List.nil_append, Nat.zero_add] at h2
    simp only [pathsL, eachSections, List.map_append, List.map_map]
    rw [h2, ← h1]
    congr 1
    apply List.map_congr_left
    intro p _
    simp [pathAt]
theorem pathsL_ne : ∀ (ss : List NSec) (k : Nat) (p : List Nat), p ∈ pathsL ss k → p ≠ []
  | [], _, _, h => by simp [pathsL] at h
  | s :: ss, k, p, h => by
    simp only [pathsL, List.mem_append, List.mem_map] at h
    rcases h with ⟨a, _, rfl⟩ | h
    · simp
    · exact pathsL_ne ss (k + 1) p h
end

mutual
theorem mem_pathsS : ∀ (s : NSec) (p : List Nat), p ∈ pathsS s ↔ (sectionAt s p).isSome = true
  | .mk s n i t subs, p => by
    have := mem_pathsL subs 0 p
    simp only [pathsS, List.mem_cons]
    cases p with
    | nil => simp [sectionAt]
    | cons a p =>
      rw [this]
      simp only [sectionAt, NSec.subs, Nat.sub_zero]
      constructor
      · rintro (h | ⟨b, q, h, _, h'⟩)
        · cases h
        · cases h; exact h'
      · intro h; exact .inr ⟨a, p, rfl, by omega, h⟩
theorem mem_pathsL : ∀ (ss : List NSec) (k : Nat) (p : List Nat), p ∈ pathsL ss k ↔
    ∃ i q, p = i :: q ∧ k ≤ i ∧ (match ss[i - k]? with
      | none => (none : Option NSec)
      | some c => sectionAt c q).isSome = true
  | [], k, p => by simp [pathsL]
  | s :: ss, k, p => by
    simp only [pathsL, List.mem_append, List.mem_map]
    rw [mem_pathsL ss (k + 1) p]
    constructor
    · rintro (⟨q, hq, rfl⟩ | ⟨i, q, rfl, hk, h⟩)
      · exact ⟨k, q, rfl, Nat.le_refl _, by simpa using (mem_pathsS s q).1 hq⟩
      · refine ⟨i, q, rfl, by omega, ?_⟩
        rw [show i - k = (i - (k + 1)) + 1 by omega]
        simpa using h
    · rintro ⟨i, q, rfl, hk, h⟩
      by_cases hik : i = k
      · subst hik
        simp only [Nat.sub_self, List.getElem?_cons_zero] at h
        exact .inl ⟨q, (mem_pathsS s q).2 h, rfl⟩
      · refine .inr ⟨i, q, rfl, by omega, ?_⟩
        rw [show i - k = (i - (k + 1)) + 1 by omega] at h
        simpa using h
end

mutual
theorem sorted_pathsS : ∀ (s : NSec), (pathsS s).Pairwise (· < ·)
  | .mk s n i t subs => by
    simp only [pathsS, List.pairwise_cons]
    refine ⟨?_, sorted_pathsL subs 0⟩
    intro p hp
    have := pathsL_ne subs 0 p hp
    cases p with
    | nil => exact absurd rfl this
    | cons a p => exact List.nil_lt_cons a p
theorem sorted_pathsL : ∀ (ss : List NSec) (k : Nat), (pathsL ss k).Pairwise (· < ·)
  | [], _ => by simp [pathsL]
  | s :: ss, k => by
    simp only [pathsL, List.pairwise_append]
    refine ⟨?_, sorted_pathsL ss (k + 1), ?_⟩
    · rw [List.pairwise_map]
      refine (sorted_pathsS s).imp ?_
      intro a b h
      rw [List.cons_lt_cons_iff]
      exact .inr ⟨rfl, h⟩
    · intro p hp q hq
      obtain ⟨i, q', rfl, hi, _⟩ := (mem_pathsL ss (k + 1) q).1 hq
      obtain ⟨p', _, rfl⟩ := List.mem_map.1 hp
      rw [List.cons_lt_cons_iff]
      exact .inl (by omega)
end

theorem setNum_proper {c level s} (h : Outline c level s) (hc : IsSection c) : ∀ {num r}, setNum s num = some r → Proper r := by
  induction h with
  | @mk n level heading blocks numless subs h1 h2 h3 h4 h5 h6 ih =>
    intro num r hr
    have ho : Outline n level (.mk n level heading blocks numless subs) := .mk h1 h2 h3 h4 h5 h6
    obtain ⟨hnum, hsec, hlen, hsub⟩ := setNum_some hr
    obtain ⟨s', n', i', t', subs'⟩ := r
    simp only [NSec.sec] at hsec
    subst hsec
    refine .mk hc ?_
    intro x hx
    obtain ⟨j, hj⟩ := List.getElem?_of_mem hx
    obtain ⟨s'', hs'', hn⟩ := hsub j x hj
    obtain ⟨c', hc', ho'⟩ := ho.get hs''
    refine ih j c' s'' hc' hs'' ?_ hn
    simpa using (List.mem_filter.1 (List.mem_of_getElem? hc')).2

end Verif.Sections
