import Verif.Sections.Lemmas
/-!
# Lemmas about section numbers
-/
namespace Verif.Sections

/-! ### When there is a tree -/

theorem outline_exists (n : Nat) : ∀ node level, depth node ≤ n →
    ((∃ s, Outline node level s) ↔ (level ≠ 0 → Headed node) ∧ ∀ c, Inside node c → Headed c) := by
  induction n with
  | zero =>
    intro node level hd
    obtain ⟨k, i, t, kids⟩ := node
    rw [depth] at hd; omega
  | succ n ih =>
    intro node level hd
    have hdc : ∀ c ∈ sectionsIn node, depth c ≤ n := fun c hc => by have := depth_lt hc; omega
    constructor
    · intro ⟨s, ho⟩
      cases ho with
      | @mk _ _ heading blocks numless subs h1 h2 h3 h4 h5 h6 =>
        have sub : ∀ c ∈ sectionsIn node, Headed c ∧ ∀ d, Inside c d → Headed d := by
          intro c hc
          obtain ⟨i, hi⟩ := List.getElem?_of_mem hc
          have hi' := (List.getElem?_eq_some_iff.1 hi).1
          have := (ih c (level + 1) (hdc c hc)).1 ⟨_, h6 i c (subs[i]'(by omega)) hi (List.getElem?_eq_getElem _)⟩
          exact ⟨this.1 (by simp), this.2⟩
        constructor
        · intro hl
          simp only [hl, if_false] at h4
          obtain ⟨h, rfl, hk⟩ := h4
          exact ⟨h, _, h1.symm, hk⟩
        · intro c hc
          cases hc with
          | here hc => exact (sub c hc).1
          | deeper hm hc => exact (sub _ hm).2 c hc
    · intro ⟨hh, hin⟩
      obtain ⟨ok, hflow, hsubs⟩ := fill_ok node
      obtain ⟨subs, hm, hlen, hget⟩ := mapM_some (l := sectionsIn node) (f := fun c => makeTree n c (level + 1)) (by
        intro c hc
        obtain ⟨s, hs⟩ := (ih c (level + 1) (hdc c hc)).2 ⟨fun _ => hin c (.here hc), fun d hd => hin d (.deeper hc hd)⟩
        exact ⟨s, makeTree_complete n c _ s hs (hdc c hc)⟩)
      have h6 : ∀ (i : Nat) c s, (sectionsIn node)[i]? = some c → subs[i]? = some s → Outline c (level + 1) s := by
        intro i c s hc hs
        obtain ⟨b, hb, he⟩ := hget i c hc
        rw [hs] at hb
        injection hb with hb
        subst hb
        exact makeTree_sound n _ _ _ he
      by_cases hl : level = 0
      · exact ⟨_, .mk (heading := none) (blocks := (fill node.kids).blocks) (numless := (fill node.kids).numless) (by simpa using hflow) ok.blocks ok.numless
          (by simp [hl]) hlen h6⟩
      · obtain ⟨h, r, hf, hk⟩ := hh hl
        have hb : ∃ r', (fill node.kids).blocks = h :: r' := by
          cases hbl : (fill node.kids).blocks with
          | nil =>
            rw [hbl] at hflow
            cases hn : (fill node.kids).numless with
            | nil => rw [hn, hf] at hflow; simp at hflow
            | cons p q =>
              rw [hn, hf] at hflow
              simp only [flat, List.flatMap_cons, List.nil_append, List.cons_append, List.cons.injEq] at hflow
              have := (ok.numless p (by simp [hn])).1
              rw [hflow.1, hk] at this
              cases this
          | cons a b =>
            rw [hbl, hf] at hflow
            simp only [List.cons_append, List.cons.injEq] at hflow
            exact ⟨b, by rw [hflow.1]⟩
        obtain ⟨r', hb⟩ := hb
        refine ⟨_, .mk (heading := some h) (blocks := r') (numless := (fill node.kids).numless) ?_ ?_ ok.numless ?_ hlen h6⟩
        · rw [hb] at hflow; simpa using hflow
        · intro b hb'; exact ok.blocks b (by rw [hb]; simp [hb'])
        · simp [hl, hk]

theorem Outline.node_eq {n level s} (h : Outline n level s) : s.node = n := by cases h; rfl
theorem Outline.len {n level s} (h : Outline n level s) : s.subs.length = (sectionsIn n).length := by cases h; assumption
theorem Outline.sub {n level s} (h : Outline n level s) : ∀ (i : Nat) c t, (sectionsIn n)[i]? = some c → s.subs[i]? = some t → Outline c (level + 1) t := by
  cases h; assumption

theorem Outline.get {n level s} (h : Outline n level s) {i : Nat} {t : Sec} (ht : s.subs[i]? = some t) :
    ∃ c, (sectionsIn n)[i]? = some c ∧ Outline c (level + 1) t := by
  have hi := (List.getElem?_eq_some_iff.1 ht).1
  have hl := h.len
  have hc : (sectionsIn n)[i]? = some ((sectionsIn n)[i]'(by omega)) := List.getElem?_eq_getElem _
  exact ⟨_, hc, h.sub i _ t hc ht⟩

theorem Outline.get' {n level s} (h : Outline n level s) {i : Nat} {c : HNode} (hc : (sectionsIn n)[i]? = some c) :
    ∃ t, s.subs[i]? = some t ∧ Outline c (level + 1) t := by
  have hi := (List.getElem?_eq_some_iff.1 hc).1
  have hl := h.len
  have ht : s.subs[i]? = some (s.subs[i]'(by omega)) := List.getElem?_eq_getElem _
  exact ⟨_, ht, h.sub i c _ hc ht⟩

/-! ### Numbers -/

theorem setNums_iff (ss : List Sec) : ∀ num k rs, setNums ss num k = some rs ↔
    rs.length = ss.length ∧ ∀ (i : Nat) s r, ss[i]? = some s → rs[i]? = some r → setNum s (num ++ '.' :: str (k + i + 1)) = some r := by
  induction ss with
  | nil => intro num k rs; simp [setNums, eq_comm]
  | cons s ss ih =>
    intro num k rs
    simp only [setNums]
    constructor
    · intro h
      cases h1 : setNum s (num ++ '.' :: str (k + 1)) with
      | none => simp [h1] at h
      | some r =>
        simp only [h1] at h
        cases h2 : setNums ss num (k + 1) with
        | none => simp [h2] at h
        | some rs' =>
          simp only [h2, Option.some.injEq] at h
          subst h
          obtain ⟨hl, hi⟩ := (ih num (k + 1) rs').1 h2
          refine ⟨by simp [hl], ?_⟩
          intro i s' r' hs hr
          cases i with
          | zero =>
            simp only [List.getElem?_cons_zero, Option.some.injEq] at hs hr
            subst hs hr
            simpa using h1
          | succ i =>
            simp only [List.getElem?_cons_succ] at hs hr
            have := hi i s' r' hs hr
            rwa [show k + 1 + i + 1 = k + (i + 1) + 1 by omega] at this
    · intro ⟨hl, hi⟩
      cases rs with
      | nil => simp at hl
      | cons r rs =>
        have h1 : setNum s (num ++ '.' :: str (k + 1)) = some r := by simpa using hi 0 s r rfl rfl
        have h2 : setNums ss num (k + 1) = some rs := by
          refine (ih num (k + 1) rs).2 ⟨by simpa using hl, ?_⟩
          intro i s' r' hs hr
          have := hi (i + 1) s' r' (by simpa using hs) (by simpa using hr)
          rwa [show k + (i + 1) + 1 = k + 1 + i + 1 by omega] at this
        simp [h1, h2]

theorem setNum_some {s num r} (h : setNum s num = some r) : r.num = some num ∧ r.sec = s ∧ r.subs.length = s.subs.length ∧
    ∀ (i : Nat) c, r.subs[i]? = some c → ∃ t, s.subs[i]? = some t ∧ setNum t (num ++ '.' :: str (i + 1)) = some c := by
  obtain ⟨node, level, hd, bs, ns, subs⟩ := s
  rw [setNum.eq_def] at h
  dsimp only at h
  cases h1 : node.id with
  | none => simp [h1] at h
  | some i =>
    cases h2 : hd with
    | none => simp [h1, h2] at h
    | some h' =>
      simp only [h1, h2] at h
      cases h3 : setNums subs num 0 with
      | none => simp [h3] at h
      | some rs =>
        simp only [h3, Option.some.injEq] at h
        subst h
        obtain ⟨hl, hi⟩ := (setNums_iff subs num 0 rs).1 h3
        refine ⟨rfl, by simp [NSec.sec], hl, ?_⟩
        intro i c hc
        have hi' := (List.getElem?_eq_some_iff.1 hc).1
        simp only [NSec.subs] at hi'
        have ht : subs[i]? = some (subs[i]'(by omega)) := List.getElem?_eq_getElem _
        refine ⟨_, ht, ?_⟩
        have := hi i _ c ht hc
        simpa using this

theorem setNum_path (js : List Nat) : ∀ s num r t, setNum s num = some r → sectionAt r js = some t →
    t.num = some (num ++ js.flatMap (fun j => '.' :: Nat.toDigits 10 (j + 1))) := by
  induction js with
  | nil =>
    intro s num r t h ha
    simp only [sectionAt, Option.some.injEq] at ha
    subst ha
    simpa using (setNum_some h).1
  | cons j js ih =>
    intro s num r t h ha
    rw [sectionAt] at ha
    cases hc : r.subs[j]? with
    | none => simp [hc] at ha
    | some c =>
      simp only [hc] at ha
      obtain ⟨s', _, hs'⟩ := (setNum_some h).2.2.2 j c hc
      rw [ih _ _ _ _ hs' ha]
      simp [str]

theorem upper_get (n : Nat) : upper[n]? = if n < 26 then some (Char.ofNat ('A'.toNat + n)) else none := by
  by_cases h : n < 26
  · simp only [h, if_true]
    revert h
    revert n
    have : ∀ n : Fin 26, upper[n.1]? = some (Char.ofNat ('A'.toNat + n.1)) := by decide
    intro n h
    exact this ⟨n, h⟩
  · simp only [h, if_false]
    apply List.getElem?_eq_none
    simp [upper]; omega

theorem str_inj {a b : Nat} (h : Nat.toDigits 10 a = Nat.toDigits 10 b) : a = b := by
  have := congrArg (fun l => Nat.ofDigitChars 10 l 0) h
  simpa [Nat.ofDigitChars_ten_toDigits] using this

theorem str_nodot (a : Nat) : '.' ∉ Nat.toDigits 10 a := by
  intro h
  have := Nat.isDigit_of_mem_toDigits (by omega) (by omega) h
  revert this; decide

def cnt (k : SecKind) (ss : List Sec) : Nat := ss.countP (fun s => s.node.kind = .sec k)

/-- The number that `setTops` gives to a section after `pre`. -/
def topOf (c a : Nat) (pre : List Sec) (k : SecKind) : List Char :=
  match k with
  | .intro => ['0']
  | .clause => str (c + cnt .clause pre + 1)
  | .annex => [Char.ofNat ('A'.toNat + (a + cnt .annex pre))]

theorem setTops_iff (ss : List Sec) : ∀ c a rs, setTops ss c a = some rs ↔
    rs.length = ss.length ∧ ∀ (i : Nat) s r, ss[i]? = some s → rs[i]? = some r →
      ∃ k, s.node.kind = .sec k ∧ (k = .annex → a + cnt .annex (ss.take i) < 26) ∧ setNum s (topOf c a (ss.take i) k) = some r := by
  induction ss with
  | nil => intro c a rs; simp [setTops, eq_comm]
  | cons s ss ih =>
    intro c a rs
    have step : ∀ (c' a' : Nat) (num : Num) (rs' : List NSec), (∀ k, s.node.kind = .sec k → c' = c + (if k = .clause then 1 else 0) ∧ a' = a + (if k = .annex then 1 else 0)) →
        (∃ k, s.node.kind = .sec k) → ∀ (i : Nat) t r, (s :: ss)[i + 1]? = some t → rs'[i]? = some r → 
        ((∃ k, t.node.kind = .sec k ∧ (k = .annex → a' + cnt .annex (ss.take i) < 26) ∧ setNum t (topOf c' a' (ss.take i) k) = some r) ↔
         (∃ k, t.node.kind = .sec k ∧ (k = .annex → a + cnt .annex ((s :: ss).take (i + 1)) < 26) ∧ setNum t (topOf c a ((s :: ss).take (i + 1)) k) = some r)) := by
      intro c' a' num rs' hca ⟨k0, hk0⟩ i t r _ _
      obtain ⟨rfl, rfl⟩ := hca k0 hk0
      have e1 : cnt .annex ((s :: ss).take (i + 1)) = (if k0 = .annex then 1 else 0) + cnt .annex (ss.take i) := by
        simp only [cnt, List.take_succ_cons, List.countP_cons, hk0, Kind.sec.injEq, decide_eq_true_eq]; omega
      have e2 : cnt .clause ((s :: ss).take (i + 1)) = (if k0 = .clause then 1 else 0) + cnt .clause (ss.take i) := by
        simp only [cnt, List.take_succ_cons, List.countP_cons, hk0, Kind.sec.injEq, decide_eq_true_eq]; omega
      have e3 : ∀ k, topOf (c + if k0 = .clause then 1 else 0) (a + if k0 = .annex then 1 else 0) (ss.take i) k = topOf c a ((s :: ss).take (i + 1)) k := by
        intro k
        cases k <;> simp only [topOf, e1, e2, Nat.add_assoc]
      simp only [e3, e1, Nat.add_assoc]
    have top : ∀ num c' a', topNum c a s.node.kind = some (num, c', a') ↔ ∃ k, s.node.kind = .sec k ∧ (k = .annex → a < 26) ∧ num = topOf c a [] k ∧
        c' = c + (if k = .clause then 1 else 0) ∧ a' = a + (if k = .annex then 1 else 0) := by
      intro num c' a'
      cases hk : s.node.kind with
      | sec k =>
        cases k with
        | intro => simp [topNum, topOf, eq_comm]
        | clause => simp [topNum, topOf, cnt, eq_comm]
        | annex =>
          simp only [topNum, upper_get]
          by_cases ha : a < 26
          · simp [ha, topOf, cnt, eq_comm]
          · simp [ha]
      | _ => simp [topNum]
    simp only [setTops]
    constructor
    · intro h
      cases h1 : topNum c a s.node.kind with
      | none => simp [h1] at h
      | some p =>
        obtain ⟨num, c', a'⟩ := p
        simp only [h1] at h
        cases h2 : setNum s num with
        | none => simp [h2] at h
        | some r =>
          simp only [h2] at h
          cases h3 : setTops ss c' a' with
          | none => simp [h3] at h
          | some rs' =>
            simp only [h3, Option.some.injEq] at h
            subst h
            obtain ⟨hl, hi⟩ := (ih c' a' rs').1 h3
            obtain ⟨k, hk, ha, hnum, hc', ha'⟩ := (top _ _ _).1 h1
            refine ⟨by simp [hl], ?_⟩
            intro i s' r' hs hr
            cases i with
            | zero =>
              simp only [List.getElem?_cons_zero, Option.some.injEq] at hs hr
              subst hs hr
              exact ⟨k, hk, by simpa [cnt] using ha, by simpa [hnum] using h2⟩
            | succ i =>
              refine (step c' a' num rs' ?_ ⟨k, hk⟩ i s' r' hs (by simpa using hr)).1 (hi i s' r' (by simpa using hs) (by simpa using hr))
              intro k' hk'
              rw [hk] at hk'
              injection hk' with hk'
              subst hk'
              exact ⟨hc', ha'⟩
    · intro ⟨hl, hi⟩
      cases rs with
      | nil => simp at hl
      | cons r rs =>
        obtain ⟨k, hk, ha, h2⟩ := hi 0 s r rfl rfl
        have h1 := (top (topOf c a [] k) _ _).2 ⟨k, hk, by simpa [cnt] using ha, rfl, rfl, rfl⟩
        have h3 := (ih (c + if k = .clause then 1 else 0) (a + if k = .annex then 1 else 0) rs).2 ⟨by simpa using hl, by
          intro i s' r' hs hr
          refine (step _ _ [] rs ?_ ⟨k, hk⟩ i s' r' (by simpa using hs) hr).2 (hi (i + 1) s' r' (by simpa using hs) (by simpa using hr))
          intro k' hk'
          rw [hk] at hk'
          injection hk' with hk'
          subst hk'
          exact ⟨rfl, rfl⟩⟩
        simp only [List.take_zero] at h2
        simp only [h1, h2, h3]

/-! ### When numbers can be given -/

theorem setNum_exists {c level s} (h : Outline c level s) (hl : level ≠ 0) : ∀ num,
    ((∃ r, setNum s num = some r) ↔ c.id ≠ none ∧ ∀ d, Inside c d → d.id ≠ none) := by
  induction h with
  | @mk n level heading blocks numless subs h1 h2 h3 h4 h5 h6 ih =>
    intro num
    simp only [hl, if_false] at h4
    obtain ⟨h', rfl, _⟩ := h4
    rw [setNum.eq_def]
    dsimp only
    cases hid : n.id with
    | none => simp
    | some i =>
      have key : (∃ rs, setNums subs num 0 = some rs) ↔ ∀ d, Inside n d → d.id ≠ none := by
        constructor
        · intro ⟨rs, hrs⟩
          obtain ⟨hlen, hi⟩ := (setNums_iff subs num 0 rs).1 hrs
          have sub : ∀ c ∈ sectionsIn n, c.id ≠ none ∧ ∀ d, Inside c d → d.id ≠ none := by
            intro c hc
            obtain ⟨j, hj⟩ := List.getElem?_of_mem hc
            have hj' := (List.getElem?_eq_some_iff.1 hj).1
            have hs : subs[j]? = some (subs[j]'(by omega)) := List.getElem?_eq_getElem _
            have hr : rs[j]? = some (rs[j]'(by omega)) := List.getElem?_eq_getElem _
            exact (ih j c _ hj hs (by omega) _).1 ⟨_, hi j _ _ hs hr⟩
          intro d hd
          cases hd with
          | here hc => exact (sub _ hc).1
          | deeper hm hc => exact (sub _ hm).2 _ hc
        · intro hin
          have gen : ∀ (ss : List Sec) (k : Nat), (∀ s ∈ ss, ∀ num, ∃ r, setNum s num = some r) → ∃ rs, setNums ss num k = some rs := by
            intro ss
            induction ss with
            | nil => intro k _; exact ⟨[], rfl⟩
            | cons s ss ihs =>
              intro k hss
              obtain ⟨r, hr⟩ := hss s (by simp) (num ++ '.' :: str (k + 1))
              obtain ⟨rs, hrs⟩ := ihs (k + 1) (fun t ht => hss t (List.mem_cons_of_mem _ ht))
              exact ⟨r :: rs, by simp [setNums, hr, hrs]⟩
          refine gen subs 0 ?_
          intro s hs num'
          obtain ⟨j, hj⟩ := List.getElem?_of_mem hs
          have hj' := (List.getElem?_eq_some_iff.1 hj).1
          have hc : (sectionsIn n)[j]? = some ((sectionsIn n)[j]'(by omega)) := List.getElem?_eq_getElem _
          have hc' := List.mem_of_getElem? hc
          exact (ih j _ s hc hj (by omega) num').2 ⟨hin _ (.here hc'), fun d hd => hin d (.deeper hc' hd)⟩
      constructor
      · intro ⟨r, hr⟩
        refine ⟨by simp, key.1 ?_⟩
        cases hrs : setNums subs num 0 with
        | none => simp [hrs] at hr
        | some rs => exact ⟨rs, rfl⟩
      · intro ⟨_, hin⟩
        obtain ⟨rs, hrs⟩ := key.2 hin
        simp only [hrs]
        exact ⟨_, rfl⟩

theorem cnt_eq {doc root} (h : Outline doc 0 root) (k : SecKind) (i : Nat) : cnt k (root.subs.take i) = countKind doc k i := by
  have hm : root.subs.map Sec.node = sectionsIn doc := by
    apply List.ext_getElem?
    intro j
    rw [List.getElem?_map]
    cases hj : root.subs[j]? with
    | none =>
      have : (sectionsIn doc)[j]? = none := by
        rw [List.getElem?_eq_none_iff] at hj ⊢
        have := h.len; omega
      simp [this]
    | some t =>
      obtain ⟨c, hc, ho⟩ := h.get hj
      simp [hc, ho.node_eq]
  unfold cnt countKind
  rw [← hm, ← List.map_take, List.countP_map]
  rfl

theorem countKind_le (doc : HNode) (k : SecKind) {i j : Nat} (h : i ≤ j) : countKind doc k i ≤ countKind doc k j := by
  unfold countKind
  exact ((List.take_sublist_take_left h).countP_le )

theorem countKind_lt (doc : HNode) (k : SecKind) {i j : Nat} (h : i < j) {c} (hc : (sectionsIn doc)[i]? = some c) (hk : c.kind = .sec k) :
    countKind doc k i < countKind doc k j := by
  have h1 := countKind_le doc k (show i + 1 ≤ j by omega)
  have h2 : countKind doc k (i + 1) = countKind doc k i + 1 := by
    unfold countKind
    rw [List.take_add_one, hc]
    simp [List.countP_append, hk]
  omega

theorem countKind_max (doc : HNode) (k : SecKind) (i : Nat) : countKind doc k i ≤ countKind doc k (sectionsIn doc).length := by
  unfold countKind
  rw [List.take_length]
  exact (List.take_sublist i _).countP_le

theorem setRoot_iff {doc root} (h : Outline doc 0 root) (r : NSec) : setRoot root = some r ↔
    r = .mk root none none none r.subs ∧ r.subs.length = (sectionsIn doc).length ∧
    ∀ (i : Nat) s c t, (sectionsIn doc)[i]? = some c → root.subs[i]? = some s → r.subs[i]? = some t →
      ∃ k, c.kind = .sec k ∧ (k = .annex → countKind doc .annex i < 26) ∧ setNum s (topLabel doc i k) = some t := by
  have top : ∀ i k, topOf 0 0 (root.subs.take i) k = topLabel doc i k := by
    intro i k
    cases k <;> simp [topOf, topLabel, cnt_eq h, str]
  unfold setRoot
  constructor
  · intro hr
    cases ht : setTops root.subs 0 0 with
    | none => simp [ht] at hr
    | some rs =>
      simp only [ht, Option.some.injEq] at hr
      subst hr
      obtain ⟨hl, hi⟩ := (setTops_iff _ _ _ _).1 ht
      refine ⟨rfl, by simp [NSec.subs, hl, h.len], ?_⟩
      intro i s c t hc hs ht
      obtain ⟨k, hk, ha, hn⟩ := hi i s t hs ht
      rw [(h.sub i c s hc hs).node_eq] at hk
      rw [top] at hn
      rw [cnt_eq h] at ha
      exact ⟨k, hk, by simpa using ha, hn⟩
  · intro ⟨he, hl, hi⟩
    have ht : setTops root.subs 0 0 = some r.subs := by
      refine (setTops_iff _ _ _ _).2 ⟨by rw [hl, h.len], ?_⟩
      intro i s t hs ht
      obtain ⟨c, hc, ho⟩ := h.get hs
      obtain ⟨k, hk, ha, hn⟩ := hi i s c t hc hs ht
      refine ⟨k, by rw [ho.node_eq]; exact hk, ?_, ?_⟩
      · rw [cnt_eq h]; simpa using ha
      · rw [top]; exact hn
    simp only [ht]
    rw [he]
    rfl

theorem setRoot_exists {doc root} (h : Outline doc 0 root) : (∃ r, setRoot root = some r) ↔
    (∀ c, Inside doc c → c.id ≠ none) ∧ countKind doc .annex (sectionsIn doc).length ≤ 26 := by
  constructor
  · intro ⟨r, hr⟩
    obtain ⟨he, hl, hi⟩ := (setRoot_iff h r).1 hr
    have sub : ∀ (i : Nat) c, (sectionsIn doc)[i]? = some c → (∃ k, c.kind = .sec k ∧ (k = .annex → countKind doc .annex i < 26)) ∧ c.id ≠ none ∧ ∀ d, Inside c d → d.id ≠ none := by
      intro i c hc
      have hi' := (List.getElem?_eq_some_iff.1 hc).1
      obtain ⟨s, hs, ho⟩ := h.get' hc
      have ht : r.subs[i]? = some (r.subs[i]'(by omega)) := List.getElem?_eq_getElem _
      obtain ⟨k, hk, ha, hn⟩ := hi i s c _ hc hs ht
      exact ⟨⟨k, hk, ha⟩, (setNum_exists ho (by omega) _).1 ⟨_, hn⟩⟩
    refine ⟨?_, ?_⟩
    · intro d hd
      cases hd with
      | here hc =>
        obtain ⟨i, hi⟩ := List.getElem?_of_mem hc
        exact (sub i _ hi).2.1
      | deeper hm hc =>
        obtain ⟨i, hi⟩ := List.getElem?_of_mem hm
        exact (sub i _ hi).2.2 _ hc
    · have gen : ∀ n, n ≤ (sectionsIn doc).length → countKind doc .annex n ≤ 26 := by
        intro n
        induction n with
        | zero => intro _; simp [countKind]
        | succ n ih =>
          intro hn
          have hc : (sectionsIn doc)[n]? = some ((sectionsIn doc)[n]'(by omega)) := List.getElem?_eq_getElem _
          obtain ⟨⟨k, hk, ha⟩, _⟩ := sub n _ hc
          have h0 := ih (by omega)
          have h2 : countKind doc .annex (n + 1) = countKind doc .annex n + (if k = .annex then 1 else 0) := by
            unfold countKind
            rw [List.take_add_one, hc]
            simp only [List.countP_append, Option.toList_some, List.countP_cons, List.countP_nil, hk, Kind.sec.injEq, decide_eq_true_eq]
            omega
          by_cases hk' : k = .annex
          · have := ha hk'
            simp only [hk', if_true] at h2
            omega
          · simp only [hk', if_false] at h2
            omega
      exact gen _ (Nat.le_refl _)
  · intro ⟨hin, hann⟩
    have hex : ∀ (i : Nat) s, root.subs[i]? = some s → ∃ t k, s.node.kind = .sec k ∧ (k = .annex → countKind doc .annex i < 26) ∧ setNum s (topLabel doc i k) = some t := by
      intro i s hs
      obtain ⟨c, hc, ho⟩ := h.get hs
      have hc' := List.mem_of_getElem? hc
      obtain ⟨k, hk⟩ : IsSection c := by simpa using (List.mem_filter.1 hc').2
      obtain ⟨t, ht⟩ := (setNum_exists ho (by omega) (topLabel doc i k)).2 ⟨hin c (.here hc'), fun d hd => hin d (.deeper hc' hd)⟩
      refine ⟨t, k, by rw [ho.node_eq]; exact hk, ?_, ht⟩
      rintro rfl
      have := countKind_lt doc .annex (List.getElem?_eq_some_iff.1 hc).1 hc hk
      omega
    have gen : ∀ (ss : List Sec) (n : Nat), (∀ (i : Nat) s, ss[i]? = some s → ∃ t k, s.node.kind = .sec k ∧ (k = .annex → countKind doc .annex (n + i) < 26) ∧ setNum s (topLabel doc (n + i) k) = some t) →
        ∃ ts : List NSec, ts.length = ss.length ∧ ∀ (i : Nat) s t, ss[i]? = some s → ts[i]? = some t → ∃ k, s.node.kind = .sec k ∧ (k = .annex → countKind doc .annex (n + i) < 26) ∧ setNum s (topLabel doc (n + i) k) = some t := by
      intro ss
      induction ss with
      | nil => intro n _; exact ⟨[], rfl, by intro i s t hs; simp at hs⟩
      | cons s ss ih =>
        intro n hss
        obtain ⟨t, ht⟩ := hss 0 s rfl
        obtain ⟨ts, hl, hts⟩ := ih (n + 1) (by
          intro i s' hs'
          have := hss (i + 1) s' (by simpa using hs')
          rwa [show n + (i + 1) = n + 1 + i by omega] at this)
        refine ⟨t :: ts, by simp [hl], ?_⟩
        intro i s' t' hs ht'
        cases i with
        | zero =>
          simp only [List.getElem?_cons_zero, Option.some.injEq] at hs ht'
          subst hs ht'
          exact ht
        | succ i =>
          have := hts i s' t' (by simpa using hs) (by simpa using ht')
          rwa [show n + 1 + i = n + (i + 1) by omega] at this
    obtain ⟨ts, hl, hts⟩ := gen root.subs 0 (by simpa using hex)
    refine ⟨.mk root none none none ts, (setRoot_iff h _).2 ⟨rfl, by simp [NSec.subs, hl, h.len], ?_⟩⟩
    intro i s c t hc hs ht
    obtain ⟨k, hk, ha, hn⟩ := hts i s t hs ht
    rw [(h.sub i c s hc hs).node_eq] at hk
    exact ⟨k, hk, by simpa using ha, by simpa using hn⟩

end Verif.Sections
