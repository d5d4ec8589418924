import Verif.Sections.Spec
/-!
# Lemmas about lists of parameters, pipelines and left-recursive lists
-/
namespace Verif.Sections

theorem split_nocomma (u : List Char) (h : ',' ∉ u) : splitComma u = [u] := by
  induction u with
  | nil => rfl
  | cons c u ih =>
    simp only [List.mem_cons, not_or] at h
    have := ih h.2
    rw [splitComma.eq_def]
    split
    · contradiction
    · next hc => injection hc with hc; exact absurd hc.symm h.1
    · next hc => injection hc with h1 h2; subst h1 h2; simp [this]

theorem split_comma (u v : List Char) (h : ',' ∉ u) : splitComma (u ++ ',' :: ' ' :: v) = u :: splitComma v := by
  induction u with
  | nil => rw [List.nil_append, splitComma]
  | cons c u ih =>
    simp only [List.mem_cons, not_or] at h
    have := ih h.2
    rw [splitComma.eq_def]
    split
    · contradiction
    · next hc => injection hc with hc; exact absurd hc.symm h.1
    · next hc => injection hc with h1 h2; subst h1 h2; simp [this]

theorem isWord_iff (c : Char) : isWord c = true ↔ c.isAlphanum = true ∨ c = '_' := by simp [isWord]

theorem takeWhile_app {p : Char → Bool} (w r : List Char) (hw : ∀ c ∈ w, p c = true) (hr : ∀ c, r.head? = some c → p c = false) :
    (w ++ r).takeWhile p = w ∧ (w ++ r).dropWhile p = r := by
  induction w with
  | nil =>
    cases r with
    | nil => simp
    | cons c r => simp [hr c rfl]
  | cons a w ih =>
    have ha := hw a (by simp)
    obtain ⟨h1, h2⟩ := ih (fun c hc => hw c (List.mem_cons_of_mem _ hc))
    simp [ha, h1, h2]

theorem matchName_ok {n s : List Char} (hn : IsName n) (hs : ∀ c, s.head? = some c → isWord c = false) : matchName (n ++ s) = some (n, s) := by
  obtain ⟨w, hw, hall, rfl⟩ := hn
  obtain ⟨h1, h2⟩ := takeWhile_app (w ++ ['_']) s (by
    intro c hc
    simp only [List.mem_append, List.mem_singleton] at hc
    rw [isWord_iff]
    rcases hc with hc | rfl
    · exact hall c hc
    · simp) hs
  simp only [List.cons_append, matchName, h1, h2, List.reverse_append, List.reverse_cons, List.reverse_nil, List.nil_append, List.dropWhile_cons]
  simp [hw]

theorem matchName_sound {s n r : List Char} (h : matchName s = some (n, r)) : IsName n ∧ s = n ++ r := by
  unfold matchName at h
  split at h
  · next rest =>
    dsimp only at h
    split at h
    · cases h
    · next x mid hb =>
      split at h
      · cases h
      · next hmid =>
        simp only [Option.some.injEq, Prod.mk.injEq] at h
        obtain ⟨rfl, rfl⟩ := h
        have hx : x = '_' := by
          have := List.head?_dropWhile_not (fun c => c != '_') (rest.takeWhile isWord).reverse
          rw [hb] at this
          simpa using this
        have hsuf : (x :: mid) <:+ (rest.takeWhile isWord).reverse := by rw [← hb]; exact List.dropWhile_suffix _
        have hpre : (x :: mid).reverse <+: rest.takeWhile isWord := by
          rw [← List.reverse_suffix]; simpa using hsuf
        rw [hb]
        constructor
        · refine ⟨mid.reverse, by simpa using hmid, ?_, by simp [hx]⟩
          intro c hc
          have hm : c ∈ rest.takeWhile isWord := hpre.subset (by simp [List.mem_reverse.1 hc])
          rw [← isWord_iff]
          exact List.all_eq_true.1 List.all_takeWhile c hm
        · obtain ⟨t, ht⟩ := hpre
          have e : rest = rest.takeWhile isWord ++ rest.dropWhile isWord := by simp
          rw [← ht]
          simp only [List.length_reverse, List.length_cons] 
          have : List.drop (mid.length + 1) ((x :: mid).reverse ++ t) = t := by
            have hl : (x :: mid).reverse.length = mid.length + 1 := by simp
            rw [← hl, List.drop_left]
          rw [this]
          have e2 : rest = ((x :: mid).reverse ++ t) ++ rest.dropWhile isWord := by rw [ht]; exact e
          calc '_' :: rest = '_' :: (((x :: mid).reverse ++ t) ++ rest.dropWhile isWord) := by rw [← e2]
            _ = _ := by simp
  · cases h

theorem name_ne {n : List Char} (h : IsName n) : ∃ w, n = '_' :: w := by
  obtain ⟨w, _, _, rfl⟩ := h
  exact ⟨w ++ ['_'], rfl⟩

theorem name_last {n : List Char} (h : IsName n) : ∃ w, n = w ++ ['_'] := by
  obtain ⟨w, _, _, rfl⟩ := h
  exact ⟨'_' :: w, by simp⟩

theorem name_word {n : List Char} (h : IsName n) : ∀ c ∈ n, c.isAlphanum = true ∨ c = '_' := by
  obtain ⟨w, _, hw, rfl⟩ := h
  intro c hc
  simp only [List.cons_append, List.mem_cons, List.mem_append, List.not_mem_nil, or_false] at hc
  rcases hc with rfl | hc | rfl
  · simp
  · exact hw c hc
  · simp

theorem name_nocomma {n : List Char} (h : IsName n) : ',' ∉ n := by
  intro hc
  rcases name_word h _ hc with h | h <;> revert h <;> decide

theorem one_name {n s : List Char} (opt : Bool) (hn : IsName n) (hs : ∀ c, s.head? = some c → isWord c = false) :
    oneParam opt (n ++ s) = if closers s then some ((n, if opt then .optional else .plain), opt)
      else if s = [' ', '[', ' '] then some ((n, if opt then .optional else .plain), true) else none := by
  have hm := matchName_ok hn hs
  obtain ⟨w, rfl⟩ := name_ne hn
  simp only [List.cons_append] at hm ⊢
  simp [oneParam, hm]

theorem one_opt {n s : List Char} (opt : Bool) (hn : IsName n) (hs : ∀ c, s.head? = some c → isWord c = false) :
    oneParam opt ('[' :: ' ' :: n ++ s) = if closers s then some ((n, .optional), true)
      else if s = [' ', '[', ' '] then some ((n, .optional), true) else none := by
  have hm := matchName_ok hn hs
  obtain ⟨w, rfl⟩ := name_ne hn
  simp only [List.cons_append] at hm ⊢
  simp [oneParam, hm]

theorem one_rest {n : List Char} (hn : IsName n) : oneParam false ('.' :: '.' :: '.' :: n) = some ((n, .rest), false) := by
  have hm := matchName_ok (s := []) hn (by simp)
  obtain ⟨w, rfl⟩ := name_ne hn
  simp only [List.append_nil] at hm
  simp [oneParam, hm, closers]

def closer : Nat → List Char
  | 0 => []
  | m + 1 => ' ' :: ']' :: closer m

theorem closers_closer (m : Nat) : closers (closer m) = true := by
  induction m with
  | zero => rfl
  | succ m ih => simp [closer, closers, ih]

theorem closer_head (m : Nat) : ∀ c, (closer m).head? = some c → isWord c = false := by
  cases m <;> simp [closer]
  decide

theorem not_sp : closers [' ', '[', ' '] = false := by decide

theorem closer_nocomma (m : Nat) : ',' ∉ closer m := by
  induction m with
  | zero => simp [closer]
  | succ m ih => simp [closer, ih]

/-- The words of optional parameters. -/
theorem opts_split (ns : List (List Char)) : ∀ (pre : List Char) (m : Nat), ',' ∉ pre →
    splitComma (pre ++ renderOpts ns ++ closer m) = match ns with
      | [] => [pre ++ closer m]
      | n :: ns => (pre ++ [' ', '[', ' ']) :: splitComma (n ++ renderOpts ns ++ closer (m + 1)) := by
  intro pre m hp
  cases ns with
  | nil =>
    simp only [renderOpts, List.append_nil]
    exact split_nocomma _ (by simp [hp, closer_nocomma])
  | cons n ns =>
    have e : pre ++ renderOpts (n :: ns) ++ closer m = (pre ++ [' ', '[', ' ']) ++ ',' :: ' ' :: (n ++ renderOpts ns ++ closer (m + 1)) := by
      simp [renderOpts, closer]
    rw [e]
    exact split_comma _ _ (by simp [hp])

theorem opts_ok (ns : List (List Char)) : ∀ (n : List Char) (m : Nat), IsName n → (∀ x ∈ ns, IsName x) →
    eachParam true (splitComma (n ++ renderOpts ns ++ closer m)) = some ((n, .optional) :: ns.map (fun x => (x, .optional))) := by
  induction ns with
  | nil =>
    intro n m hn _
    rw [opts_split [] n m (name_nocomma hn)]
    simp only [eachParam]
    rw [one_name true hn (closer_head m), closers_closer]
    simp
  | cons n' ns ih =>
    intro n m hn hns
    rw [opts_split (n' :: ns) n m (name_nocomma hn)]
    simp only [eachParam]
    rw [one_name true hn (by simp; decide)]
    simp only [not_sp, Bool.false_eq_true, if_false, if_true]
    rw [ih n' (m + 1) (hns n' (by simp)) (fun x hx => hns x (List.mem_cons_of_mem _ hx))]
    simp

theorem plain_ok (req : List (List Char)) : ∀ (n : List Char) (opts : List (List Char)), IsName n → (∀ x ∈ req, IsName x) → (∀ x ∈ opts, IsName x) →
    eachParam false (splitComma (renderPlain (n :: req) ++ renderOpts opts)) =
      some ((n :: req).map (fun x => (x, .plain)) ++ opts.map (fun x => (x, .optional))) := by
  induction req with
  | nil =>
    intro n opts hn _ ho
    simp only [renderPlain]
    have e := opts_split opts n 0 (name_nocomma hn)
    simp only [closer, List.append_nil] at e
    rw [e]
    cases opts with
    | nil =>
      have h1 := one_name (s := []) false hn (by simp)
      simp only [List.append_nil, closers, if_true] at h1
      simp [eachParam, h1]
    | cons o os =>
      simp only [eachParam]
      rw [one_name false hn (by simp; decide)]
      simp only [not_sp, Bool.false_eq_true, if_false, if_true]
      have := opts_ok os o 1 (ho o (by simp)) (fun x hx => ho x (List.mem_cons_of_mem _ hx))
      simp only [closer] at this
      rw [this]
      simp
  | cons n' req ih =>
    intro n opts hn hr ho
    have e : renderPlain (n :: n' :: req) ++ renderOpts opts = n ++ ',' :: ' ' :: (renderPlain (n' :: req) ++ renderOpts opts) := by
      simp [renderPlain]
    rw [e, split_comma _ _ (name_nocomma hn)]
    simp only [eachParam]
    have h1 := one_name (s := []) false hn (by simp)
    simp only [List.append_nil, closers, if_true] at h1
    rw [h1]
    simp only
    rw [ih n' opts (hr n' (by simp)) (fun x hx => hr x (List.mem_cons_of_mem _ hx)) ho]
    simp

theorem rest_ok (req : List (List Char)) (r : List Char) (hr : ∀ x ∈ req, IsName x) (hn : IsName r) :
    eachParam false (splitComma (renderRest req r)) = some (req.map (fun x => (x, .plain)) ++ [(r, .rest)]) := by
  induction req with
  | nil =>
    have : ',' ∉ ['.', '.', '.'] ++ r := by simp [name_nocomma hn]
    simp only [renderRest, List.nil_append, renderPlain]
    rw [split_nocomma _ this]
    simp only [eachParam, List.cons_append, List.nil_append, one_rest hn, List.map_nil]
  | cons n req ih =>
    have hn' := hr n (by simp)
    have e : renderRest (n :: req) r = n ++ ',' :: ' ' :: renderRest req r := by
      unfold renderRest
      rw [List.cons_append]
      cases hq : req ++ [['.', '.', '.'] ++ r] with
      | nil => simp at hq
      | cons a b => simp [renderPlain]
    rw [e, split_comma _ _ (name_nocomma hn')]
    simp only [eachParam]
    have h1 := one_name (s := []) false hn' (by simp)
    simp only [List.append_nil, closers, if_true] at h1
    rw [h1]
    simp only [Bool.false_eq_true, if_false]
    rw [ih (fun x hx => hr x (List.mem_cons_of_mem _ hx))]
    simp

/-! ### Blanks at the ends -/

theorem strip_self {a b : Char} {s m m' : List Char} (h1 : s = a :: m) (h2 : s = m' ++ [b]) (ha : a ≠ ' ') (hb : b ≠ ' ') : strip s = s := by
  unfold strip
  have e1 : s.dropWhile (· == ' ') = s := by rw [h1]; simp [ha]
  rw [e1]
  have e2 : s.reverse.dropWhile (· == ' ') = s.reverse := by rw [h2]; simp [hb]
  rw [e2, List.reverse_reverse]

theorem plain_first (n : List Char) (ns : List (List Char)) (a : Char) (w : List Char) (h : n = a :: w) : ∃ r, renderPlain (n :: ns) = a :: r := by
  cases ns with
  | nil => exact ⟨w, by simp [renderPlain, h]⟩
  | cons b r => exact ⟨_, by simp [renderPlain, h]; rfl⟩

theorem plain_last (ns : List (List Char)) (n : List Char) (h : ∃ w, n = w ++ ['_']) : ∃ r, renderPlain (ns ++ [n]) = r ++ ['_'] := by
  obtain ⟨w, rfl⟩ := h
  induction ns with
  | nil => exact ⟨w, rfl⟩
  | cons a ns ih =>
    obtain ⟨r, hr⟩ := ih
    rw [List.cons_append]
    cases hq : ns ++ [w ++ ['_']] with
    | nil => simp at hq
    | cons x y =>
      rw [hq] at hr
      exact ⟨a ++ [',', ' '] ++ r, by simp [renderPlain, hr]⟩

theorem opts_last (ns : List (List Char)) (h : ns ≠ []) : ∃ r, renderOpts ns = r ++ [']'] := by
  cases ns with
  | nil => exact absurd rfl h
  | cons n ns => exact ⟨[' ', '[', ' ', ',', ' '] ++ n ++ renderOpts ns ++ [' '], by simp [renderOpts]⟩

theorem snoc_of_ne {α : Type} {l : List α} (h : l ≠ []) : ∃ i a, l = i ++ [a] ∧ a ∈ l :=
  ⟨l.dropLast, l.getLast h, (List.dropLast_concat_getLast h).symm, List.getLast_mem h⟩

/-! ### Soundness -/

def isPunct (c : Char) : Bool := c == ' ' || c == ',' || c == '[' || c == ']' || c == '.'

def content (s : List Char) : List Char := s.filter (fun c => !isPunct c)

theorem content_app (a b : List Char) : content (a ++ b) = content a ++ content b := by simp [content]

theorem content_name {n : List Char} (h : IsName n) : content n = n := by
  unfold content
  rw [List.filter_eq_self]
  intro c hc
  rcases name_word h c hc with h | rfl
  · cases hp : isPunct c with
    | false => rfl
    | true =>
      simp only [isPunct, Bool.or_eq_true, beq_iff_eq] at hp
      rcases hp with (((rfl | rfl) | rfl) | rfl) | rfl <;> revert h <;> decide
  · decide

theorem content_closers {s : List Char} (h : closers s = true) : content s = [] := by
  fun_induction closers s with
  | case1 => rfl
  | case2 s ih =>
    have := ih h
    have e : content (' ' :: ']' :: s) = content s := by simp [content, isPunct]
    rw [e, this]
  | case3 => cases h

theorem content_split (s : List Char) : content s = (splitComma s).flatMap content := by
  fun_induction splitComma s with
  | case1 => rfl
  | case2 s ih => rw [List.flatMap_cons, ← ih]; simp [content, isPunct]
  | case3 c s h hs ih => rw [hs] at ih; simp only [content, List.flatMap_nil] at ih; simp [content, List.filter_cons, ih]
  | case4 c s h w ws hs ih =>
    rw [hs] at ih
    simp only [List.flatMap_cons] at ih ⊢
    have : content (c :: s) = content [c] ++ content s := content_app [c] s
    rw [this, ih, ← List.append_assoc, ← content_app]
    rfl

theorem one_sound {opt : Bool} {s n : List Char} {p : Punct} {opt' : Bool} (h : oneParam opt s = some ((n, p), opt')) :
    IsName n ∧ content s = n ∧ (opt = true → p = .optional ∧ opt' = true) ∧ (p = .optional → opt' = true) := by
  unfold oneParam at h
  split at h
  next o1 s1 h1 =>
  split at h
  next d s2 h2 =>
  have c1 : content s = content s1 ∧ (opt = true → o1 = true) := by
    split at h1
    · simp only [Prod.mk.injEq] at h1
      obtain ⟨rfl, rfl⟩ := h1
      exact ⟨by simp [content, isPunct, List.filter_cons], fun _ => rfl⟩
    · simp only [Prod.mk.injEq] at h1
      obtain ⟨rfl, rfl⟩ := h1
      exact ⟨rfl, id⟩
  have c2 : content s1 = content s2 := by
    split at h2
    · simp only [Prod.mk.injEq] at h2
      obtain ⟨rfl, rfl⟩ := h2
      simp [content, isPunct, List.filter_cons]
    · simp only [Prod.mk.injEq] at h2
      obtain ⟨rfl, rfl⟩ := h2
      rfl
  cases hm : matchName s2 with
  | none => simp [hm] at h
  | some q =>
    obtain ⟨name, suffix⟩ := q
    simp only [hm] at h
    obtain ⟨hn, rfl⟩ := matchName_sound hm
    split at h
    · cases h
    · next hdo =>
      split at h
      · next hcl =>
        simp only [Option.some.injEq, Prod.mk.injEq] at h
        obtain ⟨⟨rfl, rfl⟩, rfl⟩ := h
        refine ⟨hn, ?_, ?_, ?_⟩
        · rw [c1.1, c2, content_app, content_name hn, content_closers hcl, List.append_nil]
        · intro ho
          have := c1.2 ho
          cases d <;> simp_all
        · cases d <;> cases o1 <;> simp_all
      · split at h
        · next hsuf =>
          simp only [Option.some.injEq, Prod.mk.injEq] at h
          obtain ⟨⟨rfl, rfl⟩, rfl⟩ := h
          refine ⟨hn, ?_, ?_, fun _ => rfl⟩
          · rw [c1.1, c2, content_app, content_name hn, hsuf]; simp [content, isPunct]
          · intro ho
            have := c1.2 ho
            cases d <;> simp_all
        · cases h

theorem each_sound (ss : List (List Char)) : ∀ (opt : Bool) ps, eachParam opt ss = some ps →
    (∀ p ∈ ps, IsName p.1) ∧ ss.flatMap content = (ps.map (·.1)).flatten ∧ ps.length = ss.length ∧ (opt = true → ∀ p ∈ ps, p.2 = .optional) ∧
    ps.Pairwise (fun p q => p.2 = .optional → q.2 = .optional) := by
  induction ss with
  | nil => intro opt ps h; simp only [eachParam, Option.some.injEq] at h; subst h; simp
  | cons s ss ih =>
    intro opt ps h
    simp only [eachParam] at h
    cases h1 : oneParam opt s with
    | none => simp [h1] at h
    | some q =>
      obtain ⟨⟨n, p⟩, opt'⟩ := q
      simp only [h1] at h
      cases h2 : eachParam opt' ss with
      | none => simp [h2] at h
      | some ps' =>
        simp only [h2, Option.some.injEq] at h
        subst h
        obtain ⟨a1, a2, a3, a4⟩ := one_sound h1
        obtain ⟨b1, b2, b3, b4, b5⟩ := ih opt' ps' h2
        refine ⟨?_, by simp [a2, b2], by simp [b3], ?_, ?_⟩
        · intro x hx
          rcases List.mem_cons.1 hx with rfl | hx
          · exact a1
          · exact b1 x hx
        · intro ho x hx
          rcases List.mem_cons.1 hx with rfl | hx
          · exact (a3 ho).1
          · exact b4 (a3 ho).2 x hx
        · rw [List.pairwise_cons]
          exact ⟨fun x hx hp => b4 (a4 hp) x hx, b5⟩

theorem content_strip (s : List Char) : content (strip s) = content s := by
  have key : ∀ l : List Char, content (l.dropWhile (· == ' ')) = content l := by
    intro l
    induction l with
    | nil => rfl
    | cons c l ih =>
      by_cases hc : c = ' '
      · subst hc; simp only [List.dropWhile_cons, beq_self_eq_true, if_true, ih]; simp [content, isPunct]
      · simp [hc]
  have rev : ∀ l : List Char, content l.reverse = (content l).reverse := by intro l; simp [content]
  unfold strip
  rw [rev, key, rev, key, List.reverse_reverse]

/-! ### Pipelines -/

section
variable {A : Type} [DecidableEq A]

theorem mem_insert' {l : List A} {a b : A} : b ∈ insert' l a ↔ b ∈ l ∨ b = a := by
  unfold insert'
  split
  · constructor
    · exact .inl
    · rintro (h | rfl) <;> assumption
  · simp

theorem nodup_insert' {l : List A} (a : A) (h : l.Nodup) : (insert' l a).Nodup := by
  unfold insert'
  split
  · exact h
  · next ha =>
    rw [List.nodup_append]
    refine ⟨h, by simp, ?_⟩
    intro x hx y hy
    simp only [List.mem_singleton] at hy
    subst hy
    intro he
    subst he
    exact ha hx

theorem foldl_insert {B : Type} (f : B → A) (bs : List B) : ∀ (l : List A), l.Nodup →
    (bs.foldl (fun l b => insert' l (f b)) l).Nodup ∧ ∀ a, a ∈ bs.foldl (fun l b => insert' l (f b)) l ↔ a ∈ l ∨ ∃ b ∈ bs, a = f b := by
  induction bs with
  | nil => intro l h; simp [h]
  | cons b bs ih =>
    intro l h
    obtain ⟨h1, h2⟩ := ih (insert' l (f b)) (nodup_insert' _ h)
    refine ⟨h1, ?_⟩
    intro a
    simp only [List.foldl_cons]
    rw [h2, mem_insert']
    simp only [List.mem_cons]
    constructor
    · rintro ((h | h) | ⟨c, hc, h⟩)
      · exact .inl h
      · exact .inr ⟨b, .inl rfl, h⟩
      · exact .inr ⟨c, .inr hc, h⟩
    · rintro (h | ⟨c, rfl | hc, h⟩)
      · exact .inl (.inl h)
      · exact .inl (.inr h)
      · exact .inr ⟨c, hc, h⟩

theorem foldl_alts (fs : List (Option (A → A))) (cur : List A) : ∀ (l : List A), l.Nodup →
    (cur.foldl (fun l a => fs.foldl (fun l f => insert' l (applyAlt a f)) l) l).Nodup ∧
    ∀ b, b ∈ cur.foldl (fun l a => fs.foldl (fun l f => insert' l (applyAlt a f)) l) l ↔ b ∈ l ∨ ∃ a ∈ cur, ∃ f ∈ fs, b = applyAlt a f := by
  induction cur with
  | nil => intro l h; simp [h]
  | cons c cs ih =>
    intro l h
    obtain ⟨g1, g2⟩ := foldl_insert (applyAlt c) fs l h
    obtain ⟨h1, h2⟩ := ih _ g1
    refine ⟨h1, ?_⟩
    intro b
    simp only [List.foldl_cons]
    rw [h2, g2]
    simp only [List.mem_cons]
    constructor
    · rintro ((h | ⟨f, hf, h⟩) | ⟨a, ha, h⟩)
      · exact .inl h
      · exact .inr ⟨c, .inl rfl, f, hf, h⟩
      · exact .inr ⟨a, .inr ha, h⟩
    · rintro (h | ⟨a, rfl | ha, h⟩)
      · exact .inl (.inl h)
      · exact .inl (.inr h)
      · exact .inr ⟨a, ha, h⟩

theorem pipeStep_ok (cur : List A) (s : Step A) (h : cur.Nodup) : (pipeStep cur s).Nodup ∧ ∀ b, b ∈ pipeStep cur s ↔ ∃ a ∈ cur, s.Makes a b := by
  cases s with
  | skip => exact ⟨h, fun b => by simp [pipeStep, Step.Makes]⟩
  | one f =>
    obtain ⟨h1, h2⟩ := foldl_insert f cur [] (by simp)
    exact ⟨h1, fun b => by simp only [pipeStep, Step.Makes]; rw [h2]; simp⟩
  | alts fs =>
    obtain ⟨h1, h2⟩ := foldl_alts fs cur [] (by simp)
    refine ⟨h1, fun b => ?_⟩
    simp only [pipeStep, Step.Makes]
    rw [h2]
    simp only [List.not_mem_nil, false_or]
    constructor
    · rintro ⟨a, ha, f, hf, he⟩
      refine ⟨a, ha, f, hf, ?_⟩
      cases f <;> exact he
    · rintro ⟨a, ha, f, hf, he⟩
      refine ⟨a, ha, f, hf, ?_⟩
      cases f <;> exact he

theorem pipeline_ok (steps : List (Step A)) : ∀ (cur : List A), cur.Nodup →
    (steps.foldl pipeStep cur).Nodup ∧ ∀ b, b ∈ steps.foldl pipeStep cur ↔ ∃ a ∈ cur, Makes steps a b := by
  induction steps with
  | nil =>
    intro cur h
    refine ⟨h, fun b => ⟨fun hb => ⟨b, hb, .nil⟩, ?_⟩⟩
    rintro ⟨a, ha, hm⟩
    cases hm
    exact ha
  | cons s ss ih =>
    intro cur h
    obtain ⟨g1, g2⟩ := pipeStep_ok cur s h
    obtain ⟨h1, h2⟩ := ih _ g1
    refine ⟨h1, fun b => ?_⟩
    simp only [List.foldl_cons]
    rw [h2]
    constructor
    · rintro ⟨a, ha, hm⟩
      obtain ⟨a0, ha0, hs⟩ := (g2 a).1 ha
      exact ⟨a0, ha0, .cons hs hm⟩
    · rintro ⟨a, ha, hm⟩
      cases hm with
      | cons hs hm => exact ⟨_, (g2 _).2 ⟨a, ha, hs⟩, hm⟩

end

/-! ### Left-recursive lists -/

theorem eachItem_sound {T : Type} (n : Nat) : ∀ (l : ANode T) as, eachItem n l = some as → IsList l as := by
  induction n with
  | zero => intro l as h; simp [eachItem] at h
  | succ n ih =>
    intro l as h
    cases l with
    | leaf t => simp [eachItem] at h
    | node kids =>
      simp only [eachItem] at h
      split at h
      · simp only [Option.some.injEq] at h; subst h; exact .one
      · next l' a =>
        cases he : eachItem n l' with
        | none => simp [he] at h
        | some as' =>
          simp only [he, Option.map_some, Option.some.injEq] at h
          subst h
          exact .snoc (ih _ _ he)
      · cases h

theorem eachItem_complete {T : Type} {l : ANode T} {as} (h : IsList l as) : ∀ n, as.length ≤ n → eachItem n l = some as := by
  induction h with
  | one => intro n hn; cases n with
    | zero => simp at hn
    | succ n => rfl
  | snoc h ih =>
    intro n hn
    cases n with
    | zero => simp at hn
    | succ n =>
      simp only [List.length_append, List.length_cons, List.length_nil] at hn
      simp [eachItem, ih n (by omega)]

end Verif.Sections
