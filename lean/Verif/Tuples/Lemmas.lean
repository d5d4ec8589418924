import Verif.Tuples.Spec
/-! Lemmas for C91. -/
namespace Verif.Tuples

theorem split_blank {sp : Char → Bool} : ∀ {b : Str} (s : Str), (∀ c ∈ b, sp c = true) → split sp [] (b ++ s) = split sp [] s
  | [], _, _ => rfl
  | c :: b, s, h => by
    show split sp [] (c :: (b ++ s)) = _
    rw [split, if_pos (h c (.head _)), if_pos rfl, List.nil_append]
    exact split_blank s (fun d hd => h d (.tail _ hd))

theorem split_word {sp : Char → Bool} : ∀ (w cur rest : Str), (∀ c ∈ w, sp c = false) → (∀ c, rest.head? = some c → sp c = true) →
    cur ++ w ≠ [] → split sp cur (w ++ rest) = (cur ++ w) :: split sp [] rest
  | [], cur, [], _, _, hn => by
    rw [List.append_nil] at hn
    show split sp cur [] = (cur ++ []) :: split sp [] []
    unfold split
    rw [if_neg hn, if_pos rfl, List.append_nil]
  | [], cur, c :: r, _, hr, hn => by
    rw [List.append_nil] at hn
    show split sp cur (c :: r) = (cur ++ []) :: split sp [] (c :: r)
    have hc := hr c rfl
    rw [split, split, if_pos hc, if_pos hc, if_neg hn, if_pos rfl, List.append_nil]
    rfl
  | c :: w, cur, rest, hw, hr, _ => by
    show split sp cur (c :: (w ++ rest)) = _
    have hc := hw c (.head _)
    rw [split, if_neg (by rw [hc]; decide), split_word w (cur ++ [c]) rest (fun d hd => hw d (.tail _ hd)) hr (by simp)]
    simp

theorem split_of {sp : Char → Bool} {s : Str} {ws : List Str} (h : Words sp s ws) : split sp [] s = ws := by
  induction h with
  | none b hb =>
    have := split_blank [] hb
    rw [List.append_nil] at this
    rw [this]; rfl
  | more b w rest ws hb hw hn hr _ ih =>
    rw [List.append_assoc, split_blank _ hb, split_word w [] rest hn hr (by simpa using hw), ih]
    rfl

theorem words_blank {sp : Char → Bool} {c : Char} {s : Str} {ws : List Str} (hc : sp c = true) (h : Words sp s ws) : Words sp (c :: s) ws := by
  cases h with
  | none b hb =>
    refine .none _ (fun d hd => ?_)
    rcases List.mem_cons.1 hd with rfl | hd
    · exact hc
    · exact hb d hd
  | more b w rest ws hb hw hn hr h =>
    refine .more (c :: b) w rest ws (fun d hd => ?_) hw hn hr h
    rcases List.mem_cons.1 hd with rfl | hd
    · exact hc
    · exact hb d hd

theorem words_split {sp : Char → Bool} : ∀ (s cur : Str), (∀ c ∈ cur, sp c = false) → Words sp (cur ++ s) (split sp cur s)
  | [], cur, hc => by
    unfold split
    by_cases h : cur = []
    · rw [if_pos h, h]; exact .none [] (fun _ hd => nomatch hd)
    · rw [if_neg h]
      have := Words.more (sp := sp) [] cur [] [] (fun _ hd => nomatch hd) h hc (fun _ hd => nomatch hd) (.none [] (fun _ hd => nomatch hd))
      exact this
  | c :: s, cur, hcur => by
    unfold split
    by_cases hc : sp c = true
    · rw [if_pos hc]
      have ih := words_blank hc (words_split s [] (fun _ hd => nomatch hd))
      by_cases h : cur = []
      · rw [if_pos h, h]; exact ih
      · rw [if_neg h]
        have := Words.more (sp := sp) [] cur (c :: s) _ (fun _ hd => nomatch hd) h hcur (fun d hd => by cases hd; exact hc) ih
        exact this
    · rw [if_neg hc]
      have := words_split s (cur ++ [c]) (fun d hd => by
        rcases List.mem_append.1 hd with hd | hd
        · exact hcur d hd
        · rw [List.mem_singleton.1 hd]; simpa using hc)
      simpa using this

theorem split_iff {sp : Char → Bool} {s : Str} {ws : List Str} : Words sp s ws ↔ split sp [] s = ws := by
  refine ⟨split_of, fun h => h ▸ ?_⟩
  exact words_split s [] (fun _ hd => nomatch hd)

/-! ## Properties -/

theorem find_none {f : Str} : ∀ {fs : List Str} (i : Nat), f ∉ fs → (enumerate i fs).reverse.find? (fun p => p.1 = f) = none
  | [], _, _ => rfl
  | g :: fs, i, h => by
    rw [enumerate, List.reverse_cons, List.find?_append, find_none (i + 1) (fun hm => h (.tail _ hm))]
    have : ¬ g = f := fun he => h (he ▸ .head _)
    simp [List.find?, this]

theorem find_at {f : Str} : ∀ {fs : List Str} (i k : Nat), fs.Nodup → fs[k]? = some f → (enumerate i fs).reverse.find? (fun p => p.1 = f) = some (f, i + k)
  | [], _, _, _, h => nomatch h
  | g :: fs, i, 0, hn, h => by
    obtain rfl : g = f := by simpa using h
    rw [enumerate, List.reverse_cons, List.find?_append, find_none (i + 1) (List.nodup_cons.1 hn).1]
    simp [List.find?]
  | g :: fs, i, k + 1, hn, h => by
    rw [enumerate, List.reverse_cons, List.find?_append, find_at (i + 1) k (List.nodup_cons.1 hn).2 (by simpa using h)]
    simp; omega

theorem names_enumerate (g : Str) : ∀ (fs : List Str) (i : Nat), (enumerate i fs).any (fun p => p.1 = g) = decide (g ∈ fs)
  | [], _ => rfl
  | f :: fs, i => by
    rw [enumerate, List.any_cons, names_enumerate g fs (i + 1)]
    by_cases h : f = g
    · simp [h]
    · have : ¬ g = f := fun e => h e.symm
      simp [h, this]

/-! ## Comparison -/

variable {V : Type} {py : Py V}

theorem same_nil : Same py [] [] := ⟨rfl, fun _ _ _ h => nomatch h⟩

theorem same_cons {a b : V} {as bs : List V} : Same py (a :: as) (b :: bs) ↔ py.eq a b = true ∧ Same py as bs := by
  constructor
  · rintro ⟨hl, h⟩
    exact ⟨h 0 a b rfl rfl, by simpa using hl, fun i x y hx hy => h (i + 1) x y (by simpa using hx) (by simpa using hy)⟩
  · rintro ⟨h0, hl, h⟩
    refine ⟨by simp [hl], fun i x y hx hy => ?_⟩
    cases i with
    | zero => simp at hx hy; rw [← hx, ← hy]; exact h0
    | succ i => exact h i x y (by simpa using hx) (by simpa using hy)

theorem tupEq_iff : ∀ (as bs : List V), tupEq py as bs = true ↔ Same py as bs
  | [], [] => by simp [tupEq, same_nil]
  | [], b :: bs => by simp [tupEq, Same]
  | a :: as, [] => by simp [tupEq, Same]
  | a :: as, b :: bs => by rw [tupEq, same_cons, Bool.and_eq_true, tupEq_iff as bs]

theorem tupLt_same : ∀ {as bs : List V}, Same py as bs → tupLt py as bs = some false
  | [], [], _ => rfl
  | [], _ :: _, h => nomatch h.1
  | _ :: _, [], h => nomatch h.1
  | a :: as, b :: bs, h => by
    rw [tupLt, if_pos (same_cons.1 h).1]
    exact tupLt_same (same_cons.1 h).2

theorem tupLt_differ {a b : V} : ∀ {as bs : List V} (i : Nat), as[i]? = some a → bs[i]? = some b → py.eq a b = false →
    Same py (as.take i) (bs.take i) → tupLt py as bs = py.lt a b
  | [], _, _, h, _, _, _ => nomatch h
  | _ :: _, [], _, _, h, _, _ => nomatch h
  | x :: as, y :: bs, 0, ha, hb, he, _ => by
    simp at ha hb
    rw [tupLt, ha, hb, if_neg (by simp [he])]
  | x :: as, y :: bs, i + 1, ha, hb, he, hs => by
    simp only [List.take_succ_cons] at hs
    rw [tupLt, if_pos (same_cons.1 hs).1]
    exact tupLt_differ i (by simpa using ha) (by simpa using hb) he (same_cons.1 hs).2

/-! ## The text -/

theorem percent_plain : ∀ (w t : Str) (vs : List V), '%' ∉ w → percent py (w ++ t) vs = (percent py t vs).map (w ++ ·)
  | [], t, vs, _ => by simp
  | c :: w, t, vs, h => by
    show percent py (c :: (w ++ t)) vs = _
    have hc : ¬ c = '%' := fun e => h (e ▸ .head _)
    conv => lhs; unfold percent
    rw [if_neg hc, percent_plain w t vs (fun hm => h (.tail _ hm))]
    cases percent py t vs <;> rfl

theorem percent_r (t : Str) (v : V) (vs : List V) : percent py ('%' :: 'r' :: t) (v :: vs) = (percent py t vs).map (py.repr v ++ ·) := by
  rw [percent, if_pos rfl]

theorem percent_s (t : Str) (v : V) (vs : List V) : percent py ('%' :: 's' :: t) (v :: vs) = (percent py t vs).map (py.text v ++ ·) := by
  rw [percent, if_pos rfl]

theorem percent_join (e : Str) (he : '%' ∉ e) : ∀ (fs : List Str) (vs : List V), (∀ f ∈ fs, '%' ∉ f) → fs.length = vs.length →
    ∃ t, Listing (fs.zip (vs.map py.repr)) t ∧ percent py (join (fs.map (· ++ "=%r".toList)) ++ e) vs = some (t ++ e)
  | [], [], _, _ => by
    refine ⟨[], .none, ?_⟩
    have := percent_plain (py := py) e [] [] he
    rw [List.append_nil] at this
    show percent py e [] = _
    rw [this]; simp [percent]
  | [], _ :: _, _, h => nomatch h
  | _ :: _, [], _, h => nomatch h
  | [f], [v], hf, _ => by
    refine ⟨_, .one f (py.repr v), ?_⟩
    have h1 : join ([f].map (· ++ "=%r".toList)) ++ e = (f ++ ['=']) ++ ('%' :: 'r' :: e) := by
      show (f ++ ['=', '%', 'r']) ++ e = _
      simp
    have h2 := percent_plain (py := py) e [] [] he
    rw [List.append_nil] at h2
    rw [h1, percent_plain _ _ _ (by have := hf f (.head _); simpa using this), percent_r, h2]
    simp [percent]
  | f :: g :: fs, v :: [], _, h => by simp at h
  | [f], v :: w :: vs, _, h => by simp at h
  | f :: g :: fs, v :: w :: vs, hf, h => by
    obtain ⟨t, ht, hp⟩ := percent_join e he (g :: fs) (w :: vs) (fun x hx => hf x (.tail _ hx)) (by simpa using h)
    refine ⟨_, .more f (py.repr v) _ _ t ht, ?_⟩
    have h1 : join ((f :: g :: fs).map (· ++ "=%r".toList)) ++ e =
        (f ++ ['=']) ++ ('%' :: 'r' :: ([',', ' '] ++ (join ((g :: fs).map (· ++ "=%r".toList)) ++ e))) := by
      show (f ++ ['=', '%', 'r']) ++ [',', ' '] ++ join ((g :: fs).map (· ++ "=%r".toList)) ++ e = _
      simp
    rw [h1, percent_plain _ _ _ (by have := hf f (.head _); simpa using this), percent_r, percent_plain _ _ _ (by decide), hp]
    simp

theorem listing_unique {l : List (Str × Str)} {s t : Str} (h : Listing l s) (h' : Listing l t) : s = t := by
  induction h generalizing t with
  | none => cases h'; rfl
  | one f x => cases h'; rfl
  | more f x p l u _ ih => cases h' with | more _ _ _ _ u' hu => rw [ih hu]

/-- What `make` gives. -/
theorem make_iff {sp : Char → Bool} {ok : Str → Bool} {n xs : Str} {c : Cls} {fs : List Str} (hw : Words sp xs fs) :
    make sp ok n xs = some c ↔ ok n = true ∧ (∀ f ∈ fs, ok f = true ∧ f ≠ "_cls".toList) ∧ fs.Nodup ∧
      c = { name := n, args := fs, fmt := "%s(".toList ++ join (fs.map (· ++ "=%r".toList)) ++ ")".toList,
            yields := "T".toList :: fs, props := enumerate 0 ("T".toList :: fs) } := by
  unfold make
  rw [split_iff.1 hw]
  dsimp only
  constructor
  · intro h
    split at h
    · rename_i hc
      obtain ⟨h1, h2, h3⟩ := hc
      rw [List.all_eq_true] at h2
      rw [List.nodup_cons] at h3
      exact ⟨h1, fun f hf => ⟨h2 f hf, fun e => h3.1 (e ▸ hf)⟩, h3.2, (Option.some.inj h).symm⟩
    · exact nomatch h
  · rintro ⟨h1, h2, h3, rfl⟩
    rw [if_pos]
    exact ⟨h1, List.all_eq_true.2 (fun f hf => (h2 f hf).1), List.nodup_cons.2 ⟨fun hm => (h2 _ hm).2 rfl, h3⟩⟩

end Verif.Tuples
