import Verif.Tuples.Lemmas
/-!
# C91: Tuples of different types are never equal and can always be compared
-/
namespace Verif.Tuples

variable {V : Type} {py : Py V} {sp : Char → Bool} {ok : Str → Bool}

/-- C91: a type is made just if its name and the names of its fields can be used, and no field is named twice. -/
theorem c91_made (n xs : Str) : (∃ c, make sp ok n xs = some c) ↔
    ∃ fs, Words sp xs fs ∧ ok n = true ∧ (∀ f ∈ fs, ok f = true ∧ f ≠ "_cls".toList) ∧ fs.Nodup := by
  have hw : Words sp xs (split sp [] xs) := split_iff.2 rfl
  constructor
  · rintro ⟨c, h⟩
    obtain ⟨h1, h2, h3, _⟩ := (make_iff hw).1 h
    exact ⟨_, hw, h1, h2, h3⟩
  · rintro ⟨fs, hw, h1, h2, h3⟩
    exact ⟨_, (make_iff hw).2 ⟨h1, h2, h3, rfl⟩⟩

/-- C91: a tuple is the name of its type, followed by the arguments; there must be one for each field. -/
theorem c91_new {n xs : Str} {c : Cls} {fs : List Str} (h : make sp ok n xs = some c) (hw : Words sp xs fs) (as v : List V) :
    c.new py as = some v ↔ as.length = fs.length ∧ v = py.str n :: as := by
  obtain ⟨_, _, _, rfl⟩ := (make_iff hw).1 h
  unfold Cls.new
  dsimp only
  by_cases hl : as.length = fs.length
  · rw [if_pos hl]; exact ⟨fun e => ⟨hl, (Option.some.inj e).symm⟩, fun e => by rw [e.2]⟩
  · rw [if_neg hl]; exact ⟨fun e => (by cases e), fun e => absurd e.1 hl⟩

theorem new_eq {n xs : Str} {c : Cls} (h : make sp ok n xs = some c) {as v : List V} (hv : c.new py as = some v) : v = py.str n :: as :=
  ((c91_new h (split_iff.2 rfl) as v).1 hv).2

/-- C91: two tuples are equal just if their types have the same name and their fields agree. -/
theorem c91_eq (hp : Strings py) {n xs m ys : Str} {c d : Cls} (hc : make sp ok n xs = some c) (hd : make sp ok m ys = some d)
    {as bs v w : List V} (hv : c.new py as = some v) (hw : d.new py bs = some w) :
    tupEq py v w = true ↔ n = m ∧ Same py as bs := by
  rw [new_eq hc hv, new_eq hd hw, tupEq_iff, same_cons, hp.eq]

/-- C91: tuples of types with different names can be compared whatever is in their fields, and the names decide. -/
theorem c91_less (hp : Strings py) {n xs m ys : Str} {c d : Cls} (hc : make sp ok n xs = some c) (hd : make sp ok m ys = some d)
    {as bs v w : List V} (hv : c.new py as = some v) (hw : d.new py bs = some w) (hne : n ≠ m) :
    tupLt py v w = some (decide (n < m)) := by
  rw [new_eq hc hv, new_eq hd hw, tupLt, if_neg (fun e => hne ((hp.eq n m).1 e)), hp.lt]

/-- C91: for tuples of types with the same name the first field in which they differ decides; there is an exception just if its values cannot be compared. -/
theorem c91_fields (hp : Strings py) {n xs : Str} {c : Cls} (hc : make sp ok n xs = some c)
    {as bs v w : List V} (hv : c.new py as = some v) (hw : c.new py bs = some w) :
    (Same py as bs → tupLt py v w = some false) ∧ (∀ a b, Differ py as bs a b → tupLt py v w = py.lt a b) := by
  rw [new_eq hc hv, new_eq hc hw, tupLt, if_pos ((hp.eq n n).2 rfl)]
  exact ⟨tupLt_same, fun a b ⟨i, h1, h2, h3, h4⟩ => tupLt_differ i h1 h2 h3 h4⟩

/-- C91: each field gives its argument; `T` gives the name of the type unless there is a field of that name; other names give nothing. -/
theorem c91_read {n xs : Str} {c : Cls} {fs : List Str} (hc : make sp ok n xs = some c) (hw : Words sp xs fs)
    {as v : List V} (hv : c.new py as = some v) :
    (∀ (i : Nat) (f : Str), fs[i]? = some f → c.read v f = as[i]?) ∧
    ("T".toList ∉ fs → c.read v "T".toList = some (py.str n)) ∧
    (∀ f, f ∉ fs → f ≠ "T".toList → c.read v f = none) := by
  obtain rfl := new_eq hc hv
  obtain ⟨_, _, hn, rfl⟩ := (make_iff hw).1 hc
  refine ⟨fun i f hi => ?_, fun ht => ?_, fun f hf ht => ?_⟩
  · unfold Cls.read
    dsimp only
    rw [enumerate, List.reverse_cons, List.find?_append, find_at (0 + 1) i hn hi]
    show (py.str n :: as)[0 + 1 + i]? = _
    rw [show 0 + 1 + i = i + 1 by omega, List.getElem?_cons_succ]
  · unfold Cls.read
    dsimp only
    rw [enumerate, List.reverse_cons, List.find?_append, find_none (0 + 1) ht]
    simp
  · unfold Cls.read
    dsimp only
    rw [find_none 0 (fun hm => (List.mem_cons.1 hm).elim ht hf)]
    rfl

theorem mapM_zip {f : Str → Option V} : ∀ (fs : List Str) (as : List V), fs.length = as.length → (∀ (i : Nat) (g : Str), fs[i]? = some g → f g = as[i]?) →
    fs.mapM (fun g => (f g).map (fun x => (g, x))) = some (fs.zip as)
  | [], [], _, _ => rfl
  | [], _ :: _, h, _ => nomatch h
  | _ :: _, [], h, _ => nomatch h
  | g :: fs, a :: as, hl, h => by
    have h0 : f g = some a := h 0 g rfl
    have ih := mapM_zip (f := f) fs as (by simpa using hl) (fun i x hx => h (i + 1) x (by simpa using hx))
    rw [List.mapM_cons, h0, ih]
    rfl

/-- C91: `items` gives the name of the type and then each field with its value, if no field is called `T` or `items`. -/
theorem c91_items {n xs : Str} {c : Cls} {fs : List Str} (hc : make sp ok n xs = some c) (hw : Words sp xs fs)
    {as v : List V} (hv : c.new py as = some v) (ht : "T".toList ∉ fs) (hi : "items".toList ∉ fs) :
    c.items v = some (("T".toList, py.str n) :: fs.zip as) := by
  obtain ⟨r1, r2, _⟩ := c91_read hc hw hv
  have hl := ((c91_new hc hw as v).1 hv).1
  obtain ⟨_, _, hn, he⟩ := (make_iff hw).1 hc
  have hp : c.props = enumerate 0 ("T".toList :: fs) := by rw [he]
  have hy : c.yields = "T".toList :: fs := by rw [he]
  unfold Cls.items
  rw [hp, names_enumerate, if_neg, hy, List.mapM_cons, r2 ht, mapM_zip fs as hl.symm r1]
  · rfl
  · rw [decide_eq_true_eq]
    intro hm
    rcases List.mem_cons.1 hm with h | h
    · exact absurd h (by decide)
    · exact hi h

/-- C91: the text of a tuple is the name of the type and, in parentheses, each field with the text of its value. -/
theorem c91_repr (hp : Strings py) (hok : ∀ s, ok s = true → '%' ∉ s) {n xs : Str} {c : Cls} {fs : List Str}
    (hc : make sp ok n xs = some c) (hw : Words sp xs fs) {as v : List V} (hv : c.new py as = some v) (s : Str) :
    c.show py v = some s ↔ ∃ t, Listing (fs.zip (as.map py.repr)) t ∧ s = n ++ "(".toList ++ t ++ ")".toList := by
  have hl := ((c91_new hc hw as v).1 hv).1
  obtain rfl := new_eq hc hv
  obtain ⟨_, h2, hn, rfl⟩ := (make_iff hw).1 hc
  obtain ⟨t, ht, he⟩ := percent_join (py := py) ")".toList (by decide) fs as (fun f hf => hok f (h2 f hf).1) hl.symm
  have hs : (Cls.mk n fs ("%s(".toList ++ join (fs.map (· ++ "=%r".toList)) ++ ")".toList) ("T".toList :: fs) (enumerate 0 ("T".toList :: fs))).show py
      (py.str n :: as) = some (n ++ "(".toList ++ t ++ ")".toList) := by
    show percent py ("%s(".toList ++ join (fs.map (· ++ "=%r".toList)) ++ ")".toList) (py.str n :: as) = _
    have h1 : "%s(".toList ++ join (fs.map (· ++ "=%r".toList)) ++ ")".toList =
        '%' :: 's' :: (['('] ++ (join (fs.map (· ++ "=%r".toList)) ++ ")".toList)) := by
      show (['%', 's', '('] ++ _) ++ _ = _
      simp
    rw [h1, percent_s, percent_plain _ _ _ (by decide), he, hp.text]
    simp
  rw [hs]
  constructor
  · intro e; exact ⟨t, ht, (Option.some.inj e).symm⟩
  · rintro ⟨t', ht', rfl⟩; rw [listing_unique ht ht']

/-- C91: with a field called `T` the name of the type cannot be read any more; the tuples still differ from those of other types. -/
theorem c91_shadowed {n xs : Str} {c : Cls} {fs : List Str} (hc : make sp ok n xs = some c) (hw : Words sp xs fs)
    {as v : List V} (hv : c.new py as = some v) (i : Nat) (hi : fs[i]? = some "T".toList) : c.read v "T".toList = as[i]? :=
  (c91_read hc hw hv).1 i _ hi

/-! ## A case -/

/-- Strings and truth values, which cannot be compared with each other. -/
def strBool : Py (Str ⊕ Bool) where
  str := .inl
  eq a b := match a, b with
    | .inl s, .inl t => decide (s = t)
    | .inr x, .inr y => x == y
    | _, _ => false
  lt a b := match a, b with
    | .inl s, .inl t => some (decide (s < t))
    | .inr x, .inr y => some (!x && y)
    | _, _ => none
  text a := match a with
    | .inl s => s
    | .inr x => if x then "True".toList else "False".toList
  repr a := match a with
    | .inl s => "'".toList ++ s ++ "'".toList
    | .inr x => if x then "True".toList else "False".toList

theorem strings_strBool : Strings strBool := ⟨fun a b => by simp [strBool], fun _ _ => rfl, fun _ => rfl⟩

def space (c : Char) : Bool := c == ' '
def name (s : Str) : Bool := s ≠ [] && s.all (fun c => c.isAlphanum || c == '_')

theorem name_ok : ∀ s, name s = true → '%' ∉ s := by
  intro s h hm
  unfold name at h
  rw [Bool.and_eq_true, List.all_eq_true] at h
  exact absurd (h.2 _ hm) (by decide)

/-- The type of lookahead constraints (es_parser.py:55). -/
def look : Cls := ⟨"C_lookahead".toList, ["matches".toList, "tss".toList], "%s(matches=%r, tss=%r)".toList, ["T".toList, "matches".toList, "tss".toList],
  [("T".toList, 0), ("matches".toList, 1), ("tss".toList, 2)]⟩
/-- The type of literals (es_parser.py:48). -/
def tlit : Cls := ⟨"T_lit".toList, ["c".toList], "%s(c=%r)".toList, ["T".toList, "c".toList], [("T".toList, 0), ("c".toList, 1)]⟩

example : make space name "C_lookahead".toList "matches tss".toList = some look := by decide +kernel
example : make space name "T_lit".toList " c".toList = some tlit := by decide +kernel
example : make space name "C_no_LT_here".toList [] = some ⟨"C_no_LT_here".toList, [], "%s()".toList, ["T".toList], [("T".toList, 0)]⟩ := by decide +kernel
example : make space name "A".toList "b b".toList = none := by decide +kernel

theorem words_look : Words space "matches tss".toList ["matches".toList, "tss".toList] := split_iff.2 (by decide +kernel)

example : look.new strBool [.inr true, .inl "x".toList] = some [.inl "C_lookahead".toList, .inr true, .inl "x".toList] := rfl
example : tlit.new strBool [.inl "x".toList] = some [.inl "T_lit".toList, .inl "x".toList] := rfl

/-- A truth value and a string cannot be compared, but the tuples that have them can. -/
example : strBool.lt (.inr true) (.inl "x".toList) = none ∧
    tupLt strBool [.inl "C_lookahead".toList, .inr true, .inl "x".toList] [.inl "T_lit".toList, .inl "x".toList] = some true := by
  refine ⟨rfl, ?_⟩
  have h := c91_less strings_strBool (sp := space) (ok := name) (c := look) (d := tlit) (n := "C_lookahead".toList) (m := "T_lit".toList)
    (xs := "matches tss".toList) (ys := " c".toList) (by decide +kernel) (by decide +kernel)
    (as := [.inr true, .inl "x".toList]) (bs := [.inl "x".toList]) rfl rfl (by decide)
  exact h.trans (by decide +kernel)

/-- Tuples of one type with values that cannot be compared. -/
example : tupLt strBool [.inl "T_lit".toList, .inr true] [.inl "T_lit".toList, .inl "x".toList] = none := by
  refine (c91_fields strings_strBool (sp := space) (ok := name) (c := tlit) (n := "T_lit".toList) (xs := " c".toList) (by decide +kernel)
    (as := [.inr true]) (bs := [.inl "x".toList]) rfl rfl).2 (.inr true) (.inl "x".toList) ⟨0, rfl, rfl, rfl, same_nil⟩

example : look.items (V := Str ⊕ Bool) [.inl "C_lookahead".toList, .inr true, .inl "x".toList] =
    some [("T".toList, .inl "C_lookahead".toList), ("matches".toList, .inr true), ("tss".toList, .inl "x".toList)] :=
  c91_items (py := strBool) (sp := space) (ok := name) (n := "C_lookahead".toList) (xs := "matches tss".toList) (by decide +kernel) words_look
    (as := [.inr true, .inl "x".toList]) rfl (by decide) (by decide)

example : look.show strBool [.inl "C_lookahead".toList, .inr true, .inl "x".toList] = some "C_lookahead(matches=True, tss='x')".toList :=
  (c91_repr strings_strBool name_ok (sp := space) (ok := name) (n := "C_lookahead".toList) (xs := "matches tss".toList) (by decide +kernel) words_look
    (as := [.inr true, .inl "x".toList]) rfl _).2 ⟨_, .more _ _ _ _ _ (.one _ _), rfl⟩

/-- A field called `T` (no type in the program has one). -/
example : ∃ c, make space name "A".toList "x T".toList = some c ∧ c.new strBool [.inr true, .inr false] = some [.inl "A".toList, .inr true, .inr false] ∧
    c.read (V := Str ⊕ Bool) [.inl "A".toList, .inr true, .inr false] "T".toList = some (.inr false) :=
  ⟨⟨"A".toList, ["x".toList, "T".toList], "%s(x=%r, T=%r)".toList, ["T".toList, "x".toList, "T".toList], [("T".toList, 0), ("x".toList, 1), ("T".toList, 2)]⟩,
    by decide +kernel, rfl, rfl⟩

end Verif.Tuples
