import Verif.Annot.Spec
import Verif.Deps.RtLemmas
/-!
# Lemmas about invocations
-/
namespace Verif.Annot
open Deps (Before Has)

theorem exes_iff : ∀ (t : RNode) (xs : List RNode), exes t = some xs ↔ ExList t xs
  | .node l r t ks, xs => by
    constructor
    · intro h
      rw [exes.eq_def] at h
      simp only at h
      by_cases hl : l = "{EXLIST}"
      · subst hl
        rw [if_neg (fun h => h rfl)] at h
        by_cases h1 : r = "{EX}"
        · subst h1
          rw [if_pos rfl] at h
          match ks, h with
          | [x], h => cases h; exact .one
        · rw [if_neg h1] at h
          by_cases h2 : r = "{EXLIST}, {EX}"
          · subst h2
            rw [if_pos rfl] at h
            match ks, h with
            | [i, x], h =>
              simp only [Option.map_eq_some_iff] at h
              obtain ⟨ys, hy, rfl⟩ := h
              exact .more ((exes_iff i ys).1 hy)
          · rw [if_neg h2] at h; cases h
      · rw [if_pos hl] at h; cases h
    · intro h
      cases h with
      | one => rw [exes.eq_def]; simp
      | more hi =>
        rename_i i x ys
        have := (exes_iff i ys).2 hi
        rw [exes.eq_def]; simp [this]

theorem args_iff (l : RNode) (xs : List RNode) : argList l = some xs ↔ ArgsOf l xs := by
  obtain ⟨a, r, t, ks⟩ := l
  constructor
  · intro h
    simp only [argList] at h
    by_cases h1 : a = "{EXLIST_OPT}"
    · subst h1
      rw [if_pos rfl] at h
      simp only [exesOpt] at h
      rw [if_neg (fun h => h rfl)] at h
      by_cases h2 : r = "{EPSILON}"
      · subst h2; rw [if_pos rfl] at h; cases h; exact .none
      · rw [if_neg h2] at h
        by_cases h3 : r = "{EXLIST}"
        · subst h3
          rw [if_pos rfl] at h
          match ks, h with
          | [e], h => exact .list ((exes_iff e xs).1 h)
        · rw [if_neg h3] at h
          by_cases h4 : r = "{var}"
          · subst h4
            rw [if_pos rfl] at h
            match ks, h with
            | x :: _, h => cases h; exact .var
          · rw [if_neg h4] at h; cases h
    · rw [if_neg h1] at h
      by_cases h2 : a = "{EXPR}"
      · subst h2; rw [if_pos rfl] at h; cases h; exact .expr
      · rw [if_neg h2] at h; cases h
  · intro h
    cases h with
    | none => simp [argList, exesOpt, RNode.lhs, RNode.rhs]
    | list he => simp [argList, exesOpt, RNode.lhs, RNode.rhs, RNode.kids, (exes_iff _ _).2 he]
    | var => simp [argList, exesOpt, RNode.lhs, RNode.rhs, RNode.kids]
    | expr => simp [argList, RNode.lhs]

theorem names_sound (whole : String) (o : RNode) : (∀ ns, opNames whole o = some (some ns) → Names whole o ns) ∧ (opNames whole o = some none → AnyVar o) := by
  obtain ⟨l, r, t, ks⟩ := o
  simp only [opNames, AnyVar]
  by_cases h1 : r = "{SIMPLE_OPERATION_NAME}"
  · subst h1; rw [if_pos rfl]; exact ⟨fun ns h => (by cases h; exact .simple), fun h => (by cases h)⟩
  rw [if_neg h1]
  by_cases h2 : r = "{DOTTING}"
  · subst h2
    rw [if_pos rfl]
    match ks with
    | [] => exact ⟨fun _ h => (by cases h), fun h => (by cases h)⟩
    | _ :: _ :: _ => exact ⟨fun _ h => (by cases h), fun h => (by cases h)⟩
    | [.node a b c kk] =>
      match kk with
      | [] => exact ⟨fun _ h => (by cases h), fun h => (by cases h)⟩
      | [_] => exact ⟨fun _ h => (by cases h), fun h => (by cases h)⟩
      | _ :: _ :: _ :: _ => exact ⟨fun _ h => (by cases h), fun h => (by cases h)⟩
      | [x, y] =>
        simp only
        refine ⟨fun ns h => ?_, fun h => by cases h⟩
        by_cases hy : y.text = "[[ModifyOp]]" ∨ y.text = "[[ReadsBytesFrom]]"
        · rw [if_pos hy] at h; cases h; exact .field hy
        · rw [if_neg hy] at h; cases h
          exact .method (fun h => hy (Or.inl h)) (fun h => hy (Or.inr h))
  rw [if_neg h2]
  by_cases h3 : r = "{var}.{cap_word}"
  · subst h3
    rw [if_pos rfl]
    match ks with
    | [] => exact ⟨fun _ h => (by cases h), fun h => (by cases h)⟩
    | [_] => exact ⟨fun _ h => (by cases h), fun h => (by cases h)⟩
    | _ :: _ :: _ :: _ => exact ⟨fun _ h => (by cases h), fun h => (by cases h)⟩
    | [x, y] => exact ⟨fun ns h => (by cases h; exact .ofVar), fun h => (by cases h)⟩
  rw [if_neg h3]
  by_cases h4 : r = "{var}"
  · subst h4
    rw [if_pos rfl]
    by_cases h5 : t = "_conversionOperation_"
    · subst h5; rw [if_pos rfl]; exact ⟨fun ns h => (by cases h; exact .conversion), fun h => (by cases h)⟩
    rw [if_neg h5]
    by_cases h6 : t = "_operation_"
    · subst h6; rw [if_pos rfl]
      by_cases h7 : whole = "_operation_(_leftNumber_, _rightNumber_)"
      · rw [if_pos h7]; exact ⟨fun ns h => (by cases h; exact .operator h7), fun h => (by cases h)⟩
      · rw [if_neg h7]; exact ⟨fun _ h => (by cases h), fun h => (by cases h)⟩
    · rw [if_neg h6]; exact ⟨fun _ h => (by cases h), fun _ => ⟨rfl, h5, h6⟩⟩
  · rw [if_neg h4]; exact ⟨fun _ h => (by cases h), fun h => (by cases h)⟩

theorem names_complete {whole : String} {o : RNode} {ns : List String} (h : Names whole o ns) : opNames whole o = some (some ns) := by
  cases h with
  | simple => simp only [opNames, if_pos]
  | method h1 h2 =>
    simp only [opNames]
    rw [if_neg (by decide), if_pos trivial, if_neg (fun h => h.elim h1 h2)]
  | field h1 =>
    simp only [opNames]
    rw [if_neg (by decide), if_pos trivial, if_pos h1]
  | ofVar =>
    simp only [opNames]
    rw [if_neg (by decide), if_neg (by decide), if_pos trivial]
  | conversion =>
    simp only [opNames]
    rw [if_neg (by decide), if_neg (by decide), if_neg (by decide), if_pos trivial, if_pos trivial]; rfl
  | operator h =>
    simp only [opNames]
    rw [if_neg (by decide), if_neg (by decide), if_neg (by decide), if_pos trivial, if_neg (by decide), if_pos trivial, if_pos h]; rfl

theorem anyVar_complete {whole : String} {o : RNode} (h : AnyVar o) : opNames whole o = some none := by
  obtain ⟨l, r, t, ks⟩ := o
  obtain ⟨h1, h2, h3⟩ := h
  simp only [RNode.rhs, RNode.text] at h1 h2 h3
  subst h1
  simp only [opNames]
  rw [if_neg (by decide), if_neg (by decide), if_neg (by decide), if_pos trivial, if_neg h2, if_neg h3]

theorem unwrap_iff (o o' : RNode) : o.lhs = "{OPN_BEFORE_PAREN}" ∧ unwrap o = some o' ↔ Name o o' := by
  obtain ⟨l, r, t, ks⟩ := o
  simp only [unwrap, RNode.lhs]
  constructor
  · rintro ⟨rfl, h⟩
    by_cases h1 : r = "{h_emu_meta_start}{OPN_BEFORE_PAREN}{h_emu_meta_end}"
    · subst h1
      rw [if_pos rfl] at h
      match ks, h with
      | [_, x, _], h => cases h; exact .marked
    · rw [if_neg h1] at h; cases h; exact .plain h1
  · intro h
    cases h with
    | plain h => exact ⟨rfl, by rw [if_neg h]⟩
    | marked => exact ⟨rfl, by rw [if_pos rfl]⟩

theorem more_iff (w x : RNode) (ks more : List RNode) (r : String) (hr : Deps.occursIn "{WITH_ARGS}".toList r.toList = true) :
    withArgs r (w :: x :: ks) = some more ↔ More ks more := by
  rw [withArgs, if_pos hr]
  cases ks with
  | nil => exact ⟨fun h => (by cases h), fun h => (by cases h)⟩
  | cons k ks =>
    obtain ⟨l, r', t, xs⟩ := k
    simp only [List.getElem?_cons_succ, List.getElem?_cons_zero]
    constructor
    · intro h
      by_cases hl : l = "{WITH_ARGS}"
      · subst hl
        rw [if_neg (fun h => h rfl)] at h
        by_cases hp : Deps.occursIn "{PASSING}".toList r'.toList = true
        · rw [if_pos hp] at h
          rw [Deps.has_iff] at hp
          cases h
          cases xs with
          | nil => exact .nothing hp
          | cons y ys => exact .passing hp
        · rw [if_neg hp] at h
          rw [Deps.has_iff] at hp
          cases h
          exact .all hp
      · rw [if_pos hl] at h; cases h
    · intro h
      cases h with
      | passing hp => rw [if_neg (fun h => h rfl), if_pos ((Deps.has_iff _ _).2 hp)]; rfl
      | nothing hp => rw [if_neg (fun h => h rfl), if_pos ((Deps.has_iff _ _).2 hp)]; rfl
      | all hp => rw [if_neg (fun h => h rfl), if_neg (fun h => hp ((Deps.has_iff _ _).1 h))]

/-- The forms of the lists. -/
theorem inner_mem {r : String} : innerForms.contains r = true ↔ r ∈ ["{h_emu_meta_start}{NAMED_OPERATION_INVOCATION}{h_emu_meta_end}",
    "{h_emu_meta_start}{NAMED_OPERATION_INVOCATION}{h_emu_meta_end} (see {h_emu_xref})", "{PREFIX_PAREN}"] := List.contains_iff_mem

theorem isdo_mem {r : String} : isdoForms.contains r = true ↔ r = "the {ISDO_NAME} of {PROD_REF}" ∨ r = "{ISDO_NAME} of {PROD_REF}" := by
  rw [List.contains_iff_mem, isdoForms]; simp only [List.mem_cons, List.not_mem_nil, or_false]

/-- The forms without further arguments. -/
def ofForms : List String := ["the {cap_word} of {LOCAL_REF}", "the {cap_word} of {LOCAL_REF} (see {h_emu_xref})", "the {cap_word} of {LOCAL_REF} as defined in {h_emu_xref}",
  "{cap_word} of {LOCAL_REF}", "the result of performing {cap_word} on {EX}"]

theorem cap_mem {r : String} : capForms.contains r = true ↔ r ∈ ofForms ∨ (r = "the {cap_word} of {LOCAL_REF} {WITH_ARGS}" ∨ r = "{cap_word} of {LOCAL_REF} {WITH_ARGS}") := by
  rw [List.contains_iff_mem, capForms, ofForms]
  simp only [List.mem_cons, List.not_mem_nil, or_false]
  constructor
  · rintro (h | h | h | h | h | h | h) <;> simp only [h, true_or, or_true]
  · rintro ((h | h | h | h | h) | (h | h)) <;> simp only [h, true_or, or_true]

theorem of_noArgs {r : String} (h : r ∈ ofForms) : Deps.occursIn "{WITH_ARGS}".toList r.toList = false := by
  have : ∀ x ∈ ofForms, Deps.occursIn "{WITH_ARGS}".toList x.toList = false := by decide +kernel
  exact this r h

theorem with_args {r : String} (h : r = "the {cap_word} of {LOCAL_REF} {WITH_ARGS}" ∨ r = "{cap_word} of {LOCAL_REF} {WITH_ARGS}") :
    Deps.occursIn "{WITH_ARGS}".toList r.toList = true := by
  rcases h with rfl | rfl <;> decide +kernel

theorem fixed_lookup {r n : String} (h : fixedForms.lookup r = some n) : (r = "the CharSet returned by {h_emu_grammar}" ∧ n = "CompileToCharSet") ∨
    ((r = "{LOCAL_REF} Contains {G_SYM}" ∨ r = "{LOCAL_REF} Contains {var}") ∧ n = "Contains") := by
  rw [fixedForms, List.lookup_cons] at h
  by_cases h1 : r = "the CharSet returned by {h_emu_grammar}"
  · rw [h1, beq_self_eq_true] at h; cases h; exact Or.inl ⟨h1, rfl⟩
  rw [beq_false_of_ne h1, List.lookup_cons] at h
  simp only at h
  by_cases h2 : r = "{LOCAL_REF} Contains {G_SYM}"
  · rw [h2, beq_self_eq_true] at h; cases h; exact Or.inr ⟨Or.inl h2, rfl⟩
  rw [beq_false_of_ne h2, List.lookup_cons] at h
  simp only at h
  by_cases h3 : r = "{LOCAL_REF} Contains {var}"
  · rw [h3, beq_self_eq_true] at h; cases h; exact Or.inr ⟨Or.inr h3, rfl⟩
  rw [beq_false_of_ne h3] at h
  cases h

theorem noi_sound (r t : String) (ks : List RNode) :
    (∀ n, noteNoi r ks = some (some n) → Invokes (.node "{NAMED_OPERATION_INVOCATION}" r t ks) n.1 n.2) ∧
    (noteNoi r ks = some none → Silent (.node "{NAMED_OPERATION_INVOCATION}" r t ks)) := by
  simp only [noteNoi]
  by_cases h1 : innerForms.contains r = true
  · rw [if_pos h1]; exact ⟨fun _ h => (by cases h), fun _ => .inner (inner_mem.1 h1)⟩
  rw [if_neg h1]
  by_cases h2 : isdoForms.contains r = true
  · rw [if_pos h2]
    match ks with
    | [] => exact ⟨fun _ h => (by cases h), fun h => (by cases h)⟩
    | [_] => exact ⟨fun _ h => (by cases h), fun h => (by cases h)⟩
    | w :: x :: ks =>
      simp only
      by_cases hw : w.rhs = "{cap_word}"
      · rw [if_pos hw]; exact ⟨fun _ h => (by cases h; exact .inline (isdo_mem.1 h2) hw), fun h => (by cases h)⟩
      · rw [if_neg hw]; exact ⟨fun _ h => (by cases h), fun h => (by cases h)⟩
  rw [if_neg h2]
  by_cases h3 : capForms.contains r = true
  · rw [if_pos h3]
    match ks with
    | [] => exact ⟨fun _ h => (by cases h), fun h => (by cases h)⟩
    | [_] => exact ⟨fun _ h => (by cases h), fun h => (by cases h)⟩
    | w :: x :: ks =>
      simp only [Option.map_eq_some_iff]
      refine ⟨?_, fun h => by obtain ⟨_, _, h⟩ := h; cases h⟩
      rintro n ⟨more, hm, hn⟩
      cases hn
      rcases cap_mem.1 h3 with h | h
      · rw [withArgs, if_neg (by rw [of_noArgs h]; decide)] at hm
        cases hm
        exact .of h
      · exact .ofWith h ((more_iff w x ks more r (with_args h)).1 hm)
  rw [if_neg h3]
  by_cases h4 : r = byName
  · rw [if_pos h4]
    match ks with
    | [] => exact ⟨fun _ h => (by cases h), fun h => (by cases h)⟩
    | [_] => exact ⟨fun _ h => (by cases h), fun h => (by cases h)⟩
    | y :: x :: ks => subst h4; exact ⟨fun _ h => (by cases h; exact .job), fun h => (by cases h)⟩
  rw [if_neg h4]
  cases hl : fixedForms.lookup r with
  | none => exact ⟨fun _ h => (by cases h), fun h => (by cases h)⟩
  | some n =>
    refine ⟨fun _ h => ?_, fun h => (by cases h)⟩
    cases h
    rcases fixed_lookup hl with ⟨rfl, rfl⟩ | ⟨h, rfl⟩
    · exact .charSet
    · exact .contains h

theorem prefix_sound (r t : String) (ks : List RNode) :
    (∀ n, notePrefix r t ks = some (some n) → Invokes (.node "{PREFIX_PAREN}" r t ks) n.1 n.2) ∧
    (notePrefix r t ks = some none → Silent (.node "{PREFIX_PAREN}" r t ks)) := by
  simp only [notePrefix]
  by_cases h1 : r = "{OPN_BEFORE_PAREN}({EXLIST_OPT})" ∨ r = "{OPN_BEFORE_PAREN}({EXPR})"
  · rw [if_pos h1]
    match ks with
    | [] => exact ⟨fun _ h => (by cases h), fun h => (by cases h)⟩
    | [_] => exact ⟨fun _ h => (by cases h), fun h => (by cases h)⟩
    | _ :: _ :: _ :: _ => exact ⟨fun _ h => (by cases h), fun h => (by cases h)⟩
    | [o, l] =>
      simp only
      by_cases h2 : o.lhs = "{OPN_BEFORE_PAREN}"
      · rw [if_neg (fun h => h h2)]
        cases h3 : unwrap o with
        | none => exact ⟨fun _ h => (by cases h), fun h => (by cases h)⟩
        | some o' =>
          have hn := (unwrap_iff o o').1 ⟨h2, h3⟩
          simp only [Option.bind_eq_bind, Option.bind_some]
          cases h4 : opNames t o' with
          | none => exact ⟨fun _ h => (by cases h), fun h => (by cases h)⟩
          | some ns =>
            simp only [Option.bind_some]
            cases h5 : argList l with
            | none => exact ⟨fun _ h => (by cases h), fun h => (by cases h)⟩
            | some xs =>
              simp only [Option.bind_some]
              cases ns with
              | none => exact ⟨fun _ h => (by cases h), fun _ => .closure h1 hn ((names_sound t o').2 h4) ((args_iff l xs).1 h5)⟩
              | some ns => exact ⟨fun _ h => (by cases h; exact .paren h1 hn ((names_sound t o').1 ns h4) ((args_iff l xs).1 h5)), fun h => (by cases h)⟩
      · rw [if_pos h2]; exact ⟨fun _ h => (by cases h), fun h => (by cases h)⟩
  · rw [if_neg h1]; exact ⟨fun _ h => (by cases h), fun h => (by cases h)⟩

theorem note_sound (d : RNode) : (∀ n, note d = some (some n) → Invokes d n.1 n.2) ∧ (note d = some none → Silent d) := by
  obtain ⟨l, r, t, ks⟩ := d
  simp only [note]
  by_cases h1 : l = "{NAMED_OPERATION_INVOCATION}"
  · subst h1; rw [if_pos rfl]; exact noi_sound r t ks
  rw [if_neg h1]
  by_cases h2 : l = "{PREFIX_PAREN}"
  · subst h2; rw [if_pos rfl]; exact prefix_sound r t ks
  rw [if_neg h2]
  by_cases h3 : l ++ " : " ++ r = raceProd
  · rw [if_pos h3]; exact ⟨fun _ h => (by cases h; exact .race h1 h2 h3), fun h => (by cases h)⟩
  rw [if_neg h3]
  by_cases h4 : l ++ " : " ++ r = fieldsProd
  · rw [if_pos h4]; exact ⟨fun _ h => (by cases h; exact .fields h1 h2 h4), fun h => (by cases h)⟩
  rw [if_neg h4]
  by_cases h5 : l ++ " : " ++ r = abruptProd
  · rw [if_pos h5]; exact ⟨fun _ h => (by cases h; exact .abrupt h1 h2 h5), fun h => (by cases h)⟩
  rw [if_neg h5]
  refine ⟨fun _ h => (by cases h), fun _ => .other h1 h2 ?_⟩
  simp only [List.mem_cons, List.not_mem_nil, or_false, not_or]
  exact ⟨h3, h4, h5⟩

theorem noForm {fs : List String} {r : String} (h : r ∉ fs) : ¬ fs.contains r = true := fun h' => h (List.contains_iff_mem.1 h')

theorem prefix_eq {r t : String} {o o' l : RNode} {ns : Option (List String)} {xs : List RNode}
    (h1 : r = "{OPN_BEFORE_PAREN}({EXLIST_OPT})" ∨ r = "{OPN_BEFORE_PAREN}({EXPR})") (h2 : Name o o') (h3 : opNames t o' = some ns) (h4 : ArgsOf l xs) :
    note (.node "{PREFIX_PAREN}" r t [o, l]) = some (ns.map (fun n => (n, xs))) := by
  obtain ⟨hl, hu⟩ := (unwrap_iff o o').2 h2
  simp only [note]
  rw [if_neg (by decide), if_pos trivial]
  simp only [notePrefix]
  rw [if_pos h1, if_neg (fun h => h hl), hu, (args_iff l xs).2 h4]
  simp only [Option.bind_eq_bind, Option.bind_some, h3]

theorem noi_note {r t : String} {ks : List RNode} : note (.node "{NAMED_OPERATION_INVOCATION}" r t ks) = noteNoi r ks := by
  simp only [note]; rw [if_pos trivial]

theorem other_note {l r t : String} {ks : List RNode} (h1 : l ≠ "{NAMED_OPERATION_INVOCATION}") (h2 : l ≠ "{PREFIX_PAREN}") : note (.node l r t ks) =
    if l ++ " : " ++ r = raceProd then some (some (["Races"], []))
    else if l ++ " : " ++ r = fieldsProd then some (some (["CreateBuiltinFunction", "initializer for @@unscopables"], []))
    else if l ++ " : " ++ r = abruptProd then some (some (["IfAbruptRejectPromise"], ks.take 2))
    else some none := by
  simp only [note]
  rw [if_neg h1, if_neg h2]

theorem invokes_note {d : RNode} {ns : List String} {args : List RNode} (h : Invokes d ns args) : note d = some (some (ns, args)) := by
  cases h with
  | inline hr hw =>
    rw [noi_note]
    simp only [noteNoi]
    rw [if_neg (noForm (by rcases hr with rfl | rfl <;> decide +kernel)), if_pos (isdo_mem.2 hr), if_pos hw]
  | of hr =>
    rw [noi_note]
    simp only [noteNoi]
    have hd : ∀ x ∈ ofForms, x ∉ innerForms ∧ x ∉ isdoForms := by decide +kernel
    rw [if_neg (noForm (hd _ hr).1), if_neg (noForm (hd _ hr).2), if_pos (cap_mem.2 (Or.inl hr)), withArgs, if_neg (by rw [of_noArgs hr]; decide)]
    rfl
  | ofWith hr hm =>
    rw [noi_note]
    simp only [noteNoi]
    rw [if_neg (noForm (by rcases hr with rfl | rfl <;> decide +kernel)), if_neg (noForm (by rcases hr with rfl | rfl <;> decide +kernel)),
      if_pos (cap_mem.2 (Or.inr hr)), (more_iff _ _ _ _ _ (with_args hr)).2 hm]
    rfl
  | job =>
    rw [noi_note]
    simp only [noteNoi]
    rw [if_neg (noForm (by decide +kernel)), if_neg (noForm (by decide +kernel)), if_neg (noForm (by decide +kernel)), byName, if_pos rfl]
  | charSet =>
    rw [noi_note]
    simp only [noteNoi]
    rw [if_neg (noForm (by decide +kernel)), if_neg (noForm (by decide +kernel)), if_neg (noForm (by decide +kernel)), if_neg (by decide +kernel)]
    rfl
  | contains hr =>
    rw [noi_note]
    simp only [noteNoi]
    rcases hr with rfl | rfl <;>
      rw [if_neg (noForm (by decide +kernel)), if_neg (noForm (by decide +kernel)), if_neg (noForm (by decide +kernel)), if_neg (by decide +kernel)] <;> rfl
  | paren h1 h2 h3 h4 => exact prefix_eq h1 h2 (names_complete h3) h4
  | race h1 h2 h3 => rw [other_note h1 h2, if_pos (show _ = raceProd from h3)]
  | fields h1 h2 h3 => rw [other_note h1 h2, h3, if_neg (by decide +kernel), fieldsProd, if_pos rfl]
  | abrupt h1 h2 h3 => rw [other_note h1 h2, h3, if_neg (by decide +kernel), if_neg (by decide +kernel), abruptProd, if_pos rfl]

theorem silent_note {d : RNode} (h : Silent d) : note d = some none := by
  cases h with
  | inner h => rw [noi_note]; simp only [noteNoi]; rw [if_pos (inner_mem.2 h)]
  | closure h1 h2 h3 h4 => exact prefix_eq h1 h2 (anyVar_complete h3) h4
  | other h1 h2 h3 =>
    simp only [List.mem_cons, List.not_mem_nil, or_false, not_or] at h3
    rw [other_note h1 h2, raceProd, fieldsProd, abruptProd, if_neg h3.1, if_neg h3.2.1, if_neg h3.2.2]

theorem note_iff (d : RNode) (ns : List String) (args : List RNode) : note d = some (some (ns, args)) ↔ Invokes d ns args :=
  ⟨(note_sound d).1 (ns, args), invokes_note⟩

theorem note_none_iff (d : RNode) : note d = some none ↔ Silent d := ⟨(note_sound d).2, silent_note⟩

theorem note_fail_iff (d : RNode) : note d ≠ none ↔ Silent d ∨ ∃ ns args, Invokes d ns args := by
  constructor
  · intro h
    cases hn : note d with
    | none => exact absurd hn h
    | some x =>
      cases x with
      | none => exact Or.inl ((note_none_iff d).1 hn)
      | some n => exact Or.inr ⟨n.1, n.2, (note_iff d n.1 n.2).1 hn⟩
  · rintro (h | ⟨ns, args, h⟩)
    · rw [silent_note h]; simp
    · rw [invokes_note h]; simp

end Verif.Annot
