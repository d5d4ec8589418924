import Verif.Paths.ExclLemmas
namespace Verif.Paths
open Verif.Sections (isWord)
open Spec (Base Key Path Word Phrase)

/-! ## The branches of `get_pdn` -/

theorem pdn_fixed {s r : Str} (h1 : pdnInner s = none) (h2 : fixed s = some r) : getPdn s = some r := by rw [getPdn, h1, h2]

theorem pdn_iterators {s u : Str} (h1 : pdnInner s = none) (h2 : fixed s = none) (h3 : iterators s = some u) :
    getPdn s = (((splitWords u).1 :: (splitWords u).2).mapM capital).bind (fun ws => some (pc (ws.flatten ++ "IteratorPrototype".toList))) := by
  rw [getPdn, h1, h2, h3]; rfl

theorem pdn_percentProto {s w : Str} (h1 : pdnInner s = none) (h2 : fixed s = none) (h3 : iterators s = none) (h4 : percentProto s = some w) : getPdn s = some (pc (w ++ ".prototype".toList)) := by
  rw [getPdn, h1, h2, h3, h4]

theorem pdn_proto {s w : Str} (h1 : pdnInner s = none) (h2 : fixed s = none) (h3 : iterators s = none) (h4 : percentProto s = none) (h5 : proto s = some w) : getPdn s = (normalize (w ++ ".prototype".toList)).map pc := by
  rw [getPdn, h1, h2, h3, h4, h5]

theorem pdn_rest {s : Str} (h1 : pdnInner s = none) (h2 : fixed s = none) (h3 : iterators s = none) (h4 : percentProto s = none) (h5 : proto s = none) :
    getPdn s = match thing s with
      | some w => some (pc w)
      | none => match dotted s with
        | some p => some (pc p)
        | none => match theFunction s with
          | some w => some (pc w)
          | none => match accessor s with
            | some (gs, p) => (normalize p).map (fun n => pc (n ++ ':' :: gs))
            | none => (normalize s).map pc := by
  rw [getPdn, h1, h2, h3, h4, h5]; rfl

theorem pc_eq (s : Str) : pc s = '%' :: s ++ ['%'] := rfl

theorem pdn_text (i : Str) : (Phrase.pdn i).text = pc i := rfl

theorem pdn_name (i : Str) : (Phrase.pdn i).name = if i = "GeneratorFunction.prototype.prototype".toList then "GeneratorPrototype".toList
    else if i = "AsyncGeneratorFunction.prototype.prototype".toList then "AsyncGeneratorPrototype".toList else i := rfl

theorem pc_inj {a b : Str} : pc a = pc b ↔ a = b := by simp [pc_eq]

theorem getPdn_pdn {i : Str} (h : i ≠ [] ∧ '%' ∉ i) : getPdn (pc i) = some (pc (Phrase.pdn i).name) := by
  rw [getPdn, (pdnInner_iff (s := pc i)).2 ⟨rfl, h⟩, pdn_name]
  have e1 : "%GeneratorFunction.prototype.prototype%".toList = pc "GeneratorFunction.prototype.prototype".toList := by decide +kernel
  have e2 : "%AsyncGeneratorFunction.prototype.prototype%".toList = pc "AsyncGeneratorFunction.prototype.prototype".toList := by decide +kernel
  have e3 : "%GeneratorPrototype%".toList = pc "GeneratorPrototype".toList := by decide +kernel
  have e4 : "%AsyncGeneratorPrototype%".toList = pc "AsyncGeneratorPrototype".toList := by decide +kernel
  rw [e1, e2, e3, e4]
  show (if _ then _ else _) = _
  simp only [pc_inj]
  split
  · rfl
  · split <;> rfl

/-- The special names aside, a path is its own name between percent signs. -/
theorem single_percent {w : Str} (hw : Word w) : getPdn (pc w) = some (pc w) := by
  rw [getPdn_pdn ⟨hw.1, word_ne hw (by decide)⟩, pdn_name]
  have h : '.' ∉ w := word_ne hw (by decide)
  rw [if_neg, if_neg]
  · rintro rfl; exact h (by decide +kernel)
  · rintro rfl; exact h (by decide +kernel)

theorem iterators_text (w : Str) (ws : List (Bool × Str)) (c : Bool) :
    (Phrase.iterators w ws c).text = "the prototype of ".toList ++ ((w ++ ws.flatMap (fun x => Spec.sep x.1 :: x.2)) ++ if c then " Iterator objects".toList else " iterator objects".toList) := by
  have : (Phrase.iterators w ws c).text = "the prototype of ".toList ++ w ++ ws.flatMap (fun x => Spec.sep x.1 :: x.2) ++ (if c then " Iterator objects".toList else " iterator objects".toList) := rfl
  rw [this]; simp only [List.append_assoc]

theorem iterators_name (w : Str) (ws : List (Bool × Str)) (c : Bool) : (Phrase.iterators w ws c).name =
    Spec.capital w ++ ws.flatMap (fun x => Spec.capital x.2) ++ "IteratorPrototype".toList := rfl

theorem accessor_text (b : Bool) (p : Path) : (Phrase.accessor b p).text = (if b then "set ".toList else "get ".toList) ++ p.text := rfl
theorem accessor_name (b : Bool) (p : Path) : (Phrase.accessor b p).name = p.name ++ ':' :: (if b then "set".toList else "get".toList) := by
  have : (Phrase.accessor b p).name = p.name ++ if b then ":set".toList else ":get".toList := rfl
  rw [this]; cases b <;> rfl

theorem proto_name (a : Bool) (w : Str) (o : Bool) : (Phrase.proto a w o).name = w ++ ".prototype".toList := rfl
theorem percentProto_name (a : Bool) (w : Str) : (Phrase.percentProto a w).name = w ++ ".prototype".toList := rfl
theorem dotted_name (w : Str) (ws : List Str) (i : Bool) : (Phrase.dotted w ws i).name = w ++ ws.flatMap (fun x => '.' :: x) := rfl
theorem path_text (p : Path) : (Phrase.path p).text = p.text := rfl
theorem path_name (p : Path) : (Phrase.path p).name = p.name := rfl

theorem norm_proto {w : Str} (hw : Word w) : normalize (w ++ ".prototype".toList) = some (w ++ ".prototype".toList) :=
  (normalize_ok _ _).2 ⟨⟨.word w, [.string "prototype".toList]⟩, ⟨hw, by simp [Key.Ok]; exact wordy_iff.1 (by decide)⟩,
    by simp [Path.text, bt_word, kt_string], by simp [Path.name, bn_word, kn_string]⟩

theorem path_ends_not {p : Path} (hp : p.Ok) {w : String} (h : w ≠ "objects") : Ends p.text ≠ (w.toList, some ' ') := fun e => by
  have := (ends_space hp e).1
  exact h (String.toList_inj.1 this)

/-- A path is only read as an accessor if it starts with `get [` or `set [`. -/
theorem path_get {p : Path} (hp : p.Ok) {q : Str} {w : String} (hw : w = "get" ∨ w = "set") (h : p.text = w.toList ++ ' ' :: q) :
    ∃ v, p.base = .word w.toList ∧ p.keys.head? = some (.symbol v) := by
  obtain ⟨b, ks⟩ := p
  have ht : Path.text ⟨b, ks⟩ = b.text ++ ks.flatMap Key.text := rfl
  rw [ht] at h
  cases b with
  | word v =>
    have hv : Word v := hp.1
    rw [bt_word] at h
    cases ks with
    | nil =>
      exfalso
      rw [List.flatMap_nil, List.append_nil] at h
      exact word_ne hv (by decide : isWord ' ' = false) (by rw [h]; simp)
    | cons k ks =>
      have hk := hp.2 k (by simp)
      cases k with
      | string u =>
        exfalso
        rw [List.flatMap_cons, kt_string] at h
        have hs : ∀ c ∈ w.toList, isWord c = true := by rcases hw with rfl | rfl <;> decide
        obtain ⟨c, r, hcr, hc⟩ := word_head hv
        have key : ∀ (a b x y : Str), (∀ c ∈ a, isWord c = true) → (∀ c ∈ b, isWord c = true) → a ++ '.' :: x ≠ b ++ ' ' :: y := by
          intro a
          induction a with
          | nil =>
            intro b x y _ hb e
            cases b with
            | nil => simp at e
            | cons d b =>
              simp at e
              have := hb d (by simp)
              rw [← e.1] at this; exact absurd this (by decide)
          | cons c a ih =>
            intro b x y ha hb e
            cases b with
            | nil =>
              simp at e
              have := ha c (by simp)
              rw [e.1] at this; exact absurd this (by decide)
            | cons d b =>
              simp only [List.cons_append, List.cons.injEq] at e
              exact ih b x y (fun c hc => ha c (by simp [hc])) (fun c hc => hb c (by simp [hc])) e.2
        exact key v w.toList _ q (word_all hv) hs h
      | symbol u =>
        refine ⟨u, ?_, rfl⟩
        rw [List.flatMap_cons, kt_symbol] at h
        have hs : ∀ c ∈ w.toList, isWord c = true := by rcases hw with rfl | rfl <;> decide
        have e := word_split (x := "[ %Symbol.".toList ++ u ++ "% ]".toList ++ ks.flatMap Key.text) (word_all hv) hs (by rw [← h]; simp)
        rw [e.1]
  | percent v =>
    exfalso
    rw [bt_percent] at h
    rcases hw with rfl | rfl <;> simp at h
  | generators =>
    exfalso
    have e : Base.generators.text = 't' :: "he prototype of generator objects".toList := by decide +kernel
    rw [e] at h
    rcases hw with rfl | rfl <;> simp at h
  | asyncGenerators =>
    exfalso
    have e : Base.asyncGenerators.text = 't' :: "he prototype of async generator objects".toList := by decide +kernel
    rw [e] at h
    rcases hw with rfl | rfl <;> simp at h

/-- None of the phrases of several words is a path. -/
theorem path_alone {p : Path} (hp : p.Ok) : iterators p.text = none ∧ percentProto p.text = none ∧ proto p.text = none ∧ thing p.text = none ∧ dotted p.text = none ∧ theFunction p.text = none := by
  refine ⟨none_of fun u h => ?_, none_of fun u h => ?_, none_of fun u h => ?_, none_of fun u h => ?_, none_of fun u h => ?_, none_of fun u h => ?_⟩
  · obtain ⟨-, hb, hk⟩ := ends_space hp (ends_iterators h)
    obtain ⟨b, ks⟩ := p
    have hk' : ks = [] := hk
    subst hk'
    have ht : Path.text ⟨b, []⟩ = b.text := by simp [Path.text]
    rw [ht] at h
    have g1 : iterators Base.generators.text = none := by decide +kernel
    have g2 : iterators Base.asyncGenerators.text = none := by decide +kernel
    rcases hb with hb | hb
    · have hb' : b = .generators := hb
      subst hb'; rw [g1] at h; cases h
    · have hb' : b = .asyncGenerators := hb
      subst hb'; rw [g2] at h; cases h
  · exact path_ends_not hp (by decide) (ends_percentProto h)
  · rcases ends_proto h with h | h
    · exact path_ends_not hp (by decide) h
    · exact path_ends_not hp (by decide) h
  · rcases thing_object h with h | h
    · exact path_ends_not hp (by decide) h
    · exact path_ends_not hp (by decide) h
  · exact path_ends_not hp (by decide) (ends_dotted h)
  · obtain ⟨-, e⟩ := theFunction_iff.1 h
    have := ends_thing u .function
    rw [← e] at this
    exact path_ends_not hp (w := "function") (by decide) this

theorem norm_some {p : Path} (hp : p.Ok) : normalize p.text = some p.name := (normalize_ok _ _).2 ⟨p, hp, rfl, rfl⟩

theorem getPdn_path {p : Path} (hp : p.Ok) (ha : ¬ ∃ w, (p.base = .word "get".toList ∨ p.base = .word "set".toList) ∧ p.keys.head? = some (.symbol w)) : getPdn p.text = some (pc p.name) := by
  cases hi : pdnInner p.text with
  | some u =>
    obtain ⟨e, hu1, hu2⟩ := pdnInner_iff.1 hi
    have hE : (Ends p.text).2 = some '%' := by rw [e, show ('%' :: u ++ ['%'] : Str) = ('%' :: u) ++ '%' :: [] from rfl, ends_text ('%' :: u) '%' []]
    rcases ends_path hp with ⟨hk, ⟨v, -, he⟩ | ⟨v, hb, -⟩ | ⟨-, he⟩⟩ | ⟨ks, v, -, he⟩ | ⟨ks, v, -, he⟩
    · rw [he] at hE; simp at hE
    · obtain ⟨b, ks⟩ := p
      have hk' : ks = [] := hk
      have hb' : b = .percent v := hb
      subst hk' hb'
      have ht : Path.text ⟨.percent v, []⟩ = pc v := by simp [Path.text, bt_percent, pc_eq]
      have hn : Path.name ⟨.percent v, []⟩ = v := by simp [Path.name, bn_percent]
      rw [ht, hn]
      exact single_percent hp.1
    · rw [he] at hE; simp at hE
    · rw [he] at hE; simp at hE
    · rw [he] at hE; simp at hE
  | none =>
    obtain ⟨h1, h2, h3, h4, h5, h6⟩ := path_alone hp
    have h0 := fixed_excl normalize (by decide +kernel) (norm_some hp)
    have h7 : accessor p.text = none := by
      refine none_of fun x hx => ha ?_
      obtain ⟨-, ⟨-, e⟩ | ⟨-, e⟩⟩ := accessor_iff.1 (show accessor p.text = some (x.1, x.2) from hx)
      · obtain ⟨v, hb, hk⟩ := path_get hp (w := "get") (.inl rfl) (by rw [e]; rfl)
        exact ⟨v, .inl hb, hk⟩
      · obtain ⟨v, hb, hk⟩ := path_get hp (w := "set") (.inr rfl) (by rw [e]; rfl)
        exact ⟨v, .inr hb, hk⟩
    rw [pdn_rest hi h0 h1 h2 h3, h4, h5, h6, h7, norm_some hp]; rfl

theorem getPdn_accessor {b : Bool} {p : Path} (hp : p.Ok) (hx : ¬ (p.base = .word "prototype".toList ∧ p.keys = [])) : getPdn (Phrase.accessor b p).text = some (pc (Phrase.accessor b p).name) := by
  have ha : accessor (Phrase.accessor b p).text = some (if b then "set".toList else "get".toList, p.text) :=
    accessor_iff.2 ⟨path_text_ne hp, by rw [accessor_text]; cases b <;> simp⟩
  have hh := head_accessor ha
  have hc := core_accessor hh
  have h1 : pdnInner (Phrase.accessor b p).text = none := pdnInner_head (by intro e; rw [e] at hh; simp at hh)
  have h2 := fixed_excl accessor (by decide +kernel) ha
  have ht : ∀ {s : Str}, (s.head? = some 'g' ∨ s.head? = some 's') → s.head? = some 't' → False := by
    intro s h e; rw [e] at h; simp at h
  have h3 : iterators (Phrase.accessor b p).text = none := none_of fun u h => ht hh (head_the (.inl ⟨u, h⟩))
  have h4 : percentProto (Phrase.accessor b p).text = none := none_of fun u h => by
    have := head_percentProto h
    rw [hc] at this; rw [this] at hh; simp at hh
  have h5 : proto (Phrase.accessor b p).text = none := none_of fun u h => by
    obtain ⟨hu, a, o, e⟩ := proto_iff.1 h
    cases a with
    | true =>
      rw [e, proto_text_true] at hh
      exact ht hh rfl
    | false =>
      rw [accessor_text, proto_text_false] at e
      have hg : ∀ c ∈ (if b then "set".toList else "get".toList), isWord c = true := by cases b <;> decide
      have e' : (if b then "set".toList else "get".toList) ++ ' ' :: p.text = u ++ ' ' :: ("prototype".toList ++ if o then " object".toList else []) := by
        rw [← e]; cases b <;> rfl
      obtain ⟨-, e2⟩ := word_split hg (word_all hu) e'
      have hn := norm_some hp
      cases o with
      | true =>
        rw [e2, if_pos rfl] at hn
        have : normalize ("prototype".toList ++ " object".toList) = none := by decide +kernel
        rw [this] at hn; cases hn
      | false =>
        rw [if_neg (by decide), List.append_nil] at e2
        have hE : Ends p.text = ("prototype".toList, none) := by rw [e2]; exact ends_word (by decide)
        rcases ends_path hp with ⟨hk, ⟨v, hb, he⟩ | ⟨v, -, he⟩ | ⟨-, he⟩⟩ | ⟨ks, v, -, he⟩ | ⟨ks, v, -, he⟩
        · rw [he] at hE
          exact hx ⟨by rw [hb, (Prod.mk.inj hE).1], hk⟩
        · rw [he] at hE; simp at hE
        · rw [he] at hE; simp at hE
        · rw [he] at hE; simp at hE
        · rw [he] at hE; simp at hE
  have h6 : thing (Phrase.accessor b p).text = none := none_of fun u h => ht hh (head_the (.inr (.inl ⟨u, h⟩)))
  have h7 : dotted (Phrase.accessor b p).text = none := none_of fun u h => ht hh (head_the (.inr (.inr (.inl ⟨u, h⟩))))
  have h8 : theFunction (Phrase.accessor b p).text = none := none_of fun u h => ht hh (head_the (.inr (.inr (.inr ⟨u, h⟩))))
  rw [pdn_rest h1 h2 h3 h4 h5, h6, h7, h8, ha]
  show Option.map _ (normalize p.text) = _
  rw [norm_some hp, accessor_name]; rfl

theorem thing_proto {w : Str} {s : Spec.Sort'} (hw : Word w) (hx : ¬ (s = .object ∧ w = "prototype".toList)) : proto (Phrase.thing w s).text = none := none_of fun u h => by
  obtain ⟨hu, a, o, e⟩ := proto_iff.1 h
  have hs : ∀ x : Str, s.text ≠ "prototype".toList ++ x := by
    intro x e
    have h1 : s.text.head? ≠ some 'p' := by cases s <;> decide
    rw [e] at h1
    exact h1 rfl
  cases a with
  | true =>
    rw [thing_text, proto_text_true, proto_text_false] at e
    obtain ⟨-, e2⟩ := word_split (word_all hw) (word_all hu) (List.append_cancel_left e)
    exact hs _ e2
  | false =>
    rw [thing_text, proto_text_false] at e
    obtain ⟨-, e2⟩ := the_word hu e.symm
    cases o with
    | true =>
      have e3 : "prototype".toList ++ ' ' :: "object".toList = w ++ ' ' :: s.text := by rw [← e2]; rfl
      obtain ⟨e4, e5⟩ := word_split (by decide) (word_all hw) e3
      apply hx
      refine ⟨?_, e4.symm⟩
      cases s with
      | object => rfl
      | constructor => exact absurd e5 (by decide)
      | function => exact absurd e5 (by decide)
    | false =>
      rw [if_neg (by decide), List.append_nil] at e2
      have : ' ' ∈ "prototype".toList := by rw [e2]; simp
      exact absurd this (by decide)

theorem idiom_ends : ∀ i : Fin Spec.idioms.length, (Ends (Spec.idioms[i]).1).1 ≠ "constructor".toList ∧ (Ends (Spec.idioms[i]).1).1 ≠ "function".toList ∧
        ((Ends (Spec.idioms[i]).1).1 = "object".toList → (Spec.idioms[i]).1 = "the ".toList ++ ("global".toList ++ ' ' :: "object".toList) ∨ (Spec.idioms[i]).1.head? = some 'g') := by decide +kernel

theorem getPdn_thing {w : Str} {s : Spec.Sort'} (hw : Word w) (hx : ¬ (s = .object ∧ (w = "global".toList ∨ w = "prototype".toList))) : getPdn (Phrase.thing w s).text = some (pc w) := by
  have hE := ends_thing w s
  have h1 : pdnInner (Phrase.thing w s).text = none := pdnInner_last (by rw [hE]; simp)
  have h2 : fixed (Phrase.thing w s).text = none := none_of fun r hr => by
    obtain ⟨i, hi, e, -⟩ := fixed_iff.1 hr
    have ht := fixed_text ⟨i, hi⟩
    obtain ⟨k1, k2, k3⟩ := idiom_ends ⟨i, hi⟩
    rw [← ht, ← e, hE] at k1 k2 k3
    cases s with
    | constructor => exact k1 rfl
    | function => exact k2 rfl
    | object =>
      rcases k3 rfl with k | k
      · rw [thing_text] at k
        obtain ⟨k, -⟩ := word_split (word_all hw) (by decide) (List.append_cancel_left k)
        exact hx ⟨rfl, .inl k⟩
      · rw [thing_text] at k; simp at k
  have h3 : iterators (Phrase.thing w s).text = none := none_of fun u h => by
    have := ends_iterators h
    rw [hE] at this
    cases s <;> exact absurd (Prod.mk.inj this).1 (by decide)
  have h4 : percentProto (Phrase.thing w s).text = none := none_of fun u h => by
    obtain ⟨c, hc, hw'⟩ := head_thing s hw
    rw [head_percentProto h] at hc
    cases hc; exact absurd hw' (by decide)
  have h5 := thing_proto (s := s) hw (fun h => hx ⟨h.1, .inr h.2⟩)
  rw [pdn_rest h1 h2 h3 h4 h5]
  cases s with
  | constructor => rw [thing_iff.2 ⟨hw, .inl rfl⟩]
  | object => rw [thing_iff.2 ⟨hw, .inr rfl⟩]
  | function =>
    have h6 : thing (Phrase.thing w .function).text = none := none_of fun u h => by
      rcases thing_object h with h | h
      · rw [hE] at h; exact absurd (Prod.mk.inj h).1 (by decide)
      · rw [hE] at h; exact absurd (Prod.mk.inj h).1 (by decide)
    have h7 : dotted (Phrase.thing w .function).text = none := none_of fun u h => by
      have h := ends_dotted h
      rw [hE] at h; exact absurd (Prod.mk.inj h).1 (by decide)
    rw [h6, h7, theFunction_iff.2 ⟨hw, rfl⟩]

theorem getPdn_proto {a : Bool} {w : Str} {o : Bool} (hw : Word w) : getPdn (Phrase.proto a w o).text = some (pc (w ++ ".prototype".toList)) := by
  have hp := proto_iff.2 ⟨hw, a, o, rfl⟩
  have hE := ends_proto hp
  have h1 : pdnInner (Phrase.proto a w o).text = none := pdnInner_last (by rcases hE with h | h <;> (rw [h]; simp))
  have h2 := fixed_excl proto (by decide +kernel) hp
  have h3 : iterators (Phrase.proto a w o).text = none := none_of fun u h => by
    have h := ends_iterators h
    rcases hE with h' | h' <;> (rw [h'] at h; exact absurd (Prod.mk.inj h).1 (by decide))
  have h4 : percentProto (Phrase.proto a w o).text = none := none_of fun u h => by
    obtain ⟨c, hc, hw'⟩ := head_proto hp
    rw [head_percentProto h] at hc
    cases hc; exact absurd hw' (by decide)
  rw [pdn_proto h1 h2 h3 h4 hp, norm_proto hw]; rfl

theorem getPdn_percentProto {a : Bool} {w : Str} (hw : Word w) : getPdn (Phrase.percentProto a w).text = some (pc (w ++ ".prototype".toList)) := by
  have hp := percentProto_iff.2 ⟨hw, a, rfl⟩
  have hE := ends_percentProto hp
  have h1 : pdnInner (Phrase.percentProto a w).text = none := pdnInner_last (by rw [hE]; simp)
  have h2 := fixed_excl percentProto (by decide +kernel) hp
  have h3 : iterators (Phrase.percentProto a w).text = none := none_of fun u h => by
    have h := ends_iterators h
    rw [hE] at h; exact absurd (Prod.mk.inj h).1 (by decide)
  exact pdn_percentProto h1 h2 h3 hp

theorem getPdn_dotted {w : Str} {ws : List Str} {i : Bool} (hw : Word w) (hws : ∀ x ∈ ws, Word x) : getPdn (Phrase.dotted w ws i).text = some (pc (w ++ ws.flatMap (fun x => '.' :: x))) := by
  have hp := dotted_iff.2 ⟨w, ws, i, ⟨hw, hws⟩, rfl, rfl⟩
  have hE := ends_dotted hp
  have h1 : pdnInner (Phrase.dotted w ws i).text = none := pdnInner_last (by rw [hE]; simp)
  have h2 := fixed_excl dotted (by decide +kernel) hp
  have h3 : iterators (Phrase.dotted w ws i).text = none := none_of fun u h => by
    have h := ends_iterators h
    rw [hE] at h; exact absurd (Prod.mk.inj h).1 (by decide)
  have h4 : percentProto (Phrase.dotted w ws i).text = none := none_of fun u h => by
    have h := tail_percentProto h
    rcases tail_dotted hp with h' | h' <;> (rw [h'] at h; exact absurd h (by decide))
  have hh : ∀ c, (core (Phrase.dotted w ws i).text).head? = some c → isWord c = true → False := by
    intro c hc h; rw [head_dotted hp] at hc; cases hc; exact absurd h (by decide)
  have h5 : proto (Phrase.dotted w ws i).text = none := none_of fun u h => by
    obtain ⟨c, hc, hw'⟩ := head_proto h
    exact hh c hc hw'
  have h6 : thing (Phrase.dotted w ws i).text = none := none_of fun u h => by
    obtain ⟨hu, e | e⟩ := thing_iff.1 h
    · obtain ⟨c, hc, hw'⟩ := head_thing .constructor hu
      rw [← e] at hc; exact hh c hc hw'
    · obtain ⟨c, hc, hw'⟩ := head_thing .object hu
      rw [← e] at hc; exact hh c hc hw'
  rw [pdn_rest h1 h2 h3 h4 h5, h6, hp]

theorem getPdn_iterators {w : Str} {ws : List (Bool × Str)} {c : Bool} (hw : Part w) (hws : ∀ x ∈ ws, Part x.2) : getPdn (Phrase.iterators w ws c).text = some (pc (Phrase.iterators w ws c).name) := by
  have hp : iterators (Phrase.iterators w ws c).text = some (w ++ ws.flatMap (fun x => Spec.sep x.1 :: x.2)) :=
    iterators_iff.2 ⟨by simp [hw.1], by rw [iterators_text]; cases c <;> simp⟩
  have hE := ends_iterators hp
  have h1 : pdnInner (Phrase.iterators w ws c).text = none := pdnInner_last (by rw [hE]; simp)
  have h2 := fixed_excl iterators (by decide +kernel) hp
  rw [pdn_iterators h1 h2 hp, splitWords_join w hw ws hws, mapM_capital.2 ⟨?_, rfl⟩, iterators_name]
  · simp [List.flatMap, List.map_map, Function.comp_def]
  · intro x hx
    rcases List.mem_cons.1 hx with rfl | hx
    · exact hw.1
    · obtain ⟨y, hy, rfl⟩ := List.mem_map.1 hx
      exact (hws y hy).1

end Verif.Paths
