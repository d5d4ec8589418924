import Verif.Validate.Lemmas
/-! # Lemmas about elements and trees -/
namespace Verif.Validate
open Verif.HTML (Str Attrs Node litName commentName)

variable {cfg : Cfg} {text : Str}

/-! ## Attributes -/

theorem mem_attrSet (n : Node) (m : Msg) :
    m ∈ attrSetMsgs cfg n ↔ ∃ req opt, cfg.attrs (nName n) = some (req, opt) ∧
      ((∃ l, l = req.filter (fun a => decide (a ∉ (nAttrs n).map (·.1))) ∧ l ≠ [] ∧ m = ⟨nStart n, .missing l⟩) ∨
       (∃ l, l = ((nAttrs n).map (·.1)).filter (fun a => decide (a ∉ req ∧ a ∉ opt)) ∧ l ≠ [] ∧ m = ⟨nStart n, .unexpected l⟩)) := by
  unfold attrSetMsgs
  cases ha : cfg.attrs (nName n) with
  | none => simp
  | some ro =>
    obtain ⟨req, opt⟩ := ro
    simp only
    have e1 : (req.all (· ∈ (nAttrs n).map (·.1)) = true) ↔ req.filter (fun a => decide (a ∉ (nAttrs n).map (·.1))) = [] := by
      rw [List.filter_eq_nil_iff, List.all_eq_true]
      simp
    have e2 : (((nAttrs n).map (·.1)).all (fun a => decide (a ∈ req ∨ a ∈ opt)) = true) ↔
        ((nAttrs n).map (·.1)).filter (fun a => decide (a ∉ req ∧ a ∉ opt)) = [] := by
      rw [List.filter_eq_nil_iff, List.all_eq_true]
      constructor
      · intro h a hm
        have := h a hm
        simp only [decide_eq_true_eq] at this ⊢
        rintro ⟨h1, h2⟩
        rcases this with h | h
        · exact h1 h
        · exact h2 h
      · intro h a hm
        have := h a hm
        simp only [decide_eq_true_eq] at this ⊢
        exact Classical.byContradiction fun hn => this (not_or.1 hn)
    have e3 : ((nAttrs n).map (·.1)).filter (fun a => decide (¬ (a ∈ req ∨ a ∈ opt))) =
        ((nAttrs n).map (·.1)).filter (fun a => decide (a ∉ req ∧ a ∉ opt)) := by
      congr 1; funext a; simp [not_or]
    rw [List.mem_append]
    constructor
    · rintro (h | h)
      · split at h
        · cases h
        · next hc =>
          simp only [List.mem_singleton] at h
          exact ⟨req, opt, rfl, .inl ⟨_, rfl, fun hx => hc (e1.2 hx), h⟩⟩
      · split at h
        · cases h
        · next hc =>
          rw [e3] at h
          simp only [List.mem_singleton] at h
          exact ⟨req, opt, rfl, .inr ⟨_, rfl, fun hx => hc (e2.2 hx), h⟩⟩
    · rintro ⟨req', opt', hro, h⟩
      injection hro with hro; injection hro with h1 h2; subst h1; subst h2
      rcases h with ⟨l, rfl, hne, rfl⟩ | ⟨l, rfl, hne, rfl⟩
      · left
        rw [if_neg (fun hx => hne (e1.1 hx))]; exact List.mem_singleton.2 rfl
      · right
        rw [if_neg (fun hx => hne (e2.1 hx)), e3]; exact List.mem_singleton.2 rfl

theorem patternFor_iff (name a : Str) (p : Option (Str → Bool)) :
    patternFor cfg name a = some p ↔ PatternFor cfg name a p := by
  unfold patternFor PatternFor
  cases h : cfg.pattern (name ++ '.' :: a) with
  | none => simp
  | some q => simp

theorem mem_attrMsg (n : Node) (a : Str × Option Str) (m : Msg) :
    m ∈ attrMsg cfg n a ↔
      ((¬ ∃ p, PatternFor cfg (nName n) a.1 p) ∧ m = ⟨nStart n, .unknown a.1⟩) ∨
      (∃ v, a.2 = some v ∧ PatternFor cfg (nName n) a.1 none ∧ m = ⟨nStart n, .noValue a.1 v⟩) ∨
      (a.2 = none ∧ (∃ p, PatternFor cfg (nName n) a.1 (some p)) ∧ m = ⟨nStart n, .needValue a.1⟩) ∨
      (∃ v p, a.2 = some v ∧ PatternFor cfg (nName n) a.1 (some p) ∧ p v = false ∧ m = ⟨nStart n, .badValue a.1 v⟩) := by
  unfold attrMsg
  simp only [← patternFor_iff]
  cases h : patternFor cfg (nName n) a.1 with
  | none => simp
  | some q =>
    cases q with
    | none =>
      cases h2 : a.2 with
      | none => simp
      | some v => simp
    | some p =>
      cases h2 : a.2 with
      | none => simp
      | some v =>
        cases hv : p v with
        | true => simp [hv]
        | false => simp [hv]

/-! ## Children -/

theorem isWhite_iff (s : Str) : isWhite cfg s = true ↔ White cfg s := by
  unfold isWhite White
  simp

theorem nodeWhite_iff (c : Node) : nodeWhite cfg text c = true ↔ WhiteNode cfg text c := by
  unfold nodeWhite WhiteNode
  rw [Bool.and_eq_true, isWhite_iff]
  simp

theorem lit_ne_comment : litName ≠ commentName := by decide

theorem childKinds_spec (cs : List Node) :
    ((childKinds cfg text cs).1 ≠ [] ↔ ∃ c ∈ cs, BlockKid cfg c) ∧
    ((childKinds cfg text cs).2.1 ≠ [] ↔ ∃ c ∈ cs, InlineKid cfg text c) ∧
    ∀ m, m ∈ (childKinds cfg text cs).2.2 ↔ ∃ c ∈ cs, nName c ≠ commentName ∧ nName c ≠ litName ∧
      cfg.kind (nName c) = none ∧ m = ⟨nStart c, .kindless (nName c)⟩ := by
  induction cs with
  | nil => simp [childKinds]
  | cons c cs ih =>
    obtain ⟨ih1, ih2, ih3⟩ := ih
    have key : ∀ (bs is : List Str) (ms : List Msg),
        ((bs ≠ [] ↔ BlockKid cfg c ∨ (childKinds cfg text cs).1 ≠ []) ∧
         (is ≠ [] ↔ InlineKid cfg text c ∨ (childKinds cfg text cs).2.1 ≠ []) ∧
         (∀ m, m ∈ ms ↔ (nName c ≠ commentName ∧ nName c ≠ litName ∧
            cfg.kind (nName c) = none ∧ m = ⟨nStart c, .kindless (nName c)⟩) ∨ m ∈ (childKinds cfg text cs).2.2)) →
        ((bs ≠ [] ↔ ∃ d ∈ c :: cs, BlockKid cfg d) ∧ (is ≠ [] ↔ ∃ d ∈ c :: cs, InlineKid cfg text d) ∧
         ∀ m, m ∈ ms ↔ ∃ d ∈ c :: cs, nName d ≠ commentName ∧ nName d ≠ litName ∧
            cfg.kind (nName d) = none ∧ m = ⟨nStart d, .kindless (nName d)⟩) := by
      intro bs is ms ⟨h1, h2, h3⟩
      refine ⟨?_, ?_, ?_⟩
      · rw [h1, ih1]; simp
      · rw [h2, ih2]; simp
      · intro m; rw [h3 m, ih3 m]; simp
    rw [childKinds]
    generalize childKinds cfg text cs = r at *
    obtain ⟨bs, is, ms⟩ := r
    simp only at key ⊢
    by_cases hcm : nName c = commentName
    · rw [if_pos hcm]
      refine key bs is ms ⟨?_, ?_, ?_⟩
      · simp [BlockKid, hcm]
      · simp [InlineKid, hcm, Ne.symm lit_ne_comment]
      · simp [hcm]
    · rw [if_neg hcm]
      by_cases hl : nName c = litName
      · rw [if_pos hl]
        by_cases hw : nodeWhite cfg text c = true
        · rw [if_pos hw]
          have := (nodeWhite_iff c).1 hw
          refine key bs is ms ⟨?_, ?_, ?_⟩
          · simp [BlockKid, hl]
          · simp [InlineKid, hl, this]
          · simp [hl]
        · rw [if_neg hw]
          have : ¬ WhiteNode cfg text c := fun h => hw ((nodeWhite_iff c).2 h)
          refine key bs (litName :: is) ms ⟨?_, ?_, ?_⟩
          · simp [BlockKid, hl]
          · simp [InlineKid, hl, this]
          · simp [hl]
      · rw [if_neg hl]
        cases hk : cfg.kind (nName c) with
        | none =>
          refine key _ _ _ ⟨?_, ?_, ?_⟩
          · simp [BlockKid, hk]
          · simp [InlineKid, hk, hl]
          · simp [hk, hl, hcm]
        | some k =>
          cases k with
          | block =>
            refine key _ _ _ ⟨?_, ?_, ?_⟩
            · simp [BlockKid, hk, hl, hcm]
            · simp [InlineKid, hk, hl]
            · simp [hk]
          | inline =>
            refine key _ _ _ ⟨?_, ?_, ?_⟩
            · simp [BlockKid, hk]
            · simp [InlineKid, hk, hl, hcm]
            · simp [hk]
          | either =>
            refine key _ _ _ ⟨?_, ?_, ?_⟩
            · simp [BlockKid, hk]
            · simp [InlineKid, hk, hl]
            · simp [hk]
          | other =>
            refine key _ _ _ ⟨?_, ?_, ?_⟩
            · simp [BlockKid, hk]
            · simp [InlineKid, hk, hl]
            · simp [hk]

theorem childToks_true (cs : List Node) :
    childToks cfg text true cs = some (cs.map (fun c => if nName c = litName then textTok else nName c)) := by
  induction cs with
  | nil => rfl
  | cons c cs ih =>
    simp only [childToks, ih]
    by_cases hl : nName c = litName
    · simp [hl]
    · simp [hl]

theorem childToks_false (cs : List Node) (h : ¬ ∃ c ∈ cs, InlineKid cfg text c) :
    childToks cfg text false cs = some (cs.map (fun c => if nName c = litName then wsTok else nName c)) := by
  induction cs with
  | nil => rfl
  | cons c cs ih =>
    have ih := ih (fun ⟨d, hd, hi⟩ => h ⟨d, by simp [hd], hi⟩)
    simp only [childToks, ih]
    by_cases hl : nName c = litName
    · have hw : nodeWhite cfg text c = true := by
        apply Classical.byContradiction
        intro hn
        apply h
        refine ⟨c, by simp, .inl ⟨hl, fun hw => hn ((nodeWhite_iff c).2 hw)⟩⟩
      simp [hl, hw]
    · simp [hl]

theorem childToks_names (n : Node) :
    ∃ ts, childToks cfg text (!(childKinds cfg text (nKids n)).2.1.isEmpty) (nKids n) = some ts ∧
      ∀ ts', Names cfg text n ts' ↔ ts' = ts := by
  have h := (childKinds_spec (cfg := cfg) (text := text) (nKids n)).2.1
  cases he : (childKinds cfg text (nKids n)).2.1 with
  | nil =>
    rw [he] at h
    have hn : ¬ ∃ c ∈ nKids n, InlineKid cfg text c := fun hx => h.2 hx rfl
    refine ⟨_, childToks_false _ hn, ?_⟩
    intro ts'
    unfold Names
    constructor
    · rintro (⟨h1, _⟩ | ⟨_, h1⟩)
      · exact absurd h1 hn
      · exact h1
    · exact fun h1 => .inr ⟨hn, h1⟩
  | cons x xs =>
    rw [he] at h
    have hn : ∃ c ∈ nKids n, InlineKid cfg text c := h.1 (by simp)
    refine ⟨_, childToks_true _, ?_⟩
    intro ts'
    unfold Names
    constructor
    · rintro (⟨_, h1⟩ | ⟨h1, _⟩)
      · exact h1
      · exact absurd hn h1
    · exact fun h1 => .inl ⟨hn, h1⟩

theorem replaced_sub : ∀ (ts : List Str), Replaced ts (subComments ts)
  | [] => .nil
  | [a] => .miss (by intro r h; cases h) .nil
  | [a, b] => .miss (by intro r h; cases h) (replaced_sub [b])
  | a :: b :: c :: r => by
    rw [subComments]
    by_cases h : a = wsTok ∧ b = commentName ∧ c = wsTok
    · rw [if_pos h]
      obtain ⟨rfl, rfl, rfl⟩ := h
      exact .hit (replaced_sub r)
    · rw [if_neg h]
      refine .miss ?_ (replaced_sub (b :: c :: r))
      intro r0 he
      injection he with h1 he
      injection he with h2 he
      injection he with h3 he
      exact h ⟨h1, h2, h3⟩

theorem replaced_det {ts a b : List Str} (h : Replaced ts a) (h' : Replaced ts b) : a = b := by
  induction h generalizing b with
  | nil => cases h'; rfl
  | hit _ ih =>
    cases h' with
    | hit h => rw [ih h]
    | miss hn _ => exact absurd rfl (hn _)
  | miss hn _ ih =>
    cases h' with
    | hit h => exact absurd rfl (hn _)
    | miss _ h => rw [ih h]

theorem mem_modelMsgs (n : Node) (ts : List Str) (m : Msg) :
    m ∈ modelMsgs cfg n ts ↔ (cfg.model (nName n) = none ∧ m = ⟨nStart n, .noModel (nName n)⟩) ∨
      ∃ f ts', cfg.model (nName n) = some f ∧ Replaced ts ts' ∧ f ts' = false ∧ m = ⟨nStart n, .content ts'⟩ := by
  unfold modelMsgs
  cases h : cfg.model (nName n) with
  | none => simp
  | some f =>
    simp only [reduceCtorEq, false_and, false_or, Option.some.injEq]
    constructor
    · intro hm
      split at hm
      · cases hm
      · next hf =>
        simp only [List.mem_singleton] at hm
        exact ⟨f, _, rfl, replaced_sub ts, by simpa using hf, hm⟩
    · rintro ⟨f', ts', rfl, hr, hf, rfl⟩
      have := replaced_det hr (replaced_sub ts)
      subst this
      simp [hf]

theorem desc_element (anc : List Node) (n : Node) (hn : nName n ≠ litName) :
    Desc (elementMsgs cfg text anc n) (Fatal text anc n) (Fault cfg text anc n) := by
  have hd := desc_edge (text := text) anc n
  have hfat : (nInner n ≠ none ∧ Stray (n :: anc)) ↔ Fatal text anc n := by
    constructor
    · rintro ⟨h1, h2⟩; exact .cell hn h1 h2
    · intro h
      cases h with
      | cell _ h1 h2 => exact ⟨h1, h2⟩
      | gap h _ _ => exact absurd h hn
      | orphan h _ => exact absurd h hn
  unfold elementMsgs
  cases he : edgeMsgs text (n :: anc) n with
  | none =>
    constructor
    · simp only [true_iff]; exact hfat.1 (hd.1.1 he)
    · intro ms h; cases h
  | some em =>
    obtain ⟨ts, hts, hnames⟩ := childToks_names (cfg := cfg) (text := text) n
    obtain ⟨k1, k2, k3⟩ := childKinds_spec (cfg := cfg) (text := text) (nKids n)
    generalize hk : childKinds cfg text (nKids n) = r at *
    obtain ⟨bs, is, km⟩ := r
    simp only at hts k1 k2 k3 ⊢
    rw [hts]
    constructor
    · simp only [reduceCtorEq, false_iff]
      intro h
      have := hd.1.2 (hfat.2 h)
      rw [he] at this; cases this
    · intro ms h m
      injection h with h; subst h
      simp only [List.mem_append]
      rw [hd.2 em he m, mem_attrSet, k3 m, mem_modelMsgs, List.mem_flatMap]
      constructor
      · rintro (((((h | h) | h) | h) | h) | h)
        · obtain ⟨a, b, h1, h2, h3⟩ := h
          rcases h3 with ⟨h3, rfl⟩ | ⟨h3, h4, rfl⟩
          · exact .startsSpace hn h1 h2 h3
          · exact .endsSpace hn h1 h2 h3 h4
        · obtain ⟨req, opt, h1, h2⟩ := h
          rcases h2 with ⟨l, h3, h4, rfl⟩ | ⟨l, h3, h4, rfl⟩
          · exact .missing hn h1 h3 h4
          · exact .unexpected hn h1 h3 h4
        · obtain ⟨⟨a, v⟩, h1, h2⟩ := h
          rcases (mem_attrMsg n (a, v) m).1 h2 with ⟨h3, rfl⟩ | ⟨v', h3, h4, rfl⟩ | ⟨h3, ⟨p, h4⟩, rfl⟩ | ⟨v', p, h3, h4, h5, rfl⟩
          · exact .unknown hn h1 h3
          · simp only at h3; subst h3; exact .noValue hn h1 h4
          · simp only at h3; subst h3; exact .needValue hn h1 h4
          · simp only at h3; subst h3; exact .badValue hn h1 h4 h5
        · obtain ⟨c, h1, h2, h3, h4, rfl⟩ := h
          exact .kindless hn h1 h2 h3 h4
        · split at h
          · next hc =>
            simp only [List.mem_singleton] at h; subst h
            exact .mixed hn (k1.1 hc.1) (k2.1 hc.2)
          · cases h
        · rcases h with ⟨h1, rfl⟩ | ⟨f, ts', h1, h2, h3, rfl⟩
          · exact .noModel hn h1
          · exact .content hn h1 ((hnames ts).2 rfl) h2 h3
      · intro hf
        cases hf with
        | spaces h => exact absurd h hn
        | entity h => exact absurd h hn
        | literal h => exact absurd h hn
        | startsSpace _ h1 h2 h3 => exact .inl (.inl (.inl (.inl (.inl ⟨_, _, h1, h2, .inl ⟨h3, rfl⟩⟩))))
        | endsSpace _ h1 h2 h3 h4 => exact .inl (.inl (.inl (.inl (.inl ⟨_, _, h1, h2, .inr ⟨h3, h4, rfl⟩⟩))))
        | missing _ h1 h2 h3 => exact .inl (.inl (.inl (.inl (.inr ⟨_, _, h1, .inl ⟨_, h2, h3, rfl⟩⟩))))
        | unexpected _ h1 h2 h3 => exact .inl (.inl (.inl (.inl (.inr ⟨_, _, h1, .inr ⟨_, h2, h3, rfl⟩⟩))))
        | unknown _ h1 h2 =>
          exact .inl (.inl (.inl (.inr ⟨_, h1, (mem_attrMsg n _ _).2 (.inl ⟨h2, rfl⟩)⟩)))
        | noValue _ h1 h2 =>
          exact .inl (.inl (.inl (.inr ⟨_, h1, (mem_attrMsg n _ _).2 (.inr (.inl ⟨_, rfl, h2, rfl⟩))⟩)))
        | needValue _ h1 h2 =>
          exact .inl (.inl (.inl (.inr ⟨_, h1, (mem_attrMsg n _ _).2 (.inr (.inr (.inl ⟨rfl, ⟨_, h2⟩, rfl⟩)))⟩)))
        | badValue _ h1 h2 h3 =>
          exact .inl (.inl (.inl (.inr ⟨_, h1, (mem_attrMsg n _ _).2 (.inr (.inr (.inr ⟨_, _, rfl, h2, h3, rfl⟩)))⟩)))
        | kindless _ h1 h2 h3 h4 => exact .inl (.inl (.inr ⟨_, h1, h2, h3, h4, rfl⟩))
        | mixed _ h1 h2 =>
          refine .inl (.inr ?_)
          rw [if_pos ⟨k1.2 h1, k2.2 h2⟩]; exact List.mem_singleton.2 rfl
        | noModel _ h1 => exact .inr (.inl ⟨h1, rfl⟩)
        | content _ h1 h2 h3 h4 =>
          have := (hnames _).1 h2
          subst this
          exact .inr (.inr ⟨_, _, h1, h3, h4, rfl⟩)

/-! ## Trees -/

/-- `At`, from the other end. -/
inductive Under : List Node → Node → List Node → Node → Prop
  | here {anc n} : Under anc n anc n
  | kid {anc n c a' n'} : nName n ≠ litName → c ∈ nKids n → Under (n :: anc) c a' n' → Under anc n a' n'

theorem under_snoc {anc : List Node} {n : Node} {a' : List Node} {n' c : Node} (h : Under anc n a' n') (hn : nName n' ≠ litName)
    (hc : c ∈ nKids n') : Under anc n (n' :: a') c := by
  induction h with
  | here => exact .kid hn hc .here
  | kid h1 h2 _ ih => exact .kid h1 h2 (ih hn hc)

theorem under_of_at {doc : Node} {a : List Node} {n : Node} (h : At doc a n) : Under [] doc a n := by
  induction h with
  | root => exact .here
  | kid _ hn hc ih => exact under_snoc ih hn hc

theorem at_of_under {doc : Node} {anc : List Node} {n : Node} {a' : List Node} {n' : Node} (h : Under anc n a' n')
    (ha : At doc anc n) : At doc a' n' := by
  induction h with
  | here => exact ha
  | kid hn hc _ ih => exact ih (.kid ha hn hc)

/-- A node and what is under it. -/
abbrev TreeDesc (cfg : Cfg) (text : Str) (anc : List Node) (n : Node) : Prop :=
  Desc (validate cfg text anc n) (∃ a' n', Under anc n a' n' ∧ Fatal text a' n')
    (fun m => ∃ a' n', Under anc n a' n' ∧ Fault cfg text a' n' m)

theorem desc_kids (anc : List Node) : ∀ (cs : List Node), (∀ c ∈ cs, TreeDesc cfg text anc c) →
    Desc (validateKids cfg text anc cs) (∃ c ∈ cs, ∃ a' n', Under anc c a' n' ∧ Fatal text a' n')
      (fun m => ∃ c ∈ cs, ∃ a' n', Under anc c a' n' ∧ Fault cfg text a' n' m) := by
  intro cs
  induction cs with
  | nil =>
    intro _
    constructor
    · simp [validateKids]
    · intro ms h m; simp only [validateKids, Option.some.injEq] at h; subst h; simp
  | cons c cs ih =>
    intro h
    have ih := ih (fun d hd => h d (by simp [hd]))
    have hc := h c (by simp)
    simp only [validateKids]
    cases hv : validate cfg text anc c with
    | none =>
      constructor
      · simp only [true_iff]; exact ⟨c, by simp, hc.1.1 hv⟩
      · intro ms h; cases h
    | some ms1 =>
      simp only
      have n1 : ¬ ∃ a' n', Under anc c a' n' ∧ Fatal text a' n' := by
        intro hx; have := hc.1.2 hx; rw [hv] at this; cases this
      cases hk : validateKids cfg text anc cs with
      | none =>
        constructor
        · simp only [true_iff]
          obtain ⟨d, hd, hx⟩ := ih.1.1 hk
          exact ⟨d, by simp [hd], hx⟩
        · intro ms h; cases h
      | some ms2 =>
        constructor
        · simp only [reduceCtorEq, false_iff]
          rintro ⟨d, hd, hx⟩
          rcases List.mem_cons.1 hd with rfl | hd
          · exact n1 hx
          · have := ih.1.2 ⟨d, hd, hx⟩; rw [hk] at this; cases this
        · intro ms h m
          injection h with h; subst h
          rw [List.mem_append, hc.2 ms1 hv m, ih.2 ms2 hk m]
          constructor
          · rintro (hx | ⟨d, hd, hx⟩)
            · exact ⟨c, by simp, hx⟩
            · exact ⟨d, by simp [hd], hx⟩
          · rintro ⟨d, hd, hx⟩
            rcases List.mem_cons.1 hd with rfl | hd
            · exact .inl hx
            · exact .inr ⟨d, hd, hx⟩

theorem desc_validate (hw : WordOk cfg) : ∀ (n : Node) (anc : List Node), TreeDesc cfg text anc n
  | .mk s e name attrs inner kids, anc => by
    have ihk : ∀ c ∈ kids, TreeDesc cfg text (.mk s e name attrs inner kids :: anc) c := fun c hc => by
      have hlt : sizeOf c < 1 + sizeOf s + sizeOf e + sizeOf name + sizeOf attrs + sizeOf inner + sizeOf kids := by
        have := List.sizeOf_lt_of_mem hc; omega
      exact desc_validate hw c _
    have hk := desc_kids (.mk s e name attrs inner kids :: anc) kids ihk
    unfold TreeDesc
    rw [validate]
    by_cases hn : name = litName
    · rw [if_pos hn]
      have hd := desc_literal (text := text) hw anc (.mk s e name attrs inner kids) hn
      have only : ∀ a' n', Under anc (.mk s e name attrs inner kids) a' n' → a' = anc ∧ n' = .mk s e name attrs inner kids := by
        intro a' n' hu
        cases hu with
        | here => exact ⟨rfl, rfl⟩
        | kid h _ _ => exact absurd hn h
      constructor
      · rw [hd.1]
        constructor
        · intro h; exact ⟨_, _, .here, h⟩
        · rintro ⟨a', n', hu, h⟩
          obtain ⟨rfl, rfl⟩ := only a' n' hu
          exact h
      · intro ms h m
        rw [hd.2 ms h m]
        constructor
        · intro h; exact ⟨_, _, .here, h⟩
        · rintro ⟨a', n', hu, h⟩
          obtain ⟨rfl, rfl⟩ := only a' n' hu
          exact h
    · rw [if_neg hn]
      have hd := desc_element (cfg := cfg) (text := text) anc (.mk s e name attrs inner kids) hn
      have split : ∀ (P : List Node → Node → Prop),
          (∃ a' n', Under anc (.mk s e name attrs inner kids) a' n' ∧ P a' n') ↔
          P anc (.mk s e name attrs inner kids) ∨
            ∃ c ∈ kids, ∃ a' n', Under (.mk s e name attrs inner kids :: anc) c a' n' ∧ P a' n' := by
        intro P
        constructor
        · rintro ⟨a', n', hu, h⟩
          cases hu with
          | here => exact .inl h
          | kid h1 h2 h3 => exact .inr ⟨_, h2, a', n', h3, h⟩
        · rintro (h | ⟨c, hc, a', n', hu, h⟩)
          · exact ⟨_, _, .here, h⟩
          · exact ⟨a', n', .kid hn hc hu, h⟩
      rw [split (fun a n => Fatal text a n)]
      cases he : elementMsgs cfg text anc (.mk s e name attrs inner kids) with
      | none =>
        constructor
        · simp only [true_iff]; exact .inl (hd.1.1 he)
        · intro ms h; cases h
      | some ms1 =>
        have n1 : ¬ Fatal text anc (.mk s e name attrs inner kids) := by
          intro hx; have := hd.1.2 hx; rw [he] at this; cases this
        simp only
        cases hkk : validateKids cfg text (.mk s e name attrs inner kids :: anc) kids with
        | none =>
          constructor
          · simp only [true_iff]; exact .inr (hk.1.1 hkk)
          · intro ms h; cases h
        | some ms2 =>
          constructor
          · simp only [reduceCtorEq, false_iff]
            rintro (hx | hx)
            · exact n1 hx
            · have := hk.1.2 hx; rw [hkk] at this; cases this
          · intro ms h m
            injection h with h; subst h
            show _ ↔ ∃ a' n', Under anc (.mk s e name attrs inner kids) a' n' ∧ Fault cfg text a' n' m
            rw [split (fun a n => Fault cfg text a n m), List.mem_append, hd.2 ms1 he m, hk.2 ms2 hkk m]
termination_by n => sizeOf n
decreasing_by simpa using hlt

end Verif.Validate
