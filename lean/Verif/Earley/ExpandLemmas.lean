import Verif.Earley.ExpandSpec
/-! # Lemmas on grammar expansion -/
namespace Verif.Earley

/-! ## Settings -/

theorem boolVectors_spec {n vs} (h : boolVectors n = some vs) :
    (∀ v, v ∈ vs ↔ v.length = n) ∧ vs.Nodup ∧ vs.length = 2 ^ n ∧ n ≤ 4 := by
  have key : ∀ (b : Bool), b = false ∨ b = true := by decide
  unfold boolVectors at h
  split at h
  · injection h with h; subst h
    refine ⟨?_, by decide, by decide, by omega⟩
    intro v; simp
  · injection h with h; subst h
    refine ⟨?_, by decide, by decide, by omega⟩
    intro v
    match v with
    | [] => simp
    | [a] => cases a <;> simp
    | _ :: _ :: _ => simp
  · injection h with h; subst h
    refine ⟨?_, by decide, by decide, by omega⟩
    intro v
    match v with
    | [] => simp
    | [a] => simp
    | [a, b] => cases a <;> cases b <;> simp
    | _ :: _ :: _ :: _ => simp
  · injection h with h; subst h
    refine ⟨?_, by decide, by decide, by omega⟩
    intro v
    match v with
    | [] => simp
    | [a] => simp
    | [a, b] => simp
    | [a, b, c] => cases a <;> cases b <;> cases c <;> simp
    | _ :: _ :: _ :: _ :: _ => simp
  · injection h with h; subst h
    refine ⟨?_, by decide, by decide, by omega⟩
    intro v
    match v with
    | [] => simp
    | [a] => simp
    | [a, b] => simp
    | [a, b, c] => simp
    | [a, b, c, d] => cases a <;> cases b <;> cases c <;> cases d <;> simp
    | _ :: _ :: _ :: _ :: _ :: _ => simp
  · cases h

theorem boolVectors_none {n} : boolVectors n = none ↔ 4 < n := by
  constructor
  · intro h
    rcases Nat.lt_or_ge 4 n with h' | h'
    · exact h'
    · exfalso
      have : n = 0 ∨ n = 1 ∨ n = 2 ∨ n = 3 ∨ n = 4 := by omega
      rcases this with rfl | rfl | rfl | rfl | rfl <;> simp [boolVectors] at h
  · intro h
    unfold boolVectors
    split <;> first | omega | rfl

/-- The setting for a vector of truth values. -/
def settingOf (params : List String) (bs : List Bool) : Setting :=
  (bs.zip params).map (fun q => (if q.1 then Sign.plus else Sign.tilde, q.2))

theorem settingOf_isSetting : ∀ {params bs}, bs.length = params.length → IsSetting params (settingOf params bs) := by
  intro params
  induction params with
  | nil => intro bs _; simp [settingOf, IsSetting]
  | cons p ps ih =>
    intro bs h
    cases bs with
    | nil => simp at h
    | cons b bs =>
      have := ih (bs := bs) (by simpa using h)
      simp only [IsSetting, settingOf] at this ⊢
      simp [this]

theorem settingOf_inj : ∀ {params bs bs'}, bs.length = params.length → bs'.length = params.length →
    settingOf params bs = settingOf params bs' → bs = bs' := by
  intro params
  induction params with
  | nil => intro bs bs' h h' _; simp at h h'; rw [h, h']
  | cons p ps ih =>
    intro bs bs' h h' he
    cases bs with
    | nil => simp at h
    | cons b bs =>
      cases bs' with
      | nil => simp at h'
      | cons b' bs' =>
        simp only [settingOf, List.zip_cons_cons, List.map_cons, List.cons.injEq, _root_.Prod.mk.injEq, and_true] at he
        have h1 : b = b' := by cases b <;> cases b' <;> simp_all
        rw [h1, ih (by simpa using h) (by simpa using h') he.2]

theorem setting_exists : ∀ {params σ}, IsSetting params σ → ∃ bs, bs.length = params.length ∧ settingOf params bs = σ := by
  intro params
  induction params with
  | nil => intro σ h; simp [IsSetting] at h; exact ⟨[], rfl, by simp [settingOf, h]⟩
  | cons p ps ih =>
    intro σ h
    cases σ with
    | nil => simp [IsSetting] at h
    | cons q σ =>
      simp only [IsSetting, List.map_cons, List.cons.injEq] at h
      obtain ⟨bs, h1, h2⟩ := ih h.2
      obtain ⟨s, p'⟩ := q
      have hp : p' = p := h.1
      subst hp
      refine ⟨(match s with | .plus => true | .tilde => false) :: bs, by simp [h1], ?_⟩
      simp only [settingOf] at h2 ⊢
      cases s <;> simp [h2]

theorem eachSetting_spec {params σs} (h : eachSetting params = some σs) :
    (∀ σ, σ ∈ σs ↔ IsSetting params σ) ∧ σs.Nodup ∧ σs.length = 2 ^ params.length ∧ params.length ≤ 4 := by
  unfold eachSetting at h
  obtain ⟨vs, hv, rfl⟩ := Option.map_eq_some_iff.1 h
  obtain ⟨h1, h2, h3, h4⟩ := boolVectors_spec hv
  refine ⟨?_, ?_, by simp [h3], h4⟩
  · intro σ
    rw [List.mem_map]
    constructor
    · rintro ⟨bs, hb, rfl⟩; exact settingOf_isSetting ((h1 bs).1 hb)
    · intro hs
      obtain ⟨bs, hb, he⟩ := setting_exists hs
      exact ⟨bs, (h1 bs).2 hb, he⟩
  · rw [List.nodup_iff_pairwise_ne, List.pairwise_map]
    refine List.Pairwise.imp_of_mem ?_ (List.nodup_iff_pairwise_ne.1 h2)
    intro a b ha hb hne he
    exact hne (settingOf_inj ((h1 a).1 ha) ((h1 b).1 hb) he)

theorem eachSetting_none {params} : eachSetting params = none ↔ 4 < params.length := by
  simp [eachSetting, boolVectors_none]

/-! ## Names -/

/-- A character that begins a sign. -/
def isSign (c : Char) : Bool := decide (c = '+') || decide (c = '~')

theorem plain_noSign {s : String} (h : PlainName s) : ∀ c ∈ s.toList, isSign c = false := by
  intro c hc
  simp only [isSign, Bool.or_eq_false_iff, decide_eq_false_iff_not]
  exact ⟨fun e => h.1 (e ▸ hc), fun e => h.2.1 (e ▸ hc)⟩

theorem split_unique : ∀ {a a' x x' : List Char}, (∀ c ∈ a, isSign c = false) → (∀ c ∈ a', isSign c = false) →
    (x = [] ∨ ∃ c r, x = c :: r ∧ isSign c = true) → (x' = [] ∨ ∃ c r, x' = c :: r ∧ isSign c = true) →
    a ++ x = a' ++ x' → a = a' ∧ x = x' := by
  intro a
  induction a with
  | nil =>
    intro a' x x' _ h2 h3 h4 he
    cases a' with
    | nil => exact ⟨rfl, he⟩
    | cons c a' =>
      exfalso
      rw [List.nil_append] at he
      rcases h3 with rfl | ⟨d, r, rfl, hd⟩
      · cases he
      · rw [List.cons_append] at he; injection he with h _
        have := h2 c List.mem_cons_self
        rw [← h, hd] at this; cases this
  | cons c a ih =>
    intro a' x x' h1 h2 h3 h4 he
    cases a' with
    | nil =>
      exfalso
      rw [List.nil_append] at he
      rcases h4 with rfl | ⟨d, r, rfl, hd⟩
      · cases he
      · rw [List.cons_append] at he; injection he with h _
        have := h1 c List.mem_cons_self
        rw [h, hd] at this; cases this
    | cons c' a' =>
      rw [List.cons_append, List.cons_append] at he
      injection he with h h'
      obtain ⟨g1, g2⟩ := ih (fun d hd => h1 d (List.mem_cons_of_mem _ hd)) (fun d hd => h2 d (List.mem_cons_of_mem _ hd)) h3 h4 h'
      exact ⟨by rw [h, g1], g2⟩

theorem sign_char (s : Sign) : ∃ c, s.str.toList = [c] ∧ isSign c = true ∧ c ≠ '?' := by
  cases s
  · exact ⟨'+', by decide, by decide, by decide⟩
  · exact ⟨'~', by decide, by decide, by decide⟩

theorem sign_inj {s s' : Sign} {c} (h : s.str.toList = [c]) (h' : s'.str.toList = [c]) : s = s' := by
  cases s <;> cases s' <;> first | rfl | (rw [h'] at h; exfalso; revert h; simp [Sign.str] at h'; subst h'; decide) | skip
  all_goals
    exfalso
    simp [Sign.str] at h h'
    rw [← h] at h'
    exact absurd h' (by decide)

theorem suffix_toList (σ : Setting) : (suffix σ).toList = [] ∨ ∃ c r, (suffix σ).toList = c :: r ∧ isSign c = true := by
  cases σ with
  | nil => left; decide
  | cons q σ =>
    right
    obtain ⟨s, p⟩ := q
    obtain ⟨c, h1, h2, _⟩ := sign_char s
    exact ⟨c, p.toList ++ (suffix σ).toList, by simp [suffix, h1], h2⟩

theorem suffix_inj : ∀ {σ τ : Setting}, (∀ q ∈ σ, PlainName q.2) → (∀ q ∈ τ, PlainName q.2) → suffix σ = suffix τ → σ = τ := by
  intro σ
  induction σ with
  | nil =>
    intro τ _ _ h
    cases τ with
    | nil => rfl
    | cons q τ =>
      exfalso
      obtain ⟨c, h1, _, _⟩ := sign_char q.1
      have := congrArg String.toList h
      simp [suffix, h1] at this
  | cons q σ ih =>
    intro τ h1 h2 h
    obtain ⟨s, p⟩ := q
    obtain ⟨c, hc, _, _⟩ := sign_char s
    cases τ with
    | nil =>
      exfalso
      have := congrArg String.toList h
      simp [suffix, hc] at this
    | cons q' τ =>
      obtain ⟨s', p'⟩ := q'
      obtain ⟨c', hc', _, _⟩ := sign_char s'
      have he := congrArg String.toList h
      simp only [suffix, String.toList_append, hc, hc', List.cons_append,
        List.cons.injEq, List.nil_append] at he
      obtain ⟨rfl, he⟩ := he
      have hs := sign_inj hc hc'
      subst hs
      obtain ⟨g1, g2⟩ := split_unique (plain_noSign (h1 (s, p) List.mem_cons_self)) (plain_noSign (h2 (s, p') List.mem_cons_self))
        (suffix_toList σ) (suffix_toList τ) he
      have := String.toList_inj.1 g1
      subst this
      rw [ih (fun q hq => h1 q (List.mem_cons_of_mem _ hq)) (fun q hq => h2 q (List.mem_cons_of_mem _ hq)) (String.toList_inj.1 g2)]

theorem name_inj {a a' : String} {σ τ : Setting} (ha : PlainName a) (ha' : PlainName a') (h1 : ∀ q ∈ σ, PlainName q.2)
    (h2 : ∀ q ∈ τ, PlainName q.2) (h : a ++ suffix σ = a' ++ suffix τ) : a = a' ∧ σ = τ := by
  have he := congrArg String.toList h
  rw [String.toList_append, String.toList_append] at he
  obtain ⟨g1, g2⟩ := split_unique (plain_noSign ha) (plain_noSign ha') (suffix_toList σ) (suffix_toList τ) he
  exact ⟨String.toList_inj.1 g1, suffix_inj h1 h2 (String.toList_inj.1 g2)⟩

/-- No question mark. -/
def NoQ (s : String) : Prop := '?' ∉ s.toList

theorem suffix_noQ : ∀ {σ : Setting}, (∀ q ∈ σ, PlainName q.2) → NoQ (suffix σ) := by
  intro σ
  induction σ with
  | nil => intro _; unfold NoQ; decide
  | cons q σ ih =>
    intro h
    obtain ⟨s, p⟩ := q
    obtain ⟨c, hc, _, hq⟩ := sign_char s
    have := ih (fun q hq => h q (List.mem_cons_of_mem _ hq))
    have hp := (h (s, p) List.mem_cons_self).2.2
    unfold NoQ at *
    simp only [suffix, String.toList_append, hc, List.mem_append, List.mem_singleton, not_or]
    exact ⟨⟨fun e => hq e.symm, hp⟩, this⟩

theorem name_noQ {a : String} {σ : Setting} (ha : PlainName a) (h : ∀ q ∈ σ, PlainName q.2) : NoQ (a ++ suffix σ) := by
  unfold NoQ
  rw [String.toList_append, List.mem_append, not_or]
  exact ⟨ha.2.2, suffix_noQ h⟩

theorem noQ_ne {n b : String} (h : NoQ n) : n ≠ b ++ "?" := by
  intro e
  apply h
  rw [e, String.toList_append]
  simp

theorem setting_plain {params σ} (h : IsSetting params σ) (hp : ∀ p ∈ params, PlainName p) : ∀ q ∈ σ, PlainName q.2 := by
  intro q hq
  apply hp
  rw [← h]
  exact List.mem_map.2 ⟨q, hq, rfl⟩

/-! ## Arguments and items -/

theorem lookupParam_mem {p σ s} (h : lookupParam p σ = some s) : (s, p) ∈ σ := by
  induction σ with
  | nil => cases h
  | cons q σ ih =>
    obtain ⟨s', q⟩ := q
    simp only [lookupParam] at h
    split at h
    · rename_i e; injection h with h; subst h e; exact List.mem_cons_self
    · exact List.mem_cons_of_mem _ (ih h)

theorem expandName_spec {σ} : ∀ {args res x}, expandName σ res args = some x →
    ∃ τ, Resolved σ args τ ∧ x = res ++ suffix τ := by
  intro args
  induction args with
  | nil => intro res x h; simp [expandName] at h; exact ⟨[], rfl, by simp [suffix, h]⟩
  | cons a r ih =>
    intro res x h
    obtain ⟨s, p⟩ := a
    cases s with
    | none =>
      simp only [expandName] at h
      split at h
      · cases h
      · rename_i s hs
        obtain ⟨τ, h1, h2⟩ := ih h
        exact ⟨(s, p) :: τ, ⟨s, τ, rfl, lookupParam_mem hs, h1⟩, by rw [h2, suffix]; simp [String.append_assoc]⟩
    | some s =>
      simp only [expandName] at h
      obtain ⟨τ, h1, h2⟩ := ih h
      exact ⟨(s, p) :: τ, ⟨s, τ, rfl, rfl, h1⟩, by rw [h2, suffix]; simp [String.append_assoc]⟩

/-- What is filed under a name. -/
def filed (D : Grammar) (n : String) : List Prod := (D n).getD []

/-- A name is never filed without a production. -/
def NoEmpty (D : Grammar) : Prop := ∀ n, D n ≠ some []

theorem of_filed {D : Grammar} (h : NoEmpty D) (n) : D n = if filed D n = [] then none else some (filed D n) := by
  cases hd : D n with
  | none => simp [filed, hd]
  | some ps =>
    have : ps ≠ [] := fun e => h n (by rw [hd, e])
    simp [filed, hd, this]

theorem addProd_noEmpty {D p} (h : NoEmpty D) : NoEmpty (addProd D p) := by
  intro n
  unfold addProd
  split
  · simp
  · exact h n

theorem filed_addProd (D p n) : filed (addProd D p) n = filed D n ++ (if n = p.lhs then [p] else []) := by
  unfold filed addProd
  split <;> simp

/-- Entries with a question mark are optional symbols that `U` knows. -/
def OptInv (U : String → Rthing → Prop) (D : Grammar) : Prop :=
  ∀ b ps, D (b ++ "?") = some ps → ∃ thing, U b thing ∧ OptPair b thing ps

/-- `D'` extends `D`, not touching plain names. -/
structure OptExt (U : String → Rthing → Prop) (D D' : Grammar) : Prop where
  plain : ∀ n, NoQ n → D' n = D n
  keep : ∀ n ps, D n = some ps → (D' n).isSome = true
  noEmpty : NoEmpty D → NoEmpty D'
  inv : OptInv U D → OptInv U D'
  names : ∀ n, (D' n).isSome = true → (D n).isSome = true ∨ ∃ b thing, U b thing ∧ n = b ++ "?"

theorem OptExt.refl (U D) : OptExt U D D :=
  ⟨fun _ _ => rfl, fun _ _ h => by simp [h], id, id, fun _ h => .inl h⟩

theorem OptExt.trans {U D D' D''} (h : OptExt U D D') (h' : OptExt U D' D'') : OptExt U D D'' where
  plain n hn := by rw [h'.plain n hn, h.plain n hn]
  keep n ps hd := by
    have := h.keep n ps hd
    obtain ⟨ps', hp⟩ := Option.isSome_iff_exists.1 this
    exact h'.keep n ps' hp
  noEmpty hd := h'.noEmpty (h.noEmpty hd)
  inv hd := h'.inv (h.inv hd)
  names n hn := by
    rcases h'.names n hn with hn | hn
    · exact h.names n hn
    · exact .inr hn

theorem append_q_inj {a b : String} (h : a ++ "?" = b ++ "?") : a = b := by
  have := congrArg String.toList h
  rw [String.toList_append, String.toList_append] at this
  exact String.toList_inj.1 (List.append_inj' this rfl).1

theorem addOptional_ext {U : String → Rthing → Prop} {D σ b o thing} (hu : U b thing) :
    OptExt U D (addOptional D σ b o thing) ∧ (addOptional D σ b o thing (b ++ "?")).isSome = true := by
  unfold addOptional
  split
  · rename_i h; exact ⟨.refl U D, h⟩
  · rename_i h
    have hn : D (b ++ "?") = none := by simpa using h
    refine ⟨⟨?_, ?_, fun hd => addProd_noEmpty (addProd_noEmpty hd), ?_, ?_⟩, ?_⟩
    · intro n hq
      have := noQ_ne (b := b) hq
      simp [addProd, this]
    · intro n ps hd
      simp only [addProd]
      split
      · simp
      · simp [hd]
    · intro hi b' ps hd
      by_cases hb : b' ++ "?" = b ++ "?"
      · have := append_q_inj hb
        subst this
        simp only [addProd, if_true] at hd
        rw [hn] at hd
        simp at hd
        exact ⟨thing, hu, o, settingStrings σ, hd.symm⟩
      · simp only [addProd, hb, if_false] at hd
        exact hi b' ps hd
    · intro n h'
      by_cases hb : n = b ++ "?"
      · exact .inr ⟨b, thing, hu, hb⟩
      · simp only [addProd, hb, if_false] at h'
        exact .inl h'
    · simp [addProd]

theorem setting_unique : ∀ {σ : Setting} {s s' p}, (σ.map (·.2)).Nodup → (s, p) ∈ σ → (s', p) ∈ σ → s = s' := by
  intro σ
  induction σ with
  | nil => intro s s' p _ h _; cases h
  | cons q σ ih =>
    intro s s' p hn h h'
    rw [List.map_cons, List.nodup_cons] at hn
    rcases List.mem_cons.1 h with e | h <;> rcases List.mem_cons.1 h' with e' | h'
    · rw [← e'] at e; injection e
    · exfalso; exact hn.1 (List.mem_map.2 ⟨(s', p), h', by rw [← e]⟩)
    · exfalso; exact hn.1 (List.mem_map.2 ⟨(s, p), h, by rw [← e']⟩)
    · exact ih hn.2 h h'

theorem resolved_unique {σ : Setting} (hσ : (σ.map (·.2)).Nodup) : ∀ {args τ τ'}, Resolved σ args τ → Resolved σ args τ' → τ = τ' := by
  intro args
  induction args with
  | nil => intro τ τ' h h'; rw [show τ = [] from h, show τ' = [] from h']
  | cons a r ih =>
    rintro τ τ' ⟨s, t, rfl, h1, h2⟩ ⟨s', t', rfl, h1', h2'⟩
    obtain ⟨o, p⟩ := a
    have hs : s = s' := by
      cases o with
      | none => exact setting_unique hσ h1 h1'
      | some o => exact (show s = o from h1).trans (show s' = o from h1').symm
    rw [hs, ih h2 h2']

theorem expandItem_spec {env σ D x D' ts} {U : String → Rthing → Prop} (hσ : (σ.map (·.2)).Nodup) (hu : ∀ b thing, OptionalIn σ x b thing → U b thing)
    (h : expandItem env σ D x = some (D', ts)) :
    Stand env σ x ts ∧ OptExt U D D' ∧ (∀ b thing, OptionalIn σ x b thing → (D' (b ++ "?")).isSome = true) := by
  cases x with
  | nt name args =>
    simp only [expandItem] at h
    split at h
    · rename_i x hx ht
      injection h with h; injection h with h1 h2; subst h1 h2
      obtain ⟨τ, h1, rfl⟩ := expandName_spec hx
      exact ⟨.nt h1 ht, .refl U D, by simp [OptionalIn]⟩
    · rename_i x hx ht
      injection h with h; injection h with h1 h2; subst h1 h2
      obtain ⟨τ, h1, rfl⟩ := expandName_spec hx
      exact ⟨.named h1 ht, .refl U D, by simp [OptionalIn]⟩
    · cases h
  | optNt name args =>
    simp only [expandItem] at h
    split at h
    · rename_i x hx
      injection h with h; injection h with h1 h2; subst h1 h2
      obtain ⟨τ, h1, rfl⟩ := expandName_spec hx
      have ho : OptionalIn σ (.optNt name args) (name ++ suffix τ) (.nt (name ++ suffix τ)) := ⟨τ, h1, rfl, rfl⟩
      obtain ⟨g1, g2⟩ := addOptional_ext (D := D) (σ := σ) (o := name) (hu _ _ ho)
      refine ⟨.optNt h1, g1, ?_⟩
      rintro b thing ⟨τ', h1', rfl, _⟩
      rw [resolved_unique hσ h1' h1]
      exact g2
    · cases h
  | optLit c =>
    simp only [expandItem] at h
    injection h with h; injection h with h1 h2; subst h1 h2
    have ho : OptionalIn σ (.optLit c) c (.term (.lit c)) := ⟨rfl, rfl⟩
    obtain ⟨g1, g2⟩ := addOptional_ext (D := D) (σ := σ) (o := c) (hu _ _ ho)
    refine ⟨.optLit, g1, ?_⟩
    rintro b thing ⟨rfl, _⟩
    exact g2
  | lit c =>
    simp only [expandItem] at h
    split at h
    · rename_i hc
      simp only [Bool.and_eq_true, decide_eq_true_eq] at hc
      injection h with h; injection h with h1 h2; subst h1 h2
      exact ⟨.exploded hc.1 hc.2, .refl U D, by simp [OptionalIn]⟩
    · rename_i hc
      injection h with h; injection h with h1 h2; subst h1 h2
      refine ⟨.lit ?_, .refl U D, by simp [OptionalIn]⟩
      cases hl : env.lexical with
      | false => exact .inl rfl
      | true => right; simp [hl] at hc; simpa using hc
  | namedChar n => simp only [expandItem] at h; injection h with h; injection h with h1 h2; subst h1 h2; exact ⟨.namedChar, .refl U D, by simp [OptionalIn]⟩
  | uProp n => simp only [expandItem] at h; injection h with h; injection h with h1 h2; subst h1 h2; exact ⟨.uProp, .refl U D, by simp [OptionalIn]⟩
  | uRange a b => simp only [expandItem] at h; injection h with h; injection h with h1 h2; subst h1 h2; exact ⟨.uRange, .refl U D, by simp [OptionalIn]⟩
  | uAny => simp only [expandItem] at h; injection h with h; injection h with h1 h2; subst h1 h2; exact ⟨.uAny, .refl U D, by simp [OptionalIn]⟩
  | con c => simp only [expandItem] at h; injection h with h; injection h with h1 h2; subst h1 h2; exact ⟨.con, .refl U D, by simp [OptionalIn]⟩


theorem expandItems_spec {env σ} {U : String → Rthing → Prop} (hσ : (σ.map (·.2)).Nodup) : ∀ {xs D D' ts},
    (∀ x ∈ xs, ∀ b thing, OptionalIn σ x b thing → U b thing) → expandItems env σ D xs = some (D', ts) →
    Stands' env σ xs ts ∧ OptExt U D D' ∧ (∀ x ∈ xs, ∀ b thing, OptionalIn σ x b thing → (D' (b ++ "?")).isSome = true) := by
  intro xs
  induction xs with
  | nil =>
    intro D D' ts _ h
    simp only [expandItems] at h
    injection h with h; injection h with h1 h2; subst h1 h2
    exact ⟨.nil, .refl U D, by intro x hx; cases hx⟩
  | cons x r ih =>
    intro D D' ts hu h
    simp only [expandItems] at h
    split at h
    · cases h
    · rename_i D1 t1 h1
      split at h
      · cases h
      · rename_i D2 t2 h2
        injection h with h; injection h with e1 e2; subst e1 e2
        obtain ⟨a1, a2, a3⟩ := expandItem_spec hσ (hu x List.mem_cons_self) h1
        obtain ⟨b1, b2, b3⟩ := ih (fun y hy => hu y (List.mem_cons_of_mem _ hy)) h2
        refine ⟨.cons a1 b1, a2.trans b2, ?_⟩
        intro y hy b thing ho
        rcases List.mem_cons.1 hy with rfl | hy
        · obtain ⟨ps, hp⟩ := Option.isSome_iff_exists.1 (a3 b thing ho)
          exact b2.keep _ ps hp
        · exact b3 y hy b thing ho

/-- `D'` extends `D` by `add` at the plain names and otherwise only by optional symbols. -/
structure Ext (U : String → Rthing → Prop) (add : String → List Prod) (D D' : Grammar) : Prop where
  plain : ∀ n, NoQ n → filed D' n = filed D n ++ add n
  keep : ∀ n ps, D n = some ps → (D' n).isSome = true
  noEmpty : NoEmpty D → NoEmpty D'
  inv : OptInv U D → OptInv U D'
  names : ∀ n, (D' n).isSome = true → (D n).isSome = true ∨ NoQ n ∨ ∃ b thing, U b thing ∧ n = b ++ "?"

theorem Ext.refl {U add D} (h : ∀ n, add n = []) : Ext U add D D :=
  ⟨fun n _ => by rw [h, List.append_nil], fun _ _ h => by simp [h], id, id, fun _ h => .inl h⟩

theorem Ext.trans {U a b c D D' D''} (h : Ext U a D D') (h' : Ext U b D' D'') (hc : ∀ n, c n = a n ++ b n) : Ext U c D D'' where
  plain n hn := by rw [h'.plain n hn, h.plain n hn, hc, List.append_assoc]
  keep n ps hd := by
    obtain ⟨ps', hp⟩ := Option.isSome_iff_exists.1 (h.keep n ps hd)
    exact h'.keep n ps' hp
  noEmpty hd := h'.noEmpty (h.noEmpty hd)
  inv hd := h'.inv (h.inv hd)
  names n hn := by
    rcases h'.names n hn with hn | hn
    · exact h.names n hn
    · exact .inr hn

theorem OptExt.ext {U D D'} (h : OptExt U D D') : Ext U (fun _ => []) D D' where
  plain n hn := by simp [filed, h.plain n hn]
  keep := h.keep
  noEmpty := h.noEmpty
  inv := h.inv
  names n hn := by
    rcases h.names n hn with hn | hn
    · exact .inl hn
    · exact .inr (.inr hn)

theorem addProd_ext {U D p} (hq : NoQ p.lhs) : Ext U (fun n => if n = p.lhs then [p] else []) D (addProd D p) where
  plain n _ := filed_addProd D p n
  keep n ps hd := by
    unfold addProd
    split
    · rfl
    · simp [hd]
  noEmpty := addProd_noEmpty
  inv hi b ps hd := by
    have : b ++ "?" ≠ p.lhs := fun e => noQ_ne hq e.symm
    simp only [addProd, this, if_false] at hd
    exact hi b ps hd
  names n hn := by
    by_cases h : n = p.lhs
    · exact .inr (.inl (h ▸ hq))
    · simp only [addProd, h, if_false] at hn
      exact .inl hn

theorem simplifyRhss_spec {env σ lhs} {U : String → Rthing → Prop} (hσ : (σ.map (·.2)).Nodup) (hl : NoQ (lhs ++ suffix σ)) :
    ∀ {rs D D'}, (∀ r ∈ rs, Admits r.guard σ → ∀ x ∈ r.items, ∀ b thing, OptionalIn σ x b thing → U b thing) →
    simplifyRhss env σ lhs D rs = some D' →
    ∃ ps, Expands env σ lhs rs ps ∧ Ext U (fun n => if n = lhs ++ suffix σ then ps else []) D D' ∧
      (∀ r ∈ rs, Admits r.guard σ → ∀ x ∈ r.items, ∀ b thing, OptionalIn σ x b thing → (D' (b ++ "?")).isSome = true) := by
  intro rs
  induction rs with
  | nil =>
    intro D D' _ h
    simp only [simplifyRhss] at h
    injection h with h; subst h
    exact ⟨[], .nil, .refl (by intro n; simp), by intro r hr; cases hr⟩
  | cons r rs ih =>
    intro D D' hu h
    simp only [simplifyRhss] at h
    split at h
    · cases h
    · rename_i D1 h1
      obtain ⟨ps, b1, b2, b3⟩ := ih (fun r hr => hu r (List.mem_cons_of_mem _ hr)) h
      unfold simplifyProd at h1
      split at h1
      · rename_i hg
        have hg : Admits r.guard σ := by
          intro g hm
          exact of_decide_eq_true (List.all_eq_true.1 hg g hm)
        split at h1
        · cases h1
        · rename_i D0 rhs h0
          injection h1 with h1; subst h1
          obtain ⟨a1, a2, a3⟩ := expandItems_spec hσ (hu r List.mem_cons_self hg) h0
          have e1 := addProd_ext (U := U) (D := D0) (p := ⟨lhs ++ suffix σ, rhs, lhs, r.reduced, settingStrings σ⟩) hl
          refine ⟨_, .keep (p := ⟨lhs ++ suffix σ, rhs, lhs, r.reduced, settingStrings σ⟩) hg a1 rfl rfl rfl rfl b1,
            (a2.ext.trans (e1.trans b2 (fun n => rfl)) (fun n => rfl)) |>.trans (.refl (add := fun _ => []) (fun _ => rfl)) ?_, ?_⟩
          · intro n
            by_cases hn : n = lhs ++ suffix σ <;> simp [hn]
          · intro r' hr' hg' x hx b thing ho
            rcases List.mem_cons.1 hr' with rfl | hr'
            · obtain ⟨ps', hp⟩ := Option.isSome_iff_exists.1 (a3 x hx b thing ho)
              obtain ⟨ps'', hp'⟩ := Option.isSome_iff_exists.1 (e1.keep _ ps' hp)
              exact b2.keep _ ps'' hp'
            · exact b3 r' hr' hg' x hx b thing ho
      · rename_i hg
        injection h1 with h1; subst h1
        have hg : ¬ Admits r.guard σ := by
          intro ha
          apply hg
          rw [List.all_eq_true]
          intro g hm
          exact decide_eq_true (ha g hm)
        refine ⟨ps, .skip hg b1, b2, ?_⟩
        intro r' hr' hg' x hx b thing ho
        rcases List.mem_cons.1 hr' with rfl | hr'
        · exact absurd hg' hg
        · exact b3 r' hr' hg' x hx b thing ho

theorem simplifySettings_spec {env lhs rhss} {U : String → Rthing → Prop} (hl : PlainName lhs) :
    ∀ {σs : List Setting} {D D'}, σs.Nodup → (∀ σ ∈ σs, (σ.map (·.2)).Nodup ∧ ∀ q ∈ σ, PlainName q.2) →
    (∀ σ ∈ σs, ∀ r ∈ rhss, Admits r.guard σ → ∀ x ∈ r.items, ∀ b thing, OptionalIn σ x b thing → U b thing) →
    simplifySettings env lhs rhss D σs = some D' →
    ∃ add, Ext U add D D' ∧ (∀ σ ∈ σs, Expands env σ lhs rhss (add (lhs ++ suffix σ))) ∧
      (∀ n, (∀ σ ∈ σs, n ≠ lhs ++ suffix σ) → add n = []) ∧
      (∀ σ ∈ σs, ∀ r ∈ rhss, Admits r.guard σ → ∀ x ∈ r.items, ∀ b thing, OptionalIn σ x b thing → (D' (b ++ "?")).isSome = true) := by
  intro σs
  induction σs with
  | nil =>
    intro D D' _ _ _ h
    simp only [simplifySettings] at h
    injection h with h; subst h
    exact ⟨fun _ => [], .refl (fun _ => rfl), by simp, by simp, by simp⟩
  | cons σ σs ih =>
    intro D D' hnd hs hu h
    simp only [simplifySettings] at h
    rw [List.nodup_cons] at hnd
    split at h
    · cases h
    · rename_i D1 h1
      have hσ := hs σ List.mem_cons_self
      obtain ⟨ps, a1, a2, a3⟩ := simplifyRhss_spec hσ.1 (name_noQ hl hσ.2) (hu σ List.mem_cons_self) h1
      obtain ⟨add, b1, b2, b3, b4⟩ := ih hnd.2 (fun τ hτ => hs τ (List.mem_cons_of_mem _ hτ)) (fun τ hτ => hu τ (List.mem_cons_of_mem _ hτ)) h
      have hne : ∀ τ ∈ σs, lhs ++ suffix σ ≠ lhs ++ suffix τ := by
        intro τ hτ e
        have := (name_inj hl hl hσ.2 (hs τ (List.mem_cons_of_mem _ hτ)).2 e).2
        exact hnd.1 (this ▸ hτ)
      refine ⟨_, a2.trans b1 (fun n => rfl), ?_, ?_, ?_⟩
      · intro τ hτ
        rcases List.mem_cons.1 hτ with rfl | hτ
        · rw [if_pos rfl, b3 _ hne, List.append_nil]; exact a1
        · rw [if_neg (fun e => hne τ hτ e.symm), List.nil_append]; exact b2 τ hτ
      · intro n hn
        rw [if_neg (hn σ List.mem_cons_self), b3 n (fun τ hτ => hn τ (List.mem_cons_of_mem _ hτ))]; rfl
      · intro τ hτ r hr hg x hx b thing ho
        rcases List.mem_cons.1 hτ with rfl | hτ
        · obtain ⟨ps', hp⟩ := Option.isSome_iff_exists.1 (a3 r hr hg x hx b thing ho)
          exact b1.keep _ ps' hp
        · exact b4 τ hτ r hr hg x hx b thing ho

theorem simplifyAll_spec {env} {U : String → Rthing → Prop} : ∀ {prods : List GProd} {D D'},
    (prods.map (·.lhs)).Nodup → (∀ gp ∈ prods, PlainName gp.lhs ∧ gp.params.Nodup ∧ ∀ p ∈ gp.params, PlainName p) →
    (∀ b thing, OptionalUsed prods b thing → U b thing) → simplifyAll env D prods = some D' →
    ∃ add, Ext U add D D' ∧
      (∀ gp ∈ prods, ∀ σ, IsSetting gp.params σ → Expands env σ gp.lhs gp.rhss (add (gp.lhs ++ suffix σ))) ∧
      (∀ n, (∀ gp ∈ prods, ∀ σ, IsSetting gp.params σ → n ≠ gp.lhs ++ suffix σ) → add n = []) ∧
      (∀ b thing, OptionalUsed prods b thing → (D' (b ++ "?")).isSome = true) := by
  intro prods
  induction prods with
  | nil =>
    intro D D' _ _ _ h
    simp only [simplifyAll] at h
    injection h with h; subst h
    refine ⟨fun _ => [], .refl (fun _ => rfl), by simp, by simp, ?_⟩
    rintro b thing ⟨gp, hg, _⟩
    cases hg
  | cons gp r ih =>
    intro D D' hnd hok hu h
    simp only [simplifyAll] at h
    rw [List.map_cons, List.nodup_cons] at hnd
    split at h
    · cases h
    · rename_i σs hσs
      split at h
      · cases h
      · rename_i D1 h1
        obtain ⟨s1, s2, _, _⟩ := eachSetting_spec hσs
        obtain ⟨p1, p2, p3⟩ := hok gp List.mem_cons_self
        have hset : ∀ σ ∈ σs, (σ.map (·.2)).Nodup ∧ ∀ q ∈ σ, PlainName q.2 := by
          intro σ hσ
          have := (s1 σ).1 hσ
          exact ⟨by rw [show σ.map (·.2) = gp.params from this]; exact p2, setting_plain this p3⟩
        obtain ⟨a, a1, a2, a3, a4⟩ := simplifySettings_spec (U := U) p1 s2 hset (fun σ hσ r' hr hg x hx b thing ho =>
          hu b thing ⟨gp, List.mem_cons_self, σ, (s1 σ).1 hσ, r', hr, hg, x, hx, ho⟩) h1
        obtain ⟨b, b1, b2, b3, b4⟩ := ih hnd.2 (fun g hg => hok g (List.mem_cons_of_mem _ hg)) (by
          rintro b thing ⟨g, hg, hr⟩
          exact hu b thing ⟨g, List.mem_cons_of_mem _ hg, hr⟩) h
        have hne : ∀ g ∈ r, ∀ σ τ, IsSetting gp.params σ → IsSetting g.params τ → gp.lhs ++ suffix σ ≠ g.lhs ++ suffix τ := by
          intro g hg σ τ hσ hτ e
          obtain ⟨q1, _, q3⟩ := hok g (List.mem_cons_of_mem _ hg)
          have := (name_inj p1 q1 (setting_plain hσ p3) (setting_plain hτ q3) e).1
          exact hnd.1 (List.mem_map.2 ⟨g, hg, this.symm⟩)
        refine ⟨_, a1.trans b1 (fun n => rfl), ?_, ?_, ?_⟩
        · intro g hg σ hσ
          rcases List.mem_cons.1 hg with rfl | hg
          · rw [b3 _ (fun g' hg' τ hτ => hne g' hg' σ τ hσ hτ), List.append_nil]
            exact a2 σ ((s1 σ).2 hσ)
          · rw [a3 _ (fun τ hτ e => hne g hg τ σ ((s1 τ).1 hτ) hσ e.symm), List.nil_append]
            exact b2 g hg σ hσ
        · intro n hn
          rw [a3 n (fun σ hσ => hn gp List.mem_cons_self σ ((s1 σ).1 hσ)), b3 n (fun g hg => hn g (List.mem_cons_of_mem _ hg))]
          rfl
        · rintro x thing ⟨g, hg, σ, hσ, r', hr, hgd, y, hy, ho⟩
          rcases List.mem_cons.1 hg with rfl | hg
          · obtain ⟨ps', hp⟩ := Option.isSome_iff_exists.1 (a4 σ ((s1 σ).2 hσ) r' hr hgd y hy x thing ho)
            exact b1.keep _ ps' hp
          · exact b4 x thing ⟨g, hg, σ, hσ, r', hr, hgd, y, hy, ho⟩

theorem makeCommon_eq (D : Grammar) (n : String) :
    makeCommon D n = if n = "InputElement_common" then some ((D n).getD [] ++ commonProds) else D n := by
  simp only [makeCommon, List.foldl, addProd, commonProds]
  split <;> simp

/-- The whole effect of the expansion. -/
theorem simplifyGrammar_spec {env prods D} (hok : NamesOk prods) (h : simplifyGrammar env prods = some D) :
    (∀ gp ∈ prods, ∀ σ, IsSetting gp.params σ → ∃ ps, Expands env σ gp.lhs gp.rhss ps ∧
      (ps = [] ∧ D (gp.lhs ++ suffix σ) = none ∨ ps ≠ [] ∧ D (gp.lhs ++ suffix σ) = some ps)) ∧
    (∀ b thing, OptionalUsed prods b thing → ∃ thing', OptionalUsed prods b thing' ∧ ∃ ps, OptPair b thing' ps ∧ D (b ++ "?") = some ps) ∧
    (∀ n, (D n).isSome = true →
      (∃ gp ∈ prods, ∃ σ, IsSetting gp.params σ ∧ n = gp.lhs ++ suffix σ) ∨ (∃ b thing, OptionalUsed prods b thing ∧ n = b ++ "?") ∨
      (env.lexical = true ∧ n = "InputElement_common")) ∧
    (env.lexical = true → D "InputElement_common" = some commonProds) := by
  unfold simplifyGrammar at h
  obtain ⟨D0, h0, rfl⟩ := Option.map_eq_some_iff.1 h
  obtain ⟨add, a1, a2, a3, a4⟩ := simplifyAll_spec (U := OptionalUsed prods) hok.once
    (fun gp hg => ⟨(hok.lhs gp hg).1, hok.params gp hg⟩) (fun _ _ h => h) h0
  have hne : NoEmpty D0 := a1.noEmpty (by intro n; simp)
  have hinv : OptInv (OptionalUsed prods) D0 := a1.inv (by intro b ps hd; cases hd)
  have hcq : NoQ "InputElement_common" := by unfold NoQ; decide
  have hcn : ∀ gp ∈ prods, ∀ σ, IsSetting gp.params σ → gp.lhs ++ suffix σ ≠ "InputElement_common" := by
    intro gp hg σ hσ e
    have e' : gp.lhs ++ suffix σ = "InputElement_common" ++ suffix [] := by rw [e]; decide
    have hpl : PlainName "InputElement_common" := by unfold PlainName; decide
    obtain ⟨e1, _⟩ := name_inj (hok.lhs gp hg).1 hpl (setting_plain hσ (hok.params gp hg).2) (by intro q hq; cases hq) e'
    exact (hok.lhs gp hg).2 e1
  have hD : ∀ n, n ≠ "InputElement_common" → (if env.lexical then makeCommon D0 else D0) n = D0 n := by
    intro n hn
    split
    · rw [makeCommon_eq, if_neg hn]
    · rfl
  refine ⟨?_, ?_, ?_, ?_⟩
  · intro gp hg σ hσ
    refine ⟨_, a2 gp hg σ hσ, ?_⟩
    rw [hD _ (hcn gp hg σ hσ), of_filed hne, a1.plain _ (name_noQ (hok.lhs gp hg).1 (setting_plain hσ (hok.params gp hg).2))]
    simp only [filed, Option.getD_none, List.nil_append]
    by_cases he : add (gp.lhs ++ suffix σ) = []
    · exact .inl ⟨he, by simp [he]⟩
    · exact .inr ⟨he, by simp [he]⟩
  · intro b thing ho
    obtain ⟨ps, hp⟩ := Option.isSome_iff_exists.1 (a4 b thing ho)
    obtain ⟨t, h1, h2⟩ := hinv b ps hp
    exact ⟨t, h1, ps, h2, by rw [hD _ (fun e => noQ_ne hcq e.symm)]; exact hp⟩
  · intro n hn
    by_cases hc : n = "InputElement_common"
    · cases hl : env.lexical with
      | true => exact .inr (.inr ⟨rfl, hc⟩)
      | false =>
        exfalso
        rw [hl] at hn
        simp only [Bool.false_eq_true, if_false] at hn
        subst hc
        rw [of_filed hne, a1.plain _ hcq, a3 _ (fun gp hg σ hσ e => hcn gp hg σ hσ e.symm)] at hn
        simp [filed] at hn
    · rw [hD n hc] at hn
      by_cases hex : ∃ gp ∈ prods, ∃ σ, IsSetting gp.params σ ∧ n = gp.lhs ++ suffix σ
      · exact .inl hex
      · right; left
        rcases a1.names n hn with h' | h' | h'
        · cases h'
        · exfalso
          rw [of_filed hne, a1.plain _ h', a3 n (fun gp hg σ hσ e => hex ⟨gp, hg, σ, hσ, e⟩)] at hn
          simp [filed] at hn
        · exact h'
  · intro hl
    rw [hl]
    simp only [if_true]
    rw [makeCommon_eq, if_pos rfl]
    have := a1.plain _ hcq
    rw [a3 _ (fun gp hg σ hσ e => hcn gp hg σ hσ e.symm)] at this
    simp only [filed] at this
    rw [this]; rfl

/-- A nonterminal with more than four parameters is refused. -/
theorem simplifyGrammar_refuses {env prods gp} (hg : gp ∈ prods) (hp : 4 < gp.params.length) : simplifyGrammar env prods = none := by
  have : ∀ D, simplifyAll env D prods = none := by
    induction prods with
    | nil => cases hg
    | cons g r ih =>
      intro D
      simp only [simplifyAll]
      rcases List.mem_cons.1 hg with rfl | hg
      · rw [eachSetting_none.2 hp]
      · split
        · rfl
        · split
          · rfl
          · exact ih hg _
  simp [simplifyGrammar, this]

/-! ## When the expansion succeeds -/

theorem lookupParam_some {p s} : ∀ {σ : Setting}, (s, p) ∈ σ → ∃ s', lookupParam p σ = some s' := by
  intro σ
  induction σ with
  | nil => intro h; cases h
  | cons q σ ih =>
    intro h
    obtain ⟨s', q⟩ := q
    simp only [lookupParam]
    split
    · exact ⟨s', rfl⟩
    · rename_i hn
      rcases List.mem_cons.1 h with e | h
      · injection e with _ e; exact absurd e.symm hn
      · exact ih h

theorem expandName_total {σ} : ∀ {args τ res}, Resolved σ args τ → ∃ x, expandName σ res args = some x := by
  intro args
  induction args with
  | nil => intro τ res _; exact ⟨res, rfl⟩
  | cons a r ih =>
    rintro τ res ⟨s, τ', rfl, h1, h2⟩
    obtain ⟨o, p⟩ := a
    cases o with
    | none =>
      obtain ⟨s', hs⟩ := lookupParam_some h1
      simp only [expandName, hs]
      exact ih h2
    | some o => simp only [expandName]; exact ih h2

theorem expandItem_total {env σ D x ts} (h : Stand env σ x ts) : ∃ r, expandItem env σ D x = some r := by
  cases h with
  | @nt name args τ h1 h2 =>
    obtain ⟨x, hx⟩ := expandName_total (res := name) h1
    exact ⟨_, by simp only [expandItem, hx, h2]; rfl⟩
  | @named name args τ h1 h2 =>
    obtain ⟨x, hx⟩ := expandName_total (res := name) h1
    exact ⟨_, by simp only [expandItem, hx, h2]; rfl⟩
  | @optNt name args τ h1 =>
    obtain ⟨x, hx⟩ := expandName_total (res := name) h1
    exact ⟨_, by simp only [expandItem, hx]; rfl⟩
  | lit h => simp only [expandItem]; split <;> exact ⟨_, rfl⟩
  | exploded h h' => simp only [expandItem]; split <;> exact ⟨_, rfl⟩
  | _ => exact ⟨_, rfl⟩

theorem expandItems_total {env σ} : ∀ {xs ts D}, Stands' env σ xs ts → ∃ r, expandItems env σ D xs = some r := by
  intro xs
  induction xs with
  | nil => intro ts D _; exact ⟨_, rfl⟩
  | cons x r ih =>
    intro ts D h
    cases h with
    | cons h1 h2 =>
      obtain ⟨⟨D1, t1⟩, e1⟩ := expandItem_total (D := D) h1
      obtain ⟨⟨D2, t2⟩, e2⟩ := ih (D := D1) h2
      exact ⟨_, by simp only [expandItems, e1, e2]; rfl⟩

theorem simplifyRhss_total {env σ lhs} : ∀ {rs D}, (∀ r ∈ rs, Admits r.guard σ → ∃ rhs, Stands' env σ r.items rhs) →
    ∃ D', simplifyRhss env σ lhs D rs = some D' := by
  intro rs
  induction rs with
  | nil => intro D _; exact ⟨D, rfl⟩
  | cons r rs ih =>
    intro D h
    have : ∃ D', simplifyProd env σ lhs D r = some D' := by
      unfold simplifyProd
      split
      · rename_i hg
        obtain ⟨rhs, hr⟩ := h r List.mem_cons_self (fun g hm => of_decide_eq_true (List.all_eq_true.1 hg g hm))
        obtain ⟨⟨D1, t1⟩, e1⟩ := expandItems_total (D := D) hr
        rw [e1]; exact ⟨_, rfl⟩
      · exact ⟨_, rfl⟩
    obtain ⟨D1, h1⟩ := this
    obtain ⟨D2, h2⟩ := ih (D := D1) (fun r hr => h r (List.mem_cons_of_mem _ hr))
    exact ⟨D2, by simp only [simplifyRhss, h1, h2]⟩

theorem simplifySettings_total {env lhs rhss} : ∀ {σs : List Setting} {D},
    (∀ σ ∈ σs, ∀ r ∈ rhss, Admits r.guard σ → ∃ rhs, Stands' env σ r.items rhs) → ∃ D', simplifySettings env lhs rhss D σs = some D' := by
  intro σs
  induction σs with
  | nil => intro D _; exact ⟨D, rfl⟩
  | cons σ σs ih =>
    intro D h
    obtain ⟨D1, h1⟩ := simplifyRhss_total (lhs := lhs) (D := D) (h σ List.mem_cons_self)
    obtain ⟨D2, h2⟩ := ih (D := D1) (fun τ hτ => h τ (List.mem_cons_of_mem _ hτ))
    exact ⟨D2, by simp only [simplifySettings, h1, h2]⟩

theorem simplifyAll_total {env} : ∀ {prods : List GProd} {D},
    (∀ gp ∈ prods, gp.params.length ≤ 4 ∧ Sensible env gp) → ∃ D', simplifyAll env D prods = some D' := by
  intro prods
  induction prods with
  | nil => intro D _; exact ⟨D, rfl⟩
  | cons gp r ih =>
    intro D h
    obtain ⟨h1, h2⟩ := h gp List.mem_cons_self
    cases hs : eachSetting gp.params with
    | none => exact absurd (eachSetting_none.1 hs) (by omega)
    | some σs =>
      obtain ⟨D1, e1⟩ := simplifySettings_total (lhs := gp.lhs) (D := D) (fun σ hσ => h2 σ ((eachSetting_spec hs).1 σ |>.1 hσ))
      obtain ⟨D2, e2⟩ := ih (D := D1) (fun g hg => h g (List.mem_cons_of_mem _ hg))
      exact ⟨D2, by simp only [simplifyAll, hs, e1, e2]⟩

theorem expands_sensible {env σ lhs rs ps} (h : Expands env σ lhs rs ps) : ∀ r ∈ rs, Admits r.guard σ → ∃ rhs, Stands' env σ r.items rhs := by
  induction h with
  | nil => intro r hr; cases hr
  | skip hn _ ih =>
    intro r hr ha
    rcases List.mem_cons.1 hr with rfl | hr
    · exact absurd ha hn
    · exact ih r hr ha
  | keep _ hs _ _ _ _ _ ih =>
    intro r hr ha
    rcases List.mem_cons.1 hr with rfl | hr
    · exact ⟨_, hs⟩
    · exact ih r hr ha

/-- The expansion succeeds exactly if no nonterminal has more than four parameters and every
right-hand side makes sense in every setting that it is wanted for. -/
theorem simplifyGrammar_some {env prods} (hok : NamesOk prods) :
    (simplifyGrammar env prods).isSome = true ↔ ∀ gp ∈ prods, gp.params.length ≤ 4 ∧ Sensible env gp := by
  constructor
  · intro h gp hg
    obtain ⟨D, hD⟩ := Option.isSome_iff_exists.1 h
    refine ⟨?_, ?_⟩
    · rcases Nat.lt_or_ge 4 gp.params.length with hl | hl
      · rw [simplifyGrammar_refuses hg hl] at hD; cases hD
      · exact hl
    · intro σ hσ
      obtain ⟨ps, hp, _⟩ := (simplifyGrammar_spec hok hD).1 gp hg σ hσ
      exact expands_sensible hp
  · intro h
    obtain ⟨D, hD⟩ := simplifyAll_total (D := fun _ => none) h
    simp [simplifyGrammar, hD]

end Verif.Earley
