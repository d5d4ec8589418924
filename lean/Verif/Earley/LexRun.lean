import Verif.Earley.LexLemmas
/-! # The lexical parser on a text -/
namespace Verif.Earley

section
variable {L : Type}

theorem isNode_congr {W W' : World L} (h1 : W'.first = W.first) (h2 : W'.last = W.last) {p cs pos n}
    (h : IsNode W p cs pos n) : IsNode W' p cs pos n := by
  have hs : ∀ m, W'.startOf m = W.startOf m := by intro m; cases m <;> simp [World.startOf, h1]
  have he : ∀ m, W'.endOf m = W.endOf m := by intro m; cases m <;> simp [World.endOf, h2]
  unfold IsNode at *
  simp only [hs, he]; exact h

/-- Two worlds that agree on the constraints that occur in the grammar have the same derivations. -/
theorem Derives.change {G : Grammar} {W W' : World L} {P : Con → Prop}
    (hs : ∀ k t l, W.scan k t l → W'.scan k t l) (ha : ∀ k p, W.at k p → W'.at k p)
    (h1 : W'.first = W.first) (h2 : W'.last = W.last)
    (hh : ∀ k prev con, P con → W.holds k prev con → W'.holds k prev con)
    (hG : ∀ n ps p k, G n = some ps → p ∈ ps → Rthing.con k ∈ p.rhs → P k)
    {rhs prev i j cs} (hd : Derives G W rhs prev i j cs) : (∀ k, Rthing.con k ∈ rhs → P k) →
      Derives G W' rhs prev i j cs := by
  induction hd with
  | nil => intro _; exact .nil _ _
  | con hk _ ih =>
    intro hP
    exact .con (hh _ _ _ (hP _ List.mem_cons_self) hk) (ih (fun k hk => hP k (List.mem_cons_of_mem _ hk)))
  | term hk _ ih =>
    intro hP
    exact .term (hs _ _ _ hk) (ih (fun k hk => hP k (List.mem_cons_of_mem _ hk)))
  | nt g1 g2 _ g4 g5 _ ih1 ih2 =>
    intro hP
    exact .nt g1 g2 (ih1 (fun k hk => hG _ _ _ k g1 g2 hk)) (ha _ _ g4) (isNode_congr h1 h2 g5)
      (ih2 (fun k hk => hP k (List.mem_cons_of_mem _ hk)))

theorem Path.prevOf {G : Grammar} {W : World L} {i pre tr k} (hp : Path G W i pre tr k) :
    prevOf pre (tr.filterMap id) = lastT tr := by
  cases hp with
  | nil => rfl
  | con hp _ => simp [Verif.Earley.prevOf]
  | term hp _ => simp [Verif.Earley.prevOf]
  | nt hp _ => simp [Verif.Earley.prevOf]
end

/-- The text as the provider treats it: constraints are satisfied when the check says so. -/
def opWorld (env : LexEnv) (text : List Char) (start : Nat) : World LexLeaf :=
  { textWorld env text start with holds := fun k prev con => lexCheck env text prev (start + k) con = some true }

theorem derives_op {env G text start} (hG : LexGrammar env G) {rhs prev i j cs}
    (hr : ∀ k, Rthing.con k ∈ rhs → GoodCon env k) :
    Derives G (opWorld env text start) rhs prev i j cs ↔ Derives G (textWorld env text start) rhs prev i j cs := by
  constructor
  · intro h
    exact Derives.change (W := opWorld env text start) (W' := textWorld env text start) (P := GoodCon env) (fun _ _ _ h => h) (fun _ _ h => h) rfl rfl
      (fun k prev con hg hh => (lexCheck_spec env text (start + k) prev hg).1 hh) hG.cons h hr
  · intro h
    exact Derives.change (W := textWorld env text start) (W' := opWorld env text start) (P := GoodCon env) (fun _ _ _ h => h) (fun _ _ h => h) rfl rfl
      (fun k prev con hg hh => (lexCheck_spec env text (start + k) prev hg).2 hh) hG.cons h hr

theorem isTree_op {env G text start} (hG : LexGrammar env G) {n i j t} :
    IsTree G (opWorld env text start) n i j t ↔ IsTree G (textWorld env text start) n i j t :=
  derives_op hG (by simp)

/-- What is known at place `k`. -/
def AtPlace (text : List Char) (start : Nat) (k : Nat) (_ : Unit) (pos : Nat) : Prop :=
  pos = start + k ∧ pos ≤ text.length

theorem usable_good {env G goal text} (hG : LexGrammar env G) {e kl}
    (h : Usable (lexCfg env G goal text) e kl) : (∀ t ∈ e, GoodTerm t ∨ t = acceptance) ∧ kl = none := by
  refine ⟨?_, h.2.1 rfl⟩
  intro t ht
  rcases h.1 t ht with h | ⟨n, ps, p, h1, h2, h3⟩
  · exact .inr (by simpa [Cfg.final, lexCfg] using h)
  · exact .inl (hG.terms n ps p t h1 h2 h3)

theorem lexNext_some {env text pos e kl rats pos' u} (h : lexNext env text pos e kl = .ok (some (rats, pos'), u)) :
    ∃ ch, text[pos]? = some ch ∧ pos' = pos + 1 ∧ rats ≠ [] ∧ kl = none ∧ lexRats env ch pos e = some rats := by
  unfold lexNext at h
  split at h
  · cases h
  rename_i hk
  split at h
  · cases h
  split at h
  · injection h with h; injection h with h _; cases h
  rename_i ch hch
  split at h
  · cases h
  · injection h with h; injection h with h _; cases h
  · rename_i r rs hr
    injection h with h; injection h with h _; injection h with h; injection h with h1 h2
    subst h1 h2
    exact ⟨ch, hch, rfl, by simp, by simpa using hk, hr⟩

theorem lexMatches_eoi (env : LexEnv) (ch : Char) : lexMatches env endOfInput ch = none := by
  unfold lexMatches
  rw [if_neg (by decide)]
  simp [endOfInput, characterNamed]

/-- Whatever the loop over the expected terminals collects was expected and is an instance. -/
theorem lexRats_mem {env ch pos} : ∀ {ts r}, lexRats env ch pos ts = some r → ∀ q ∈ r,
    q.1 ∈ ts ∧ lexMatches env q.1 ch = some true ∧ q.2 = ⟨q.1, pos, pos + 1⟩ := by
  intro ts
  induction ts with
  | nil => intro r h q hq; simp [lexRats] at h; subst h; cases hq
  | cons t ts ih =>
    intro r h q hq
    simp only [lexRats] at h
    split at h
    · cases h
    · rename_i b hb
      rw [Option.map_eq_some_iff] at h
      obtain ⟨r', hr', he⟩ := h
      subst he
      split at hq
      · rename_i hbt
        rcases List.mem_cons.1 hq with rfl | hq
        · exact ⟨List.mem_cons_self, by rw [hb, hbt], rfl⟩
        · obtain ⟨a, b, c⟩ := ih hr' q hq
          exact ⟨List.mem_cons_of_mem _ a, b, c⟩
      · obtain ⟨a, b, c⟩ := ih hr' q hq
        exact ⟨List.mem_cons_of_mem _ a, b, c⟩

theorem lexMatches_stands {env t ch} (h : lexMatches env t ch = some true) : Stands env ch t := by
  have hg : GoodTerm t := by
    unfold lexMatches at h
    split at h
    · cases h
    split at h
    · split at h
      · rename_i c hc; exact ⟨c, hc⟩
      · cases h
    · split at h
      · rename_i hn; exact .inl hn
      · rw [Option.map_eq_some_iff] at h
        obtain ⟨c, hc, _⟩ := h
        exact .inr ⟨c, characterNamed_iff.1 hc⟩
    · trivial
    · unfold uPropMatches at h
      split at h
      · rename_i hp; exact .inl hp
      split at h
      · rename_i hp; exact .inr hp
      · cases h
  obtain ⟨b, h1, h2⟩ := lexMatches_spec env ch hg
  rw [h1] at h; injection h with h
  exact h2.1 h

theorem lex_exact {env G goal text start} (hG : LexGrammar env G) :
    Exact (lexCfg env G goal text) (opWorld env text start) (fun k => ((), start + k)) where
  first := rfl
  last := rfl
  «at» _ _ h := h
  holds k prev con h := by
    show (match lexCheck env text prev (start + k) con with | some b => (Except.ok b : Except Err Bool) | none => .error .crash) ≠ .ok false
    rw [show lexCheck env text prev (start + k) con = some true from h]
    simp
  next k t l hs e kl hu ht := by
    obtain ⟨ch, h1, h2, h3⟩ := hs
    obtain ⟨hg, rfl⟩ := usable_good hG hu
    obtain ⟨r, hr, hmem⟩ := lexRats_spec env ch (start + k) hg
    have hin : (t, l) ∈ r := (hmem (t, l)).2 ⟨ht, h2, h3⟩
    refine .inr ⟨r, ?_, ?_⟩
    · have hlt := (List.getElem?_eq_some_iff.1 h1).1
      show lexNext env text (start + k) e none = _
      unfold lexNext
      rw [if_neg (by simp), if_neg (by omega), h1]
      dsimp only
      rw [hr]
      cases r with
      | nil => cases hin
      | cons q qs => rfl
    · rintro t' l' ht' ⟨ch', h1', h2', h3'⟩
      rw [h1] at h1'; injection h1' with h1'; subst h1'
      exact (hmem (t', l')).2 ⟨ht', h2', h3'⟩
  here _ := rfl
  check k prev con h := by
    have h : (match lexCheck env text prev (start + k) con with
      | some b => (Except.ok b : Except Err Bool) | none => .error .crash) = .ok true := h
    show lexCheck env text prev (start + k) con = some true
    split at h
    · rename_i b hb; injection h with h; rw [hb, h]
    · cases h
  some k e kl rats p' st' h := by
    obtain ⟨ch, h1, h2, _, _, h5⟩ := lexNext_some h
    refine ⟨by rw [h2]; rfl, ?_⟩
    intro q hq
    obtain ⟨_, hm, he⟩ := lexRats_mem h5 q hq
    exact ⟨ch, h1, lexMatches_stands hm, he⟩

theorem lex_few (env text start) : FewWorld (opWorld env text start) where
  scan k t := (Few.one (⟨t, start + k, start + k + 1⟩ : LexLeaf)).imp (by rintro l ⟨_, _, _, h⟩; exact h)
  «at» k := (Few.one (start + k)).imp (fun _ h => h)

theorem lex_noFinal {env G} (hG : LexGrammar env G) : NoFinal G := by
  intro n ps h p hp
  exact ⟨fun ht => (hG.terms n ps p _ h hp ht).ne_final.1 rfl, fun ht => (hG.terms n ps p _ h hp ht).ne_final.2 rfl⟩

theorem lex_eoi {env G goal text} : EoiOk (lexCfg env G goal text).tip := by
  intro st pos e kl rats pos' st' h r hr he
  obtain ⟨ch, _, _, _, _, h5⟩ := lexNext_some h
  obtain ⟨_, hm, hl⟩ := lexRats_mem h5 r hr
  have : r.2.sym = endOfInput := of_decide_eq_true he
  rw [hl] at this
  exact this

theorem lex_tipOk {env G goal text start} (hG : LexGrammar env G) :
    TipOk (lexCfg env G goal text) (AtPlace text start) where
  quiet k st pos e kl hi hu := by
    obtain ⟨hg, rfl⟩ := usable_good hG hu
    intro h
    have h : lexNext env text pos e none = .error .crash := h
    unfold lexNext at h
    rw [if_neg (by simp), if_neg (by have := hi.2; omega)] at h
    split at h
    · cases h
    · rename_i ch _
      obtain ⟨r, hr, _⟩ := lexRats_spec env ch pos hg
      rw [hr] at h
      cases r with
      | nil => cases h
      | cons => cases h
  some st pos e kl rats pos' st' h := by
    obtain ⟨ch, h1, h2, h3, _, h5⟩ := lexNext_some h
    have hr : ∀ r ∈ rats, r.1 ∈ e ∧ GoodTerm r.1 := by
      intro r hr
      obtain ⟨a, b, _⟩ := lexRats_mem h5 r hr
      exact ⟨a, (lexMatches_stands b).good⟩
    refine ⟨by omega, h3, fun r hr' => ⟨(hr r hr').1, (hr r hr').2.ne_final.2⟩, ?_⟩
    intro r hr' he
    exact absurd he (hr r hr').2.ne_final.1
  eoi := lex_eoi

theorem lex_checkSafe {env G goal text start} (hG : LexGrammar env G) (hca : ConsApply env G text start)
    (k : Nat) : CheckSafe (lexCfg env G goal text) (opWorld env text start) k () (start + k) := by
  intro x con hx ha
  have hgood : GoodCon env con ∧ Applies text x.transit con := by
    obtain ⟨pre, post, h1, h2⟩ := hx
    have hm : Rthing.con con ∈ x.prod.rhs := List.mem_of_getElem? ha
    rcases h2 with ⟨_, h3, _⟩ | ⟨o, n, ps, _, h4, h5, h6⟩
    · rw [h3] at hm; simp [Cfg.startProd] at hm
    · have hG4 : G n = some ps := h4
      refine ⟨hG.cons n ps _ con hG4 h5 hm, ?_⟩
      have hpost : ∃ post', post = .con con :: post' := by
        unfold Item.after at ha
        rw [h1, ← h6.length, List.getElem?_append_right (Nat.le_refl _), Nat.sub_self] at ha
        cases post with
        | nil => simp at ha
        | cons r rest => simp at ha; exact ⟨rest, by rw [ha]⟩
      obtain ⟨post', rfl⟩ := hpost
      have hd : Derives G (textWorld env text start) pre none o k (x.trans.filterMap id) := by
        refine (derives_op hG ?_).1 h6.derives_all
        intro c hc
        exact hG.cons n ps _ c hG4 h5 (by rw [h1]; exact List.mem_append_left _ hc)
      have := hca n ps x.prod pre con post' o k _ hG4 h5 h1 hd
      rw [h6.prevOf] at this
      exact this
  obtain ⟨b, hb⟩ := lexCheck_total env text (start + k) x.transit hgood.1 hgood.2
  refine ⟨b, ?_⟩
  show (match lexCheck env text x.transit (start + k) con with | some b => _ | none => _) = _
  rw [hb]

/-- What holds of every run, finished or not: it never crashes, and what it reports is right. -/
theorem lex_run_any {env G goal text start} (hG : LexGrammar env G)
    (hgoal : (G goal).isSome = true) (hca : ConsApply env G text start) (hst : start ≤ text.length) (f : Nat) :
      (∃ node k, run (lexCfg env G goal text) f () start = .ok node ∧
        IsTree G (textWorld env text start) goal 0 k node ∧
        ∀ k' node', IsTree G (textWorld env text start) goal 0 k' node' → k' ≤ k) ∨
      (run (lexCfg env G goal text) f () start = .error .parse ∧
        ∀ k node, ¬ IsTree G (textWorld env text start) goal 0 k node) ∨
      run (lexCfg env G goal text) f () start = .error .fuel := by
  have hx := lex_exact (goal := goal) (text := text) (start := start) hG
  have hI : ∀ k st pos, AtPlace text start k st pos → (opWorld env text start).at k pos ∧
      (∀ prev con, (lexTip env text).check st prev pos con = .ok true → (opWorld env text start).holds k prev con) ∧
      (opWorld env text start).first = (lexTip env text).leafStart ∧
      (opWorld env text start).last = (lexTip env text).leafEnd := by
    rintro k st pos ⟨rfl, _⟩
    exact ⟨rfl, fun prev con h => hx.check k prev con h, rfl, rfl⟩
  have hnext : ∀ k st pos e kl rats pos' st', AtPlace text start k st pos →
      (lexTip env text).next st pos e kl = .ok (some (rats, pos'), st') → AtPlace text start (k + 1) st' pos' ∧
      (∀ r ∈ rats, (opWorld env text start).scan k r.1 r.2) ∧ text.length - pos' < text.length - pos := by
    rintro k st pos e kl rats pos' st' ⟨rfl, _⟩ h
    obtain ⟨_, h2⟩ := hx.some k e kl rats pos' st' h
    obtain ⟨ch, h1, rfl, _⟩ := lexNext_some h
    have := (List.getElem?_eq_some_iff.1 h1).1
    exact ⟨⟨by omega, by omega⟩, h2, by omega⟩
  have hlong := run_longest (c := lexCfg env G goal text) rfl hx hG.filed (lex_noFinal hG) lex_eoi f
  have hlong : Longest (lexCfg env G goal text) (opWorld env text start) (run (lexCfg env G goal text) f () start) := hlong
  have hcrash := loop_safe (c := lexCfg env G goal text) (W := opWorld env text start) hG.filed (lex_noFinal hG)
    (by intro W k items _ h; simp [kludgeOf, lexCfg] at h) (AtPlace text start) (lex_tipOk hG)
    (by rintro k st pos hi
        refine ⟨?_, hI k st pos hi⟩
        rw [hi.1]; exact lex_checkSafe hG hca k)
    (fun k st pos e kl rats pos' st' hi h => by
      obtain ⟨a, b, _⟩ := hnext k st pos e kl rats pos' st' hi h
      exact ⟨a, b⟩)
    f [] () start [⟨none, (lexCfg env G goal text).startProd, []⟩] none ⟨rfl, hst⟩ safeInv_init
  have hcrash : run (lexCfg env G goal text) f () start ≠ .error .crash := hcrash
  generalize run (lexCfg env G goal text) f () start = r at hlong hcrash ⊢
  cases r with
  | ok node =>
    obtain ⟨k, h1, h2⟩ := hlong
    refine .inl ⟨node, k, rfl, (isTree_op hG).1 (tree_iff.1 h1), ?_⟩
    intro k' node' h'
    exact h2 k' node' (tree_iff.2 ((isTree_op hG).2 h'))
  | error e =>
    cases e with
    | parse =>
      refine .inr (.inl ⟨rfl, ?_⟩)
      intro k node h'
      refine hlong hG.closed ?_ hgoal ?_ k node (tree_iff.2 ((isTree_op hG).2 h'))
      · intro st prev pos k h
        have h : (match lexCheck env text prev pos k with
          | some b => (Except.ok b : Except Err Bool) | none => .error .crash) = .error .parse := h
        split at h <;> cases h
      · intro st pos e kl _ h
        have h : lexNext env text pos e kl = .error .parse := h
        unfold lexNext at h
        split at h
        · cases h
        split at h
        · cases h
        split at h
        · cases h
        split at h <;> cases h
    | crash => exact absurd rfl hcrash
    | fuel => exact .inr (.inr rfl)

/-- The lexical parser gives the longest match, or reports that there is none; it always halts and
never fails otherwise. -/
theorem lex_run {env G goal text start} (hG : LexGrammar env G) (hfin : FiniteGrammar G) (hac : Acyclic G)
    (hgoal : (G goal).isSome = true) (hca : ConsApply env G text start) (hst : start ≤ text.length) :
    ∃ F, ∀ f, F ≤ f →
      (∃ node k, run (lexCfg env G goal text) f () start = .ok node ∧
        IsTree G (textWorld env text start) goal 0 k node ∧
        ∀ k' node', IsTree G (textWorld env text start) goal 0 k' node' → k' ≤ k) ∨
      (run (lexCfg env G goal text) f () start = .error .parse ∧
        ∀ k node, ¬ IsTree G (textWorld env text start) goal 0 k node) := by
  have hx := lex_exact (goal := goal) (text := text) (start := start) hG
  have hI : ∀ k st pos, AtPlace text start k st pos → (opWorld env text start).at k pos ∧
      (∀ prev con, (lexTip env text).check st prev pos con = .ok true → (opWorld env text start).holds k prev con) ∧
      (opWorld env text start).first = (lexTip env text).leafStart ∧
      (opWorld env text start).last = (lexTip env text).leafEnd := by
    rintro k st pos ⟨rfl, _⟩
    exact ⟨rfl, fun prev con h => hx.check k prev con h, rfl, rfl⟩
  have hnext : ∀ k st pos e kl rats pos' st', AtPlace text start k st pos →
      (lexTip env text).next st pos e kl = .ok (some (rats, pos'), st') → AtPlace text start (k + 1) st' pos' ∧
      (∀ r ∈ rats, (opWorld env text start).scan k r.1 r.2) ∧ text.length - pos' < text.length - pos := by
    rintro k st pos e kl rats pos' st' ⟨rfl, _⟩ h
    obtain ⟨_, h2⟩ := hx.some k e kl rats pos' st' h
    obtain ⟨ch, h1, rfl, _⟩ := lexNext_some h
    have := (List.getElem?_eq_some_iff.1 h1).1
    exact ⟨⟨by omega, by omega⟩, h2, by omega⟩
  have h0 : ∀ x ∈ [(⟨none, (lexCfg env G goal text).startProd, []⟩ : Item LexLeaf)],
      ItemOk G (lexCfg env G goal text).startProd (opWorld env text start) x 0 := by
    intro x hx
    rw [List.mem_singleton.1 hx]
    exact ⟨[], _, rfl, .inl ⟨rfl, rfl, .nil⟩⟩
  obtain ⟨F, r, hr, hF⟩ := loop_halts (c := lexCfg env G goal text) (W := opWorld env text start) hG.filed
    (by intro st prev pos k h
        have h : (match lexCheck env text prev pos k with
          | some b => (Except.ok b : Except Err Bool) | none => .error .crash) = .error .fuel := h
        split at h <;> cases h)
    (by intro st pos e kl h
        have h : lexNext env text pos e kl = .error .fuel := h
        unfold lexNext at h
        split at h
        · cases h
        split at h
        · cases h
        split at h
        · cases h
        split at h <;> cases h)
    (lex_few env text start) hfin hac (AtPlace text start) hI (fun _ pos => text.length - pos)
    (fun k st pos e kl rats pos' st' hi h => by
      obtain ⟨a, b, c⟩ := hnext k st pos e kl rats pos' st' hi h
      exact ⟨a, b, fun _ => c⟩)
    (text.length - start) [] () start [⟨none, (lexCfg env G goal text).startProd, []⟩] none (Nat.le_refl _)
    ⟨rfl, hst⟩ (by simp) h0
  refine ⟨F, fun f hf => ?_⟩
  have hrun : run (lexCfg env G goal text) f () start = r := hF f hf
  rcases lex_run_any hG hgoal hca hst f with h | h | h
  · exact .inl h
  · exact .inr h
  · rw [hrun] at h; exact absurd h hr

/-! ## Leaves and extents -/

/-- Place `k` is position `start + k`, so a derivation spells the text between its ends. -/
theorem derives_span {env G text start rhs prev i j cs}
    (h : Derives G (textWorld env text start) rhs prev i j cs) :
    (leaves.leavesList cs).map (fun l => l.s) = List.range' (start + i) (j - i) ∧
    (∀ l ∈ leaves.leavesList cs, l.e = l.s + 1 ∧ ∃ ch, text[l.s]? = some ch ∧ Stands env ch l.sym) ∧
    (∀ c, cs.head? = some c → (lexExtent c).1 = start + i) ∧
    (∀ c, cs.getLast? = some c → (lexExtent c).2 = start + j) ∧ i ≤ j ∧ (cs = [] → i = j) := by
  induction h with
  | nil => simp [leaves.leavesList]
  | con _ _ ih => exact ih
  | @term t l rest prev i j cs hs hd ih =>
    obtain ⟨ch, h1, h2, rfl⟩ := hs
    obtain ⟨g1, g2, g3, g4, g5, g6⟩ := ih
    refine ⟨?_, ?_, ?_, ?_, by omega, by simp⟩
    · simp only [leaves.leavesList, leaves, List.singleton_append, List.map_cons, g1]
      rw [show j - i = (j - (i + 1)) + 1 by omega, List.range'_succ]
      simp [Nat.add_assoc]
    · intro l hl
      simp only [leaves.leavesList, leaves, List.singleton_append, List.mem_cons] at hl
      rcases hl with rfl | hl
      · exact ⟨rfl, ch, h1, h2⟩
      · exact g2 l hl
    · intro c hc; simp at hc; subst hc; rfl
    · intro c hc
      cases cs with
      | nil =>
        simp at hc; subst hc
        have := g6 rfl
        show start + i + 1 = start + j
        omega
      | cons c' cs' =>
        rw [List.getLast?_cons_cons] at hc
        exact g4 c hc
  | @nt n ps p ds pos node rest prev i m j cs h1 h2 hd1 hat hnode hd2 ih1 ih2 =>
    obtain ⟨g1, g2, g3, g4, g5, g6⟩ := ih2
    obtain ⟨f1, f2, f3, f4, f5, f6⟩ := ih1
    have hat : pos = start + m := hat
    subst hat
    unfold IsNode at hnode
    have hext : (lexExtent node).1 = start + i ∧ (lexExtent node).2 = start + m := by
      rw [hnode]
      simp only [lexExtent]
      constructor
      · split
        · rename_i c hc
          have := f3 c hc
          cases c <;> exact this
        · rename_i hc
          have := f6 (List.head?_eq_none_iff.1 hc)
          omega
      · split
        · rename_i c hc
          have := f4 c hc
          cases c <;> exact this
        · rfl
    have hl : leaves node = leaves.leavesList ds := by rw [hnode]; rfl
    refine ⟨?_, ?_, ?_, ?_, by omega, by simp⟩
    · simp only [leaves.leavesList, hl, List.map_append, f1, g1]
      rw [show start + m = start + i + (m - i) by omega, show j - i = (m - i) + (j - m) by omega]
      simp
    · intro l hl'
      simp only [leaves.leavesList, hl, List.mem_append] at hl'
      rcases hl' with hl' | hl'
      · exact f2 l hl'
      · exact g2 l hl'
    · intro c hc; simp at hc; subst hc; exact hext.1
    · intro c hc
      cases cs with
      | nil =>
        simp at hc; subst hc
        have := g6 rfl
        rw [hext.2, this]
      | cons c' cs' =>
        rw [List.getLast?_cons_cons] at hc
        exact g4 c hc

theorem tree_span {env G text start n i j t} (h : IsTree G (textWorld env text start) n i j t) :
    (leaves t).map (fun l => l.s) = List.range' (start + i) (j - i) ∧
    (∀ l ∈ leaves t, l.e = l.s + 1 ∧ ∃ ch, text[l.s]? = some ch ∧ Stands env ch l.sym) ∧
    lexExtent t = (start + i, start + j) := by
  obtain ⟨g1, g2, g3, g4, _⟩ := derives_span h
  simp only [leaves.leavesList, List.append_nil] at g1 g2
  refine ⟨g1, g2, ?_⟩
  have a := g3 t rfl
  have b := g4 t rfl
  rw [← a, ← b]

end Verif.Earley
