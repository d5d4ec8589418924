import Verif.Sta.DictLemmas
/-! # What every part of the analysis does to the state -/
namespace Verif.Sta
variable {T E : Type}

theorem changesOf_append (a i : Nat) (n : Name) (l l' : List (Entry T E)) :
    changesOf a i n (l ++ l') = changesOf a i n l ++ changesOf a i n l' := by
  simp [changesOf, List.filterMap_append]

theorem changesOf_none (a i : Nat) (n : Name) (l : List (Entry T E)) (h : ∀ e ∈ l, e.isChange = false) : changesOf a i n l = [] := by
  unfold changesOf
  rw [List.filterMap_eq_nil_iff]
  intro e he
  have := h e he
  unfold Entry.isChange at this
  cases hm : e.msg <;> simp_all

theorem Chain.append {t u v : T} {l l' : List (T × T)} (h : Chain t l u) (h' : Chain u l' v) : Chain t (l ++ l') v := by
  induction h with
  | nil => exact h'
  | cons hne _ ih => exact .cons hne (ih h')

/-- The state after a call. -/
def Res.st {α : Type} : Res T E α → St T E
  | .ok s _ => s
  | .stop _ s => s

/-- What a part of the analysis may do: `ds` is what it adds to the log, it touches only the operations in `touched` on the levels in
`lv`, and it changes the type of a name at most `N` times. -/
structure Ext (N : Nat → Nat → Name → Nat) (touched : Nat → Prop) (lv : Nat → Prop) (ds : List (Entry T E)) (s s' : St T E) : Prop where
  log : s'.log = s.log ++ ds
  algs : ∀ (b : Nat), OptRel AlgLe s.algs[b]? s'.algs[b]?
  frame : ∀ (b : Nat), ¬ touched b → s'.algs[b]? = s.algs[b]?
  chain : ∀ b i h h' n t t', headAt s.algs b i = some h → headAt s'.algs b i = some h' → declared h n = some t →
    declared h' n = some t' → Chain t (changesOf b i n ds) t'
  bound : ∀ b i n, (changesOf b i n ds).length ≤ N b i n
  only : ∀ b i n p, p ∈ changesOf b i n ds → ∃ h, headAt s.algs b i = some h ∧ n ∈ h.tbd
  where_ : ∀ e ∈ ds, e.isChange = true → lv e.level ∧ touched e.alg
  pass : (∀ e ∈ s.pass, e.isChange = false) → ∀ e ∈ s'.pass, e.isChange = false

theorem headAt_rel {s s' : St T E} (h : ∀ (b : Nat), OptRel AlgLe s.algs[b]? s'.algs[b]?) (b i : Nat) :
    OptRel HeadLe (headAt s.algs b i) (headAt s'.algs b i) := by
  unfold headAt
  have := h b
  cases h1 : s.algs[b]? <;> cases h2 : s'.algs[b]? <;> rw [h1, h2] at this
  · trivial
  · exact this.elim
  · exact this.elim
  · exact this.heads i

theorem Ext.head {N touched L ds} {s s' : St T E} (x : Ext N touched L ds s s') {b i : Nat} {h : Head T} (hh : headAt s.algs b i = some h) :
    ∃ h', headAt s'.algs b i = some h' ∧ HeadLe h h' := by
  have := headAt_rel x.algs b i
  rw [hh] at this
  cases h2 : headAt s'.algs b i with
  | none => rw [h2] at this; exact this.elim
  | some h' => rw [h2] at this; exact ⟨h', rfl, this⟩

theorem Ext.headBack {N touched L ds} {s s' : St T E} (x : Ext N touched L ds s s') {b i : Nat} {h' : Head T}
    (hh : headAt s'.algs b i = some h') : ∃ h, headAt s.algs b i = some h ∧ HeadLe h h' := by
  have := headAt_rel x.algs b i
  rw [hh] at this
  cases h2 : headAt s.algs b i with
  | none => rw [h2] at this; exact this.elim
  | some h => rw [h2] at this; exact ⟨h, rfl, this⟩

theorem Ext.quiet (N touched L) (s s' : St T E) (ha : s'.algs = s.algs) (ds : List (Entry T E)) (hl : s'.log = s.log ++ ds)
    (hd : ∀ e ∈ ds, e.isChange = false)
    (hp : (∀ e ∈ s.pass, e.isChange = false) → ∀ e ∈ s'.pass, e.isChange = false) : Ext N touched L ds s s' where
  log := hl
  algs := by rw [ha]; exact fun b => OptRel.refl AlgLe.refl _
  frame := by rw [ha]; exact fun _ _ => rfl
  chain := by
    intro b i h h' n t t' h1 h2 h3 h4
    rw [ha, h1] at h2
    injection h2 with h2
    subst h2
    rw [h3] at h4
    injection h4 with h4
    subst h4
    rw [changesOf_none _ _ _ _ hd]
    exact .nil _
  bound := by intro b i n; rw [changesOf_none _ _ _ _ hd]; exact Nat.zero_le _
  only := by intro b i n p hp; rw [changesOf_none _ _ _ _ hd] at hp; cases hp
  where_ := by intro e he hc; rw [hd e he] at hc; cases hc
  pass := hp

theorem Ext.refl (N touched L) (s : St T E) : Ext N touched L [] s s :=
  .quiet N touched L s s rfl [] (by simp) (by simp) id

theorem Ext.mono {N N' : Nat → Nat → Name → Nat} {touched touched' : Nat → Prop} {L L' : Nat → Prop} {ds} {s s' : St T E} (x : Ext N touched L ds s s')
    (hN : ∀ b i n, N b i n ≤ N' b i n) (ht : ∀ b, touched b → touched' b) (hL : ∀ l, L l → L' l := by exact fun _ h => h) :
    Ext N' touched' L' ds s s' :=
  { x with
    frame := fun b hb => x.frame b (fun h => hb (ht b h))
    bound := fun b i n => Nat.le_trans (x.bound b i n) (hN b i n)
    where_ := fun e he hc => ⟨hL _ (x.where_ e he hc).1, ht _ (x.where_ e he hc).2⟩ }

theorem Ext.trans {N N' : Nat → Nat → Name → Nat} {touched : Nat → Prop} {L} {ds ds'} {s s' s'' : St T E} (x : Ext N touched L ds s s')
    (y : Ext N' touched L ds' s' s'') : Ext (fun b i n => N b i n + N' b i n) touched L (ds ++ ds') s s'' where
  log := by rw [y.log, x.log, List.append_assoc]
  algs := fun b => OptRel.trans (R := AlgLe) (fun _ _ _ => AlgLe.trans) (x.algs b) (y.algs b)
  frame := fun b hb => (y.frame b hb).trans (x.frame b hb)
  chain := by
    intro b i h h'' n t t'' h1 h2 h3 h4
    obtain ⟨h', h5, hle⟩ := x.head h1
    have : ∃ t', declared h' n = some t' := by
      rw [declared_some, hle.names, ← declared_some]
      exact ⟨t, h3⟩
    obtain ⟨t', h6⟩ := this
    rw [changesOf_append]
    exact (x.chain b i h h' n t t' h1 h5 h3 h6).append (y.chain b i h' h'' n t' t'' h5 h2 h6 h4)
  bound := by
    intro b i n
    rw [changesOf_append, List.length_append]
    exact Nat.add_le_add (x.bound b i n) (y.bound b i n)
  only := by
    intro b i n p hp
    rw [changesOf_append, List.mem_append] at hp
    rcases hp with hp | hp
    · exact x.only b i n p hp
    · obtain ⟨h', h1, h2⟩ := y.only b i n p hp
      obtain ⟨h, h3, hle⟩ := x.headBack h1
      exact ⟨h, h3, by rw [← hle.tbd]; exact h2⟩
  where_ := by
    intro e he hc
    rcases List.mem_append.1 he with he | he
    · exact x.where_ e he hc
    · exact y.where_ e he hc
  pass := fun h => y.pass (x.pass h)

theorem headAt_modHead (f : Head T → Head T) (a i : Nat) (algs : List (Alg T)) (b j : Nat) :
    headAt (modHead f a i algs) b j = if b = a ∧ j = i then (headAt algs b j).map f else headAt algs b j := by
  unfold headAt modHead
  rw [List.getElem?_modify]
  by_cases hb : a = b
  · subst hb
    cases h : algs[a]? with
    | none => simp
    | some x =>
      simp only [if_true, Option.map_eq_map, Option.map_some, Option.bind_some, List.getElem?_modify, true_and]
      by_cases hj : i = j
      · subst hj; simp
      · have : ¬ j = i := fun e => hj e.symm
        simp [hj, this]
  · have : ¬ b = a := fun e => hb e.symm
    simp [hb, this]

theorem modHead_other (f : Head T → Head T) (a i : Nat) (algs : List (Alg T)) (b : Nat) (hb : b ≠ a) : (modHead f a i algs)[b]? = algs[b]? := by
  unfold modHead
  rw [List.getElem?_modify]
  have : ¬ a = b := fun e => hb e.symm
  simp [this]

/-- How often one name of one header may be changed. -/
def at_ (a i : Nat) (k : Name → Nat) : Nat → Nat → Name → Nat := fun b j n => if b = a ∧ j = i then k n else 0

theorem ext_change (L a i : Nat) (pn : Name) (old new : T) (s : St T E) (h : Head T) (hh : headAt s.algs a i = some h) (hg : Good h)
    (ht : pn ∈ h.tbd) (ho : declared h pn = some old) (hne : old ≠ new) :
    Ext (at_ a i (fun n => if n = pn then 1 else 0)) (· = a) (· = L) [⟨L, a, i, .change pn old new⟩] s (changeType L a i pn old new s) where
  log := rfl
  algs := by
    intro b
    by_cases hb : b = a
    · subst hb
      unfold changeType modHead
      simp only [List.getElem?_modify, if_true]
      cases hx : s.algs[b]? with
      | none => trivial
      | some x =>
        refine ⟨rfl, ?_⟩
        intro j
        simp only [List.getElem?_modify]
        by_cases hj : i = j
        · subst hj
          simp only [headAt, hx, Option.bind_some] at hh
          simp only [hh, if_true]
          exact setType_le h hg pn new ht
        · simp only [hj, if_false]
          rw [Option.map_eq_map, Option.map_id']
          exact OptRel.refl HeadLe.refl _
    · unfold changeType
      simp only
      rw [modHead_other _ _ _ _ _ hb]
      exact OptRel.refl AlgLe.refl _
  frame := fun b hb => modHead_other _ _ _ _ _ hb
  chain := by
    intro b j h1 h1' n t t' e1 e2 e3 e4
    simp only [changeType, headAt_modHead] at e2
    by_cases hbj : b = a ∧ j = i
    · obtain ⟨rfl, rfl⟩ := hbj
      rw [hh] at e1
      injection e1 with e1
      subst e1
      simp only [and_self, if_true, hh, Option.map_some] at e2
      injection e2 with e2
      subst e2
      rw [declared_setType] at e4
      by_cases hn : n = pn
      · subst hn
        rw [ho] at e3
        injection e3 with e3
        subst e3
        rw [if_pos rfl] at e4
        injection e4 with e4
        subst e4
        simp only [changesOf, List.filterMap_cons, and_self, if_true, List.filterMap_nil]
        exact .cons hne (.nil _)
      · rw [if_neg hn, e3] at e4
        injection e4 with e4
        subst e4
        have hn' : ¬ pn = n := fun e => hn e.symm
        simp only [changesOf, List.filterMap_cons, true_and, hn', if_false, List.filterMap_nil]
        exact .nil _
    · rw [if_neg hbj, e1] at e2
      injection e2 with e2
      subst e2
      rw [e3] at e4
      injection e4 with e4
      subst e4
      have : ¬ (a = b ∧ i = j ∧ pn = n) := fun ⟨x, y, _⟩ => hbj ⟨x.symm, y.symm⟩
      simp only [changesOf, List.filterMap_cons, this, if_false, List.filterMap_nil]
      exact .nil _
  bound := by
    intro b j n
    simp only [changesOf, List.filterMap_cons, List.filterMap_nil, at_]
    by_cases hc : a = b ∧ i = j ∧ pn = n
    · obtain ⟨rfl, rfl, rfl⟩ := hc
      simp
    · simp [hc]
  only := by
    intro b j n p hp
    simp only [changesOf, List.filterMap_cons, List.filterMap_nil] at hp
    by_cases hc : a = b ∧ i = j ∧ pn = n
    · obtain ⟨rfl, rfl, rfl⟩ := hc
      exact ⟨h, hh, ht⟩
    · simp [hc] at hp
  where_ := by
    intro e he _
    simp at he
    subst he
    exact ⟨rfl, rfl⟩
  pass := id

theorem ext_addPass (N touched L) (L' a i : Nat) (ms : List (Msg T E)) (hm : ∀ m ∈ ms, ∀ n x y, m ≠ .change n x y) (s : St T E) :
    Ext N touched L [] s (addPass L' a i ms s) := by
  refine .quiet N touched L s (addPass L' a i ms s) rfl [] (by simp [addPass]) (by simp) ?_
  intro h e he
  rcases List.mem_append.1 he with he | he
  · exact h e he
  · obtain ⟨m, h1, rfl⟩ := List.mem_map.1 he
    cases m with
    | change n x y => exact absurd rfl (hm _ h1 n x y)
    | _ => rfl

theorem ext_nameLoop [DecidableEq T] (cfg : Cfg T E) (L a i : Nat) (init fin : List (Name × T)) :
    ∀ (pns : List Name) (s : St T E) (c : Bool) (h : Head T), headAt s.algs a i = some h → Good h → pns.Nodup →
    (∀ n ∈ pns, n ∈ h.tbd → declared h n = init.lookup n) →
    ∃ ds, Ext (at_ a i (fun n => pns.count n)) (· = a) (· = L) ds s (nameLoop cfg L a i h.tbd init fin pns s c).st ∧
      ∀ s', nameLoop cfg L a i h.tbd init fin pns s c = .ok s' true → c = true ∨ ∃ e ∈ ds, e.isChange = true := by
  intro pns
  induction pns with
  | nil =>
    intro s c h _ _ _ _
    refine ⟨[], .refl _ _ _ _, ?_⟩
    intro s' hs
    unfold nameLoop at hs
    injection hs with _ hc
    exact .inl hc
  | cons pn pns ih =>
    intro s c h hh hg hnd hd
    rw [List.nodup_cons] at hnd
    have hskip : ∀ (s1 : St T E) (ds1 : List (Entry T E)) (c1 : Bool) (h1 : Head T),
        Ext (at_ a i (fun n => if n = pn then 1 else 0)) (· = a) (· = L) ds1 s s1 → headAt s1.algs a i = some h1 → h1.tbd = h.tbd →
        (∀ n, n ≠ pn → declared h1 n = declared h n) → Good h1 → (c1 = true → c = true ∨ ∃ e ∈ ds1, e.isChange = true) →
        ∃ ds, Ext (at_ a i (fun n => (pn :: pns).count n)) (· = a) (· = L) ds s (nameLoop cfg L a i h.tbd init fin pns s1 c1).st ∧
          ∀ s', nameLoop cfg L a i h.tbd init fin pns s1 c1 = .ok s' true → c = true ∨ ∃ e ∈ ds, e.isChange = true := by
      intro s1 ds1 c1 h1 x e1 e2 e3 e4 e5
      obtain ⟨ds, y, hy⟩ := ih s1 c1 h1 e1 e4 hnd.2 (by
        intro n hn htbd
        rw [e2] at htbd
        rw [e3 n (by rintro rfl; exact hnd.1 hn)]
        exact hd n (by simp [hn]) htbd)
      rw [e2] at y hy
      refine ⟨ds1 ++ ds, (x.trans y).mono ?_ (fun _ h => h), ?_⟩
      · intro b j n
        unfold at_
        by_cases hbj : b = a ∧ j = i
        · simp only [hbj, and_self, if_true, List.count_cons]
          by_cases hn : n = pn
          · subst hn; simp; omega
          · have : ¬ pn = n := fun e => hn e.symm
            simp [hn, this]
        · simp [hbj]
      · intro s' hs
        rcases hy s' hs with h | ⟨e, he, hc⟩
        · rcases e5 h with h | ⟨e, he, hc⟩
          · exact .inl h
          · exact .inr ⟨e, by simp [he], hc⟩
        · exact .inr ⟨e, by simp [he], hc⟩
    unfold nameLoop
    cases hi : init.lookup pn with
    | none => exact ⟨[], .refl _ _ _ _, fun s' hs => by cases hs⟩
    | some it =>
      cases hf : fin.lookup pn with
      | none => exact ⟨[], .refl _ _ _ _, fun s' hs => by cases hs⟩
      | some ft =>
        simp only
        have same := hskip s [] c h (.refl _ _ _ _) hh rfl (fun _ _ => rfl) hg .inl
        split
        · exact same
        · rename_i hne
          split
          · rename_i htbd
            have hdecl : declared h pn = some it := by rw [hd pn (by simp) htbd, hi]
            have x := ext_change (E := E) L a i pn it ft s h hh hg htbd hdecl hne
            refine hskip _ _ true (setType pn ft h) x ?_ ?_ ?_ ?_ ?_
            · simp [changeType, headAt_modHead, hh]
            · exact (setType_le h hg pn ft htbd).tbd
            · intro n hn
              rw [declared_setType, if_neg hn]
            · exact hg.le (setType_le h hg pn ft htbd)
            · intro _
              exact .inr ⟨_, List.mem_singleton.2 rfl, rfl⟩
          · split
            · exact same
            · split
              · exact same
              · refine hskip _ [] c h (ext_addPass _ _ _ _ _ _ _ ?_ _) hh rfl (fun _ _ => rfl) hg .inl
                intro m hm n x y
                rw [List.mem_singleton] at hm
                subst hm
                exact fun h => by cases h

/-- The names of the header are treated in the loop once each. -/
theorem ext_afterBody [DecidableEq T] (cfg : Cfg T E) (L a i : Nat) (h : Head T) (fin : Option (List (Name × T))) (s : St T E)
    (hh : headAt s.algs a i = some h) (hg : Good h) :
    ∃ ds, Ext (at_ a i (fun _ => 1)) (· = a) (· = L) ds s (afterBody cfg L a i h fin s).st ∧
      ∀ s', afterBody cfg L a i h fin s = .ok s' true → ∃ e ∈ ds, e.isChange = true := by
  have triv : ∀ w, ∃ ds, Ext (at_ a i (fun _ => 1)) (· = a) (· = L) ds s (Res.stop w s : Res T E Bool).st ∧
      ∀ s', (Res.stop w s : Res T E Bool) = .ok s' true → ∃ e ∈ ds, e.isChange = true :=
    fun w => ⟨[], .refl _ _ _ _, fun s' hs => by cases hs⟩
  unfold afterBody
  split
  · cases fin with
    | none => exact ⟨[], .refl _ _ _ _, fun s' hs => by cases hs⟩
    | some _ => exact triv _
  · cases fin with
    | none => exact triv _
    | some fin =>
      simp only
      split
      · have hstill : ∀ N, Ext N (· = a) (· = L) [] s
            (addPass L a i ((fin.filter (fun p => p.2 = cfg.tbd)).map (fun p => (.still p.1 : Msg T E))) s) := by
          intro N
          refine ext_addPass _ _ _ _ _ _ _ ?_ _
          intro m hm n x y
          obtain ⟨p, _, rfl⟩ := List.mem_map.1 hm
          simp
        split
        · exact ⟨[], hstill _, fun s' hs => by cases hs⟩
        · obtain ⟨hk, hkm⟩ := env_keys h
          obtain ⟨hnd, hmem⟩ := sortNames_spec _ hk
          obtain ⟨ds, y, hy⟩ := ext_nameLoop cfg L a i (env h) fin (sortNames ((env h).map Prod.fst)) 
            (addPass L a i ((fin.filter (fun p => p.2 = cfg.tbd)).map (fun p => (.still p.1 : Msg T E))) s) false h hh hg hnd (by
              intro n _ hn
              exact (env_lookup h hg.toWf n (hg.tbdNames n hn)).symm)
          refine ⟨[] ++ ds, ((hstill (fun _ _ _ => 0)).trans y).mono ?_ (fun _ h => h), ?_⟩
          · intro b j n
            unfold at_
            split
            · simp only [Nat.zero_add]
              exact List.nodup_iff_count.1 hnd n
            · simp
          · intro s' hs
            rcases hy s' hs with h | h
            · cases h
            · exact h
      · exact triv _

theorem ext_tcHeader [DecidableEq T] (cfg : Cfg T E) (L a i : Nat) (h : Head T) (s : St T E)
    (hh : headAt s.algs a i = some h) (hg : Good h) :
    ∃ ds, Ext (at_ a i (fun _ => 1)) (· = a) (· = L) ds s (tcHeader cfg L a i h s).st ∧
      ∀ s', tcHeader cfg L a i h s = .ok s' true → ∃ e ∈ ds, e.isChange = true := by
  unfold tcHeader
  cases retCheck cfg h with
  | some w => exact ⟨[], .refl _ _ _ _, fun s' hs => by cases hs⟩
  | none =>
    simp only
    split
    · cases cfg.body (view s.algs) a i (env h) with
      | none => exact ⟨[], .refl _ _ _ _, fun s' hs => by cases hs⟩
      | some p =>
        obtain ⟨errs, fin⟩ := p
        simp only
        obtain ⟨ds, y, hy⟩ := ext_afterBody cfg L a i h fin (addPass L a i (errs.map .body) s) hh hg
        refine ⟨[] ++ ds, ((ext_addPass (fun _ _ _ => 0) _ (· = L) L a i (errs.map .body) ?_ s).trans y).mono ?_ (fun _ h => h), hy⟩
        · intro m hm n x y
          obtain ⟨p, _, rfl⟩ := List.mem_map.1 hm
          simp
        · intro b j n
          simp
    · exact ⟨[], .refl _ _ _ _, fun s' hs => by cases hs⟩

/-- All headers are good. -/
def AllGood (algs : List (Alg T)) : Prop := ∀ a i h, headAt algs a i = some h → Good h

theorem Ext.good {N touched L ds} {s s' : St T E} (x : Ext N touched L ds s s') (h : AllGood s.algs) : AllGood s'.algs := by
  intro a i h' hh
  obtain ⟨h0, h1, hle⟩ := x.headBack hh
  exact (h a i h0 h1).le hle

theorem ext_headLoop [DecidableEq T] (cfg : Cfg T E) (L a : Nat) : ∀ (n i : Nat) (s : St T E) (c : Bool), AllGood s.algs →
    ∃ ds, Ext (fun b j _ => if b = a ∧ i ≤ j then 1 else 0) (· = a) (· = L) ds s (headLoop cfg L a n i s c).st ∧
      ∀ s', headLoop cfg L a n i s c = .ok s' true → c = true ∨ ∃ e ∈ ds, e.isChange = true := by
  intro n
  induction n with
  | zero =>
    intro i s c _
    refine ⟨[], .refl _ _ _ _, ?_⟩
    intro s' hs
    unfold headLoop at hs
    injection hs with _ hc
    exact .inl hc
  | succ n ih =>
    intro i s c hg
    unfold headLoop
    cases hh : headAt s.algs a i with
    | none => exact ⟨[], .refl _ _ _ _, fun s' hs => by cases hs⟩
    | some h =>
      simp only
      obtain ⟨ds, x, hx⟩ := ext_tcHeader cfg L a i h s hh (hg a i h hh)
      cases hr : tcHeader cfg L a i h s with
      | stop w s1 =>
        rw [hr] at x
        refine ⟨ds, x.mono ?_ (fun _ h => h), fun s' hs => by cases hs⟩
        intro b j m
        unfold at_
        by_cases hb : b = a ∧ j = i
        · rw [if_pos hb, if_pos ⟨hb.1, by omega⟩]; exact Nat.le_refl _
        · rw [if_neg hb]; exact Nat.zero_le _
      | ok s1 c1 =>
        rw [hr] at x
        simp only
        obtain ⟨ds', y, hy⟩ := ih (i + 1) s1 (c || c1) (x.good hg)
        refine ⟨ds ++ ds', (x.trans y).mono ?_ (fun _ h => h), ?_⟩
        · intro b j m
          unfold at_
          by_cases hb : b = a
          · subst hb
            by_cases hj : j = i
            · subst hj
              have : ¬ j + 1 ≤ j := by omega
              simp [this]
            · by_cases hj' : i + 1 ≤ j
              · have : i ≤ j := by omega
                simp [hj, hj', this]
              · simp [hj, hj']
          · simp [hb]
        · intro s' hs
          rcases hy s' hs with h | ⟨e, he, hc⟩
          · cases c with
            | true => exact .inl rfl
            | false =>
              have : c1 = true := by simpa using h
              subst this
              obtain ⟨e, he, hc⟩ := hx s1 hr
              exact .inr ⟨e, by simp [he], hc⟩
          · exact .inr ⟨e, by simp [he], hc⟩

theorem summarize_heads [DecidableEq T] (cfg : Cfg T E) (x y : Alg T) (h : summarize cfg x = some y) :
    y.heads = x.heads ∧ y.builtIn = x.builtIn ∧ summarize cfg y = some y := by
  obtain ⟨bi, di, mo, heads, sm⟩ := x
  match heads with
  | [] =>
    injection h with h
    subst h
    exact ⟨rfl, rfl, rfl⟩
  | [h0] =>
    injection h with h
    subst h
    exact ⟨rfl, rfl, rfl⟩
  | h0 :: h1 :: hs =>
    unfold summarize at h
    simp only at h
    split at h
    · rename_i hc
      injection h with h
      subst h
      refine ⟨rfl, rfl, ?_⟩
      unfold summarize
      simp only
      rw [if_pos (by unfold countsOk at hc ⊢; exact hc)]
    · cases h

theorem ext_tcAlg [DecidableEq T] (cfg : Cfg T E) (L a : Nat) (s : St T E) (hg : AllGood s.algs) :
    ∃ ds, Ext (fun b _ _ => if b = a then 1 else 0) (· = a) (· = L) ds s (tcAlg cfg L a s).st ∧
      ∀ s', tcAlg cfg L a s = .ok s' true → ∃ e ∈ ds, e.isChange = true := by
  unfold tcAlg
  cases hx : s.algs[a]? with
  | none => exact ⟨[], .refl _ _ _ _, fun s' hs => by cases hs⟩
  | some x =>
    simp only
    split
    · exact ⟨[], .refl _ _ _ _, fun s' hs => by cases hs⟩
    · obtain ⟨ds, y, hy⟩ := ext_headLoop cfg L a x.heads.length 0 s false hg
      have y := y.mono (N' := fun b _ _ => if b = a then 1 else 0) (touched' := (· = a)) (by intro b j n; simp) (fun _ h => h)
      cases hr : headLoop cfg L a x.heads.length 0 s false with
      | stop w s1 =>
        rw [hr] at y
        exact ⟨ds, y, fun s' hs => by cases hs⟩
      | ok s1 c1 =>
        rw [hr] at y
        cases c1 with
        | false => exact ⟨ds, y, fun s' hs => by cases hs⟩
        | true =>
          simp only
          have hch : ∃ e ∈ ds, e.isChange = true := by
            rcases hy s1 hr with h | h
            · cases h
            · exact h
          cases hz : (s1.algs[a]?).bind (summarize cfg) with
          | none => exact ⟨ds, y, fun s' hs => by cases hs⟩
          | some x' =>
            refine ⟨ds, ?_, fun _ _ => hch⟩
            obtain ⟨x1, h1, h2⟩ := Option.bind_eq_some_iff.1 hz
            obtain ⟨e1, e2, _⟩ := summarize_heads cfg x1 x' h2
            have hlt : a < s1.algs.length := by
              obtain ⟨h, _⟩ := List.getElem?_eq_some_iff.1 h1; exact h
            have hget : ∀ (b : Nat), (s1.algs.set a x')[b]? = if b = a then some x' else s1.algs[b]? := by
              intro b
              rw [List.getElem?_set]
              by_cases hb : a = b
              · subst hb; simp [hlt]
              · have : ¬ b = a := fun e => hb e.symm
                simp [hb, this]
            have hat : ∀ b i, headAt (s1.algs.set a x') b i = headAt s1.algs b i := by
              intro b i
              unfold headAt
              rw [hget]
              by_cases hb : b = a
              · subst hb; simp [h1, e1]
              · rw [if_neg hb]
            have hrel : ∀ (b : Nat), OptRel AlgLe s1.algs[b]? (s1.algs.set a x')[b]? := by
              intro b
              rw [hget]
              by_cases hb : b = a
              · subst hb
                rw [if_pos rfl, h1]
                exact ⟨e2, fun i => by rw [e1]; exact OptRel.refl HeadLe.refl _⟩
              · rw [if_neg hb]; exact OptRel.refl AlgLe.refl _
            exact {
              log := y.log
              algs := fun b => OptRel.trans (R := AlgLe) (fun _ _ _ => AlgLe.trans) (y.algs b) (hrel b)
              frame := fun b hb => by
                show (s1.algs.set a x')[b]? = _
                rw [hget, if_neg hb]
                exact y.frame b hb
              chain := fun b i h h' n t t' e1 e2 => y.chain b i h h' n t t' e1 (by
                show headAt s1.algs b i = some h'
                rw [← hat]; exact e2)
              bound := y.bound
              only := y.only
              where_ := y.where_
              pass := y.pass }

theorem ext_memberLoop [DecidableEq T] (cfg : Cfg T E) (L : Nat) : ∀ (as : List Nat) (s : St T E) (c : Bool), AllGood s.algs →
    ∃ ds, Ext (fun b _ _ => as.count b) (· ∈ as) (· = L) ds s (memberLoop cfg L as s c).st ∧
      ∀ s', memberLoop cfg L as s c = .ok s' true → c = true ∨ ∃ e ∈ ds, e.isChange = true := by
  intro as
  induction as with
  | nil =>
    intro s c _
    refine ⟨[], .refl _ _ _ _, ?_⟩
    intro s' hs
    unfold memberLoop at hs
    injection hs with _ hc
    exact .inl hc
  | cons a as ih =>
    intro s c hg
    unfold memberLoop
    obtain ⟨ds, x, hx⟩ := ext_tcAlg cfg L a s hg
    have x := x.mono (N' := fun b _ _ => if b = a then 1 else 0) (touched' := (· ∈ a :: as)) (fun _ _ _ => Nat.le_refl _)
      (fun b h => by simp [h])
    cases hr : tcAlg cfg L a s with
    | stop w s1 =>
      rw [hr] at x
      refine ⟨ds, x.mono ?_ (fun _ h => h), fun s' hs => by cases hs⟩
      intro b _ _
      rw [List.count_cons]
      split <;> rename_i h
      · subst h; simp
      · exact Nat.zero_le _
    | ok s1 c1 =>
      rw [hr] at x
      simp only
      obtain ⟨ds', y, hy⟩ := ih s1 (c || c1) (x.good hg)
      have y := y.mono (N' := fun b _ _ => as.count b) (touched' := (· ∈ a :: as)) (fun _ _ _ => Nat.le_refl _)
        (fun b h => by simp [h])
      refine ⟨ds ++ ds', (x.trans y).mono ?_ (fun _ h => h), ?_⟩
      · intro b _ _
        rw [List.count_cons]
        by_cases h : b = a
        · subst h; simp; omega
        · have : ¬ a = b := fun e => h e.symm
          simp [h, this]
      · intro s' hs
        rcases hy s' hs with h | ⟨e, he, hc⟩
        · cases c with
          | true => exact .inl rfl
          | false =>
            have : c1 = true := by simpa using h
            subst this
            obtain ⟨e, he, hc⟩ := hx s1 hr
            exact .inr ⟨e, by simp [he], hc⟩
        · exact .inr ⟨e, by simp [he], hc⟩

/-- How many changes of types were reported. -/
def nChanges (ds : List (Entry T E)) : Nat := (ds.filter Entry.isChange).length

theorem nChanges_append (a b : List (Entry T E)) : nChanges (a ++ b) = nChanges a + nChanges b := by
  simp [nChanges]

theorem nChanges_pos {ds : List (Entry T E)} (h : ∃ e ∈ ds, e.isChange = true) : 1 ≤ nChanges ds := by
  obtain ⟨e, he, hc⟩ := h
  exact List.length_pos_of_mem (List.mem_filter.2 ⟨he, hc⟩)

end Verif.Sta
