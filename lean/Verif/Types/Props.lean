import Verif.Types.SplitLemmas
/-! # Properties of the static types -/
namespace Verif.Types

variable {cfg : Cfg} {I : Interp}

/-! ### Hierarchies that can come about -/

/-- Hierarchies as `TNode` builds them: a root, and then one type at a time under one that is there. -/
inductive Grown : Tree → Prop
  | root : Grown (.node "Top_" [])
  | add {t t' parent name} : Grown t → addNode t parent name = some t' → Grown t'

mutual
theorem mem_addUnder (p x : String) : ∀ (t : Tree) (y : String), y ∈ names (addUnder p x t) ↔ y ∈ names t ∨ (p ∈ names t ∧ y = x)
  | .node n cs, y => by
    have := mem_addUnderL p x cs y
    simp only [addUnder, mem_names]
    rw [← mem_namesL, ← mem_namesL, ← mem_namesL]
    have happ : ∀ a b : List Tree, y ∈ namesL (a ++ b) ↔ y ∈ namesL a ∨ y ∈ namesL b := by
      intro a b
      simp only [mem_namesL, List.mem_append]
      constructor
      · rintro ⟨c, h | h, h'⟩
        · exact .inl ⟨c, h, h'⟩
        · exact .inr ⟨c, h, h'⟩
      · rintro (⟨c, h, h'⟩ | ⟨c, h, h'⟩)
        · exact ⟨c, .inl h, h'⟩
        · exact ⟨c, .inr h, h'⟩
    rw [happ, this]
    by_cases hp : n = p
    · subst hp
      simp only [if_pos, namesL, names, List.append_nil, List.mem_singleton]
      constructor
      · rintro (h | ((h | ⟨_, h⟩) | h))
        · exact .inl (.inl h)
        · exact .inl (.inr h)
        · exact .inr ⟨.inl trivial, h⟩
        · exact .inr ⟨.inl trivial, h⟩
      · rintro ((h | h) | ⟨_, h⟩)
        · exact .inl h
        · exact .inr (.inl (.inl h))
        · exact .inr (.inr h)
    · simp only [if_neg hp, namesL, List.not_mem_nil, or_false, Ne.symm hp, false_or, or_assoc]
theorem mem_addUnderL (p x : String) : ∀ (cs : List Tree) (y : String), y ∈ namesL (addUnderL p x cs) ↔ y ∈ namesL cs ∨ (p ∈ namesL cs ∧ y = x)
  | [], y => by simp [addUnderL, namesL]
  | t :: ts, y => by
    have h1 := mem_addUnder p x t y
    have h2 := mem_addUnderL p x ts y
    simp only [addUnderL, namesL, List.mem_append, h1, h2]
    constructor
    · rintro ((h | ⟨h, h'⟩) | (h | ⟨h, h'⟩))
      · exact .inl (.inl h)
      · exact .inr ⟨.inl h, h'⟩
      · exact .inl (.inr h)
      · exact .inr ⟨.inr h, h'⟩
    · rintro ((h | h) | ⟨h | h, h'⟩)
      · exact .inl (.inl h)
      · exact .inr (.inl h)
      · exact .inl (.inr ⟨h, h'⟩)
      · exact .inr (.inr ⟨h, h'⟩)
end

mutual
theorem nodup_addUnder (p x : String) : ∀ (t : Tree), x ∉ names t → (names t).Nodup → (names (addUnder p x t)).Nodup
  | .node n cs => fun hx hn => by
    have hnd := nodup_node hn
    rw [names, List.mem_cons, not_or] at hx
    have ih := nodup_addUnderL p x cs hx.2 hnd.2
    have hmem := mem_addUnderL p x cs
    have happ : ∀ a b : List Tree, namesL (a ++ b) = namesL a ++ namesL b := by
      intro a
      induction a with
      | nil => intro b; rfl
      | cons t a ih => intro b; simp [namesL, ih]
    rw [addUnder, names, happ, List.nodup_cons]
    by_cases hp : n = p
    · subst hp
      have hno : n ∉ namesL cs := hnd.1
      simp only [if_pos, namesL, names, List.append_nil, List.mem_append, List.mem_singleton, hmem, hno, false_and, or_false, false_or]
      refine ⟨Ne.symm hx.1, ?_⟩
      rw [List.nodup_append]
      refine ⟨ih, by simp, ?_⟩
      intro a ha b hb
      simp only [List.mem_singleton] at hb
      subst hb
      rcases (hmem a).1 ha with h | ⟨h, _⟩
      · rintro rfl; exact hx.2 h
      · exact absurd h hno
    · simp only [if_neg hp, namesL, List.append_nil, hmem]
      refine ⟨?_, ih⟩
      rintro (h | ⟨_, h⟩)
      · exact hnd.1 h
      · exact hx.1 h.symm
theorem nodup_addUnderL (p x : String) : ∀ (cs : List Tree), x ∉ namesL cs → (namesL cs).Nodup → (namesL (addUnderL p x cs)).Nodup
  | [] => fun _ _ => by simp [addUnderL, namesL]
  | t :: ts => fun hx hn => by
    rw [namesL, List.mem_append, not_or] at hx
    rw [namesL, List.nodup_append] at hn
    have h1 := nodup_addUnder p x t hx.1 hn.1
    have h2 := nodup_addUnderL p x ts hx.2 hn.2.1
    rw [addUnderL, namesL, List.nodup_append]
    refine ⟨h1, h2, ?_⟩
    intro a ha b hb hab
    subst hab
    rcases (mem_addUnder p x t a).1 ha with h | ⟨h, rfl⟩
    · rcases (mem_addUnderL p x ts a).1 hb with h' | ⟨h', rfl⟩
      · exact hn.2.2 a h a h' rfl
      · exact hx.1 h
    · rcases (mem_addUnderL p a ts a).1 hb with h' | ⟨h', _⟩
      · exact hx.2 h'
      · exact hn.2.2 p h p h' rfl
end

/-- Every hierarchy that can come about is in order: its names are distinct and its root is the top
type. -/
theorem grown_ok {t : Tree} (h : Grown t) : t.name = "Top_" ∧ (names t).Nodup := by
  induction h with
  | root => exact ⟨rfl, by simp [names, namesL]⟩
  | @add t t' parent name _ h ih =>
    unfold addNode at h
    split at h
    · cases h
    · rename_i hx
      split at h
      · injection h with h; subst h
        refine ⟨?_, nodup_addUnder _ _ _ hx ih.2⟩
        cases t
        exact ih.1
      · cases h

/-! ### A small configuration for the examples -/

def exTree : Tree := .node "Top_" [.node "Number" [.node "Integer" [], .node "NonInteger" []], .node "String" [],
  .node "Undefined" [], .node "List" [], .node "Record" [], .node "proc_" []]

def exCfg : Cfg := ⟨exTree, fun s => if s = "Point" ∨ s = "Shape" ∨ s = "Completion Record" then some s else none,
  fun s => if s = "Point" then ["Point", "Shape"] else [s]⟩

theorem exCfg_ok : CfgOk exCfg where
  root := rfl
  nodup := by decide
  supers := by
    intro i j k h1 h2
    simp only [exCfg] at *
    split at h1
    · rename_i hi
      subst hi
      simp only [List.mem_cons, List.not_mem_nil, or_false] at h1
      rcases h1 with rfl | rfl
      · exact h2
      · simp at h2; subst h2; simp
    · simp only [List.mem_singleton] at h1
      subst h1
      split at h2
      · rename_i h; contradiction
      · simp_all

theorem ex_grown : Grown exTree := by
  have h0 := Grown.root
  have h1 := Grown.add (parent := "Top_") (name := "Number") h0 rfl
  have h2 := Grown.add (parent := "Number") (name := "Integer") h1 rfl
  have h3 := Grown.add (parent := "Number") (name := "NonInteger") h2 rfl
  have h4 := Grown.add (parent := "Top_") (name := "String") h3 rfl
  have h5 := Grown.add (parent := "Top_") (name := "Undefined") h4 rfl
  have h6 := Grown.add (parent := "Top_") (name := "List") h5 rfl
  have h7 := Grown.add (parent := "Top_") (name := "Record") h6 rfl
  have h8 := Grown.add (parent := "Top_") (name := "proc_") h7 rfl
  exact h8

/-- One way to list the members of a set. -/
def exOrd : List Ty → List Ty
  | [] => []
  | x :: xs => if x ∈ exOrd xs then exOrd xs else x :: exOrd xs

theorem exOrd_ok : SetOrder exOrd := by
  intro xs
  induction xs with
  | nil => simp [exOrd]
  | cons x xs ih =>
    rw [exOrd]
    split
    · rename_i h
      refine ⟨ih.1, fun y => ?_⟩
      rw [ih.2, List.mem_cons]
      constructor
      · exact .inr
      · rintro (rfl | h')
        · exact (ih.2 _).1 h
        · exact h'
    · rename_i h
      refine ⟨List.nodup_cons.2 ⟨h, ih.1⟩, fun y => ?_⟩
      rw [List.mem_cons, List.mem_cons, ih.2]

/-- Values: integers, halves, strings, undefined, lists, records, procedures. -/
inductive ExV where
  | int (n : Int)
  | half (n : Int)
  | str (s : String)
  | undef
  | list (l : List ExV)
  | point (x y : ExV)
  | fn

def exI : Interp where
  V := ExV
  named := fun n v => n = "Top_" ∨ match v with
    | .int _ => n = "Number" ∨ n = "Integer"
    | .half _ => n = "Number" ∨ n = "NonInteger"
    | .str _ => n = "String"
    | .undef => n = "Undefined"
    | .list _ => n = "List"
    | .point _ _ => n = "Record"
    | .fn => n = "proc_"
  tbd := fun _ => True
  elems := fun v => match v with | .list l => some l | _ => none
  schemaOf := fun v => match v with | .point _ _ => some (some "Point") | _ => none
  field := fun v n => match v with
    | .point x y => if n = "x" then some x else if n = "y" then some y else none
    | _ => none
  procs := fun ps _ v => match v with | .fn => ∀ P ∈ ps, ¬ P (.str "a") | _ => False

theorem exTree_children {p c : String} (h : ChildOf exTree p c) :
    (p = "Top_" ∧ (c = "Number" ∨ c = "String" ∨ c = "Undefined" ∨ c = "List" ∨ c = "Record" ∨ c = "proc_")) ∨
    (p = "Number" ∧ (c = "Integer" ∨ c = "NonInteger")) := by
  have hm := h.mem_left
  obtain ⟨cs, hcs⟩ := Option.isSome_iff_exists.1 (children_isSome exTree p hm)
  have hc := (children_iff exCfg_ok.nodup hcs c).2 h
  simp only [exTree, names, namesL, List.append_nil, List.cons_append, List.nil_append, List.mem_cons, List.not_mem_nil, or_false] at hm
  rcases hm with rfl | rfl | rfl | rfl | rfl | rfl | rfl | rfl | rfl <;>
    simp [exTree, children?, childrenL?, Tree.name] at hcs <;> subst hcs <;> simp at hc
  · exact .inl ⟨rfl, hc⟩
  · exact .inr ⟨rfl, hc⟩

theorem exI_respects : Respects exCfg exI where
  top := fun v => .inl rfl
  child := by
    intro p c h v hv
    rcases exTree_children h with ⟨rfl, _⟩ | ⟨rfl, rfl | rfl⟩
    · exact .inl rfl
    · cases v <;> simp [exI] at hv ⊢
    · cases v <;> simp [exI] at hv ⊢
  list := by intro v l h; cases v <;> simp [exI, ListN] at h ⊢
  record := by intro v l h; cases v <;> simp [exI, RecordN] at h ⊢
  proc := by intro ps r v h; cases v <;> simp [exI, ProcN] at h ⊢

theorem exI_exhaustive : Exhaustive exCfg exI := by
  intro p v hv ⟨c, hc⟩
  have mk : ∀ {p c : String} {cs}, children? exTree p = some cs → c ∈ cs → ChildOf exTree p c :=
    fun h1 h2 => (children_iff exCfg_ok.nodup h1 _).1 h2
  rcases exTree_children hc with ⟨rfl, _⟩ | ⟨rfl, _⟩
  · cases v
    · exact ⟨"Number", mk (cs := ["Number", "String", "Undefined", "List", "Record", "proc_"]) rfl (by simp), by simp [exI]⟩
    · exact ⟨"Number", mk (cs := ["Number", "String", "Undefined", "List", "Record", "proc_"]) rfl (by simp), by simp [exI]⟩
    · exact ⟨"String", mk (cs := ["Number", "String", "Undefined", "List", "Record", "proc_"]) rfl (by simp), by simp [exI]⟩
    · exact ⟨"Undefined", mk (cs := ["Number", "String", "Undefined", "List", "Record", "proc_"]) rfl (by simp), by simp [exI]⟩
    · exact ⟨"List", mk (cs := ["Number", "String", "Undefined", "List", "Record", "proc_"]) rfl (by simp), by simp [exI]⟩
    · exact ⟨"Record", mk (cs := ["Number", "String", "Undefined", "List", "Record", "proc_"]) rfl (by simp), by simp [exI]⟩
    · exact ⟨"proc_", mk (cs := ["Number", "String", "Undefined", "List", "Record", "proc_"]) rfl (by simp), by simp [exI]⟩
  · cases v <;> simp [exI] at hv
    · exact ⟨"Integer", mk (cs := ["Integer", "NonInteger"]) rfl (by simp), by simp [exI]⟩
    · exact ⟨"NonInteger", mk (cs := ["Integer", "NonInteger"]) rfl (by simp), by simp [exI]⟩

theorem exI_disjoint : SiblingsDisjoint exCfg exI := by
  intro p c d v h1 h2 hc hd
  rcases exTree_children h1 with ⟨rfl, e1⟩ | ⟨rfl, e1⟩ <;> rcases exTree_children h2 with ⟨e, e2⟩ | ⟨e, e2⟩
  · rcases e1 with rfl | rfl | rfl | rfl | rfl | rfl <;> rcases e2 with rfl | rfl | rfl | rfl | rfl | rfl <;>
      first | rfl | (cases v <;> simp [exI] at hc hd)
  · simp at e
  · simp at e
  · rcases e1 with rfl | rfl <;> rcases e2 with rfl | rfl <;> first | rfl | (cases v <;> simp [exI] at hc hd)

theorem exI_list {t : Ty} {l : List ExV} : den cfg exI (.list t) (ExV.list l) ↔ ∀ x : ExV, x ∈ l → den cfg exI t x := by
  simp only [den]
  constructor
  · rintro ⟨l', h, hh⟩
    injection h with h
    subst h; exact hh
  · intro h; exact ⟨l, rfl, h⟩

/-! ### C14 -/

/-- C14: whenever the subtype test answers yes, every value of the first type is a value of the
second, for every interpretation that agrees with the hierarchy and reads procedure types by
their results. -/
theorem c14_sound (hc : CfgOk cfg) (hr : Respects cfg I) (hp : ProcsByResult I) {A B : Ty} (hB : FieldsOk B)
    (h : sub cfg A B = some true) : ∀ v, den cfg I A v → den cfg I B v :=
  (rel_sound hc hr hp A).2 B hB h

example : sub exCfg (.union [.list (.hier "Integer"), .record "Point" [("x", .hier "Integer"), ("y", .hier "String")]])
    (.union [.record "Shape" [("x", .hier "Number")], .list (.union [.hier "Number", .hier "String"])]) = some true := by decide
example : FieldsOk (.union [.record "Shape" [("x", .hier "Number")], .list (.union [.hier "Number", .hier "String"])]) := by
  simp [FieldsOk, Deep, DeepL, DeepF]
/-- An interpretation meeting all hypotheses of C14. -/
def exI' : Interp := { exI with procs := fun _ _ v => match v with | .fn => True | _ => False }
example : Respects exCfg exI' ∧ ProcsByResult exI' := by
  refine ⟨⟨exI_respects.top, exI_respects.child, exI_respects.list, exI_respects.record, ?_⟩, ?_⟩
  · intro ps r v h; cases v <;> simp [exI'] at h ⊢ <;> exact .inr rfl
  · intro ps ps' r r' v _ _ h; exact h

/-- The interpretation in which a named type has the names below it for values. -/
def freeI (cfg : Cfg) : Interp where
  V := { n : String // n ∈ names cfg.tree }
  named := fun n v => Anc cfg.tree n v.1
  tbd := fun _ => True
  elems := fun _ => none
  schemaOf := fun _ => none
  field := fun _ _ => none
  procs := fun _ _ _ => False

/-- C14, the other way: for unions of named types, the test answers yes if in all interpretations
that agree with the hierarchy all values of the first are values of the second.  (Not so for
interpretations in which types have no values besides those of their children.) -/
theorem c14_complete_named (hc : CfgOk cfg) {A B : Ty} (hA : ∀ t ∈ members A, ∃ n ∈ names cfg.tree, t = .hier n)
    (hB : ∀ t ∈ members B, ∃ n ∈ names cfg.tree, t = .hier n)
    (h : ∀ I : Interp, Respects cfg I → ∀ v, den cfg I A v → den cfg I B v) : sub cfg A B = some true := by
  have hr : Respects cfg (freeI cfg) := {
    top := fun v => by rw [← hc.root]; exact .here v.2
    child := fun p c hpc v hv => hpc.anc.trans hc.nodup hv
    list := fun v l h => by cases h
    record := fun v s h => by cases h
    proc := fun ps r v h => h.elim }
  have key : ∀ a, .hier a ∈ members A → ∃ b, .hier b ∈ members B ∧ Anc cfg.tree b a := by
    intro a ha
    obtain ⟨n, hn, e⟩ := hA _ ha
    injection e with e; subst e
    have := h (freeI cfg) hr ⟨a, hn⟩ (den_members.2 ⟨_, ha, Anc.refl hn⟩)
    obtain ⟨m, hm, hv⟩ := den_members.1 this
    obtain ⟨b, hb, rfl⟩ := hB m hm
    exact ⟨b, hm, hv⟩
  have hmem : ∀ a, .hier a ∈ members A → anyOpt (rel cfg (.hier a)).1 (members B) = some true := by
    intro a ha
    obtain ⟨n, hn, e⟩ := hA _ ha
    injection e with e; subst e
    rcases anyOpt_hier hc hn hB with ⟨h, _⟩ | ⟨_, hno⟩
    · exact h
    · obtain ⟨b, hb, hab⟩ := key a ha
      exact absurd hab (hno b hb)
  rw [sub_unfold]
  unfold subWith
  split
  · rfl
  · rw [if_neg (by
      rintro (h | h)
      · obtain ⟨n, _, e⟩ := hA _ h; cases e
      · obtain ⟨n, _, e⟩ := hB _ h; cases e)]
    split
    · rfl
    · cases A with
      | union ms =>
        have : ∀ {ms' : List Ty}, (∀ m ∈ ms', m ∈ ms) → relAll cfg ms' (members B) = some true := by
          intro ms'
          induction ms' with
          | nil => intro _; rfl
          | cons m ms' ih =>
            intro hsub
            rw [relAll]
            have hm : m ∈ members (.union ms) := hsub m (by simp)
            obtain ⟨a, _, rfl⟩ := hA m hm
            rw [hmem a hm]
            exact ih (fun x hx => hsub x (by simp [hx]))
        exact this (fun m hm => hm)
      | hier n => exact hmem n (by simp [members])
      | tbd => obtain ⟨n, _, e⟩ := hA .tbd (by simp [members]); cases e
      | list t => obtain ⟨n, _, e⟩ := hA (.list t) (by simp [members]); cases e
      | record s fs => obtain ⟨n, _, e⟩ := hA (.record s fs) (by simp [members]); cases e
      | proc ps r => obtain ⟨n, _, e⟩ := hA (.proc ps r) (by simp [members]); cases e

example : sub exCfg (.union [.hier "Integer", .hier "String"]) (.union [.hier "String", .hier "Number"]) = some true := by decide
example : sub exCfg (.hier "Number") (.union [.hier "String", .hier "Integer", .hier "NonInteger"]) = some false := by decide

/-- C14 does not hold for the usual reading of procedure types: the parameter types are not looked
at. -/
theorem c14_procedure_parameters_unchecked : ∃ (cfg : Cfg) (I : Interp) (A B : Ty) (v : I.V),
    CfgOk cfg ∧ Respects cfg I ∧ ProcsContravariant I ∧ FieldsOk B ∧
    sub cfg A B = some true ∧ den cfg I A v ∧ ¬ den cfg I B v := by
  refine ⟨exCfg, exI, .proc [.hier "Number"] (.hier "Number"), .proc [.hier "String"] (.hier "Number"), .fn,
    exCfg_ok, exI_respects, ?_, by simp [FieldsOk, Deep], by decide, ?_, ?_⟩
  · intro ps ps' r r' v hl hz _ h
    cases v <;> simp only [exI] at h ⊢
    intro P hP hPa
    obtain ⟨i, hi, rfl⟩ := List.getElem_of_mem hP
    have hi' : i < ps.length := hl ▸ hi
    refine h ps[i] (List.getElem_mem hi') (hz (ps'[i], ps[i]) ?_ _ hPa)
    have hlen : i < (ps'.zip ps).length := by rw [List.length_zip]; omega
    have : (ps'.zip ps)[i] = (ps'[i], ps[i]) := List.getElem_zip
    rw [← this]
    exact List.getElem_mem hlen
  · simp [den, denEach, exI]
  · simp [den, denEach, exI]

/-! ### C15 -/

/-- C15: the subtype test is reflexive, for types without TBD among their members. -/
theorem c15_reflexive {A : Ty} (h : .tbd ∉ members A) : sub cfg A A = some true := sub_refl h

/-- C15: the subtype test is transitive as far as it goes: after two answers yes, the third is not
no.  (It can be an assertion failure.) -/
theorem c15_transitive (hc : CfgOk cfg) {A B C : Ty} (hA : TBDFree A) (h1 : sub cfg A B = some true) (h2 : sub cfg B C = some true) :
    sub cfg A C ≠ some false :=
  (rel_trans hc A hA).2 B C h1 h2

example : sub exCfg (.list (.hier "Integer")) (.list (.hier "Number")) = some true ∧
    sub exCfg (.list (.hier "Number")) (.union [.hier "String", .hier "List"]) = some true ∧
    sub exCfg (.list (.hier "Integer")) (.union [.hier "String", .hier "List"]) = some true ∧
    TBDFree (.list (.hier "Integer")) := by
  refine ⟨by decide, by decide, by decide, by simp [TBDFree, Deep]⟩
/-- The assertion failure: a list type against a procedure type. -/
theorem c15_third_answer_can_fail : ∃ (cfg : Cfg) (A B C : Ty), CfgOk cfg ∧ TBDFree A ∧
    sub cfg A B = some true ∧ sub cfg B C = some true ∧ sub cfg A C = none :=
  ⟨exCfg, .list (.hier "Integer"), .hier "List", .union [.proc [] (.hier "Number"), .hier "List"],
    exCfg_ok, by simp [TBDFree, Deep], by decide, by decide, by decide⟩
/-- Reflexivity fails for TBD. -/
example : sub exCfg .tbd .tbd = some false := by decide

/-! ### C16 -/

/-- C16: the union of types has every value of each of them, as long as `List` and `List of T` do
not both occur. -/
theorem c16_contains (hc : CfgOk cfg) (hr : Respects cfg I) {ord : List Ty → List Ty} (ho : SetOrder ord) {ts : List Ty} {T : Ty}
    (htbd : ∀ t ∈ ts, TBDFree t) (hlist : (∀ t ∈ ts, NoBareList t) ∨ (∀ t ∈ ts, NoListOf t))
    (h : unionOf cfg ord ts = some T) {t : Ty} (ht : t ∈ ts) {v : I.V} (hv : den cfg I t v) : den cfg I T v := by
  rcases hlist with hl | hl
  · exact unionF_upper (P := fun t => TBDFree t ∧ NoBareList t) hc hr ho ((deep_inner _).and (deep_inner _))
      (fun t h => h.1.self) (.inl (fun t h => h.2.self)) _ ts T (fun t ht => ⟨htbd t ht, hl t ht⟩) h v ⟨t, ht, hv⟩
  · exact unionF_upper (P := fun t => TBDFree t ∧ NoListOf t) hc hr ho ((deep_inner _).and (deep_inner _))
      (fun t h => h.1.self) (.inr (fun t h => h.2.self)) _ ts T (fun t ht => ⟨htbd t ht, hl t ht⟩) h v ⟨t, ht, hv⟩

/-- C16: where there are no types `List of T`, and Completion Records have at most two fields, the
union has exactly the values of its arguments, if named types have just the values of their
children. -/
theorem c16_exact (hc : CfgOk cfg) (hr : Respects cfg I) (hx : Exhaustive cfg I) {ord : List Ty → List Ty} (ho : SetOrder ord)
    {ts : List Ty} {T : Ty} (htbd : ∀ t ∈ ts, TBDFree t) (hl : ∀ t ∈ ts, NoListOf t) (hs : ∀ t ∈ ts, ShortCompletions t)
    (h : unionOf cfg ord ts = some T) (v : I.V) : den cfg I T v ↔ ∃ t ∈ ts, den cfg I t v := by
  constructor
  · exact unionF_lower (P := fun t => NoListOf t ∧ ShortCompletions t) hc hr hx ho ((deep_inner _).and (deep_inner _))
      (fun t h => h.1.self) (fun fs h => h.2.self rfl) _ ts T (fun t ht => ⟨hl t ht, hs t ht⟩) h v
  · rintro ⟨t, ht, hv⟩
    exact c16_contains hc hr ho htbd (.inr hl) h ht hv

/-- C16: the same for `A | B`. -/
theorem c16_or (hc : CfgOk cfg) (hr : Respects cfg I) (hx : Exhaustive cfg I) {ord : List Ty → List Ty} (ho : SetOrder ord)
    {A B T : Ty} (htbd : TBDFree A ∧ TBDFree B) (hl : NoListOf A ∧ NoListOf B) (hs : ShortCompletions A ∧ ShortCompletions B)
    (h : orTy cfg ord A B = some T) (v : I.V) : den cfg I T v ↔ den cfg I A v ∨ den cfg I B v := by
  unfold orTy at h
  split at h
  · rename_i e
    injection h with h; subst h; subst e
    simp
  · rw [c16_exact hc hr hx ho (by simpa using htbd) (by simpa using hl) (by simpa using hs) h v]
    simp

/-- C16: order and repetition do not matter, nor does the empty type `T_0`. -/
theorem c16_set (hc : CfgOk cfg) (hr : Respects cfg I) (hx : Exhaustive cfg I) {ord : List Ty → List Ty} (ho : SetOrder ord)
    {ts ts' : List Ty} {T T' : Ty} (htbd : ∀ t ∈ ts, TBDFree t) (hl : ∀ t ∈ ts, NoListOf t) (hs : ∀ t ∈ ts, ShortCompletions t)
    (he : ∀ t, t ≠ .union [] → (t ∈ ts ↔ t ∈ ts'))
    (h : unionOf cfg ord ts = some T) (h' : unionOf cfg ord ts' = some T') (v : I.V) : den cfg I T v ↔ den cfg I T' v := by
  have hall : ∀ {p : Ty → Prop}, p (.union []) → (∀ t ∈ ts, p t) → ∀ t ∈ ts', p t := by
    intro p h0 hp t ht
    by_cases e : t = .union []
    · rw [e]; exact h0
    · exact hp t ((he t e).2 ht)
  rw [c16_exact hc hr hx ho htbd hl hs h, c16_exact hc hr hx ho (hall (by simp [TBDFree, Deep, DeepL]) htbd)
    (hall (by simp [NoListOf, Deep, DeepL]) hl) (hall (by simp [ShortCompletions, Deep, DeepL]) hs) h']
  constructor
  · rintro ⟨t, ht, hv⟩
    by_cases e : t = .union []
    · subst e; exact absurd hv den_T0
    · exact ⟨t, (he t e).1 ht, hv⟩
  · rintro ⟨t, ht, hv⟩
    by_cases e : t = .union []
    · subst e; exact absurd hv den_T0
    · exact ⟨t, (he t e).2 ht, hv⟩

/-- The union satisfies the recursion of the program, so that no fuel shows. -/
theorem c16_recursion {ord : List Ty → List Ty} (ho : SetOrder ord) (ts : List Ty) :
    unionOf cfg ord ts = unionStep cfg ord (unionOf cfg ord) ts := unionOf_eq ho ts

/-- Named types and unions of them always have a union. -/
theorem c16_defined (hc : CfgOk cfg) {ord : List Ty → List Ty} (ho : SetOrder ord) {ts : List Ty} (h : ∀ t ∈ ts, ∃ n, t = .hier n) :
    ∃ T, unionOf cfg ord ts = some T := unionOf_hier hc ho h

example : unionOf exCfg exOrd [.record "Completion Record" [("[[Type]]", .hier "Number"), ("[[Value]]", .hier "Integer")], .hier "String",
    .record "Completion Record" [("[[Type]]", .hier "Number"), ("[[Value]]", .hier "NonInteger")]] =
    some (.union [.record "Completion Record" [("[[Type]]", .hier "Number"), ("[[Value]]", .hier "Number")], .hier "String"]) := by decide
example : unionOf exCfg exOrd [.hier "Integer", .hier "String", .hier "NonInteger"] = some (.union [.hier "String", .hier "Number"]) := by decide
example : ∀ t ∈ [Ty.hier "Integer", .hier "String", .hier "NonInteger"], TBDFree t ∧ NoListOf t ∧ ShortCompletions t := by
  simp [TBDFree, NoListOf, ShortCompletions, Deep]

/-- C16 is not exact for list types: the union of two has mixed lists. -/
theorem c16_lists_merge : ∃ (cfg : Cfg) (I : Interp) (ord : List Ty → List Ty) (A B T : Ty) (v : I.V), CfgOk cfg ∧ Respects cfg I ∧
    Exhaustive cfg I ∧ SetOrder ord ∧ orTy cfg ord A B = some T ∧ den cfg I T v ∧ ¬ den cfg I A v ∧ ¬ den cfg I B v :=
  ⟨exCfg, exI, exOrd, .list (.hier "Number"), .list (.hier "String"), .list (.union [.hier "Number", .hier "String"]),
    .list [.int 1, .str "a"], exCfg_ok, exI_respects, exI_exhaustive, exOrd_ok, by decide, by
      rw [exI_list]; intro x hx; simp at hx; rcases hx with rfl | rfl <;> simp [den, denAny, exI],
    by rw [exI_list]; intro h; have := h (.str "a") (by simp); simp [den, exI] at this,
    by rw [exI_list]; intro h; have := h (.int 1) (by simp); simp [den, exI] at this⟩

/-- C16 fails for `List` beside `List of T`: the union is the latter. -/
theorem c16_bare_list_dropped : ∃ (cfg : Cfg) (I : Interp) (ord : List Ty → List Ty) (A B T : Ty) (v : I.V), CfgOk cfg ∧ Respects cfg I ∧
    Exhaustive cfg I ∧ SetOrder ord ∧ TBDFree A ∧ TBDFree B ∧ orTy cfg ord A B = some T ∧ den cfg I A v ∧ ¬ den cfg I T v :=
  ⟨exCfg, exI, exOrd, .hier "List", .list (.hier "String"), .list (.hier "String"),
    .list [.int 1], exCfg_ok, exI_respects, exI_exhaustive, exOrd_ok, by simp [TBDFree, Deep], by simp [TBDFree, Deep],
    by decide, by simp [den, exI], by rw [exI_list]; intro h; have := h (.int 1) (by simp); simp [den, exI] at this⟩

/-! ### C17 -/

/-- C17: the union of at least two named types consists of the highest names all of whose leaves are
covered by the arguments (and of arguments outside the hierarchy, as they are). -/
theorem c17_canonical (hc : CfgOk cfg) {ord : List Ty → List Ty} (ho : SetOrder ord) {ns : List String} (hlist : "List" ∉ ns)
    {a b : String} (ha : a ∈ ns) (hb : b ∈ ns) (hab : a ≠ b) :
    ∃ T, unionOf cfg ord (ns.map .hier) = some T ∧ (∀ m ∈ members T, ∃ n, m = .hier n) ∧
      (∀ n ∈ names cfg.tree, .hier n ∈ members T ↔ MaxFull cfg.tree ns n) ∧
      (∀ n, n ∉ names cfg.tree → (.hier n ∈ members T ↔ n ∈ ns)) := by
  rw [unionOf_eq ho]
  have hmap : ∀ n, Ty.hier n ∈ ns.map Ty.hier ↔ n ∈ ns := by intro n; simp
  rcases unionStep_hier hc ho (rec := unionOf cfg ord) (ts := ns.map .hier) (by simp) with ⟨e, _⟩ | ⟨n, hn, _⟩ | ⟨ts', h1, h2, _, e⟩
  · exact absurd ((hmap a).2 ha) (by rw [e]; simp)
  · have h1 := (hn _).1 ((hmap a).2 ha)
    have h2 := (hn _).1 ((hmap b).2 hb)
    injection h1 with h1; injection h2 with h2
    exact absurd (h1.trans h2.symm) hab
  · rw [e]
    obtain ⟨T, ns', hT, hns, hnd, hm⟩ := unionGeneral_hier hc ho (rec := unionOf cfg ord) h1 (fun t ht => by
      have := (h2 t).1 ht
      simp only [List.mem_map] at this
      obtain ⟨n, _, e⟩ := this
      exact ⟨n, e.symm⟩)
    have hns' : ∀ n, n ∈ ns' ↔ n ∈ ns := by
      intro n
      rw [hns, h2, hmap]
      refine ⟨And.left, fun h => ⟨h, ?_⟩⟩
      rintro rfl
      exact hlist h
    have hnl : .hier ListN ∉ ts' := by
      rw [h2, hmap]; exact hlist
    have hlen : ¬ ns'.length ≤ 1 := by
      intro hle
      have h1 := (hns' a).2 ha
      have h2 := (hns' b).2 hb
      match ns', hle, h1, h2 with
      | [x], _, h1, h2 =>
        simp only [List.mem_singleton] at h1 h2
        exact hab (h1.trans h2.symm)
    obtain ⟨g1, g2⟩ := hrec_ok cfg.tree hc.nodup ns'
    have hm' : ∀ n, .hier n ∈ members T ↔ n ∈ hrec cfg.tree ns' := by
      intro n
      rw [hm, unionHier, if_neg hlen]
      constructor
      · rintro (⟨_, h⟩ | ⟨k, hk, e⟩)
        · exact absurd h hnl
        · injection e with e; subst e; exact hk
      · intro h; exact .inr ⟨n, h, rfl⟩
    refine ⟨T, hT, ?_, ?_, ?_⟩
    · intro m hmm
      rcases (hm m).1 hmm with ⟨_, h⟩ | ⟨k, _, e⟩
      · exact absurd h hnl
      · exact ⟨k, e⟩
    · intro n hn
      rw [hm', g2 n hn]
      exact maxFull_congr (fun x _ => hns' x)
    · intro n hn
      rw [hm', g1 n hn, hns']

/-- C17: no member is above another, and no complete set of children is left standing. -/
theorem c17_irredundant (hc : CfgOk cfg) {ord : List Ty → List Ty} (ho : SetOrder ord) {ns : List String} (hlist : "List" ∉ ns)
    {a b : String} (ha : a ∈ ns) (hb : b ∈ ns) (hab : a ≠ b) {T : Ty} (h : unionOf cfg ord (ns.map .hier) = some T) :
    (∀ m n, .hier m ∈ members T → .hier n ∈ members T → Anc cfg.tree m n → m = n) ∧
    (∀ p, (∃ c, ChildOf cfg.tree p c) → ∃ c, ChildOf cfg.tree p c ∧ .hier c ∉ members T) := by
  obtain ⟨T', hT', _, h2, _⟩ := c17_canonical hc ho hlist ha hb hab
  rw [h] at hT'
  injection hT' with hT'; subst hT'
  constructor
  · intro m n hm hn hmn
    exact ((h2 n hmn.mem_right).1 hn).2 m hmn ((h2 m hmn.mem_left).1 hm).1
  · rintro p ⟨c, hpc⟩
    refine Classical.byContradiction (fun hno => ?_)
    have hall : ∀ c, ChildOf cfg.tree p c → .hier c ∈ members T := fun c hpc =>
      Classical.byContradiction (fun hn => hno ⟨c, hpc, hn⟩)
    have hfull : Full cfg.tree ns p := by
      intro l hl hleaf
      have hne : p ≠ l := by rintro rfl; exact hleaf c hpc
      obtain ⟨d, hd, hdl⟩ : ∃ d, ChildOf cfg.tree p d ∧ Anc cfg.tree d l := by
        have : ∀ t : Tree, (names t).Nodup → Anc t p l → p ≠ l → ∃ d, ChildOf t p d ∧ Anc t d l := by
          intro t
          induction t using Tree.ind with
          | h n cs ih =>
            intro hnd h hne
            rcases anc_node.1 h with ⟨rfl, hb⟩ | ⟨c, hcc, h⟩
            · rcases mem_names.1 hb with rfl | ⟨c, hcc, hl⟩
              · exact absurd rfl hne
              · exact ⟨c.name, .here hcc, .deeper hcc (.here hl)⟩
            · obtain ⟨d, h1, h2⟩ := ih c hcc (nodup_child (nodup_node hnd).2 c hcc) h hne
              exact ⟨d, .deeper hcc h1, .deeper hcc h2⟩
        exact this cfg.tree hc.nodup hl hne
      exact ((h2 d hdl.mem_left).1 (hall d hd)).1 l hdl hleaf
    have := ((h2 c hpc.mem_right).1 (hall c hpc)).2 p hpc.anc hfull
    exact childOf_ne hc.nodup hpc this.symm

/-- C17: the result depends only on the set of arguments. -/
theorem c17_set (hc : CfgOk cfg) {ord ord' : List Ty → List Ty} (ho : SetOrder ord) (ho' : SetOrder ord') {ns ns' : List String}
    (he : ∀ n, n ∈ ns ↔ n ∈ ns') (hlist : "List" ∉ ns) {T T' : Ty} (h : unionOf cfg ord (ns.map .hier) = some T)
    (h' : unionOf cfg ord' (ns'.map .hier) = some T') (m : Ty) : m ∈ members T ↔ m ∈ members T' := by
  have hmap : ∀ (ns : List String) n, Ty.hier n ∈ ns.map Ty.hier ↔ n ∈ ns := by intro ns n; simp
  by_cases hd : ∃ a ∈ ns, ∃ b ∈ ns, a ≠ b
  · obtain ⟨a, ha, b, hb, hab⟩ := hd
    obtain ⟨S, e, h1, h2, h3⟩ := c17_canonical hc ho hlist ha hb hab
    obtain ⟨S', e', h1', h2', h3'⟩ := c17_canonical hc ho' (fun h => hlist ((he _).2 h)) ((he a).1 ha) ((he b).1 hb) hab
    rw [h] at e; rw [h'] at e'
    injection e with e; injection e' with e'
    subst e; subst e'
    have key : ∀ n, .hier n ∈ members T ↔ .hier n ∈ members T' := by
      intro n
      by_cases hn : n ∈ names cfg.tree
      · rw [h2 n hn, h2' n hn]; exact maxFull_congr (fun x _ => he x)
      · rw [h3 n hn, h3' n hn]; exact he n
    constructor
    · intro hm; obtain ⟨n, rfl⟩ := h1 m hm; exact (key n).1 hm
    · intro hm; obtain ⟨n, rfl⟩ := h1' m hm; exact (key n).2 hm
  · rw [unionOf_eq ho] at h
    rw [unionOf_eq ho'] at h'
    have hd' : ¬ ∃ a ∈ ns', ∃ b ∈ ns', a ≠ b := fun ⟨a, ha, b, hb, hab⟩ => hd ⟨a, (he a).2 ha, b, (he b).2 hb, hab⟩
    rcases unionStep_hier hc ho (rec := unionOf cfg ord) (ts := ns.map .hier) (by simp) with ⟨e, g⟩ | ⟨n, hn, g⟩ | ⟨ts', _, _, ⟨t, ht, u, hu, htu⟩, _⟩
    · have e0 : ns = [] := by simpa using e
      subst e0
      have e1 : ns' = [] := by
        cases ns' with
        | nil => rfl
        | cons x xs => exact absurd ((he x).2 (by simp)) (by simp)
      subst e1
      rw [g] at h
      injection h with h; subst h
      simp [unionStep] at h'
      subst h'
      rfl
    · rcases unionStep_hier hc ho' (rec := unionOf cfg ord') (ts := ns'.map .hier) (by simp) with ⟨e, g'⟩ | ⟨n', hn', g'⟩ | ⟨ts', _, _, ⟨t, ht, u, hu, htu⟩, _⟩
      · have h1 := (hn (.hier n)).2 rfl
        have h2 := (hmap ns' n).2 ((he n).1 ((hmap ns n).1 h1))
        rw [e] at h2
        cases h2
      · have h1 := (hn (.hier n)).2 rfl
        have h2 := (hn' _).1 ((hmap ns' n).2 ((he n).1 ((hmap ns n).1 h1)))
        injection h2 with h2; subst h2
        rw [g] at h; rw [g'] at h'
        injection h with h; injection h' with h'
        subst h; subst h'; rfl
      · exfalso
        obtain ⟨x, hx, rfl⟩ := List.mem_map.1 ht
        obtain ⟨y, hy, rfl⟩ := List.mem_map.1 hu
        exact hd' ⟨x, hx, y, hy, fun e => htu (by rw [e])⟩
    · exfalso
      obtain ⟨x, hx, rfl⟩ := List.mem_map.1 ht
      obtain ⟨y, hy, rfl⟩ := List.mem_map.1 hu
      exact hd ⟨x, hx, y, hy, fun e => htu (by rw [e])⟩

example : "List" ∉ ["Integer", "String", "NonInteger"] ∧ "Integer" ∈ ["Integer", "String", "NonInteger"] := by decide
/-- With `List`, results need not be canonical. -/
theorem c17_list_not_canonical : ∃ (cfg : Cfg) (ord : List Ty → List Ty) (T : Ty), CfgOk cfg ∧ SetOrder ord ∧
    unionOf cfg ord [.hier "Top_", .hier "List"] = some T ∧ .hier "Top_" ∈ members T ∧ .hier "List" ∈ members T ∧
    Anc cfg.tree "Top_" "List" :=
  ⟨exCfg, exOrd, .union [.hier "List", .hier "Top_"], exCfg_ok, exOrd_ok, by decide, by simp [members], by simp [members],
    .here (by decide)⟩

/-! ### C18 -/

/-- C18: splitting a union of named types by another gives a part with exactly the values in both, and
a part with exactly the values in the first but not the second; it always succeeds. -/
theorem c18_partition (hc : CfgOk cfg) (hleaf : IsLeaf cfg.tree "List") {ord : List Ty → List Ty} (ho : SetOrder ord) {A B : Ty}
    (hA : ∀ t ∈ members A, ∃ n ∈ names cfg.tree, t = .hier n) (hB : ∀ t ∈ members B, ∃ n ∈ names cfg.tree, t = .hier n) :
    ∃ i o, splitBy cfg ord A B = some (i, o) ∧
      ∀ I : Interp, Respects cfg I → Exhaustive cfg I → SiblingsDisjoint cfg I → ∀ v : I.V,
        (den cfg I i v ↔ den cfg I A v ∧ den cfg I B v) ∧ (den cfg I o v ↔ den cfg I A v ∧ ¬ den cfg I B v) :=
  splitBy_ok hc hleaf ho hA hB

/-- C18: TBD is split as the top type is. -/
theorem c18_tbd (hc : CfgOk cfg) {ord : List Ty → List Ty} (ho : SetOrder ord) {B : Ty}
    (hB : ∀ t ∈ members B, ∃ n ∈ names cfg.tree, t = .hier n) : splitBy cfg ord .tbd B = splitBy cfg ord (.hier "Top_") B := by
  have hB' : .tbd ∉ members B := fun h => by obtain ⟨n, _, e⟩ := hB _ h; cases e
  have h1 : ¬ (members Ty.tbd ⊆ members B ∧ members B ⊆ members Ty.tbd) := fun h => hB' (h.1 (by simp [members]))
  have htop : "Top_" ∈ names cfg.tree := by
    have := name_mem cfg.tree
    rw [hc.root] at this; exact this
  have hone : ∀ n, splitRec cfg ord B (n + 1) (members .tbd) (members B) = splitRec cfg ord B (n + 1) (members (.hier "Top_")) (members B) := by
    intro n
    have : ∀ rec bs, splitOne cfg ord B rec bs .tbd = splitOne cfg ord B rec bs (.hier "Top_") := by
      intro rec bs; rfl
    simp only [splitRec, members, List.mapM_cons, List.mapM_nil, this]
  unfold splitBy
  rw [if_neg h1, hone]
  by_cases he : members (.hier "Top_") ⊆ members B ∧ members B ⊆ members (.hier "Top_")
  · rw [if_pos he]
    have hT : ∀ m ∈ members B, m = .hier "Top_" := fun m hm => by
      have := he.2 hm
      simpa [members] using this
    have hsub : sub cfg (.hier "Top_") B = some true := by
      rcases sub_hier hc htop hB with ⟨h, _⟩ | ⟨_, h⟩
      · exact h
      · exact absurd (Anc.refl htop) (h "Top_" (he.1 (by simp [members])))
    have hnot : ¬ (Ty.hier "Top_" = .hier NormalN ∧ B = TCR) := by rintro ⟨h, _⟩; simp [NormalN] at h
    have hnot' : ¬ ("Top_" = NormalN ∧ B = TCR) := by rintro ⟨h, _⟩; simp [NormalN] at h
    have hs : splitRec cfg ord B ((names cfg.tree).length + 1) (members (.hier "Top_")) (members B) = some ([.hier "Top_"], []) := by
      simp [splitRec, members, splitOne, hnot', hsub]
    rw [hs]
    have e1 : unionOf cfg ord [.hier "Top_"] = some (.hier "Top_") := by
      have : ord [.hier "Top_"] = [.hier "Top_"] := by
        obtain ⟨hnd, hm⟩ := ho [.hier "Top_"]
        simp only [List.mem_singleton] at hm
        revert hnd hm
        generalize ord [Ty.hier "Top_"] = l
        intro hnd hm
        match l, hnd, hm with
        | [], _, hm => exact absurd ((hm _).2 rfl) (by simp)
        | [x], _, hm => rw [(hm x).1 (by simp)]
        | x :: y :: _, hnd, hm =>
          have := (hm x).1 (by simp)
          have := (hm y).1 (by simp)
          simp_all
      simp [unionOf, unionF, unionStep, this]
    have e2 : unionOf cfg ord [] = some T0 := by simp [unionOf, unionF, unionStep]
    dsimp only
    rw [e1, e2]
  · rw [if_neg he]

example : IsLeaf exCfg.tree "List" := by
  intro c hc
  rcases exTree_children hc with ⟨h, _⟩ | ⟨h, _⟩ <;> simp at h
example : splitBy exCfg exOrd (.union [.hier "Number", .hier "String"]) (.union [.hier "Integer", .hier "Undefined"]) =
    some (.hier "Integer", .union [.hier "NonInteger", .hier "String"]) := by decide
example : Respects exCfg exI ∧ Exhaustive exCfg exI ∧ SiblingsDisjoint exCfg exI := ⟨exI_respects, exI_exhaustive, exI_disjoint⟩

/-- C18 fails for list types: `List` split by `List of String` leaves a list of numbers in neither
part (unless the type called `other_` has all other values). -/
theorem c18_lists_not_partitioned : ∃ (cfg : Cfg) (I : Interp) (ord : List Ty → List Ty) (A B i o : Ty) (v : I.V), CfgOk cfg ∧ Respects cfg I ∧
    Exhaustive cfg I ∧ SiblingsDisjoint cfg I ∧ SetOrder ord ∧ splitBy cfg ord A B = some (i, o) ∧ den cfg I A v ∧ ¬ den cfg I i v ∧ ¬ den cfg I o v :=
  ⟨exCfg, exI, exOrd, .hier "List", .list (.hier "String"), .list (.hier "String"), .list (.hier "other_"), .list [.int 1, .str "a"],
    exCfg_ok, exI_respects, exI_exhaustive, exI_disjoint, exOrd_ok, by decide, by simp [den, exI],
    by rw [exI_list]; intro h; have := h (.int 1) (by simp); simp [den, exI] at this,
    by rw [exI_list]; intro h; have := h (.int 1) (by simp); simp [den, exI] at this⟩

end Verif.Types
