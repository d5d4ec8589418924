import Verif.Dl.Spec
import Verif.Kinds.ChangeLemmas
import Verif.Preambles.HeadLemmas
/-! # Lemmas for C83 -/
namespace Verif.Dl
open Verif.Kinds (full full_iff Matches lit plus cat dot same_reads is_text is_rest is_any Same)
open Verif.Kinds.Spec (Line Part Reads)
open Verif.Preambles (after after_iff sentences splits_iff word_chars)
open Verif.Sections (isWord)
open Verif.Titles (words words_sep words_word)
open Verif.Util (HNode)
open Spec

/-! ## The list -/

theorem blank_iff {n : HNode} : isBlank n = true ↔ Blank n := by
  simp [isBlank, Blank, and_assoc]

theorem terms_of : ∀ (m : Nat) (ns : List HNode) (es : List (Str × Str)), ns.length ≤ m → pairs (ns.filter fun n => !isBlank n) = some es → Terms ns es := by
  intro m
  induction m with
  | zero =>
    intro ns es hm h
    cases ns with
    | nil => cases h; exact .nil
    | cons => simp at hm
  | succ m ih =>
    intro ns es hm h
    cases ns with
    | nil => cases h; exact .nil
    | cons a ns =>
      by_cases hb : isBlank a = true
      · rw [List.filter_cons_of_neg (by simp [hb])] at h
        exact .white (blank_iff.mp hb) (ih ns es (by simp at hm; omega) h)
      · rw [List.filter_cons_of_pos (by simp [hb])] at h
        cases hr : ns.filter fun n => !isBlank n with
        | nil => rw [hr, pairs] at h; cases h
        | cons b rs =>
          rw [hr, pairs] at h
          obtain ⟨ws, ts, rfl, hws, _, ht⟩ := List.filter_eq_cons_iff.mp hr
          split at h
          · rename_i hn
            obtain ⟨es', he, rfl⟩ := Option.map_eq_some_iff.mp h
            refine Terms.pair (ws := ws) hn.1 (fun n hn => blank_iff.mp (by simpa using hws n hn)) hn.2 (ih ts es' ?_ (ht ▸ he))
            simp at hm; omega
          · cases h

theorem blank_dt {n : HNode} (h : n.elementName = "dt") : isBlank n = false := by simp [isBlank, h]

theorem blank_dd {n : HNode} (h : n.elementName = "dd") : isBlank n = false := by simp [isBlank, h]

theorem pairs_of {ns : List HNode} {es : List (Str × Str)} (h : Terms ns es) : pairs (ns.filter fun n => !isBlank n) = some es := by
  induction h with
  | nil => rfl
  | white hb _ ih => rw [List.filter_cons_of_neg (by simp [blank_iff.mpr hb])]; exact ih
  | @pair a b ws ns es ha hws hb _ ih =>
    have hw : ws.filter (fun n => !isBlank n) = [] := by
      rw [List.filter_eq_nil_iff]
      intro n hn
      simp [blank_iff.mpr (hws n hn)]
    have : (a :: ws ++ b :: ns).filter (fun n => !isBlank n) = a :: b :: ns.filter (fun n => !isBlank n) := by
      rw [List.cons_append, List.filter_cons_of_pos (by simp [blank_dt ha]), List.filter_append, hw, List.nil_append,
        List.filter_cons_of_pos (by simp [blank_dd hb])]
    rw [this, pairs, if_pos ⟨ha, hb⟩, ih]
    rfl

theorem pairs_iff {ns : List HNode} {es : List (Str × Str)} : pairs (ns.filter fun n => !isBlank n) = some es ↔ Terms ns es :=
  ⟨terms_of _ ns es (Nat.le_refl _), pairs_of⟩

theorem known_iff {k : Str} : k ∈ known ↔ Allowed k := by
  simp only [known, List.mem_cons, List.not_mem_nil, or_false, Allowed]

theorem dictOf_iff {r : List (Str × Str)} : ∀ (es d : List (Str × Str)), (d.map Prod.fst).Nodup →
    (dictOf d es = some r ↔ r = d ++ es ∧ (∀ e ∈ es, Allowed e.1) ∧ ((d ++ es).map Prod.fst).Nodup)
  | [], d, hd => by simp [dictOf, hd, eq_comm]
  | (k, v) :: es, d, hd => by
    rw [dictOf]
    by_cases hk : k ∈ known ∧ k ∉ d.map Prod.fst
    · rw [if_pos hk]
      have hd' : ((d ++ [(k, v)]).map Prod.fst).Nodup := by
        rw [List.map_append, List.nodup_append]
        refine ⟨hd, by simp, ?_⟩
        rintro a ha b hb rfl
        simp only [List.map_cons, List.map_nil, List.mem_singleton] at hb
        exact hk.2 (hb ▸ ha)
      rw [dictOf_iff es _ hd', List.append_assoc, List.singleton_append]
      simp only [List.mem_cons, forall_eq_or_imp, known_iff.mp hk.1, true_and]
    · rw [if_neg hk]
      refine iff_of_false (by simp) ?_
      rintro ⟨_, ha, hn⟩
      refine hk ⟨known_iff.mpr (ha _ (List.mem_cons_self ..)), fun hm => ?_⟩
      rw [List.map_append, List.nodup_append] at hn
      exact hn.2.2 k hm k (by simp) rfl

theorem dict_iff {dl : List HNode} {es : List (Str × Str)} : dict dl = some es ↔ Entries dl es := by
  unfold dict Entries
  rw [Option.bind_eq_some_iff]
  constructor
  · rintro ⟨x, hx, hd⟩
    obtain ⟨rfl, h1, h2⟩ := (dictOf_iff x [] (by simp)).mp hd
    exact ⟨pairs_iff.mp hx, h1, h2⟩
  · rintro ⟨h, h1, h2⟩
    exact ⟨es, pairs_iff.mpr h, (dictOf_iff es [] (by simp)).mpr ⟨rfl, h1, h2⟩⟩

theorem get_iff {k : String} {t : Str} : ∀ {d : List (Str × Str)}, (d.map Prod.fst).Nodup → (get k d = some t ↔ (k.toList, t) ∈ d)
  | [], _ => by simp [get]
  | (k', v) :: d, hd => by
    rw [List.map_cons, List.nodup_cons] at hd
    unfold get
    by_cases h : k' = k.toList
    · subst h
      rw [List.find?_cons_of_pos (by simp)]
      simp only [Option.map_some, Option.some.injEq, List.mem_cons, Prod.mk.injEq, true_and]
      constructor
      · rintro rfl; exact .inl rfl
      · rintro (rfl | hm)
        · rfl
        · exact absurd (List.mem_map_of_mem (f := Prod.fst) hm) hd.1
    · rw [List.find?_cons_of_neg (by simpa using h)]
      have := get_iff (k := k) (t := t) hd.2
      unfold get at this
      rw [this]
      simp only [List.mem_cons, Prod.mk.injEq]
      constructor
      · exact .inr
      · rintro (⟨e, _⟩ | hm)
        · exact absurd e.symm h
        · exact hm

theorem get_none {k : String} {d : List (Str × Str)} (hd : (d.map Prod.fst).Nodup) : get k d = none ↔ ∀ t, (k.toList, t) ∉ d := by
  constructor
  · intro h t ht
    rw [(get_iff hd).mpr ht] at h; cases h
  · intro h
    cases e : get k d with
    | none => rfl
    | some t => exact absurd ((get_iff hd).mp e) (h t)

/-! ## Variables -/

theorem not_word {c : Char} : ¬ Paths.Spec.Word [c] ↔ isWord c = false := by
  rw [word_chars]; simp

theorem words_gap : ∀ (g s : Str), (∀ c ∈ g, isWord c = false) → words (g ++ s) = words s
  | [], _, _ => rfl
  | c :: g, s, h => by rw [List.cons_append, words_sep _ (h c (by simp)), words_gap g s fun d hd => h d (by simp [hd])]

theorem words_of {s : Str} {ws : List Str} (h : Words s ws) : words s = ws := by
  induction h with
  | @none s h =>
    have := words_gap s [] fun c hc => not_word.mp (h c hc)
    rw [List.append_nil] at this
    rw [this]; rfl
  | @more gap w s ws hg hw hs _ ih =>
    obtain ⟨h1, h2⟩ := word_chars.mp hw
    rw [List.append_assoc, words_gap _ _ fun c hc => not_word.mp (hg c hc), words_word w s h1 h2 fun c hc => not_word.mp (hs c hc), ih]

theorem span {p : Char → Bool} : ∀ (s : Str), ∃ a b, s = a ++ b ∧ (∀ c ∈ a, p c = true) ∧ ∀ c, b.head? = some c → p c = false
  | [] => ⟨[], [], rfl, by simp, by simp⟩
  | c :: s => by
    by_cases h : p c = true
    · obtain ⟨a, b, rfl, h1, h2⟩ := span (p := p) s
      exact ⟨c :: a, b, rfl, by simpa [h] using h1, h2⟩
    · exact ⟨[], c :: s, rfl, by simp, by simp at h; simpa using h⟩

theorem words_total : ∀ (n : Nat) (s : Str), s.length ≤ n → ∃ ws, Words s ws := by
  intro n
  induction n with
  | zero => intro s h; cases s with
    | nil => exact ⟨[], .none (by simp)⟩
    | cons => simp at h
  | succ n ih =>
    intro s hs
    obtain ⟨g, r, rfl, hg, hr⟩ := span (p := fun c => !isWord c) s
    have hg' : ∀ c ∈ g, ¬ Paths.Spec.Word [c] := fun c hc => not_word.mpr (by simpa using hg c hc)
    cases r with
    | nil => rw [List.append_nil]; exact ⟨[], .none hg'⟩
    | cons d r =>
      have hd : isWord d = true := by simpa using hr d rfl
      obtain ⟨w, t, rfl, hw, ht⟩ := span (p := isWord) r
      obtain ⟨ws, h⟩ := ih t (by simp at hs; omega)
      refine ⟨(d :: w) :: ws, ?_⟩
      have : g ++ d :: (w ++ t) = g ++ (d :: w) ++ t := by simp
      rw [this]
      exact .more hg' (word_chars.mpr ⟨by simp, by simpa [hd] using hw⟩) (fun c hc => not_word.mpr (ht c hc)) h

theorem words_iff {s : Str} {ws : List Str} : words s = ws ↔ Words s ws := by
  refine ⟨?_, words_of⟩
  rintro rfl
  obtain ⟨ws, h⟩ := words_total _ s (Nat.le_refl _)
  rwa [words_of h]

theorem those_iff {α : Type} {p : α → Prop} {f : α → Bool} (hf : ∀ a, f a = true ↔ p a) : ∀ {as bs : List α}, as.filter f = bs ↔ Those p as bs
  | [], bs => by
    constructor
    · rintro rfl; exact .nil
    · intro h; cases h; rfl
  | a :: as, bs => by
    by_cases h : f a = true
    · rw [List.filter_cons_of_pos h]
      constructor
      · rintro rfl; exact .keep ((hf a).mp h) ((those_iff hf).mp rfl)
      · intro ht
        cases ht with
        | keep _ ht => rw [(those_iff hf).mpr ht]
        | drop hn _ => exact absurd ((hf a).mp h) hn
    · rw [List.filter_cons_of_neg h]
      constructor
      · rintro rfl; exact .drop (fun hp => h ((hf a).mpr hp)) ((those_iff hf).mp rfl)
      · intro ht
        cases ht with
        | keep hp _ => exact absurd ((hf a).mpr hp) h
        | drop _ ht => exact (those_iff hf).mpr ht

theorem isVar_iff {v : Str} : isVar v = true ↔ Var v := by
  unfold isVar Var
  constructor
  · intro h
    simp only [Bool.and_eq_true, decide_eq_true_eq, beq_iff_eq] at h
    obtain ⟨⟨h1, h2⟩, h3⟩ := h
    cases v with
    | nil => simp at h1
    | cons c t =>
      simp only [List.head?_cons, Option.some.injEq] at h2
      subst h2
      rcases List.eq_nil_or_concat t with rfl | ⟨x, d, rfl⟩
      · simp at h1
      · rw [List.concat_eq_append] at *
        rw [← List.cons_append, List.getLast?_append] at h3
        simp only [List.getLast?_singleton, Option.some_or, Option.some.injEq] at h3
        subst h3
        refine ⟨x, ?_, rfl⟩
        rintro rfl
        simp at h1
  · rintro ⟨x, hx, rfl⟩
    have : 0 < x.length := List.length_pos_iff.mpr hx
    have hl : ("_".toList ++ x ++ "_".toList).getLast? = some '_' := by rw [List.getLast?_append]; rfl
    rw [hl]
    simp
    omega

theorem vars_iff {s : Str} {vs : List Str} : vars s = vs ↔ Vars s vs := by
  unfold vars Vars
  rw [those_iff (fun a => isVar_iff)]
  constructor
  · intro h; exact ⟨_, words_iff.mp rfl, h⟩
  · rintro ⟨ws, hw, h⟩; rw [words_iff.mpr hw]; exact h

theorem names_iff {params : List Str} {p : Option Str} {v : Str} : v ∈ names params p ↔ Param params p v := by
  unfold names Param
  rw [List.mem_append]
  refine or_congr Iff.rfl ?_
  cases p with
  | none => simp
  | some p =>
    simp only [Option.mem_toList, Option.some.injEq]
    constructor
    · intro h
      have h' : (vars p).head? = some v := by rw [vars, List.head?_filter]; exact h
      obtain ⟨vs, hv⟩ := List.head?_eq_some_iff.mp h'
      exact ⟨p, vs, rfl, vars_iff.mp hv⟩
    · rintro ⟨q, vs, rfl, hv⟩
      rw [← List.head?_filter]
      have := vars_iff.mpr hv
      rw [vars] at this
      rw [this]; rfl

/-! ## Types -/

theorem isDisj_iff {p : String} : isDisj p = true ↔ Disj p := by simp [isDisj, Disj]

theorem isThrough_iff {p : String} : isThrough p = true ↔ Through p := by simp [isThrough, Through]

theorem not_disj_interval : ¬ Disj Interval := by simp [Disj, Interval]

theorem not_through_interval : ¬ Through Interval := by simp [Through, Interval]

theorem through_not_disj {p : String} (h : Through p) : ¬ Disj p := by
  rcases h with rfl | rfl <;> simp [Disj]

mutual
theorem sub_spec (n : Str) : (v : Vd) → (sub n v = some true → Offers n v) ∧ (sub n v = some false → Foreseen v ∧ ¬ Offers n v) ∧ (Foreseen v → sub n v ≠ none)
  | .node p ks t => by
    rw [sub.eq_def]
    dsimp only
    by_cases hd : isDisj p = true
    · rw [if_pos hd]
      have hd' := isDisj_iff.mp hd
      match ks with
      | [.node q ks' u] =>
        obtain ⟨h1, h2, h3⟩ := any_spec n ks'
        refine ⟨?_, ?_, ?_⟩
        · intro h
          obtain ⟨v, hv, ho⟩ := h1 h
          exact .alternative hd' hv ho
        · intro h
          refine ⟨.alternatives hd' fun v hv => (h2 h v hv).1, ?_⟩
          intro ho
          cases ho with
          | alternative _ hv ho => exact (h2 h _ hv).2 ho
          | through ht _ => exact through_not_disj ht hd'
          | whole hn => exact hn hd'
          | interval => exact not_disj_interval hd'
        · intro hf
          refine h3 ?_
          cases hf with
          | alternatives _ h => exact h
          | through ht _ => exact absurd hd' (through_not_disj ht)
          | whole hn => exact absurd hd' hn
          | interval => exact absurd hd' not_disj_interval
      | [] =>
        refine ⟨by simp, by simp, ?_⟩
        intro hf
        cases hf with
        | whole hn => exact absurd hd' hn
        | interval => exact absurd hd' not_disj_interval
      | _ :: _ :: _ =>
        refine ⟨by simp, by simp, ?_⟩
        intro hf
        cases hf with
        | whole hn => exact absurd hd' hn
        | interval => exact absurd hd' not_disj_interval
    · rw [if_neg hd]
      have hd' : ¬ Disj p := fun h => hd (isDisj_iff.mpr h)
      by_cases ht : isThrough p = true
      · rw [if_pos ht]
        have ht' := isThrough_iff.mp ht
        match ks with
        | [v] =>
          obtain ⟨h1, h2, h3⟩ := sub_spec n v
          refine ⟨fun h => .through ht' (h1 h), ?_, ?_⟩
          · intro h
            refine ⟨.through ht' (h2 h).1, ?_⟩
            intro ho
            cases ho with
            | alternative hd => exact hd' hd
            | through _ ho => exact (h2 h).2 ho
            | whole _ hn => exact hn ht'
            | interval => exact not_through_interval ht'
          · intro hf
            refine h3 ?_
            cases hf with
            | alternatives hd => exact absurd hd hd'
            | through _ h => exact h
            | whole _ hn => exact absurd ht' hn
            | interval => exact absurd ht' not_through_interval
        | [] =>
          refine ⟨by simp, by simp, ?_⟩
          intro hf
          cases hf with
          | whole _ hn => exact absurd ht' hn
          | interval => exact absurd ht' not_through_interval
        | _ :: _ :: _ =>
          refine ⟨by simp, by simp, ?_⟩
          intro hf
          cases hf with
          | whole _ hn => exact absurd ht' hn
          | interval => exact absurd ht' not_through_interval
      · rw [if_neg ht]
        have ht' : ¬ Through p := fun h => ht (isThrough_iff.mpr h)
        have hwhole : Whole p ks → (some (n == t) = some true → Offers n (.node p ks t)) ∧
            (some (n == t) = some false → Foreseen (.node p ks t) ∧ ¬ Offers n (.node p ks t)) ∧ (Foreseen (.node p ks t) → some (n == t) ≠ none) := by
          intro hw
          refine ⟨?_, ?_, by simp⟩
          · intro h
            simp only [Option.some.injEq, beq_iff_eq] at h
            subst h
            exact .whole hd' ht' hw
          · intro h
            simp only [Option.some.injEq, beq_eq_false_iff_ne, ne_eq] at h
            refine ⟨.whole hd' ht' hw, ?_⟩
            intro ho
            cases ho with
            | alternative hd => exact hd' hd
            | through ht => exact ht' ht
            | whole => exact h rfl
            | interval hk =>
              rcases hw with hw | hw | hw | hw
              · exact hk hw
              all_goals exact absurd hw (by simp [Interval])
        by_cases hw : (ks.isEmpty || isWhole p) = true
        · rw [if_pos hw]
          refine hwhole ?_
          simp only [isWhole, Bool.or_eq_true, List.isEmpty_iff, beq_iff_eq] at hw
          rcases hw with hw | hw | hw
          · exact .inl hw
          · exact .inr (.inl hw)
          · exact .inr (.inr (.inl hw))
        · rw [if_neg hw]
          simp only [isWhole, Bool.or_eq_true, List.isEmpty_iff, beq_iff_eq, not_or] at hw
          by_cases hi : p = "{VAL_DESC} : an integer in {INTERVAL}"
          · rw [if_pos (by simpa using hi)]
            subst hi
            refine ⟨?_, ?_, by simp⟩
            · intro h
              simp only [Option.some.injEq, beq_iff_eq] at h
              exact .interval hw.1 h
            · intro h
              simp only [Option.some.injEq, beq_eq_false_iff_ne, ne_eq] at h
              refine ⟨.interval, ?_⟩
              intro ho
              cases ho with
              | alternative hd => exact hd' hd
              | through ht => exact ht' ht
              | whole _ _ hw' =>
                rcases hw' with hw' | hw' | hw' | hw'
                · exact hw.1 hw'
                all_goals exact absurd hw' (by simp)
              | interval _ hn => exact h hn
          · rw [if_neg (by simpa using hi)]
            by_cases hr : p = "{VAL_DESC} : a Record with fields {dsb_word} ({VALUE_DESCRIPTION}) and {dsb_word} ({VALUE_DESCRIPTION})"
            · rw [if_pos (by simpa using hr)]
              exact hwhole (.inr (.inr (.inr hr)))
            · rw [if_neg (by simpa using hr)]
              refine ⟨by simp, by simp, ?_⟩
              intro hf
              cases hf with
              | alternatives hd => exact absurd hd hd'
              | through ht => exact absurd ht ht'
              | whole _ _ hw' =>
                rcases hw' with hw' | hw' | hw' | hw'
                · exact absurd hw' hw.1
                · exact absurd hw' hw.2.1
                · exact absurd hw' hw.2.2
                · exact absurd hw' hr
              | interval => exact absurd rfl hi
theorem any_spec (n : Str) : (vs : List Vd) → (anySub n vs = some true → ∃ v ∈ vs, Offers n v) ∧
    (anySub n vs = some false → ∀ v ∈ vs, Foreseen v ∧ ¬ Offers n v) ∧ ((∀ v ∈ vs, Foreseen v) → anySub n vs ≠ none)
  | [] => by simp [anySub]
  | v :: vs => by
    obtain ⟨h1, h2, h3⟩ := sub_spec n v
    obtain ⟨i1, i2, i3⟩ := any_spec n vs
    rw [anySub]
    cases e : sub n v with
    | none => exact ⟨by simp, by simp, fun h => absurd e (h3 (h v (by simp)))⟩
    | some b =>
      cases b with
      | true => exact ⟨fun _ => ⟨v, by simp, h1 e⟩, by simp, by simp⟩
      | false =>
        refine ⟨?_, ?_, fun h => i3 fun u hu => h u (by simp [hu])⟩
        · intro h
          obtain ⟨u, hu, ho⟩ := i1 h
          exact ⟨u, by simp [hu], ho⟩
        · intro h u hu
          rcases List.mem_cons.mp hu with rfl | hu
          · exact h2 e
          · exact i2 h u hu
end

end Verif.Dl
