import Verif.Titles.IdLemmas
/-!
# C66: titles and ids of sections with structured headers
-/
namespace Verif.Titles
open Verif.Sections (Punct IsName paramsOf pipeline Step)

/-- C66: the program stops exactly if the name of the operation isn't one for this kind. -/
theorem c66_stops (k : Kind) (which op : Str) (ps : List Param) : title k which op ps = none ↔ ¬ OpName k op := by
  rw [← opOk_iff, title]
  by_cases h : opOk k op = true
  · simp [h]
  · simp [h]

theorem title_eq {k : Kind} {op : Str} (ho : OpName k op) (which : Str) (ps : List Param) (hk : k ≠ .sdo) :
    title k which op ps = some ((which ++ op) ++ (" (".toList ++ brief true ps ++ " )".toList)) := by
  rw [title, if_pos ((opOk_iff k op).2 ho), if_neg hk]

/-- C66: the title is the name with the parameters in parentheses; reading these as the list of parameters of a function is read gives the same names, and all from the first optional one on are optional. -/
theorem c66_reads (k : Kind) (which op : Str) (ps : List Param) (ho : OpName k op) (hk : k ≠ .sdo) (hp : ∀ p ∈ ps, IsName p.name) :
    ∃ t l qs, title k which op ps = some t ∧ t = which ++ op ++ " (".toList ++ l ++ ")".toList ∧ '(' ∉ l ∧ ')' ∉ l ∧ paramsOf l = some qs ∧ Reads ps qs := by
  obtain ⟨h1, h2⟩ := brief_chars ps true hp
  obtain ⟨r1, r2⟩ := rd_reads ps false
  refine ⟨_, brief true ps ++ [' '], _, title_eq ho which ps hk, by simp, by simp [h1], by simp [h2], paramsOf_brief ps hp, r1, fun i q hq => ?_⟩
  rcases r2 i q hq with ⟨g1, g2⟩ | ⟨g1, _, g3⟩
  · rcases g2 with g2 | g2
    · cases g2
    · exact .inl ⟨g1, g2⟩
  · exact .inr ⟨g1, g3⟩

/-- C66: the title says exactly which parameters are optional, if and only if the optional ones are the last. -/
theorem c66_faithful (ps : List Param) (qs : List (Str × Punct)) (h : Reads ps qs) :
    (∀ (i : Nat) p q, ps[i]? = some p → qs[i]? = some q → (q.2 = .optional ↔ p.optional = true)) ↔ OptionalLast ps := by
  obtain ⟨h1, h2⟩ := h
  have hl : qs.length = ps.length := by simpa using congrArg List.length h1
  constructor
  · intro hf
    refine List.pairwise_iff_getElem.2 fun i j hi hj hij hopt => ?_
    have hq : qs[j]? = some qs[j] := List.getElem?_eq_getElem (by omega)
    have hpj : ps[j]? = some ps[j] := List.getElem?_eq_getElem hj
    refine (hf j _ _ hpj hq).1 ?_
    rcases h2 j _ hq with ⟨g, _⟩ | ⟨_, g⟩
    · exact g
    · have := g i _ (by omega) (List.getElem?_eq_getElem hi)
      rw [hopt] at this; cases this
  · intro hl' i p q hp hq
    rcases h2 i q hq with ⟨g, j, p', hj, hp', ho⟩ | ⟨g, g'⟩
    · refine ⟨fun _ => ?_, fun _ => g⟩
      by_cases hij : j = i
      · subst hij; rw [hp] at hp'; cases hp'; exact ho
      · obtain ⟨hi1, rfl⟩ := List.getElem?_eq_some_iff.1 hp
        obtain ⟨hj1, rfl⟩ := List.getElem?_eq_some_iff.1 hp'
        exact List.pairwise_iff_getElem.1 hl' j i hj1 hi1 (by omega) ho
    · have := g' i p (Nat.le_refl _) hp
      rw [g, this]
      simp

theorem idOk_iff {k : Kind} {t parent id : Str} {fs : List (Str → Str)} (h : steps k t parent = some (fs.map Step.one)) :
    idOk k t parent id = some true ↔ id = fs.foldl (fun a f => f a) t ∨ id ∈ (failures k).map String.toList := by
  rw [idOk, h]
  dsimp only
  rw [pipeline_ones]
  simp only [List.mem_singleton, Option.some.injEq, Bool.or_eq_true, decide_eq_true_eq]

/-- C66: the id of the section of an operation that the host or the implementation defines is accepted exactly if it is the name in lower case, after `sec-`, or one of three exceptions. -/
theorem c66_id_host (k : Kind) (hk : k = .hostDefined ∨ k = .implDefined) (op : Str) (ps : List Param) (ho : OpName k op) (t parent id : Str) (ht : title k [] op ps = some t) :
    idOk k t parent id = some true ↔ id = "sec-".toList ++ op.map Char.toLower ∨
      id ∈ ["sec-host-cleanup-finalization-registry".toList, "sec-HostLoadImportedModule".toList, "sec-host-promise-rejection-tracker".toList] := by
  have hk' : k ≠ .sdo := by rcases hk with rfl | rfl <;> decide
  rw [title_eq ho [] ps hk'] at ht
  cases ht
  have hs : steps k ([] ++ op ++ (" (".toList ++ brief true ps ++ " )".toList)) parent = some ([removeParams, lower, sec].map Step.one) := by
    rcases hk with rfl | rfl <;> rfl
  have hf : (failures k).map String.toList = ["sec-host-cleanup-finalization-registry".toList, "sec-HostLoadImportedModule".toList, "sec-host-promise-rejection-tracker".toList] := by
    rcases hk with rfl | rfl <;> rfl
  rw [idOk_iff hs, hf]
  have : removeParams ([] ++ op ++ (" (".toList ++ brief true ps ++ " )".toList)) = op := by
    have := removeParams_app op (brief true ps ++ " )".toList) (op_chars ho).1 (by simp)
    simpa using this
  simp only [List.foldl_cons, List.foldl_nil, this]
  rfl

/-- C66: the id of the section of a numeric method is accepted exactly if it consists of the type in lower case and the name of the method, after `sec-numeric-types-`, or is one of two exceptions. -/
theorem c66_id_numeric (ty m : Str) (ps : List Param) (ho : OpName .numeric (ty ++ "::".toList ++ m)) (hty : ':' ∉ ty) (t parent id : Str) (ht : title .numeric [] (ty ++ "::".toList ++ m) ps = some t) :
    idOk .numeric t parent id = some true ↔ id = "sec-numeric-types-".toList ++ ty.map Char.toLower ++ "-".toList ++ m ∨
      id ∈ ["sec-numeric-types-number-tostring".toList, "sec-numeric-types-bigint-tostring".toList] := by
  rw [title_eq ho [] ps (by decide)] at ht
  cases ht
  rw [idOk_iff (fs := [removeParams, numericName, ("numeric-types-".toList ++ ·), sec]) rfl]
  have h1 : removeParams ([] ++ (ty ++ "::".toList ++ m) ++ (" (".toList ++ brief true ps ++ " )".toList)) = ty ++ "::".toList ++ m := by
    have := removeParams_app (ty ++ "::".toList ++ m) (brief true ps ++ " )".toList) (op_chars ho).1 (by simp)
    simpa using this
  have h2 : numericName (ty ++ "::".toList ++ m) = lower ty ++ '-' :: m := by
    generalize hop : ty ++ "::".toList ++ m = op at ho
    cases ho with
    | @numeric u v l m' a b g1 g2 g3 g4 g5 g6 =>
      have ha : ∀ c ∈ u :: v :: a, c.isAlpha = true := by
        intro c hc
        rcases List.mem_cons.1 hc with rfl | hc
        · simp [Char.isAlpha, g1]
        · rcases List.mem_cons.1 hc with rfl | hc
          · exact g2
          · exact g3 c hc
      have hb : ∀ c ∈ l :: m' :: b, c.isAlpha = true := by
        intro c hc
        rcases List.mem_cons.1 hc with rfl | hc
        · simp [Char.isAlpha, g4]
        · rcases List.mem_cons.1 hc with rfl | hc
          · exact g5
          · exact g6 c hc
      have hc : ':' ∉ u :: v :: a := fun hc => by have := ha _ hc; revert this; decide
      have key : ∀ (x y r s : Str), ':' ∉ x → ':' ∉ y → x ++ ':' :: r = y ++ ':' :: s → x = y ∧ r = s := by
        intro x y r s hx hy h
        obtain ⟨a1, a2⟩ := takeWhile_all (p := fun c => c != ':') (w := x) (r := ':' :: r) (fun c hc => by simpa using fun (e : c = ':') => hx (e ▸ hc)) (by simp)
        obtain ⟨b1, b2⟩ := takeWhile_all (p := fun c => c != ':') (w := y) (r := ':' :: s) (fun c hc => by simpa using fun (e : c = ':') => hy (e ▸ hc)) (by simp)
        rw [h, b1] at a1
        rw [h, b2] at a2
        cases a2
        exact ⟨a1.symm, rfl⟩
      obtain ⟨k1, k2⟩ := key ty (u :: v :: a) (':' :: m) (':' :: l :: m' :: b) hty hc (by rw [← hop]; simp)
      cases k2
      subst k1
      exact numericName_ok (by simp) (by simp) ha hb
    | other h _ => exact absurd rfl h
  simp only [List.foldl_cons, List.foldl_nil, h1, h2]
  simp [sec, failures, lower]

/-- The names without parameters. -/
theorem exceptional_iff (op r : Str) (h : ' ' ∉ op) : exceptional.any (fun x => x.toList.isPrefixOf (op ++ ' ' :: r)) = true ↔
    op ∈ ["BindThisValue".toList, "GetSuperBase".toList, "HasVarDeclaration".toList, "HasLexicalDeclaration".toList, "HasRestrictedGlobalProperty".toList, "CanDeclareGlobalVar".toList,
      "CanDeclareGlobalFunction".toList, "CreateGlobalVarBinding".toList, "CreateGlobalFunctionBinding".toList, "CreateImportBinding".toList] := by
  have key : ∀ (y : Str), ' ' ∉ y → ((y ++ [' ']).isPrefixOf (op ++ ' ' :: r) = true ↔ op = y) := by
    intro y hy
    rw [List.isPrefixOf_iff_prefix]
    constructor
    · rintro ⟨s, hs⟩
      obtain ⟨a1, _⟩ := takeWhile_all (p := fun c => c != ' ') (w := op) (r := ' ' :: r) (fun c hc => by simpa using fun (e : c = ' ') => h (e ▸ hc)) (by simp)
      obtain ⟨b1, _⟩ := takeWhile_all (p := fun c => c != ' ') (w := y) (r := ' ' :: s) (fun c hc => by simpa using fun (e : c = ' ') => hy (e ▸ hc)) (by simp)
      rw [← hs, List.append_assoc, List.singleton_append, b1] at a1
      exact a1.symm
    · rintro rfl
      exact ⟨r, by simp⟩
  have tab : exceptional.map String.toList = (["BindThisValue".toList, "GetSuperBase".toList, "HasVarDeclaration".toList, "HasLexicalDeclaration".toList, "HasRestrictedGlobalProperty".toList, "CanDeclareGlobalVar".toList,
      "CanDeclareGlobalFunction".toList, "CreateGlobalVarBinding".toList, "CreateGlobalFunctionBinding".toList, "CreateImportBinding".toList].map (· ++ [' '])) := by decide +kernel
  have e : exceptional.any (fun x => x.toList.isPrefixOf (op ++ ' ' :: r)) = (exceptional.map String.toList).any (fun x => x.isPrefixOf (op ++ ' ' :: r)) := by rw [List.any_map]; rfl
  rw [e, tab, List.any_map, List.any_eq_true]
  have sp : ∀ y ∈ ["BindThisValue".toList, "GetSuperBase".toList, "HasVarDeclaration".toList, "HasLexicalDeclaration".toList, "HasRestrictedGlobalProperty".toList, "CanDeclareGlobalVar".toList,
      "CanDeclareGlobalFunction".toList, "CreateGlobalVarBinding".toList, "CreateGlobalFunctionBinding".toList, "CreateImportBinding".toList], ' ' ∉ y := by decide +kernel
  exact ⟨fun ⟨y, hy, h⟩ => (key y (sp y hy)).1 h ▸ hy, fun hy => ⟨op, hy, (key op (sp op hy)).2 rfl⟩⟩

/-- How names of parameters are written in ids. -/
theorem trim_all {a : Str} {ps : List Param} (hp : ∀ p ∈ ps, IsName p.name) {f : Str → Str} (hf : ∀ n, ∃ o, Old a n o ∧ Bare o (f n)) (b : Bool) :
    trimFrom 0 b ((((ps.map (·.name)).map (convert (backTable a)))).flatMap (fun n => ' ' :: n)) = ps.flatMap (fun p => ' ' :: f p.name) := by
  have hg : ∀ p ∈ ps, IsName (convert (backTable a) p.name) ∧ Bare (convert (backTable a) p.name) (f p.name) := by
    intro p hp'
    obtain ⟨o, h1, h2⟩ := hf p.name
    rw [old_convert h1]
    exact ⟨old_convert h1 ▸ convert_name a (hp p hp'), h2⟩
  clear hf hp
  induction ps generalizing b with
  | nil => rfl
  | cons p ps ih =>
    obtain ⟨h1, h2⟩ := hg p (List.mem_cons_self ..)
    have ih' := fun b => ih b (fun q hq => hg q (List.mem_cons_of_mem _ hq))
    simp only [List.map_cons, List.flatMap_cons, List.cons_append]
    rw [trim_space]
    have hh : ∀ c, (((ps.map (·.name)).map (convert (backTable a))).flatMap (fun n => ' ' :: n)).head? = some c → Verif.Sections.isWord c = false := by
      intro c hc
      cases ps with
      | nil => cases hc
      | cons m ns => simp at hc; subst hc; decide
    obtain ⟨b', hb⟩ := trim_name h1 h2 hh
    rw [hb, ih']

/-- C66: the id of the section of a method of environment records is accepted exactly if it consists of the title of the section around it, the name and the parameters, without underscores and under their former
names, in lower case, with hyphens, after `sec-`; for ten methods, of the name only. -/
theorem c66_id_env (op : Str) (ps : List Param) (ho : OpName .envRec op) (hp : ∀ p ∈ ps, IsName p.name) (t parent id : Str) (hparent : '_' ∉ parent) (ht : title .envRec [] op ps = some t) :
    (op ∈ ["BindThisValue".toList, "GetSuperBase".toList, "HasVarDeclaration".toList, "HasLexicalDeclaration".toList, "HasRestrictedGlobalProperty".toList, "CanDeclareGlobalVar".toList,
      "CanDeclareGlobalFunction".toList, "CreateGlobalVarBinding".toList, "CreateGlobalFunctionBinding".toList, "CreateImportBinding".toList] →
      (idOk .envRec t parent id = some true ↔ id = "sec-".toList ++ op.map Char.toLower)) ∧
    (op ∉ ["BindThisValue".toList, "GetSuperBase".toList, "HasVarDeclaration".toList, "HasLexicalDeclaration".toList, "HasRestrictedGlobalProperty".toList, "CanDeclareGlobalVar".toList,
      "CanDeclareGlobalFunction".toList, "CreateGlobalVarBinding".toList, "CreateGlobalFunctionBinding".toList, "CreateImportBinding".toList] →
      ∀ f : Str → Str, (∀ n, ∃ o, Old (parent ++ " ".toList ++ op) n o ∧ Bare o (f n)) →
      (idOk .envRec t parent id = some true ↔ id = "sec-".toList ++ ((parent ++ " ".toList ++ op ++ ps.flatMap (fun p => " ".toList ++ f p.name)).map Char.toLower).map (fun c => if c = ' ' then '-' else c))) := by
  rw [title_eq ho [] ps (by decide)] at ht
  cases ht
  have hsp := (op_chars ho).2.2.1
  have ex := exceptional_iff op ('(' :: brief true ps ++ " )".toList) hsp
  have e : [] ++ op ++ (" (".toList ++ brief true ps ++ " )".toList) = op ++ ' ' :: ('(' :: brief true ps ++ " )".toList) := by simp
  constructor
  · intro hin
    have hs : steps .envRec ([] ++ op ++ (" (".toList ++ brief true ps ++ " )".toList)) parent = some ([removeParams, lower, hyphens, sec].map Step.one) := by
      have hc : (exceptional.any (fun x => x.toList.isPrefixOf ([] ++ op ++ (" (".toList ++ brief true ps ++ " )".toList)))) = true := by rw [e]; exact ex.2 hin
      simp only [steps, hc, if_true]
      rfl
    rw [idOk_iff hs]
    have h1 : removeParams ([] ++ op ++ (" (".toList ++ brief true ps ++ " )".toList)) = op := by
      have := removeParams_app op (brief true ps ++ " )".toList) (op_chars ho).1 (by simp)
      simpa using this
    have h2 : hyphens (lower op) = lower op := by
      revert hin
      have : ∀ y ∈ ["BindThisValue".toList, "GetSuperBase".toList, "HasVarDeclaration".toList, "HasLexicalDeclaration".toList, "HasRestrictedGlobalProperty".toList, "CanDeclareGlobalVar".toList,
        "CanDeclareGlobalFunction".toList, "CreateGlobalVarBinding".toList, "CreateGlobalFunctionBinding".toList, "CreateImportBinding".toList], hyphens (lower y) = lower y := by decide +kernel
      exact this op
    simp only [List.foldl_cons, List.foldl_nil, h1, h2, failures, List.map_nil, List.not_mem_nil, or_false]
    rfl
  · intro hni f hf
    have hs : steps .envRec ([] ++ op ++ (" (".toList ++ brief true ps ++ " )".toList)) parent = some ([fun s => parent ++ ' ' :: s, extractNames, trim, lower, hyphens, sec].map Step.one) := by
      have hc : (exceptional.any (fun x => x.toList.isPrefixOf ([] ++ op ++ (" (".toList ++ brief true ps ++ " )".toList)))) = false := by
        rw [Bool.eq_false_iff, e]; exact fun h => hni (ex.1 h)
      simp only [steps, hc]
      rfl
    rw [idOk_iff hs]
    have h1 : extractNames (parent ++ ' ' :: ([] ++ op ++ (" (".toList ++ brief true ps ++ " )".toList))) =
        spaced (parent ++ " ".toList ++ op) ((ps.map (·.name)).map (convert (backTable (parent ++ " ".toList ++ op)))) := by
      rw [← extract_title _ ps (by simp) hp]
      simp
    have h2 : trim (spaced (parent ++ " ".toList ++ op) ((ps.map (·.name)).map (convert (backTable (parent ++ " ".toList ++ op))))) = parent ++ " ".toList ++ op ++ ps.flatMap (fun p => " ".toList ++ f p.name) := by
      rw [trim, spaced]
      obtain ⟨b', hb⟩ := trim_plain (parent ++ " ".toList ++ op) (((ps.map (·.name)).map (convert (backTable (parent ++ " ".toList ++ op)))).flatMap (fun n => ' ' :: n)) false (by simp [hparent, (op_chars ho).2.2.2])
      rw [hb, trim_all hp hf]
      rfl
    simp only [List.foldl_cons, List.foldl_nil, h1, h2, failures, List.map_nil, List.not_mem_nil, or_false]
    rfl

theorem lower_space {c : Char} (h : c.toLower = ' ') : c = ' ' := by
  rw [Char.toLower] at h
  split at h
  · rename_i hh
    exfalso
    have h1 := UInt32.le_iff_toNat_le.1 hh.1
    have h2 := UInt32.le_iff_toNat_le.1 hh.2
    have h3 := congrArg (fun c => c.val.toNat) h
    have e1 : 'A'.val.toNat = 65 := rfl
    have e2 : 'Z'.val.toNat = 90 := rfl
    have e3 : ('a'.val - 'A'.val).toNat = 32 := rfl
    have e4 : ' '.val.toNat = 32 := rfl
    simp only [UInt32.toNat_add, e3, e4] at h3
    omega
  · exact h

/-- C66: the same for internal methods, whose names are without brackets; for those of TypedArrays, the id consists of `typedarray` and the name. -/
theorem c66_id_internal (w : Str) (ps : List Param) (ho : OpName .internal ("[[".toList ++ w ++ "]]".toList)) (hp : ∀ p ∈ ps, IsName p.name) (t parent id : Str)
    (ht : title .internal [] ("[[".toList ++ w ++ "]]".toList) ps = some t) :
    (Part "TypedArray".toList parent → (idOk .internal t parent id = some true ↔ id = "sec-typedarray-".toList ++ w.map Char.toLower)) ∧
    (¬ Part "TypedArray".toList parent → ∀ f : Str → Str, (∀ n, ∃ o, Old w n o ∧ Bare o (f n)) →
      (idOk .internal t parent id = some true ↔ id = "sec-".toList ++ ((parent ++ " ".toList ++ w ++ ps.flatMap (fun p => " ".toList ++ f p.name)).map Char.toLower).map (fun c => if c = ' ' then '-' else c))) := by
  rw [title_eq ho [] ps (by decide)] at ht
  cases ht
  have hw : w ≠ [] ∧ ∀ c ∈ w, c.isAlpha = true := by
    generalize hop : "[[".toList ++ w ++ "]]".toList = op at ho
    cases ho with
    | @internal u v a g1 g2 g3 =>
      have hop : '[' :: '[' :: (w ++ [']', ']']) = '[' :: '[' :: ((u :: v :: a) ++ [']', ']']) := by simpa using hop
      injection hop with _ hop
      injection hop with _ hop
      have hop := List.append_cancel_right hop
      subst hop
      refine ⟨by simp, fun c hc => ?_⟩
      rcases List.mem_cons.1 hc with rfl | hc
      · simp [Char.isAlpha, g1]
      · rcases List.mem_cons.1 hc with rfl | hc
        · exact g2
        · exact g3 c hc
    | other _ h => exact absurd rfl h
  have hch : '(' ∉ w ∧ '_' ∉ w ∧ ' ' ∉ w := by
    refine ⟨fun h => ?_, fun h => ?_, fun h => ?_⟩ <;> (have := hw.2 _ h; revert this; decide)
  have h0 : unbracket ([] ++ ("[[".toList ++ w ++ "]]".toList) ++ (" (".toList ++ brief true ps ++ " )".toList)) = w ++ (" (".toList ++ brief true ps ++ " )".toList) := by
    have := unbracket_ok (w := w) (t := " (".toList ++ brief true ps ++ " )".toList) hw.1 hw.2
    rw [← this]
    simp
  constructor
  · intro hpt
    have hc := (hasSub_iff "TypedArray".toList parent).2 hpt
    have hs : steps .internal ([] ++ ("[[".toList ++ w ++ "]]".toList) ++ (" (".toList ++ brief true ps ++ " )".toList)) parent = some ([unbracket, removeParams, ("TypedArray ".toList ++ ·), lower, hyphens, sec].map Step.one) := by
      simp only [steps, hc, if_true]
      rfl
    rw [idOk_iff hs]
    have h1 : removeParams (w ++ (" (".toList ++ brief true ps ++ " )".toList)) = w := by
      have := removeParams_app w (brief true ps ++ " )".toList) hch.1 (by simp)
      simpa using this
    have h2 : hyphens (lower ("TypedArray ".toList ++ w)) = "typedarray-".toList ++ w.map Char.toLower := by
      have e1 : hyphens (lower ("TypedArray ".toList ++ w)) = hyphens (lower "TypedArray ".toList) ++ hyphens (lower w) := by simp [hyphens, lower]
      have e2 : hyphens (lower "TypedArray ".toList) = "typedarray-".toList := by decide +kernel
      have e3 : hyphens (lower w) = w.map Char.toLower := by
        rw [hyphens, lower, List.map_map]
        refine List.map_congr_left fun c hc => ?_
        have hcl : c.toLower ≠ ' ' := fun h => by
          have := lower_space h
          subst this
          exact hch.2.2 hc
        exact if_neg hcl
      rw [e1, e2, e3]
    simp only [List.foldl_cons, List.foldl_nil, h0, h1, h2, failures, List.map_nil, List.not_mem_nil, or_false]
    rfl
  · intro hnp f hf
    have hc : hasSub "TypedArray".toList parent = false := Bool.eq_false_iff.2 fun h => hnp ((hasSub_iff _ _).1 h)
    have hs : steps .internal ([] ++ ("[[".toList ++ w ++ "]]".toList) ++ (" (".toList ++ brief true ps ++ " )".toList)) parent =
        some ([unbracket, extractNames, trim, fun s => parent ++ ' ' :: s, lower, hyphens, sec].map Step.one) := by
      simp only [steps, hc]
      rfl
    rw [idOk_iff hs]
    have h1 := extract_title w ps hw.1 hp
    have h2 : trim (spaced w ((ps.map (·.name)).map (convert (backTable w)))) = w ++ ps.flatMap (fun p => " ".toList ++ f p.name) := by
      rw [trim, spaced]
      obtain ⟨b', hb⟩ := trim_plain w (((ps.map (·.name)).map (convert (backTable w))).flatMap (fun n => ' ' :: n)) false hch.2.1
      rw [hb, trim_all hp hf]
      rfl
    simp only [List.foldl_cons, List.foldl_nil, h0, h1, h2, failures, List.map_nil, List.not_mem_nil, or_false]
    have : parent ++ ' ' :: (w ++ ps.flatMap (fun p => " ".toList ++ f p.name)) = parent ++ " ".toList ++ w ++ ps.flatMap (fun p => " ".toList ++ f p.name) := by simp
    rw [this]
    rfl

/-- C66: the former names. -/
theorem c66_names : backEnv = [("_name_", "_N_"), ("_strict_", "_S_"), ("_deletable_", "_D_"), ("_value_", "_V_")] ∧
    backOther = [("_argList_", "_argumentsList_"), ("_char_", "_ch_"), ("_obj_", "_O_"), ("_patternOrRegexp_", "_pattern_"), ("_propertyDesc_", "_desc_"),
      ("_propertyKey_", "_P_"), ("_proto_", "_V_"), ("_source_", "_X_"), ("_thisArg_", "_thisArgument_")] := ⟨rfl, rfl⟩

/-! ### Cases -/

theorem isName (s : String) (w : List Char) (h : s.toList = '_' :: w ++ ['_'] ∧ w ≠ [] ∧ ∀ c ∈ w, c.isAlphanum = true ∨ c = '_') : IsName s.toList := ⟨w, h.2.1, h.2.2, h.1⟩

/-- A required parameter after an optional one: its title says that it is optional. -/
theorem c66_optional_first_witness : ∃ t, title .singular [] "Foo".toList [⟨"_a_".toList, true⟩, ⟨"_b_".toList, false⟩] = some t ∧ t = "Foo ( [ _a_, _b_ ] )".toList ∧
    paramsOf " [ _a_, _b_ ] ".toList = some [("_a_".toList, .optional), ("_b_".toList, .optional)] := ⟨_, rfl, by decide +kernel, by decide +kernel⟩

example : title .singular [] "Call".toList [⟨"_F_".toList, false⟩, ⟨"_V_".toList, false⟩, ⟨"_argList_".toList, true⟩] = some "Call ( _F_, _V_ [ , _argList_ ] )".toList := by decide +kernel
example : title .sdo "Static Semantics: ".toList "BoundNames".toList [] = some "Static Semantics: BoundNames".toList := by decide +kernel
example : title .numeric [] "Numberadd".toList [] = none ∧ title .internal [] "Get".toList [] = none := by decide +kernel
example : OpName .numeric "Number::add".toList ∧ OpName .internal "[[Get]]".toList ∧ OpName .hostDefined "HostEnsureCanCompileStrings".toList := by
  simp only [← opOk_iff]; decide +kernel
example : OptionalLast [⟨"_a_".toList, false⟩, ⟨"_b_".toList, true⟩] := by unfold OptionalLast; decide +kernel
example : ∀ p ∈ [(⟨"_a_".toList, false⟩ : Param), ⟨"_b_".toList, true⟩], IsName p.name := by
  intro p hp
  simp only [List.mem_cons, List.not_mem_nil, or_false] at hp
  rcases hp with rfl | rfl
  · exact isName _ ['a'] (by decide +kernel)
  · exact isName _ ['b'] (by decide +kernel)

example : idOk .hostDefined "HostFoo ( _a_ )".toList [] "sec-hostfoo".toList = some true ∧ idOk .hostDefined "HostFoo ( _a_ )".toList [] "sec-host-foo".toList = some false := by decide +kernel
example : idOk .numeric "Number::add ( _x_, _y_ )".toList [] "sec-numeric-types-number-add".toList = some true := by decide +kernel
example : idOk .envRec "SetMutableBinding ( _name_, _value_, _strict_ )".toList "Object Environment Records".toList "sec-object-environment-records-setmutablebinding-n-v-s".toList = some true := by decide +kernel
example : idOk .envRec "BindThisValue ( _value_ )".toList "Function Environment Records".toList "sec-bindthisvalue".toList = some true := by decide +kernel
example : idOk .internal "[[Set]] ( _propertyKey_, _value_, _receiver_ )".toList "Proxy Object".toList "sec-proxy-object-set-p-v-receiver".toList = some true := by decide +kernel
example : idOk .internal "[[Get]] ( _P_, _Receiver_ )".toList "TypedArray Exotic Objects".toList "sec-typedarray-get".toList = some true := by decide +kernel
example : ∃ f : Str → Str, ∀ n, ∃ o, Old "Set".toList n o ∧ Bare o (f n) :=
  ⟨fun n => Classical.choose (bare_exists (Classical.choose (old_exists "Set".toList n))), fun n => ⟨_, Classical.choose_spec (old_exists _ n), Classical.choose_spec (bare_exists _)⟩⟩
example : Old "Set".toList "_value_".toList "_V_".toList ∧ Bare "_V_".toList "V".toList := ⟨.set rfl, .letters (w := ['V']) (by decide)⟩

end Verif.Titles
