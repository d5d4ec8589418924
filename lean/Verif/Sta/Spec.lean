import Verif.Sta.Model
/-! # Specification for the interprocedural type analysis: what is found against given types, and chains of changes -/
namespace Verif.Sta
variable {T E : Type}

/-- The declared type of a name in a header. -/
def declared (h : Head T) (n : Name) : Option T := if n = retName then some h.ret else h.params.lookup n

/-- A header as the specification's author can write it: the parameters have different names, and none is called `*return*`. -/
structure Wf (h : Head T) : Prop where
  nodup : (h.params.map Prod.fst).Nodup
  noRet : retName ∉ h.params.map Prod.fst

/-- What the analysis has to say about a header when the declared types are as `v` says: nothing if there is no definition; what is wrong
in the body; which types are still unknown; and, if the author stated the return type, a warning if the one found does not
fit it.  The types to be found out must be those that are declared, i.e. they have settled. -/
inductive Finds [DecidableEq T] (cfg : Cfg T E) (v : Nat → Option (Summary T)) (a i : Nat) (h : Head T) : List (Msg T E) → Prop
  | noDefn : h.defns = false → Finds cfg v a i h []
  | rules {errs} : h.defns = true → h.early = true → cfg.body v a i (env h) = some (errs, none) → Finds cfg v a i h (errs.map .body)
  | alg {errs fin r} : h.defns = true → h.early = false → cfg.body v a i (env h) = some (errs, some fin) →
      (∀ n ∈ h.tbd, fin.lookup n = declared h n) → fin.lookup retName = some r →
      Finds cfg v a i h (errs.map .body ++ (fin.filter (fun p => p.2 = cfg.tbd)).map (fun p => .still p.1) ++
        (if retName ∈ h.tbd ∨ r = h.ret ∨ cfg.sub r h.ret = true then [] else [.suggest (cfg.sub h.ret r) retName r]))

/-- Is it a message about a change of a declared type? -/
def Entry.isChange (e : Entry T E) : Bool :=
  match e.msg with
  | .change _ _ _ => true
  | _ => false

/-- The changes of the type of one name, as reported, in order. -/
def changesOf (a i : Nat) (n : Name) (log : List (Entry T E)) : List (T × T) :=
  log.filterMap (fun e => match e.msg with
    | .change m old new => if e.alg = a ∧ e.head = i ∧ m = n then some (old, new) else none
    | _ => none)

/-- Reported changes that lead from one type to another, each a real change that starts where the one before ended. -/
inductive Chain : T → List (T × T) → T → Prop
  | nil (t) : Chain t [] t
  | cons {a b c l} : a ≠ b → Chain b l c → Chain a ((a, b) :: l) c

/-- The messages of the findings `rep` about one operation, header by header; nothing for an operation that is built in. -/
def ofAlg (algs : List (Alg T)) (rep : Nat → Nat → List (Msg T E)) (L a : Nat) : List (Entry T E) :=
  match algs[a]? with
  | none => []
  | some x => if x.builtIn then [] else (List.range x.heads.length).flatMap (fun i => (rep a i).map (fun m => ⟨L, a, i, m⟩))

/-- All messages of the findings `rep`, in the order of the levels, clusters, members and headers, with the number of the level. -/
def inOrder (algs : List (Alg T)) (levels : List (List (List Nat))) (rep : Nat → Nat → List (Msg T E)) : List (Entry T E) :=
  levels.zipIdx.flatMap (fun l => l.1.flatMap (fun c => c.flatMap (ofAlg algs rep l.2)))

/-- The analysis of a body does not depend on the declared types of the operations in later clusters. -/
def Ordered (cfg : Cfg T E) (levels : List (List (List Nat))) : Prop :=
  ∀ pre c post, levels.flatten = pre ++ c :: post → ∀ a ∈ c, ∀ v v' : Nat → Option (Summary T), ∀ i e,
    (∀ b, b ∉ post.flatten → v b = v' b) → cfg.body v a i e = cfg.body v' a i e

/-- What callers read of an operation is what its headers declare: with one header its types; with several, at each position the union of
the types of all headers that have a parameter there, and the union of the return types. -/
inductive SaysWhatHeadsSay (cfg : Cfg T E) (x : Alg T) : Prop
  | none : x.heads = [] → SaysWhatHeadsSay cfg x
  | one {h} : x.heads = [h] → seen x = some ⟨h.params, h.ret⟩ → SaysWhatHeadsSay cfg x
  | many {h0 h1 hs s rts} : x.heads = h0 :: h1 :: hs → seen x = some s →
      s.ret = cfg.join rts → rts.Nodup → (∀ t, t ∈ rts ↔ ∃ h ∈ x.heads, h.ret = t) →
      s.params.length = h0.params.length →
      (∀ (i : Nat) p, s.params[i]? = some p → ∃ ts, p.2 = cfg.join ts ∧ ts.Nodup ∧
        ∀ t, t ∈ ts ↔ ∃ h ∈ x.heads, (h.params[i]?).map Prod.snd = some t) →
      SaysWhatHeadsSay cfg x

end Verif.Sta
