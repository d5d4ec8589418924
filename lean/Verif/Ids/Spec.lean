import Verif.Ids.Model
/-!
# What the checks of ids have to find
-/
namespace Verif.Ids
open Verif.HTML (Str Attrs Node)
open Verif.Validate (nStart nStop nName nAttrs nInner nKids slice)

variable (cfg : Cfg)

/-- `n` is the document or below it. -/
inductive In (doc : Node) : Node → Prop
  | root : In doc doc
  | kid {n c} : In doc n → c ∈ nKids n → In doc c

/-- The ids that a node declares, in order: its own and, in an algorithm, those of its steps. -/
def idsAt (n : Node) : List Str :=
  (match attr n aId with | some (some x) => [x] | _ => []) ++ (if nName n = sAlg then cfg.stepIds n else [])

/-- All declarations of ids, in the order of the nodes. -/
def decls (ns : List Node) : List (Str × Node) := ns.flatMap (fun n => (idsAt cfg n).map (fun x => (x, n)))

/-- All old ids. -/
def oldsAt (n : Node) : List Str := match attr n aOldids with | some (some s) => splitComma s | _ => []

/-- `n` is a reference to the id `x`. -/
def Refers (n : Node) (x : Str) : Prop := nName n = sXref ∧ attr n aHref = some (some ('#' :: x))

/-- The last declaration of an id. -/
def LastDecl (D : List (Str × Node)) (x : Str) (n : Node) : Prop :=
  ∃ pre post, D = pre ++ (x, n) :: post ∧ ∀ p ∈ post, p.1 ≠ x

/-- The text of the reference is the defined term or one of the variants, or there is none. -/
def Needless (ref d : Node) : Prop :=
  ∃ dt rt, inner cfg d = some dt ∧ inner cfg ref = some rt ∧
    (rt = [] ∨ rt = dt ∨ ∃ v, attr d aVariants = some (some v) ∧ rt ∈ splitComma v)

/-- What there is to report, with the node it is reported at. -/
inductive Fault (doc : Node) (D : List (Str × Node)) : Node × Say → Prop
  | duplicate {pre post x n} : D = pre ++ (x, n) :: post → x ∈ pre.map (·.1) → Fault doc D (n, .duplicate x)
  | wantPrefix {n x p} : In doc n → attr n aId = some (some x) →
      ((nName n = sIntro ∨ nName n = sClause ∨ nName n = sAnnex) ∧ p = pSec ∨ nName n = sEqn ∧ p = pEqn ∨
        nName n = sFigure ∧ p = pFigure ∨ nName n = sTable ∧ p = pTable) →
      (¬ ∃ y, x = p ++ y) → Fault doc D (n, .wantPrefix p)
  | oddPrefix {n x p y} : In doc n → attr n aId = some (some x) →
      nName n ∉ [sIntro, sClause, sAnnex, sEqn, sFigure, sTable] →
      p ∈ [pSec, pEqn, pFigure, pTable] → x = p ++ y → Fault doc D (n, .oddPrefix)
  | wantId {n x a p} : In doc n → attr n aId = some (some x) → attr n aAoid = some (some a) →
      (nName n = sClause ∧ p = pSec ∨ nName n = sEqn ∧ p = pEqn) → x ∉ cfg.possibles p a → Fault doc D (n, .wantId a)
  | missing {n x} : In doc n → Refers n x → x ∉ D.map (·.1) → x ∉ imported → Fault doc D (n, .missing x)
  | needless {n x d} : In doc n → Refers n x → LastDecl D x d → nName d = sDfn → Needless cfg n d → Fault doc D (n, .needless x)
  | oddTarget {n x d} : In doc n → Refers n x → LastDecl D x d →
      nName d ∉ [sClause, sAnnex, sTable, sAlg, sNote, sDfn] → Fault doc D (d, .oddTarget)
  | unreferenced {x d} : LastDecl D x d → (¬ ∃ n, In doc n ∧ Refers n x) → x ∉ cssIds →
      nName d ∉ [sIntro, sClause, sAnnex, sFigure, sTable, sDfn, sEqn] → Fault doc D (d, .unreferenced x)

/-- Where the program stops. -/
inductive Fatal (doc : Node) (D : List (Str × Node)) : Prop
  | noValue {n a} : In doc n → a ∈ [aId, aOldids] → attr n a = some none → Fatal doc D
  | aoid {n x v} : In doc n → attr n aId = some (some x) → attr n aAoid = some v →
      (v = none ∨ nName n ≠ sClause ∧ nName n ≠ sEqn) → Fatal doc D
  | step {n x} : In doc n → nName n = sAlg → x ∈ cfg.stepIds n → (¬ ∃ y, x = pStep ++ y) → Fatal doc D
  | oldTwice : ¬ ((preorder doc).flatMap oldsAt).Nodup → Fatal doc D
  | oldAndNew {n x} : In doc n → x ∈ oldsAt n → x ∈ D.map (·.1) → Fatal doc D
  | href {n} : In doc n → nName n = sXref → (¬ ∃ x, attr n aHref = some (some ('#' :: x))) → Fatal doc D
  | dfn {n x d} : In doc n → Refers n x → LastDecl D x d → nName d = sDfn →
      (inner cfg d = none ∨ inner cfg n = none ∨ inner cfg d = some [] ∨
        attr d aVariants = some none ∧ inner cfg n ≠ some []) → Fatal doc D

/-- Parts joined by commas. -/
def joinComma : List Str → Str
  | [] => []
  | [p] => p
  | p :: q :: r => p ++ ',' :: joinComma (q :: r)

/-- The terms that a `dfn` defines: its content and its variants, if there are any. -/
inductive Defines (d : Node) : Str → Prop
  | content {t} : inner cfg d = some t → Defines d t
  | variant {v x} : attr d aVariants = some (some v) → v ≠ [] → x ∈ splitComma v → Defines d x

/-- The same, as a list with the content first. -/
def definesList (d : Node) : List Str :=
  (inner cfg d).toList ++ (match attr d aVariants with | some (some v) => if v = [] then [] else splitComma v | _ => [])

end Verif.Ids
