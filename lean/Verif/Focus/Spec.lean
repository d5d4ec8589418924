import Verif.Focus.Model
import Verif.Sdo.Spec
/-!
# What a reference to a nonterminal of a production means
-/
namespace Verif.Focus
open Verif.Gram (Sym Item IKind)
open Verif.Sdo (Name Puk Tree NtDef Conf Kids Plain)

/-- What the occurrences of a nonterminal in a right-hand side stand for, in the children of an instance: a node, or nothing if an optional symbol isn't there. -/
inductive Stands (n : Name) : List Item → List Tree → List Ref → Prop
  | nil : Stands n [] [] []
  | terminals {k t its cs rs} (j : Nat) : Stands n its cs rs → Stands n (.plain (.other k t) :: its) (List.replicate j .leaf ++ cs) rs
  | here {ps its r b gs cs rs} : Stands n its cs rs → Stands n (.plain (.gnt n ps) :: its) (.node n r b gs :: cs) (.node (.node n r b gs) :: rs)
  | other {m ps its r b gs cs rs} : m ≠ n → Stands n its cs rs → Stands n (.plain (.gnt m ps) :: its) (.node m r b gs :: cs) rs
  | hereAbsent {ps its r b cs rs} : Stands n its cs rs → Stands n (.qm (.gnt n ps) :: its) (.node (n ++ ['?']) r b [] :: cs) (.absent :: rs)
  | herePresent {ps its r b r' b' gs cs rs} : Stands n its cs rs →
      Stands n (.qm (.gnt n ps) :: its) (.node (n ++ ['?']) r b [.node n r' b' gs] :: cs) (.node (.node n r' b' gs) :: rs)
  | otherAbsent {m ps its r b cs rs} : m ≠ n → Stands n its cs rs → Stands n (.qm (.gnt m ps) :: its) (.node (m ++ ['?']) r b [] :: cs) rs
  | otherPresent {m ps its r b c cs rs} : m ≠ n → Stands n its cs rs → Stands n (.qm (.gnt m ps) :: its) (.node (m ++ ['?']) r b [c] :: cs) rs

/-- What a reference means at a node, if the occurrences of the nonterminal on the right-hand side stand for `rs`. -/
inductive Means (n : Name) (t : Tree) (p : Puk) (rs : List Ref) : Ordinal → Ref → Prop
  | missing {o} : p.lhs ≠ n → rs = [] → Means n t p rs o .absent
  | only {r} : p.lhs ≠ n → rs = [r] → Means n t p rs .no r
  | nth {k r} : p.lhs ≠ n → 2 ≤ rs.length → 1 ≤ k → rs[k - 1]? = some r → Means n t p rs (.num k) r
  | self : p.lhs = n → rs = [] → Means n t p rs .no (.node t)
  | derived {r} : p.lhs = n → rs = [r] → Means n t p rs .derived r
  | left {r} : p.lhs = n → rs = [r] → p ∈ meansLeft → Means n t p rs .no (.node t)
  | right {r} : p.lhs = n → rs = [r] → p ∉ meansLeft → p ∈ meansRight → Means n t p rs .no r

/-- The occurrences of a nonterminal in a right-hand side, each with whether it is optional. -/
inductive Occ (n : Name) : List Item → List Bool → Prop
  | nil : Occ n [] []
  | here {ps its os} : Occ n its os → Occ n (.plain (.gnt n ps) :: its) (false :: os)
  | hereOpt {ps its os} : Occ n its os → Occ n (.qm (.gnt n ps) :: its) (true :: os)
  | skip {it its os} : (∀ ps, it ≠ .plain (.gnt n ps) ∧ it ≠ .qm (.gnt n ps)) → Occ n its os → Occ n (it :: its) os

/-- The analysis has to give up on a reference to `n` because of this production. -/
inductive Unfit (n lhs : Name) (os : List Bool) : Prefix → Prop
  | this : lhs ≠ n → Unfit n lhs os .this
  | derived : lhs ≠ n ∨ os.length ≠ 1 → Unfit n lhs os .derived
  | first : lhs = n ∨ os.length < 1 → Unfit n lhs os .first
  | second : lhs = n ∨ os.length < 2 → Unfit n lhs os .second
  | third : lhs = n ∨ os.length < 3 → Unfit n lhs os .third
  | fourth : lhs = n ∨ os.length < 4 → Unfit n lhs os .fourth

/-- A reference to `n` may find nothing because of this production. -/
inductive MayMiss (n lhs : Name) (os : List Bool) : Prefix → Prop
  | missing : lhs ≠ n → os = [] → MayMiss n lhs os .bare
  | bare : true ∈ os → MayMiss n lhs os .bare
  | derived : true ∈ os → MayMiss n lhs os .derived
  | first : os[0]? = some true → MayMiss n lhs os .first
  | second : os[1]? = some true → MayMiss n lhs os .second
  | third : os[2]? = some true → MayMiss n lhs os .third
  | fourth : os[3]? = some true → MayMiss n lhs os .fourth

/-- How often a nonterminal occurs in a production. -/
def total (n lhs : Name) (os : List Bool) : Nat := os.length + if lhs = n then 1 else 0

/-- The symbol of a node. -/
inductive HasSym (n : Name) : Tree → Prop
  | node {r b cs} : HasSym n (.node n r b cs)

/-- The right-hand side of a heading shows an instance of a right-hand side of the grammar; the bits tell which of the optional symbols are there.  Optional symbols are shown as optional, or as present, or left out if they
are absent; what isn't a nonterminal doesn't matter here. -/
inductive Shows : List Item → List Item → List Char → Prop
  | nil : Shows [] [] []
  | nt {n ps ps' hs its bits} : Shows hs its bits → Shows (.plain (.gnt n ps) :: hs) (.plain (.gnt n ps') :: its) bits
  | more {k t hs its bits} : Shows hs its bits → Shows (.plain (.other k t) :: hs) its bits
  | less {k t hs its bits} : Shows hs its bits → Shows hs (.plain (.other k t) :: its) bits
  | opt {n ps ps' hs its b bits} : Shows hs its bits → Shows (.qm (.gnt n ps) :: hs) (.qm (.gnt n ps') :: its) (b :: bits)
  | present {n ps ps' hs its bits} : Shows hs its bits → Shows (.plain (.gnt n ps) :: hs) (.qm (.gnt n ps') :: its) ('1' :: bits)
  | hidden {n ps hs its bits} : Shows hs its bits → Shows hs (.qm (.gnt n ps) :: its) ('0' :: bits)

end Verif.Focus
