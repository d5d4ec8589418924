import Verif.Common
/-!
# Model of the static types (`static_types.py`)

Types, the named-type hierarchy, the subtype test, unions and splitting.  An exception or a
failed assertion is `none`.  The memo tables (static_types.py:22-23) are left out: they cache a
function of their key.
-/
namespace Verif.Types

/-- The classes of types (static_types.py:384-625).  The `frozenset` in a `UnionType` is a list. -/
inductive Ty where
  | tbd
  | hier (n : String)
  | list (t : Ty)
  | record (schema : String) (fields : List (String × Ty))
  | proc (params : List Ty) (ret : Ty)
  | union (ms : List Ty)

mutual
def Ty.decEq : (a b : Ty) → Decidable (a = b)
  | .tbd, b => match b with
    | .tbd => isTrue rfl
    | .hier _ | .list _ | .record _ _ | .proc _ _ | .union _ => isFalse (by simp)
  | .hier n, b => match b with
    | .hier m => if h : n = m then isTrue (by rw [h]) else isFalse (by simpa using h)
    | .tbd | .list _ | .record _ _ | .proc _ _ | .union _ => isFalse (by simp)
  | .list t, b => match b with
    | .list u => match Ty.decEq t u with
      | isTrue h => isTrue (by rw [h])
      | isFalse h => isFalse (by simpa using h)
    | .tbd | .hier _ | .record _ _ | .proc _ _ | .union _ => isFalse (by simp)
  | .record s fs, b => match b with
    | .record s' fs' => if hs : s = s' then match Ty.decEqF fs fs' with
        | isTrue h => isTrue (by rw [hs, h])
        | isFalse h => isFalse (by simp [h])
      else isFalse (by simp [hs])
    | .tbd | .hier _ | .list _ | .proc _ _ | .union _ => isFalse (by simp)
  | .proc ps r, b => match b with
    | .proc ps' r' => match Ty.decEqL ps ps', Ty.decEq r r' with
      | isTrue h, isTrue h' => isTrue (by rw [h, h'])
      | isFalse h, _ => isFalse (by simp [h])
      | _, isFalse h => isFalse (by simp [h])
    | .tbd | .hier _ | .list _ | .record _ _ | .union _ => isFalse (by simp)
  | .union ms, b => match b with
    | .union ms' => match Ty.decEqL ms ms' with
      | isTrue h => isTrue (by rw [h])
      | isFalse h => isFalse (by simpa using h)
    | .tbd | .hier _ | .list _ | .record _ _ | .proc _ _ => isFalse (by simp)
def Ty.decEqL : (a b : List Ty) → Decidable (a = b)
  | [], [] => isTrue rfl
  | [], _ :: _ => isFalse (by simp)
  | _ :: _, [] => isFalse (by simp)
  | x :: xs, y :: ys => match Ty.decEq x y, Ty.decEqL xs ys with
    | isTrue h, isTrue h' => isTrue (by rw [h, h'])
    | isFalse h, _ => isFalse (by simp [h])
    | _, isFalse h => isFalse (by simp [h])
def Ty.decEqF : (a b : List (String × Ty)) → Decidable (a = b)
  | [], [] => isTrue rfl
  | [], _ :: _ => isFalse (by simp)
  | _ :: _, [] => isFalse (by simp)
  | (n, x) :: xs, (m, y) :: ys => if hn : n = m then match Ty.decEq x y, Ty.decEqF xs ys with
      | isTrue h, isTrue h' => isTrue (by rw [hn, h, h'])
      | isFalse h, _ => isFalse (by simp [h])
      | _, isFalse h => isFalse (by simp [h])
    else isFalse (by simp [hn])
end
instance : DecidableEq Ty := Ty.decEq

/-- `T_0` (static_types.py:1188). -/
def T0 : Ty := .union []
def Top : String := "Top_"
def ListN : String := "List"
def RecordN : String := "Record"
def ProcN : String := "proc_"
def CRN : String := "Completion Record"
/-- `T_Completion_Record` (static_types.py:1195). -/
def TCR : Ty := .record CRN []

/-- `set_of_types` (static_types.py:28-29). -/
def members : Ty → List Ty
  | .union ms => ms
  | t => [t]

def isUnion : Ty → Bool
  | .union _ => true
  | _ => false

/-! ### The hierarchy -/

/-- `TNode` (static_types.py:1021-1038), as a tree; `parent` and `level` are recovered from the path from
the root. -/
inductive Tree where
  | node (name : String) (children : List Tree)

def Tree.name : Tree → String | .node n _ => n
def Tree.children : Tree → List Tree | .node _ cs => cs

mutual
/-- The names in a tree. -/
def names : Tree → List String
  | .node n cs => n :: namesL cs
def namesL : List Tree → List String
  | [] => []
  | t :: ts => names t ++ namesL ts
end

mutual
/-- `_tnode_for_type_[n]`: here, the names from the root down to `n`. -/
def path? : Tree → String → Option (List String)
  | .node m cs, n => if m = n then some [m] else (pathL? cs n).map (m :: ·)
def pathL? : List Tree → String → Option (List String)
  | [], _ => none
  | t :: ts, n => match path? t n with
    | some p => some p
    | none => pathL? ts n
end

mutual
/-- `_tnode_for_type_[n].children`. -/
def children? : Tree → String → Option (List String)
  | .node m cs, n => if m = n then some (cs.map Tree.name) else childrenL? cs n
def childrenL? : List Tree → String → Option (List String)
  | [], _ => none
  | t :: ts, n => match children? t n with
    | some p => some p
    | none => childrenL? ts n
end

mutual
/-- `TNode(type, parent)` (static_types.py:1021-1038) on a tree: add a child at the end of the
children of `parent`. -/
def addUnder (parent name : String) : Tree → Tree
  | .node n cs => .node n (addUnderL parent name cs ++ if n = parent then [.node name []] else [])
def addUnderL (parent name : String) : List Tree → List Tree
  | [] => []
  | t :: ts => addUnder parent name t :: addUnderL parent name ts
end

/-- The assertion that the type is new, and the lookup of the parent (static_types.py:1036, 1093, 1138). -/
def addNode (t : Tree) (parent name : String) : Option Tree :=
  if name ∈ names t then none
  else if parent ∈ names t then some (addUnder parent name t)
  else none

/-- What the subtype test consults: the tree of named types, the schema of each schema name
(`spec.RecordSchema_for_name_`), and the schemas `self_and_supers` lists for a schema. -/
structure Cfg where
  tree : Tree
  schema : String → Option String
  supers : String → List String

/-- The case of two `HierType`s (static_types.py:238-264): climb from `a` to the level of `b`. -/
def hierSub (t : Tree) (a b : String) : Option Bool :=
  if a = b then some true
  else match path? t a, path? t b with
    | some pa, some pb =>
      if pa.length ≤ pb.length then some false
      else some (pa[pb.length - 1]? == some b)
    | _, _ => none

/-- `is_a_subtype_of_or_equal_to` between two `HierType`s (static_types.py:55-101 with both of them
hierarchy types). -/
def namedSub (t : Tree) (a b : String) : Option Bool :=
  if b = Top then some true else hierSub t a b

/-- Python's `any` over a generator. -/
def anyOpt {α} (f : α → Option Bool) : List α → Option Bool
  | [] => some false
  | x :: xs => match f x with
    | some false => anyOpt f xs
    | r => r

/-- Python's `all` over a generator, or a loop with `return False`. -/
def allOpt {α} (f : α → Option Bool) : List α → Option Bool
  | [] => some true
  | x :: xs => match f x with
    | some true => allOpt f xs
    | r => r

/-- The part of `is_a_subtype_of_or_equal_to` before the general case (static_types.py:59-79). -/
def subWith (A B : Ty) (general : List Ty → Option Bool) : Option Bool :=
  if B = .hier Top then some true
  else if .tbd ∈ members A ∨ .tbd ∈ members B then some false
  else if members A ⊆ members B then some true
  else general (members B)

/-- The beginning of `member_is_a_subtype_or_equal` (static_types.py:234-238). -/
def memberWith (A B : Ty) (f : Ty → Option Bool) : Option Bool :=
  match B with
  | .tbd => none
  | .union _ => none
  | B => if A = B then some true else f B

/-- The case of two `RecordType`s (static_types.py:281-345).  `fa` are the fields of the first, with
the test of the field's type against another.  The names of the fields of one type are taken to
be distinct (`dict(fields_info)` would keep the last of several). -/
def recordSub (cfg : Cfg) (sa : String) (fa : List (String × (Ty → Option Bool))) (sb : String)
    (fb : List (String × Ty)) : Option Bool :=
  if sa = "" ∧ sb = "" then
    if (fa.map (·.1)) ⊆ (fb.map (·.1)) ∧ (fb.map (·.1)) ⊆ (fa.map (·.1)) then
      allOpt (fun (p : String × (Ty → Option Bool)) => match fb.lookup p.1 with
        | none => none
        | some bt => p.2 bt) fa
    else none
  else if sa = "" ∨ sb = "" then some false
  else match cfg.schema sa, cfg.schema sb with
    | some ia, some ib =>
      if ib ∈ cfg.supers ia then
        allOpt (fun (p : String × Ty) => match fa.lookup p.1 with
          | none => some false
          | some rel => rel p.2) fb
      else some false
    | _, _ => none

mutual
/-- Both tests as functions of the second argument: first `member_is_a_subtype_or_equal`
(static_types.py:234-380), second `is_a_subtype_of_or_equal_to` (static_types.py:55-101).
In the case of two `ProcType`s, the generator expression for the parameters
(static_types.py:364-367) is never run, being true as an object. -/
def rel (cfg : Cfg) : Ty → (Ty → Option Bool) × (Ty → Option Bool)
  | .tbd => (fun _ => none, fun B => subWith .tbd B (anyOpt fun _ => none))
  | .hier n =>
    let m := fun B => memberWith (.hier n) B (fun B => match B with
      | .hier b => hierSub cfg.tree n b
      | _ => some false)
    (m, fun B => subWith (.hier n) B (anyOpt m))
  | .list t =>
    let m := fun B => memberWith (.list t) B (fun B => match B with
      | .list u => (rel cfg t).2 u
      | .hier b => namedSub cfg.tree ListN b
      | .record _ _ => some false
      | _ => none)
    (m, fun B => subWith (.list t) B (anyOpt m))
  | .record s fs =>
    let m := fun B => memberWith (.record s fs) B (fun B => match B with
      | .record s' fs' => recordSub cfg s (relF cfg fs) s' fs'
      | .hier b => namedSub cfg.tree RecordN b
      | .list _ => some false
      | .proc _ _ => some false
      | _ => none)
    (m, fun B => subWith (.record s fs) B (anyOpt m))
  | .proc ps r =>
    let m := fun B => memberWith (.proc ps r) B (fun B => match B with
      | .proc ps' r' => if ps.length = ps'.length then (rel cfg r).2 r' else none
      | .hier b => namedSub cfg.tree ProcN b
      | .list _ => some false
      | .record _ _ => some false
      | _ => none)
    (m, fun B => subWith (.proc ps r) B (anyOpt m))
  | .union ms => (fun _ => none, fun B => subWith (.union ms) B (relAll cfg ms))
def relF (cfg : Cfg) : List (String × Ty) → List (String × (Ty → Option Bool))
  | [] => []
  | (n, t) :: r => (n, (rel cfg t).2) :: relF cfg r
/-- The general case (static_types.py:80-90) for the members of a union. -/
def relAll (cfg : Cfg) : List Ty → List Ty → Option Bool
  | [], _ => some true
  | m :: ms, bs => match anyOpt (rel cfg m).1 bs with
    | some true => relAll cfg ms bs
    | r => r
end

/-- `A.is_a_subtype_of_or_equal_to(B)` (static_types.py:55-101). -/
def sub (cfg : Cfg) (A B : Ty) : Option Bool := (rel cfg A).2 B

/-! ### Unions -/

mutual
/-- `rm_all_descendants_of` (static_types.py:861-864), for the children of a node. -/
def rmDesc : Tree → List String → List String
  | .node _ cs, s => rmDescL cs s
def rmDescL : List Tree → List String → List String
  | [], s => s
  | t :: ts, s => rmDescL ts (rmDesc t (s.filter (· ≠ t.name)))
end

mutual
/-- `recurse` in `_union_of_hier_memtypes` (static_types.py:834-859). -/
def hrec : Tree → List String → List String
  | .node n cs, s =>
    if cs.isEmpty then s
    else if n ∈ s then rmDescL cs s
    else
      let s' := hrecL cs s
      if cs.all (fun c => decide (c.name ∈ s')) then
        (s'.filter (fun x => decide (x ∉ cs.map Tree.name))) ++ [n]
      else s'
def hrecL : List Tree → List String → List String
  | [], s => s
  | t :: ts, s => hrecL ts (hrec t s)
end

/-- `_union_of_hier_memtypes` (static_types.py:824-869). -/
def unionHier (t : Tree) (ns : List String) : List String :=
  if ns.length ≤ 1 then ns else hrec t ns

def isListy : Ty → Bool
  | .list _ => true
  | .hier n => n = ListN
  | _ => false

def elemOf? : Ty → Option Ty
  | .list t => some t
  | _ => none

/-- `_union_of_list_memtypes` (static_types.py:702-725).  `rec` is `union_of_types`. -/
def unionList (rec : List Ty → Option Ty) (ms : List Ty) : Option (List Ty) :=
  if ms.length ≤ 1 then some ms
  else
    let ms' := ms.erase (.hier ListN)
    if ms'.length = 1 then some ms'
    else match ms'.mapM elemOf? with
      | none => none
      | some ts => match rec ts with
        | none => none
        | some t => some [.list t]

abbrev Fields := List (String × Ty)

/-- A completion record type, by the members of its `[[Type]]` (static_types.py:753-771). -/
def crSplit (fs : Fields) : Option (List (String × Fields)) :=
  match fs with
  | (tn, .hier h) :: rest => if tn = "[[Type]]" then some [(h, (tn, .hier h) :: rest)] else none
  | (tn, .union us) :: rest =>
    if tn = "[[Type]]" then us.mapM (fun u => match u with
      | .hier h => some (h, ("[[Type]]", .hier h) :: rest)
      | _ => none)
    else none
  | _ => none

/-- The first loop over completion record types (static_types.py:746-771); the inner `none` is the
`break` for a type without fields. -/
def crLoop : List Fields → Option (Option (List (String × Fields)))
  | [] => some (some [])
  | [] :: _ => some none
  | fs :: more => match crSplit fs with
    | none => none
    | some xs => match crLoop more with
      | none => none
      | some none => some none
      | some (some ys) => some (some (xs ++ ys))

/-- The loop over completion record types with the same `[[Type]]` (static_types.py:785-795); `inl` is the
`break` for a type with only that field. -/
def valueLoop : List Fields → Option (Sum Fields (List Ty))
  | [] => some (.inr [])
  | fs :: more => match fs with
    | [] => none
    | [f] => some (.inl [f])
    | _ :: (vn, vt) :: _ =>
      if vn = "[[Value]]" then match valueLoop more with
        | none => none
        | some (.inl x) => some (.inl x)
        | some (.inr vs) => some (.inr (vt :: vs))
      else none

/-- One group of completion record types (static_types.py:777-807). -/
def crGroup (rec : List Ty → Option Ty) (h : String) (group : List Fields) : Option Ty :=
  match group with
  | [fs] => some (.record CRN fs)
  | _ => match valueLoop group with
    | none => none
    | some (.inl fs) => some (.record CRN fs)
    | some (.inr vs) => match rec vs with
      | none => none
      | some t => some (.record CRN [("[[Type]]", .hier h), ("[[Value]]", t)])

/-- First occurrences, in order: the keys of a dict filled in that order. -/
def keysInOrder : List String → List String
  | [] => []
  | k :: ks => k :: (keysInOrder ks).filter (· ≠ k)

/-- Completion record types (static_types.py:744-807). -/
def unionCR (rec : List Ty → Option Ty) (group : List Fields) : Option (List Ty) :=
  match crLoop group with
  | none => none
  | some none => some [TCR]
  | some (some xs) =>
    (keysInOrder (xs.map (·.1))).mapM (fun h => crGroup rec h ((xs.filter (fun x => x.1 = h)).map (·.2)))

/-- One group of record types with the same schema name (static_types.py:737-809). -/
def recordGroup (rec : List Ty → Option Ty) (s : String) (group : List Fields) : Option (List Ty) :=
  match group with
  | [fs] => some [.record s fs]
  | _ =>
    if s = "" then some (group.map (.record s ·))
    else if s = CRN then unionCR rec group
    else none

/-- `_union_of_record_memtypes` (static_types.py:729-811). -/
def unionRecord (rec : List Ty → Option Ty) (rs : List (String × Fields)) : Option (List Ty) :=
  if rs.length ≤ 1 then some (rs.map (fun r => .record r.1 r.2))
  else
    ((keysInOrder (rs.map (·.1))).mapM (fun s =>
      recordGroup rec s ((rs.filter (fun r => r.1 = s)).map (·.2)))).map List.flatten

/-- `_union_of_proc_memtypes` (static_types.py:815-820). -/
def unionProc (ps : List Ty) : Option (List Ty) := if ps.length ≤ 1 then some ps else none

def recordOf? : Ty → Option (String × Fields)
  | .record s fs => some (s, fs)
  | _ => none
def hierOf? : Ty → Option String
  | .hier n => if n = ListN then none else some n
  | _ => none
def isProc : Ty → Bool
  | .proc _ _ => true
  | _ => false

/-- The end of `union_of_types` (static_types.py:688-698). -/
def mkUnion (ord : List Ty → List Ty) (ms : List Ty) : Option Ty :=
  match ms with
  | [] => none
  | [t] => some t
  | ms => some (.union (ord ms))

/-- The general case of `union_of_types` (static_types.py:649-698).  `ord` lists the members of a set,
given any list of them. -/
def unionGeneral (cfg : Cfg) (ord : List Ty → List Ty) (rec : List Ty → Option Ty) (ts : List Ty) : Option Ty :=
  let all := ts.flatMap members
  if all.any isUnion then none
  else
    let ms := (ord all).filter (· ≠ .tbd)
    if ms = [] then none
    else match unionList rec (ms.filter isListy), unionRecord rec (ms.filterMap recordOf?),
        unionProc (ms.filter isProc) with
      | some l, some r, some p =>
        mkUnion ord (l ++ r ++ p ++ (unionHier cfg.tree (ms.filterMap hierOf?)).map .hier)
      | _, _, _ => none

/-- `union_of_types` (static_types.py:632-698), given itself for the recursive calls. -/
def unionStep (cfg : Cfg) (ord : List Ty → List Ty) (rec : List Ty → Option Ty) (ts : List Ty) : Option Ty :=
  match ts with
  | [] => some T0
  | ts => match ord ts with
    | [t] => some t
    | ts1 => match ts1.filter (· ≠ T0) with
      | [t] => some t
      | ts2 => match ts2.filter (· ≠ .tbd) with
        | [t] => some t
        | ts3 => unionGeneral cfg ord rec ts3

/-- Recursion with fuel. -/
def unionF (cfg : Cfg) (ord : List Ty → List Ty) : Nat → List Ty → Option Ty
  | 0, _ => none
  | n + 1, ts => unionStep cfg ord (unionF cfg ord n) ts

mutual
/-- How deeply types are nested. -/
def depth : Ty → Nat
  | .tbd => 0
  | .hier _ => 0
  | .list t => depth t + 1
  | .record _ fs => depthF fs + 1
  | .proc _ _ => 0
  | .union ms => depthL ms
def depthL : List Ty → Nat
  | [] => 0
  | t :: ts => max (depth t) (depthL ts)
def depthF : List (String × Ty) → Nat
  | [] => 0
  | (_, t) :: ts => max (depth t) (depthF ts)
end

/-- `union_of_types` (static_types.py:632-698). -/
def unionOf (cfg : Cfg) (ord : List Ty → List Ty) (ts : List Ty) : Option Ty :=
  unionF cfg ord (depthL ts + 1) ts

/-- `A | B` (static_types.py:30-34). -/
def orTy (cfg : Cfg) (ord : List Ty → List Ty) (A B : Ty) : Option Ty :=
  if A = B then some A else unionOf cfg ord [A, B]

/-! ### Splitting -/

def StringT : Ty := .hier "String"
def UndefinedT : Ty := .hier "Undefined"
def NormalN : String := "Normal"
def OtherN : String := "other_"
def completionType (h : String) : Ty := .record CRN [("[[Type]]", .hier h)]
/-- `ts_in_CR` (static_types.py:196-202). -/
def tsInCR : List Ty := ["tilde_normal_", "tilde_break_", "tilde_continue_", "tilde_return_", "tilde_throw_"].map completionType

def filterOpt {α} (f : α → Option Bool) : List α → Option (List α)
  | [] => some []
  | x :: xs => match f x, filterOpt f xs with
    | some true, some r => some (x :: r)
    | some false, some r => some r
    | _, _ => none

/-- Breaking down one `a` that has some `bs` within it (static_types.py:175-214).  `rec` is `recurse`. -/
def breakDown (cfg : Cfg) (ord : List Ty → List Ty) (rec : List Ty → List Ty → Option (List Ty × List Ty))
    (a : Ty) (bs : List Ty) : Option (List Ty × List Ty) :=
  match a with
  | .hier n =>
    if n = ListN then match bs with
      | [.list u] => some ([.list u], [.list (.hier OtherN)])
      | _ => none
    else match children? cfg.tree n with
      | none => none
      | some cs => rec (cs.map .hier) bs
  | .list t => match orTy cfg ord StringT UndefinedT with
    | none => none
    | some su => if t = su ∧ bs = [.list StringT] then some ([.list StringT], [.list su]) else none
  | .record s fs =>
    if Ty.record s fs = TCR ∧ bs ⊆ tsInCR then
      some (tsInCR.filter (fun t => decide (t ∈ bs)), tsInCR.filter (fun t => decide (t ∉ bs)))
    else none
  | _ => none

/-- One `a` of `recurse` (static_types.py:153-218). -/
def splitOne (cfg : Cfg) (ord : List Ty → List Ty) (B : Ty)
    (rec : List Ty → List Ty → Option (List Ty × List Ty)) (bs : List Ty) (a : Ty) : Option (List Ty × List Ty) :=
  let a := if a = .tbd then .hier Top else a
  if a = .hier NormalN ∧ B = TCR then some ([], [a])
  else match sub cfg a B with
    | none => none
    | some true => some ([a], [])
    | some false => match filterOpt (fun b => sub cfg b a) bs with
      | none => none
      | some [] => some ([], [a])
      | some within => breakDown cfg ord rec a within

/-- `recurse` (static_types.py:151-218): what goes inside and outside.  Fuel bounds the depth. -/
def splitRec (cfg : Cfg) (ord : List Ty → List Ty) (B : Ty) : Nat → List Ty → List Ty → Option (List Ty × List Ty)
  | 0, _, _ => none
  | n + 1, as, bs =>
    (as.mapM (splitOne cfg ord B (splitRec cfg ord B n) bs)).map
      (fun rs => (rs.flatMap (·.1), rs.flatMap (·.2)))

/-- `A.split_by(B)` (static_types.py:105-231): the part inside `B` and the part outside. -/
def splitBy (cfg : Cfg) (ord : List Ty → List Ty) (A B : Ty) : Option (Ty × Ty) :=
  if members A ⊆ members B ∧ members B ⊆ members A then some (A, T0)
  else match splitRec cfg ord B ((names cfg.tree).length + 1) (members A) (members B) with
    | none => none
    | some (i, o) => match unionOf cfg ord i, unionOf cfg ord o with
      | some i, some o => some (i, o)
      | _, _ => none

end Verif.Types
