import Verif.Gram.RhsModel
/-! # Right-hand sides and their instances -/
namespace Verif.Gram

/-- The same symbol: nonterminals of the same name, or other things of the same kind and text. -/
def SameSym : Sym → Sym → Prop
  | .gnt a _, .gnt b _ => a = b
  | .other k a, .other l b => k = l ∧ a = b
  | _, _ => False

/-- Annotations: what a use need not repeat. -/
def Annotation : Sym → Prop
  | .gnt _ _ => False
  | .other k _ => k = .PARAMS ∨ k = .LABEL ∨ k = .BUT_ONLY ∨ k = .BUT_NOT ∨ k = .LAC_SINGLE ∨ k = .LAC_SET ∨ k = .NLTH

/-- `Use us ds os`: `us` is a legal use of the right-hand side `ds`, in which the optional symbols of `ds`, in order, are
treated as `os` says. -/
inductive Use : List Item → List Item → List Optionality → Prop
  | done : Use [] [] []
  | keep {u d us ds os} : SameSym u d → Use us ds os → Use (.plain u :: us) (.plain d :: ds) os
  | drop {d us ds os} : Annotation d → Use us ds os → Use us (.plain d :: ds) os
  | omitted {d us ds os} : Use us ds os → Use us (.qm d :: ds) (.omitted :: os)
  | required {u d us ds os} : SameSym u d → Use us ds os → Use (.plain u :: us) (.qm d :: ds) (.required :: os)
  | either {u d us ds os} : SameSym u d → Use us ds os → Use (.qm u :: us) (.qm d :: ds) (.either :: os)

/-- The optional symbols of a right-hand side. -/
def optionals : List Item → List Sym
  | [] => []
  | .plain _ :: is => optionals is
  | .qm s :: is => s :: optionals is

/-- `Resolves is bits xs`: taking (`1`) or leaving (`0`) the optional symbols of `is` as `bits` says gives `xs`; annotations do not
count. -/
inductive Resolves : List Item → List Char → List Sym → Prop
  | done : Resolves [] [] []
  | symbol {s is bits xs} : ¬ Annotation s → Resolves is bits xs → Resolves (.plain s :: is) bits (s :: xs)
  | annotation {s is bits xs} : Annotation s → Resolves is bits xs → Resolves (.plain s :: is) bits xs
  | taken {s is bits xs} : Resolves is bits xs → Resolves (.qm s :: is) ('1' :: bits) (s :: xs)
  | left {s is bits xs} : Resolves is bits xs → Resolves (.qm s :: is) ('0' :: bits) xs

/-- Lists of the same symbols. -/
inductive SameSyms : List Sym → List Sym → Prop
  | nil : SameSyms [] []
  | cons {x y xs ys} : SameSym x y → SameSyms xs ys → SameSyms (x :: xs) (y :: ys)

/-- A bit agrees with a treatment. -/
def BitOk (o : Optionality) (b : Char) : Prop :=
  match o with
  | .omitted => b = '0'
  | .required => b = '1'
  | .either => b = '0' ∨ b = '1'

/-- A string of bits agrees with a list of treatments. -/
inductive BitsOk : List Optionality → List Char → Prop
  | nil : BitsOk [] []
  | cons {o b os bs} : BitOk o b → BitsOk os bs → BitsOk (o :: os) (b :: bs)

/-- What an item looks like, with or without `?`. -/
def Item.sym : Item → Sym
  | .plain s => s
  | .qm s => s

/-- `Pairing us ds pairs dropped`: how the items of a use go with those of a definition: the symbols that are paired, use first, and
the annotations of the definition that the use leaves out. -/
inductive Pairing : List Item → List Item → List (Sym × Sym) → List Sym → Prop
  | done : Pairing [] [] [] []
  | pair {u d us ds ps ls} : SameSym u.sym d.sym → Pairing us ds ps ls → Pairing (u :: us) (d :: ds) ((u.sym, d.sym) :: ps) ls
  | drop {s us ds ps ls} : Annotation s → Pairing us ds ps ls → Pairing us (.plain s :: ds) ps (s :: ls)
  | omitted {s us ds ps ls} : Pairing us ds ps ls → Pairing us (.qm s :: ds) ps ls

/-- The use gives parameters, but not those of the definition. -/
def wrongParams : Sym × Sym → Bool
  | (.gnt _ up, .gnt _ dp) => up ≠ [] && up ≠ dp
  | _ => false

/-- The nonterminal, if the use and the definition both have parameters. -/
def keptParams : Sym × Sym → Option (List Char)
  | (.gnt a up, .gnt _ dp) => if up ≠ [] ∧ dp ≠ [] then some a else none
  | _ => none

/-- The nonterminal, if only the definition has parameters. -/
def droppedParams : Sym × Sym → Option (List Char)
  | (.gnt a up, .gnt _ dp) => if up = [] ∧ dp ≠ [] then some a else none
  | _ => none

/-- The text, if it is a lookahead restriction or `[no LineTerminator here]`. -/
def keptAnnotation : Sym × Sym → Option (List Char)
  | (.other k t, _) => if k = .LAC_SINGLE ∨ k = .LAC_SET ∨ k = .NLTH then some t else none
  | _ => none

/-- The text of an annotation. -/
def annotationText : Sym → Option (List Char)
  | .other _ t => some t
  | .gnt _ _ => none

/-- No two items of a right-hand side are for the same symbol. -/
def Distinct (ds : List Item) : Prop := ds.Pairwise (fun a b => ¬ SameSym a.sym b.sym)

end Verif.Gram
