/-!
# Model of the types of tuples that carry the name of their type (mynamedtuple.py:9-66)

`mynamedtuple` writes the text of a class and executes it; the model gives the class that results.
-/
namespace Verif.Tuples

abbrev Str := List Char

/-- What Python does with the values that are put into the tuples: the string with a given text, `==`, `<` (`none` if it raises an exception), `str` and `repr`.
It is a parameter of the model. -/
structure Py (V : Type) where
  str : Str → V
  eq : V → V → Bool
  lt : V → V → Option Bool
  text : V → Str
  repr : V → Str

/-- `xfield_names.split()` (mynamedtuple.py:31); the first argument says which characters are white space, the second is the word that has been begun. -/
def split (sp : Char → Bool) : Str → Str → List Str
  | cur, [] => if cur = [] then [] else [cur]
  | cur, c :: s => if sp c then (if cur = [] then [] else [cur]) ++ split sp [] s else split sp (cur ++ [c]) s

/-- The class that is made (mynamedtuple.py:34-65): its name, the arguments of `__new__`, the template in `__repr__`, the names for which `items` yields a pair, and the properties in the order in which they are assigned, each with the position that it gets. -/
structure Cls where
  name : Str
  args : List Str
  fmt : Str
  yields : List Str
  props : List (Str × Nat)
deriving DecidableEq

/-- `', '.join(…)` (mynamedtuple.py:52). -/
def join : List Str → Str
  | [] => []
  | [a] => a
  | a :: b :: l => a ++ ", ".toList ++ join (b :: l)

/-- `enumerate` (mynamedtuple.py:56). -/
def enumerate : Nat → List Str → List (Str × Nat)
  | _, [] => []
  | i, f :: fs => (f, i) :: enumerate (i + 1) fs

/-- `mynamedtuple` (mynamedtuple.py:9-66).
`ok` says which texts are identifiers that are not keywords and do not begin with two underscores; with other names the result is a SyntaxError or a class that works differently, and the model gives `none`.
It also gives `none` if an argument of `__new__` occurs twice, which is a SyntaxError (mynamedtuple.py:60-63); the first one is `_cls`. -/
def make (sp : Char → Bool) (ok : Str → Bool) (typename xs : Str) : Option Cls :=
  let xfields := split sp [] xs
  let afields := "T".toList :: xfields
  if ok typename = true ∧ xfields.all ok = true ∧ ("_cls".toList :: xfields).Nodup then
    some { name := typename, args := xfields, fmt := "%s(".toList ++ join (xfields.map (· ++ "=%r".toList)) ++ ")".toList,
           yields := afields, props := enumerate 0 afields }
  else none

variable {V : Type}

/-- `__new__` (mynamedtuple.py:40-41); `none` is a TypeError for a wrong number of arguments.
Arguments that are given by name are not modelled. -/
def Cls.new (py : Py V) (c : Cls) (args : List V) : Option (List V) :=
  if args.length = c.args.length then some (py.str c.name :: args) else none

/-- Reading one of the properties (mynamedtuple.py:56-57): the last assignment of a name counts.
`none` for a name that is not one of them. -/
def Cls.read (c : Cls) (v : List V) (f : Str) : Option V := (c.props.reverse.find? (fun p => p.1 = f)).bind (fun p => v[p.2]?)

/-- `items` (mynamedtuple.py:46-47), run to its end.
If a field is called `items`, its property takes the place of the method (mynamedtuple.py:56-57), and there is nothing that could be called. -/
def Cls.items (c : Cls) (v : List V) : Option (List (Str × V)) :=
  if c.props.any (fun p => p.1 = "items".toList) then none else c.yields.mapM (fun f => (c.read v f).map (fun x => (f, x)))

/-- `fmt % values` (mynamedtuple.py:44), for templates with `%s` and `%r`; `none` is an exception. -/
def percent (py : Py V) : Str → List V → Option Str
  | [], [] => some []
  | [], _ :: _ => none
  | c :: s, vs =>
    if c = '%' then
      match s, vs with
      | 's' :: t, v :: vs => (percent py t vs).map (py.text v ++ ·)
      | 'r' :: t, v :: vs => (percent py t vs).map (py.repr v ++ ·)
      | _, _ => none
    else (percent py s vs).map (c :: ·)

/-- `__repr__` (mynamedtuple.py:43-44). -/
def Cls.show (py : Py V) (c : Cls) (v : List V) : Option Str := percent py c.fmt v

/-- `==` of tuples, which the classes inherit (mynamedtuple.py:37).
Python first asks whether two elements are the same object; here `eq` has to say so. -/
def tupEq (py : Py V) : List V → List V → Bool
  | [], [] => true
  | a :: as, b :: bs => py.eq a b && tupEq py as bs
  | _, _ => false

/-- `<` of tuples, which the classes inherit (mynamedtuple.py:37): the first elements that are not equal are compared. -/
def tupLt (py : Py V) : List V → List V → Option Bool
  | [], [] => some false
  | [], _ :: _ => some true
  | _ :: _, [] => some false
  | a :: as, b :: bs => if py.eq a b then tupLt py as bs else py.lt a b

end Verif.Tuples
