import Verif.Lookups.Model
/-!
# What the table of rules and the report say (C102)
-/
namespace Verif.Lookups

variable {A : Type}

/-- The program has a rule for the production: a class with a decorator for it. -/
def Rule (ds : List (Decl A)) (p : Str) (c : Cls A) : Prop := ∃ d ∈ ds, p ∈ d.prods ∧ d.cls = c

/-- The rule of the production gives the attribute this value. -/
def Gives (ds : List (Decl A)) (p attr : Str) (a : A) : Prop := ∃ c, Rule ds p c ∧ c attr = some a

/-- No production is in two decorators, of one class or of two. -/
def Once (ds : List (Decl A)) : Prop := (ds.flatMap (fun d => d.prods)).Nodup

end Verif.Lookups
