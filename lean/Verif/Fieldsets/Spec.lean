import Verif.Fieldsets.Model
/-!
# Which fields a record type has (C99)
-/
namespace Verif.Fieldsets

variable {T : Type}

/-- The field is declared with the type for the schema or one above it, and not for any that is nearer to the schema; `chain` is as in `Schema`.
Each of them declares a field at most once. -/
def Nearest (chain : List (List (Str × T))) (field : Str) (t : T) : Prop :=
  ∃ above decls below, chain = above ++ decls :: below ∧ (field, t) ∈ decls ∧ ∀ ds ∈ below, ∀ p ∈ ds, p.1 ≠ field

/-- The schemas are as the spec gives them: no schema declares a field twice. -/
def Once (s : Schema T) : Prop := ∀ decls ∈ s.chain, (decls.map Prod.fst).Nodup

/-- A name of a field can be told from others in a list: it is not empty and has no comma. -/
def Plain (name : Str) : Prop := name ≠ [] ∧ ',' ∉ name

end Verif.Fieldsets
