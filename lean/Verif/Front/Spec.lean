import Verif.Front.Model
/-!
# The grammar of frontmatter
-/
namespace Verif.Front

/-- `deeper n ls`: every line of `ls` is blank or indented by more than `n`. -/
def Deeper (n : Nat) (ls : List Line) : Prop := ∀ l ∈ ls, l.rest = [] ∨ n < l.indent

/-- The further lines of an entry: they are deeper, and the last isn't blank. -/
def Body (n : Nat) (ls : List Line) : Prop := Deeper n ls ∧ ∀ l, ls.getLast? = some l → l.rest ≠ []

/-- Only blank lines. -/
def Blanks (ls : List Line) : Prop := ∀ l ∈ ls, l.rest = []

/-- The text of a flow sequence, with its items: separated by commas, each followed by any number of spaces. -/
inductive Flow : List Char → List (List Char) → Prop
  | one {a} : ',' ∉ a → Flow a [a]
  | more {a t as} (k : Nat) : ',' ∉ a → t.head? ≠ some ' ' → Flow t as →
      Flow (a ++ ',' :: (List.replicate k ' ' ++ t)) (a :: as)

/-- The elements of a sequence, with blank lines between them. -/
inductive Items (n : Nat) : List Line → List (List Char) → Prop
  | nil : Items n [] []
  | cons {v bs ls vs} : v ≠ [] → v.head? ∉ [some ' ', some '[', some '{'] → Blanks bs → Items n ls vs →
      Items n (⟨n, '-' :: ' ' :: v⟩ :: (bs ++ ls)) (v :: vs)

variable (word space : Char → Bool)

mutual
/-- A collection, with its indentation. -/
inductive Coll : Nat → List Line → Val → Prop
  | seq {n ls vs} : Items n ls vs → vs ≠ [] → Coll n ls (.list vs)
  | map {n l ls kvs} : Entries n (l :: ls) kvs → (kvs.map (·.1)).Nodup →
      (∃ x y, l.rest = x ++ ':' :: ' ' :: y) → l.rest.head? ≠ some '-' → Coll n (l :: ls) (.map kvs)

/-- The entries of a mapping, with blank lines between them. -/
inductive Entries : Nat → List Line → List (List Char × Val) → Prop
  | nil {n} : Entries n [] []
  | cons {n key rest body bs ls v kvs} : key ≠ [] → (∀ c ∈ key, word c = true) → Value n rest body v → Blanks bs →
      Entries n ls kvs → Entries n (⟨n, key ++ ':' :: rest⟩ :: (body ++ (bs ++ ls))) ((key, v) :: kvs)

/-- A value, with what follows the colon and the further lines. -/
inductive Value : Nat → List Char → List Line → Val → Prop
  | scalar {n s} : s.head? ∉ [some '[', some '{'] → Value n (' ' :: s) [] (.scalar s)
  | flowEmpty {n} (k : Nat) : Value n (' ' :: '[' :: (List.replicate k ' ' ++ [']'])) [] (.list [])
  | flow {n t as} : (∃ c ∈ t, c ≠ ' ') → Flow t as → Value n (' ' :: '[' :: (t ++ [']'])) [] (.list as)
  | block {n c body} : c = '|' ∨ c = '>' → Body n body → body ≠ [] →
      Value n [' ', c] body (.scalar (['\n'].intercalate (body.map (fun l => List.replicate l.indent ' ' ++ l.rest))))
  | coll {n m rest body v} : (∀ c ∈ rest, space c = true) → Body n body → Coll m body v → Value n rest body v
end

/-- The lines of a text: what they are joined from with newlines, each being some spaces and what follows them. -/
structure LinesOf (text : List Char) (ls : List Line) : Prop where
  nonempty : ls ≠ []
  noNewline : ∀ l ∈ ls, '\n' ∉ l.rest
  noSpace : ∀ l ∈ ls, l.rest.head? ≠ some ' '
  joined : text = ['\n'].intercalate (ls.map (fun l => List.replicate l.indent ' ' ++ l.rest))

end Verif.Front
