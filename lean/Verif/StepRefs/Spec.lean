import Verif.StepRefs.Model
/-!
# What the report on references to steps should say

`fold` and `idChar` say which characters are the same letter, and which can be in an id.
-/
namespace Verif.StepRefs
open Verif.HTML (Str Attrs Node litName)
open Verif.Validate (nStart nStop nName nKids slice)

variable (cfg : Cfg)

/-- The letters of "step" are word characters. -/
def LettersOk (isWord : Char → Bool) : Prop := ∀ c, fold c ∈ ['s', 't', 'e', 'p'] → isWord c = true

/-- At offset `st` there is the word "step" or "steps" (with any number of s's) in any case, not in the middle of a word, then
a space, and a digit or `<`. -/
def RefAt (text : Str) (isWord : Char → Bool) (st : Nat) : Prop :=
  ∃ pre kw d rest k, text = pre ++ (kw ++ ' ' :: d :: rest) ∧ pre.length = st ∧
    kw.map fold = ['s', 't', 'e', 'p'] ++ List.replicate k 's' ∧ (('0' ≤ d ∧ d ≤ '9') ∨ d = '<') ∧
    ∀ c, pre.getLast? = some c → isWord c = false

/-- The line around offset `st`, without spaces at the ends. -/
def LineAt (st : Nat) (line : Str) : Prop :=
  ∃ pre a b post l r, cfg.text = pre ++ '\n' :: (a ++ (b ++ '\n' :: post)) ∧ pre.length + 1 + a.length = st ∧
    '\n' ∉ a ∧ '\n' ∉ b ∧ a ++ b = l ++ line ++ r ∧ (∀ c ∈ l, cfg.space c = true) ∧ (∀ c ∈ r, cfg.space c = true) ∧
    (∀ c, line.head? = some c → cfg.space c = false) ∧ (∀ c, line.getLast? = some c → cfg.space c = false)

/-- The nodes of a document. -/
inductive In (doc : Node) : Node → Prop
  | root : In doc doc
  | kid {n c} : In doc n → c ∈ nKids n → In doc c

/-- A node of the document followed by its ancestors. -/
inductive Chain (doc : Node) : List Node → Prop
  | root : Chain doc [doc]
  | kid {n anc c} : Chain doc (n :: anc) → c ∈ nKids n → Chain doc (c :: n :: anc)

/-- Where offset `p` is: in a node without children, or at its start if nothing ends there, or at its end. -/
structure Holds (doc : Node) (p : Nat) (n : Node) : Prop where
  leaf : nKids n = []
  lo : nStart n ≤ p
  hi : p ≤ nStop n
  edge : nStart n = p → ∀ m, In doc m → nStop m ≠ p

def Section (n : Node) : Prop := nName n = "emu-intro".toList ∨ nName n = "emu-clause".toList ∨ nName n = "emu-annex".toList

/-- The innermost section that has begun before `p` and hasn't ended before `p`; None if there is no such section. -/
def SectionAt (doc : Node) (p : Nat) : Option Node → Prop
  | none => ∀ t, In doc t → Section t → ¬ (nStart t < p ∧ p ≤ nStop t)
  | some s => In doc s ∧ Section s ∧ nStart s < p ∧ p ≤ nStop s ∧
      ∀ t, In doc t → Section t → nStart t < p → p ≤ nStop t → nStart t ≤ nStart s

/-- The first section in a list of a node and its ancestors. -/
def FirstSection (path : List Node) : Option Node → Prop
  | none => ∀ t ∈ path, ¬ Section t
  | some s => ∃ inner outer, path = inner ++ s :: outer ∧ Section s ∧ ∀ t ∈ inner, ¬ Section t

/-- `u` is a cross-reference to the id `x`. -/
def XrefTo (x u : Str) : Prop :=
  ∃ a b, u = a ++ (x ++ b) ∧ a.map fold = "<emu-xref href=\"#".toList ∧ b.map fold = "\"></emu-xref>".toList ∧
    x ≠ [] ∧ ∀ c ∈ x, idChar c = true

/-- Cross-references with separators between them. -/
inductive Listing : List Str → List Str → Str → Prop
  | one {x u} : XrefTo x u → Listing [] [x] u
  | more {x u v sep seps xs w} : XrefTo x u → v.map fold = sep → Listing seps xs w → Listing (sep :: seps) (x :: xs) (u ++ (v ++ w))

/-- The text begins with a word, a space, and a listing. -/
def Fits (form : Str × List Str) (s : Str) (ids : List Str) : Prop :=
  ∃ a u rest, s = a ++ (u ++ rest) ∧ a.map fold = form.1 ++ [' '] ∧ Listing form.2 ids u

/-- The ways to refer to steps, the preferred ones first. -/
def forms : List (Str × List Str) :=
  [("steps".toList, [", ".toList, ", and ".toList]), ("steps".toList, ["-".toList]), ("steps".toList, ["–".toList]),
   ("steps".toList, [" and ".toList]),
   ("step".toList, [", ".toList, ", ".toList, ", ".toList, ", ".toList]), ("step".toList, [", ".toList, ", ".toList, ", ".toList]),
   ("step".toList, [])]

/-- The steps that the text at the start of `s` refers to, read in the first way that fits. -/
def RefersTo (s : Str) (ids : List Str) : Prop :=
  ∃ before form after, forms = before ++ form :: after ∧ Fits form s ids ∧ ∀ f ∈ before, ∀ ids', ¬ Fits f s ids'

/-- The first line of `src` that contains `id="x"`, without spaces at its start. -/
def StepLine (src x line : Str) : Prop :=
  ∃ pre l sp post, src = pre ++ (sp ++ line ++ post) ∧ l = sp ++ line ∧ '\n' ∉ l ∧ (pre = [] ∨ pre.getLast? = some '\n') ∧
    (post = [] ∨ post.head? = some '\n') ∧ (∃ u v, l = u ++ ("id=\"".toList ++ x ++ ['"']) ++ v) ∧
    (¬ ∃ u v, pre = u ++ ("id=\"".toList ++ x ++ ['"']) ++ v) ∧
    (∀ c ∈ sp, cfg.space c = true) ∧ ∀ c, line.head? = some c → cfg.space c = false

/-- An entry of the report for a reference to the id `x`, in section `sec` and on line `line`. -/
def EntryFor (sec : Option Node) (line x : Str) (e : Entry) : Prop :=
  e.sec = sec ∧ e.line = line ∧ ∃ alg anc, cfg.nodeWithId x = some (alg :: anc) ∧ nName alg = "emu-alg".toList ∧
    FirstSection (alg :: anc) e.refdSec ∧ StepLine cfg (slice cfg.text (nStart alg) (nStop alg)) x e.refdLine

/-- The entries for the reference at offset `st`: it stands in a paragraph, a list item, an algorithm or a definition, and each step
that it refers to has an entry. -/
def EntriesAt (doc : Node) (st : Nat) (es : List Entry) : Prop :=
  ∃ n parent anc line sec ids, Chain doc (n :: parent :: anc) ∧ Holds doc st n ∧
    (nName parent = "p".toList ∨ nName parent = "li".toList ∨ nName parent = "emu-alg".toList ∨ nName parent = "dd".toList) ∧
    LineAt cfg st line ∧ SectionAt doc st sec ∧ RefersTo (cfg.text.drop st) ids ∧
    ids.length = es.length ∧ ∀ (k : Nat) x e, ids[k]? = some x → es[k]? = some e → EntryFor cfg sec line x e

/-- Read a report back: each reference belongs to the section and the line last shown. -/
def readBack : Option Node → Option Str → Option Node → List Out → List Entry
  | _, _, _, [] => []
  | _, l, r, .section s :: os => readBack (some s) l r os
  | s, _, r, .line l :: os => readBack s (some l) r os
  | s, l, _, .same :: os => readBack s l s os
  | s, l, _, .other r :: os => readBack s l (some r) os
  | s, some l, r, .refd d :: os => ⟨s, l, r, d⟩ :: readBack s (some l) r os
  | s, none, r, .refd _ :: os => readBack s none r os

end Verif.StepRefs
