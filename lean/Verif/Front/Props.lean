import Verif.Front.ParseLemmas
/-! # C49: the frontmatter of a test -/
namespace Verif.Front

variable (word space : Char → Bool)

theorem linesOf_unique {text : List Char} {ls : List Line} (h : LinesOf text ls) : (splitNl text).map toLine = ls := by
  rw [h.joined, splitNl_join]
  · rw [List.map_map]
    conv => rhs; rw [← List.map_id ls]
    apply List.map_congr_left
    intro l hl
    exact toLine_text l (h.noSpace l hl)
  · intro he
    exact h.nonempty (List.map_eq_nil_iff.1 he)
  · intro x hx
    obtain ⟨l, hl, rfl⟩ := List.mem_map.1 hx
    intro hm
    rcases List.mem_append.1 hm with hm | hm
    · exact absurd (List.eq_of_mem_replicate hm) (by decide)
    · exact h.noNewline l hl hm

theorem linesOf_split (text : List Char) : LinesOf text ((splitNl text).map toLine) := by
  obtain ⟨h1, h2⟩ := splitNl_spec text
  refine ⟨?_, ?_, ?_, ?_⟩
  · intro he; exact splitNl_ne text (List.map_eq_nil_iff.1 he)
  · intro l hl
    obtain ⟨s, hs, rfl⟩ := List.mem_map.1 hl
    intro hm
    apply h2 s hs
    rw [← (text_toLine s).1]
    exact List.mem_append_right _ hm
  · intro l hl
    obtain ⟨s, hs, rfl⟩ := List.mem_map.1 hl
    exact (text_toLine s).2
  · rw [List.map_map]
    conv => lhs; rw [← h1]
    congr 1
    conv => lhs; rw [← List.map_id (splitNl text)]
    apply List.map_congr_left
    intro s _
    exact (text_toLine s).1.symm

/-- **C49.**  For every text, the parser of frontmatter returns a value exactly when the text is a block collection of the
grammar, and then the value is the one that the grammar gives it: all keys, items and blocks of text are found, to any depth,
with the indentation deciding what belongs to what. -/
theorem c49_frontmatter (hc : word ':' = false) (hb : space '|' = false) (hg : space '>' = false)
    (text : List Char) (v : Val) :
    parseFrontmatter word space text = some v ↔ ∃ ls n, LinesOf text ls ∧ Coll word space n ls v := by
  constructor
  · intro h
    obtain ⟨n, hn⟩ := parseColl_sound hc _ _ _ h
    exact ⟨_, n, linesOf_split text, hn⟩
  · rintro ⟨ls, n, hl, hcoll⟩
    have := parseColl_complete hc hb hg hcoll ((splitNl text).map toLine).length
      (by rw [linesOf_unique hl]; exact Nat.le_refl _)
    unfold parseFrontmatter
    rw [linesOf_unique hl] at this ⊢
    exact parseColl_complete hc hb hg hcoll _ (Nat.le_succ _)

/-- The grammar gives a text at most one value. -/
theorem c49_unambiguous (hc : word ':' = false) (hb : space '|' = false) (hg : space '>' = false)
    (text : List Char) (ls ls' : List Line) (n n' : Nat) (v v' : Val) (h : LinesOf text ls) (h' : LinesOf text ls')
    (hv : Coll word space n ls v) (hv' : Coll word space n' ls' v') : v = v' := by
  have h1 := (c49_frontmatter word space hc hb hg text v).2 ⟨ls, n, h, hv⟩
  have h2 := (c49_frontmatter word space hc hb hg text v').2 ⟨ls', n', h', hv'⟩
  rw [h1] at h2
  injection h2

/-! ## Concrete cases -/

def word0 (c : Char) : Bool := c.isAlphanum || c = '_'
def space0 (c : Char) : Bool := c = ' ' || c = '\t'

example : word0 ':' = false ∧ space0 '|' = false ∧ space0 '>' = false := by decide +kernel

/-- Items at the indentation of their key, which YAML allows, are refused: they count as entries. -/
def text0 : List Char := "esid: x\nneg:\n  phase: p\n  inc:\n  - a.js\n\n  - b: c\n\ninfo: |\n   A\n\n  B\nf: [u,  v]\n".toList

example : parseFrontmatter word0 space0 text0 = none := by rfl

/-- The same with the items deeper than their key: a scalar, a nested mapping with a blank line in it, a block of text and a
flow sequence. -/
def text1 : List Char := "esid: x\nneg:\n  phase: p\n  inc:\n    - a.js\n\n    - b: c\n\ninfo: |\n   A\n\n  B\nf: [u,  v]\n".toList

example : parseFrontmatter word0 space0 text1 = some (.map [
    (['e','s','i','d'], .scalar ['x']),
    (['n','e','g'], .map [(['p','h','a','s','e'], .scalar ['p']),
      (['i','n','c'], .list [['a','.','j','s'], ['b',':',' ','c']])]),
    (['i','n','f','o'], .scalar [' ',' ',' ','A','\n','\n',' ',' ','B']),
    (['f'], .list [['u'], ['v']])]) := by rfl

/-- A mapping whose first value is a collection. -/
def text2 : List Char := "neg:\n  phase: p\nesid: x".toList

def lines2 : List Line := [⟨0, ['n','e','g',':']⟩, ⟨2, ['p','h','a','s','e',':',' ','p']⟩, ⟨0, ['e','s','i','d',':',' ','x']⟩]

/-- **Departure.**  A mapping whose first key has a block collection for value is refused, though its entries are well formed and would be
accepted in another order: only the first line is searched for a colon with a space. -/
theorem c49_first_entry_witness :
    LinesOf text2 lines2 ∧
    Entries word0 space0 0 lines2 [(['n','e','g'], .map [(['p','h','a','s','e'], .scalar ['p'])]), (['e','s','i','d'], .scalar ['x'])] ∧
    parseFrontmatter word0 space0 text2 = none := by
  refine ⟨⟨by decide, by decide, by decide, by rfl⟩, ?_, by rfl⟩
  refine Entries.cons (key := ['n','e','g']) (rest := []) (body := [⟨2, ['p','h','a','s','e',':',' ','p']⟩]) (bs := [])
    (by decide) (by decide +kernel) ?_ (by intro l hl; cases hl) ?_
  · refine .coll (m := 2) (by intro c hc; cases hc) ⟨?_, ?_⟩ ?_
    · intro l hl; simp at hl; subst hl; exact .inr (by decide)
    · intro l hl; simp at hl; subst hl; simp
    · refine .map ?_ (by simp) ⟨['p','h','a','s','e'], ['p'], rfl⟩ (by simp)
      exact Entries.cons (key := ['p','h','a','s','e']) (rest := [' ', 'p']) (body := []) (bs := []) (by decide)
        (by decide +kernel) (.scalar (by decide)) (by intro l hl; cases hl) .nil
  · exact Entries.cons (key := ['e','s','i','d']) (rest := [' ', 'x']) (body := []) (bs := []) (by decide)
      (by decide +kernel) (.scalar (by decide)) (by intro l hl; cases hl) .nil

end Verif.Front
