import Verif.Earley.SynTree
import Verif.Earley.LexParse
import Verif.Earley.ExpandLemmas
/-!
# Properties C21-C25: the ECMAScript parser

Specifications: `Spec.lean` (derivations), `LexSpec.lean` (texts), `SynSpec.lean` (tokens and automatic
semicolons), `ExpandSpec.lean` (grammatical parameters).
-/
namespace Verif.Earley

/-! ## C21: grammatical parameters -/

/-- C21. The settings of a nonterminal's parameters are all sign assignments, each once, so `2^n` of
them; more than four parameters are refused. -/
theorem c21_settings {params σs} (h : eachSetting params = some σs) :
    (∀ σ, σ ∈ σs ↔ IsSetting params σ) ∧ σs.Nodup ∧ σs.length = 2 ^ params.length ∧ params.length ≤ 4 :=
  eachSetting_spec h

/-- C21. Only a nonterminal with more than four parameters has no settings. -/
theorem c21_settings_refused (params : List String) : eachSetting params = none ↔ 4 < params.length := eachSetting_none

example : (eachSetting ["In", "Yield"]).map List.length = some 4 := rfl
example : IsSetting ["In", "Yield"] [(.plus, "In"), (.tilde, "Yield")] := rfl

/-- C21. An argument list is resolved to the setting that the notation defines, and that is the only one. -/
theorem c21_arguments {σ : Setting} {name args x} (hσ : (σ.map (·.2)).Nodup) (h : expandName σ name args = some x) :
    ∃ τ, Resolved σ args τ ∧ x = name ++ suffix τ ∧ ∀ τ', Resolved σ args τ' → τ' = τ := by
  obtain ⟨τ, h1, h2⟩ := expandName_spec h
  exact ⟨τ, h1, h2, fun τ' h' => resolved_unique hσ h' h1⟩

example : expandName [(.tilde, "In"), (.plus, "Yield")] "Expr" [(none, "Yield"), (some .plus, "In"), (some .tilde, "Await")] =
    some "Expr+Yield+In~Await" := rfl

/-- C21. The expanded grammar has, for each nonterminal and each setting of its parameters, exactly the
productions that the notation defines (a right-hand side is kept if and only if its guard admits the
setting), then each optional symbol's two productions, and nothing else. -/
theorem c21_expansion {env prods D} (hok : NamesOk prods) (h : simplifyGrammar env prods = some D) :
    (∀ gp ∈ prods, ∀ σ, IsSetting gp.params σ → ∃ ps, Expands env σ gp.lhs gp.rhss ps ∧
      (ps = [] ∧ D (gp.lhs ++ suffix σ) = none ∨ ps ≠ [] ∧ D (gp.lhs ++ suffix σ) = some ps)) ∧
    (∀ b thing, OptionalUsed prods b thing → ∃ thing', OptionalUsed prods b thing' ∧ ∃ ps, OptPair b thing' ps ∧ D (b ++ "?") = some ps) ∧
    (∀ n, (D n).isSome = true →
      (∃ gp ∈ prods, ∃ σ, IsSetting gp.params σ ∧ n = gp.lhs ++ suffix σ) ∨ (∃ b thing, OptionalUsed prods b thing ∧ n = b ++ "?") ∨
      (env.lexical = true ∧ n = "InputElement_common")) ∧
    (env.lexical = true → D "InputElement_common" = some commonProds) := simplifyGrammar_spec hok h

/-- C21. The expansion succeeds if and only if no nonterminal has more than four parameters and every
right-hand side makes sense in every setting that it admits. -/
theorem c21_succeeds {env prods} (hok : NamesOk prods) :
    (simplifyGrammar env prods).isSome = true ↔ ∀ gp ∈ prods, gp.params.length ≤ 4 ∧ Sensible env gp :=
  simplifyGrammar_some hok

/-- `Stmt[Ret] : [+Ret] `return` Expr[?Ret, ~In]? | Expr[+Ret, ~In]` and `Expr[Ret, In] : [~In] `x` | `y``. -/
def exProds : List GProd :=
  [⟨"Stmt", ["Ret"],
     [⟨[(.plus, "Ret")], [.lit "return", .optNt "Expr" [(none, "Ret"), (some .tilde, "In")]], "return Expr?"⟩,
      ⟨[], [.nt "Expr" [(some .plus, "Ret"), (some .tilde, "In")]], "Expr"⟩]⟩,
   ⟨"Expr", ["Ret", "In"], [⟨[(.tilde, "In")], [.lit "x"], "x"⟩, ⟨[], [.lit "y"], "y"⟩]⟩]

/-- All names are nonterminals. -/
def exGEnv : GEnv := ⟨fun _ => some false, false⟩

example : NamesOk exProds where
  lhs := by
    intro gp h
    simp only [exProds, List.mem_cons, List.not_mem_nil, or_false] at h
    rcases h with rfl | rfl <;> exact ⟨⟨by decide, by decide, by decide⟩, by decide⟩
  params := by
    intro gp h
    simp only [exProds, List.mem_cons, List.not_mem_nil, or_false] at h
    rcases h with rfl | rfl
    · exact ⟨by decide, by intro p hp; rw [List.mem_singleton.1 hp]; exact ⟨by decide, by decide, by decide⟩⟩
    · refine ⟨by decide, ?_⟩
      intro p hp
      simp only [List.mem_cons, List.not_mem_nil, or_false] at hp
      rcases hp with rfl | rfl <;> exact ⟨by decide, by decide, by decide⟩
  once := by decide

example : (simplifyGrammar exGEnv exProds).isSome = true := rfl
example : ((simplifyGrammar exGEnv exProds).bind (· "Stmt~Ret")) =
    some [⟨"Stmt~Ret", [.nt "Expr+Ret~In"], "Stmt", "Expr", ["~Ret"]⟩] := rfl
example : ((simplifyGrammar exGEnv exProds).bind (· "Stmt+Ret")) =
    some [⟨"Stmt+Ret", [.term (.lit "return"), .nt "Expr+Ret~In?"], "Stmt", "return Expr?", ["+Ret"]⟩,
      ⟨"Stmt+Ret", [.nt "Expr+Ret~In"], "Stmt", "Expr", ["+Ret"]⟩] := rfl
example : simplifyGrammar exGEnv [⟨"A", ["p", "q", "r", "s", "t"], []⟩] = none := rfl

/-! ## An example of a lexical grammar -/

/-- Every character is a lower-case letter. -/
def exEnv : LexEnv := ⟨fun _ => "Ll", fun _ => none⟩
/-- `Word :: Letter` -/
def exWordA : Prod := ⟨"Word", [.nt "Letter"], "Word", "Letter", []⟩
/-- `Word :: Word Letter` -/
def exWordB : Prod := ⟨"Word", [.nt "Word", .nt "Letter"], "Word", "Word Letter", []⟩
/-- `Letter ::` a letter from `a` to `z` `but not` `z` -/
def exLetterP : Prod := ⟨"Letter", [.term (.uRange 97 122), .con (.butNot [.term (.lit "z")])], "Letter", "", []⟩
/-- A lexical grammar. -/
def exG : Grammar := fun n =>
  if n = "Word" then some [exWordA, exWordB] else if n = "Letter" then some [exLetterP] else none
/-- A text. -/
def exText : List Char := ['a', 'b', 'z', '!']
/-- The letter at a position. -/
def exLetter (k : Nat) : Node LexLeaf := .nt exLetterP [] k (k + 1) [.leaf ⟨.uRange 97 122, k, k + 1⟩]
/-- The word `ab`. -/
def exWord : Node LexLeaf := .nt exWordB [] 0 2 [.nt exWordA [] 0 1 [exLetter 0], exLetter 1]

theorem exG_prods {n ps p} (h : exG n = some ps) (hp : p ∈ ps) :
    (n = "Word" ∧ (p = exWordA ∨ p = exWordB)) ∨ (n = "Letter" ∧ p = exLetterP) := by
  unfold exG at h
  split at h
  · injection h with h; subst h; rename_i hn
    exact .inl ⟨hn, by simpa using hp⟩
  split at h
  · injection h with h; subst h; rename_i hn
    exact .inr ⟨hn, by simpa using hp⟩
  · cases h

theorem exG_lex : LexGrammar exEnv exG where
  filed := by
    intro n ps h p hp
    rcases exG_prods h hp with ⟨rfl, rfl | rfl⟩ | ⟨rfl, rfl⟩ <;> rfl
  closed := by
    intro n ps h p hp m hm
    rcases exG_prods h hp with ⟨rfl, rfl | rfl⟩ | ⟨rfl, rfl⟩ <;> simp [exWordA, exWordB, exLetterP] at hm
    · subst hm; rfl
    · rcases hm with rfl | rfl <;> rfl
  terms := by
    intro n ps p t h hp ht
    rcases exG_prods h hp with ⟨rfl, rfl | rfl⟩ | ⟨rfl, rfl⟩ <;> simp [exWordA, exWordB, exLetterP] at ht
    subst ht; trivial
  cons := by
    intro n ps p k h hp hk
    rcases exG_prods h hp with ⟨rfl, rfl | rfl⟩ | ⟨rfl, rfl⟩ <;> simp [exWordA, exWordB, exLetterP] at hk
    subst hk
    intro x hx
    rw [List.mem_singleton.1 hx]
    exact ⟨'z', rfl⟩

theorem exG_finite : FiniteGrammar exG := by
  refine ⟨["Word", "Letter"], ?_⟩
  intro n h
  unfold exG at h
  split at h
  · rename_i hn; simp [hn]
  split at h
  · rename_i hn; simp [hn]
  · cases h

theorem exG_null : ∀ {rhs}, NullSeq exG rhs → ∀ r ∈ rhs, ∃ k, r = .con k := by
  intro rhs h
  induction h with
  | nil => simp
  | con _ ih =>
    intro r hr
    rcases List.mem_cons.1 hr with rfl | hr
    · exact ⟨_, rfl⟩
    · exact ih r hr
  | nt h1 h2 _ _ ih1 _ =>
    exfalso
    rcases exG_prods h1 h2 with ⟨_, rfl | rfl⟩ | ⟨_, rfl⟩
    · obtain ⟨k, hk⟩ := ih1 (.nt "Letter") (by simp [exWordA]); cases hk
    · obtain ⟨k, hk⟩ := ih1 (.nt "Letter") (by simp [exWordB]); cases hk
    · obtain ⟨k, hk⟩ := ih1 (.term (.uRange 97 122)) (by simp [exLetterP]); cases hk

theorem exG_unit {n b} (h : UnitStep exG n b) : n = "Word" ∧ b = "Letter" := by
  obtain ⟨ps, p, pre, post, h1, h2, h3, h4, h5⟩ := h
  have hpre := exG_null h4
  have hpost := exG_null h5
  rcases exG_prods h1 h2 with ⟨rfl, rfl | rfl⟩ | ⟨rfl, rfl⟩
  · cases pre with
    | nil => simp [exWordA] at h3; exact ⟨rfl, h3.1.symm⟩
    | cons x pre =>
      simp [exWordA] at h3
  · cases pre with
    | nil =>
      simp [exWordB] at h3
      obtain ⟨_, rfl⟩ := h3
      obtain ⟨k, hk⟩ := hpost (.nt "Letter") (by simp); cases hk
    | cons x pre =>
      simp [exWordB] at h3
      obtain ⟨rfl, _⟩ := h3
      obtain ⟨k, hk⟩ := hpre (.nt "Word") (by simp); cases hk
  · cases pre with
    | nil => simp [exLetterP] at h3
    | cons x pre =>
      cases pre with
      | nil => simp [exLetterP] at h3
      | cons y pre => simp [exLetterP] at h3

theorem exG_acyclic : Acyclic exG := by
  intro n b h hs
  obtain ⟨rfl, rfl⟩ := exG_unit h
  rcases hs.cases_head with h | ⟨c, h, _⟩
  · revert h; decide
  · exact absurd (exG_unit h).1 (by decide)

theorem exG_apply (text : List Char) (start : Nat) : ConsApply exEnv exG text start := by
  intro n ps p pre k post i j cs h hp hr hd
  rcases exG_prods h hp with ⟨rfl, rfl | rfl⟩ | ⟨rfl, rfl⟩
  · have : Rthing.con k ∈ exWordA.rhs := by rw [hr]; simp
    simp [exWordA] at this
  · have : Rthing.con k ∈ exWordB.rhs := by rw [hr]; simp
    simp [exWordB] at this
  · cases pre with
    | nil => simp [exLetterP] at hr
    | cons x pre =>
      cases pre with
      | cons y pre => simp [exLetterP] at hr
      | nil =>
        simp [exLetterP] at hr
        obtain ⟨rfl, rfl, _⟩ := hr
        cases hd with
        | term hs hd =>
          cases hd
          obtain ⟨ch, h1, _, rfl⟩ := hs
          refine ⟨.leaf ⟨.uRange 97 122, start + i, start + i + 1⟩, ch, rfl, ?_⟩
          have hl := List.getElem?_eq_some_iff.1 h1
          show (text.drop (start + i)).take (start + i + 1 - (start + i)) = [ch]
          rw [Nat.add_sub_cancel_left]
          rw [List.drop_eq_getElem_cons hl.1, hl.2]
          simp

/-! ## C22: soundness -/

/-- C22, lexical parser. A tree returned for a text is a derivation of the whole text from the goal, and
its leaves are the characters of the text, in order. -/
theorem c22_lexical {env G goal text fuel node} (hG : LexGrammar env G) (h : lexParse env G goal text fuel = .ok node) :
    IsTree G (textWorld env text 0) goal 0 text.length node ∧
    (leaves node).map (fun l => l.s) = List.range text.length ∧
    ∀ l ∈ leaves node, ∃ ch, text[l.s]? = some ch ∧ Stands env ch l.sym := by
  have ht := lexParse_sound hG h
  obtain ⟨h1, h2, _⟩ := tree_span ht
  refine ⟨ht, ?_, fun l hl => (h2 l hl).2⟩
  rw [h1, List.range_eq_range']; simp

example : LexGrammar exEnv exG := exG_lex
example : lexParse exEnv exG "Word" ['a', 'b'] 40 = .ok exWord := rfl

/-- C22, syntactic parser. A tree returned for a text is a derivation from the goal; the text is divided
without gap or overlap into input elements `ns`; the terminals derived are the tokens among these in
order, together with the inserted semicolons; each constraint in the derivation is satisfied by the input
as known when the parser reached that place. -/
theorem c22_syntactic {S G goal fuel node} (hf : Filed G) (hnf : NoFinal G) (h : synParse S G goal fuel = .ok node) :
    ∃ ns es toks view, Lexed S ns S.text.length ∧ realOf es = ns.map .node ++ [.eoi S.text.length] ∧
      tokensOf es = toks ++ [.eoi S.text.length] ∧ (∀ k, k ≤ toks.length → Became k (view k) es) ∧
      IsTree G (tokenWorld S es view) goal 0 toks.length node ∧
      (leaves node).length = toks.length ∧
      ∀ (m : Nat) l tok, (leaves node)[m]? = some l → toks[m]? = some tok → ∃ t, Instance S tok t l := by
  obtain ⟨ns, es, toks, view, h1, h2, h3, _, h5, h6⟩ := synParse_sound hf hnf h
  obtain ⟨g1, g2⟩ := tree_leaves h6
  refine ⟨ns, es, toks, view, h1, h2, h3, h5, h6, by omega, ?_⟩
  intro m l tok hl ht
  obtain ⟨t, tok', h7, h8⟩ := g2 m l hl
  rw [Nat.zero_add, h3, List.getElem?_append_left (List.getElem?_eq_some_iff.1 ht).1, ht] at h7
  injection h7 with h7
  subst h7
  exact ⟨t, h8⟩

/-- An input element. -/
def exElem (name : String) (c : Node LexLeaf) (s e : Nat) : Node LexLeaf :=
  .nt ⟨"InputElement_common", [.nt name], "InputElement_common", name, []⟩ [] s e [c]
/-- An identifier of one letter. -/
def exIdentName (s : Nat) (ch : String) : Node LexLeaf :=
  .nt ⟨"IdentifierName", [.term (.lit ch)], "IdentifierName", ch, []⟩ [] s (s + 1) [.leaf ⟨.lit ch, s, s + 1⟩]
/-- The same as an input element. -/
def exIdent (s : Nat) (ch : String) : Node LexLeaf :=
  exElem "CommonToken" (.nt ⟨"CommonToken", [.nt "IdentifierName"], "CommonToken", "IdentifierName", []⟩ [] s (s + 1)
    [exIdentName s ch]) s (s + 1)
/-- A line feed. -/
def exLine (s : Nat) : Node LexLeaf :=
  exElem "LineTerminator" (.nt ⟨"LineTerminator", [.term (.named "LF")], "LineTerminator", "<LF>", []⟩ [] s (s + 1)
    [.leaf ⟨.named "LF", s, s + 1⟩]) s (s + 1)
/-- The text `a`, line feed, `b`. -/
def exS : SynEnv where
  text := ['a', '\n', 'b']
  lex _ p := if p = 0 then .ok (exIdent 0 "a") else if p = 1 then .ok (exLine 1)
    else if p = 2 then .ok (exIdent 2 "b") else .error .parse
  reserved := [['i', 'f']]
/-- `Script : Stmt Stmt` -/
def exScriptP : Prod := ⟨"Script", [.nt "Stmt", .nt "Stmt"], "Script", "Stmt Stmt", []⟩
/-- `Stmt : IdentifierName but not ReservedWord ;` -/
def exStmtP : Prod := ⟨"Stmt", [.term (.named "IdentifierName"), .con (.butNot [.nt "ReservedWord"]), .term (.lit ";")],
  "Stmt", "IdentifierName ;", []⟩
/-- A syntactic grammar. -/
def exSG : Grammar := fun n =>
  if n = "Script" then some [exScriptP] else if n = "Stmt" then some [exStmtP] else none
/-- The tree of `a;` `b;`, both semicolons being inserted. -/
def exScript : Node SynLeaf := .nt exScriptP [] 0 3
  [.nt exStmtP [] 0 1 [.leaf (.named (exIdentName 0 "a")), .leaf (.lit [';'] 1 1)],
   .nt exStmtP [] 2 3 [.leaf (.named (exIdentName 2 "b")), .leaf (.lit [';'] 3 3)]]

theorem exSG_prods {n ps p} (h : exSG n = some ps) (hp : p ∈ ps) :
    (n = "Script" ∧ p = exScriptP) ∨ (n = "Stmt" ∧ p = exStmtP) := by
  unfold exSG at h
  split at h
  · injection h with h; subst h; rename_i hn
    exact .inl ⟨hn, by simpa using hp⟩
  split at h
  · injection h with h; subst h; rename_i hn
    exact .inr ⟨hn, by simpa using hp⟩
  · cases h

theorem exSG_filed : Filed exSG := by
  intro n ps h p hp
  rcases exSG_prods h hp with ⟨rfl, rfl⟩ | ⟨rfl, rfl⟩ <;> rfl

theorem exSG_noFinal : NoFinal exSG := by
  intro n ps h p hp
  rcases exSG_prods h hp with ⟨rfl, rfl⟩ | ⟨rfl, rfl⟩ <;> exact ⟨by decide, by decide⟩

theorem exSG_closed : Closed exSG := by
  intro n ps h p hp m hm
  rcases exSG_prods h hp with ⟨rfl, rfl⟩ | ⟨rfl, rfl⟩ <;> simp [exScriptP, exStmtP] at hm
  subst hm; rfl

example : Filed exSG ∧ NoFinal exSG := ⟨exSG_filed, exSG_noFinal⟩
example : synParse exS exSG "Script" 60 = .ok exScript := by rfl

/-! ## C23: completeness -/

/-- C23, lexical parser, every grammar (nullable and cyclic ones included): if the text can be derived
from the goal then no parse error is reported. -/
theorem c23_lexical {env G goal text node} (hG : LexGrammar env G) (hgoal : (G goal).isSome = true)
    (hca : ConsApply env G text 0) (ht : IsTree G (textWorld env text 0) goal 0 text.length node) (fuel : Nat) :
    lexParse env G goal text fuel ≠ .error .parse := by
  intro h
  unfold lexParse at h
  rcases lex_run_any hG hgoal hca (Nat.zero_le _) fuel with ⟨node', k, h1, h2, h3⟩ | ⟨h1, h2⟩ | h1
  · rw [h1] at h
    dsimp only at h
    split at h
    · rename_i hne
      have hle := h3 _ _ ht
      have hk := tree_le h2
      have := (tree_span h2).2.2
      rw [this] at hne
      simp only [Nat.zero_add] at hne hk
      omega
    · cases h
  · exact h2 _ _ ht
  · rw [h1] at h; cases h

/-- C23, lexical parser, finite grammar without unit cycles: if the text can be derived from the goal
then the parser halts and returns a tree of it. -/
theorem c23_lexical_accepts {env G goal text node} (hG : LexGrammar env G) (hfin : FiniteGrammar G) (hac : Acyclic G)
    (hgoal : (G goal).isSome = true) (hca : ConsApply env G text 0)
    (ht : IsTree G (textWorld env text 0) goal 0 text.length node) :
    ∃ F, ∀ f, F ≤ f → ∃ node', lexParse env G goal text f = .ok node' ∧
      IsTree G (textWorld env text 0) goal 0 text.length node' := by
  obtain ⟨F, hF⟩ := lexParse_total hG hfin hac hgoal hca
  refine ⟨F, fun f hf => ?_⟩
  rcases hF f hf with h | ⟨_, h⟩
  · exact h
  · exact absurd ht (h node)

example : (exG "Word").isSome = true ∧ FiniteGrammar exG ∧ Acyclic exG ∧ ConsApply exEnv exG ['a', 'b'] 0 :=
  ⟨rfl, exG_finite, exG_acyclic, exG_apply _ _⟩
example : IsTree exG (textWorld exEnv ['a', 'b'] 0) "Word" 0 2 exWord :=
  (c22_lexical exG_lex (fuel := 40) (text := ['a', 'b']) rfl).1

/-- C23 fails, for termination, on a cyclic grammar: if the goal has infinitely many trees over a prefix
of the text, the parser never returns anything. -/
theorem c23_diverges {env G goal text start m} (hG : LexGrammar env G)
    (hgoal : (G goal).isSome = true) (hca : ConsApply env G text start) (hst : start ≤ text.length)
    (hinf : ¬ Few (fun t => IsTree G (textWorld env text start) goal 0 m t)) (f : Nat) :
    run (lexCfg env G goal text) f () start = .error .fuel :=
  lex_infinite hG hgoal hca hst hinf f

/-- `A :: A` -/
def exLoopP : Prod := ⟨"A", [.nt "A"], "A", "A", []⟩
/-- `A :: a` -/
def exStopP : Prod := ⟨"A", [.term (.lit "a")], "A", "a", []⟩
/-- A cyclic grammar. -/
def exCyc : Grammar := fun n => if n = "A" then some [exLoopP, exStopP] else none
/-- Its trees of `a`. -/
def exTower : Nat → Node LexLeaf
  | 0 => .nt exStopP [] 0 1 [.leaf ⟨.lit "a", 0, 1⟩]
  | n + 1 => .nt exLoopP [] 0 1 [exTower n]

theorem exCyc_prods {n ps p} (h : exCyc n = some ps) (hp : p ∈ ps) : n = "A" ∧ (p = exLoopP ∨ p = exStopP) := by
  unfold exCyc at h
  split at h
  · injection h with h; subst h; rename_i hn
    exact ⟨hn, by simpa using hp⟩
  · cases h

theorem exCyc_lex : LexGrammar exEnv exCyc where
  filed := by
    intro n ps h p hp
    rcases exCyc_prods h hp with ⟨rfl, rfl | rfl⟩ <;> rfl
  closed := by
    intro n ps h p hp m hm
    rcases exCyc_prods h hp with ⟨rfl, rfl | rfl⟩ <;> simp [exLoopP, exStopP] at hm
    subst hm; rfl
  terms := by
    intro n ps p t h hp ht
    rcases exCyc_prods h hp with ⟨rfl, rfl | rfl⟩ <;> simp [exLoopP, exStopP] at ht
    subst ht; exact ⟨'a', rfl⟩
  cons := by
    intro n ps p k h hp hk
    rcases exCyc_prods h hp with ⟨rfl, rfl | rfl⟩ <;> simp [exLoopP, exStopP] at hk

theorem exCyc_apply (text : List Char) (start : Nat) : ConsApply exEnv exCyc text start := by
  intro n ps p pre k post i j cs h hp hr _
  have hm : Rthing.con k ∈ p.rhs := by rw [hr]; simp
  rcases exCyc_prods h hp with ⟨rfl, rfl | rfl⟩ <;> simp [exLoopP, exStopP] at hm

theorem exTower_tree : ∀ n, IsTree exCyc (textWorld exEnv ['a'] 0) "A" 0 1 (exTower n) := by
  intro n
  induction n with
  | zero =>
    exact .nt (ps := [exLoopP, exStopP]) (p := exStopP) (pos := 1) rfl (by simp)
      (.term ⟨'a', rfl, rfl, rfl⟩ (.nil _ _)) rfl rfl (.nil _ _)
  | succ n ih =>
    have hs : (textWorld exEnv ['a'] 0).startOf (exTower n) = 0 := by cases n <;> rfl
    have he : (textWorld exEnv ['a'] 0).endOf (exTower n) = 1 := by cases n <;> rfl
    have hb : bitsOf [exTower n] = [] := by cases n <;> simp [exTower, bitsOf, exLoopP, exStopP]
    refine .nt (ps := [exLoopP, exStopP]) (p := exLoopP) (pos := 1) (ds := [exTower n]) rfl (by simp) ih rfl ?_ (.nil _ _)
    unfold IsNode
    simp [hs, he, hb, exTower]

theorem exTower_inj : ∀ m n, exTower m = exTower n → m = n := by
  intro m
  induction m with
  | zero => intro n h; cases n with
    | zero => rfl
    | succ n => simp [exTower, exStopP, exLoopP] at h
  | succ m ih => intro n h; cases n with
    | zero => simp [exTower, exStopP, exLoopP] at h
    | succ n => simp [exTower] at h; rw [ih n h]

/-- The cyclic grammar has infinitely many trees of `a`. -/
theorem exCyc_many : ¬ Few (fun t => IsTree exCyc (textWorld exEnv ['a'] 0) "A" 0 1 t) := by
  rintro ⟨l, hl⟩
  have hnd : ((List.range (l.length + 1)).map exTower).Nodup := by
    rw [List.nodup_iff_pairwise_ne, List.pairwise_map]
    exact (List.nodup_iff_pairwise_ne.1 List.nodup_range).imp (fun h e => h (exTower_inj _ _ e))
  have := nodup_length_le hnd (b := l) (by
    intro t ht
    obtain ⟨n, _, rfl⟩ := List.mem_map.1 ht
    exact hl _ (exTower_tree n))
  simp at this
  omega

/-- C23: on the grammar `A :: A | a` the parser does not return on the text `a`, which is derivable. -/
theorem c23_diverges_witness (fuel : Nat) : run (lexCfg exEnv exCyc "A" ['a']) fuel () 0 = .error .fuel :=
  c23_diverges exCyc_lex rfl (exCyc_apply _ _) (by simp) exCyc_many fuel

/-- C23, syntactic parser, every grammar: if a text falls into input elements that do not depend on the
context, and its tokens can be derived from the goal, no syntax error is reported. -/
theorem c23_syntactic {S G goal ns m node} (hcm : Common S 0 ns) (hf : Filed G) (hcl : Closed G)
    (hgoal : (G goal).isSome = true) (hne : NoEmptyLit G)
    (hm : (tokensOf (commonElems S ns))[m]? = some (.eoi S.text.length))
    (ht : IsTree G (tokenWorld S (commonElems S ns) (fun _ => commonElems S ns)) goal 0 m node) (fuel : Nat) :
    synParse S G goal fuel ≠ .error .parse := synParse_complete hcm hf hcl hgoal hne hm ht fuel

/-- `Pair : IdentifierName IdentifierName` -/
def exPairP : Prod := ⟨"Pair", [.term (.named "IdentifierName"), .term (.named "IdentifierName")], "Pair", "", []⟩
/-- A grammar of pairs. -/
def exPairG : Grammar := fun n => if n = "Pair" then some [exPairP] else none

example : Common exS 0 [exIdent 0 "a", exLine 1, exIdent 2 "b"] :=
  .cons (q := 1) (by decide) rfl rfl (by decide) (by decide)
    (.cons (q := 2) (by decide) rfl rfl (by decide) (by decide)
      (.cons (q := 3) (by decide) rfl rfl (by decide) (by decide) .nil))
example : IsTree exPairG (tokenWorld exS (commonElems exS [exIdent 0 "a", exLine 1, exIdent 2 "b"])
      (fun _ => commonElems exS [exIdent 0 "a", exLine 1, exIdent 2 "b"])) "Pair" 0 2
    (.nt exPairP [] 0 3 [.leaf (.named (exIdentName 0 "a")), .leaf (.named (exIdentName 2 "b"))]) := by
  refine .nt (ps := [exPairP]) (p := exPairP) (pos := 3) rfl (by simp)
    (.term ⟨.node (exIdent 0 "a"), rfl, .inr ⟨"IdentifierName", _, _, _, _, _, rfl, .down (by decide) (.down (by decide) (.here (by decide))), rfl, rfl⟩⟩
      (.term ⟨.node (exIdent 2 "b"), rfl, .inr ⟨"IdentifierName", _, _, _, _, _, rfl, .down (by decide) (.down (by decide) (.here (by decide))), rfl, rfl⟩⟩
        (.nil _ _))) rfl rfl (.nil _ _)
example : (tokensOf (commonElems exS [exIdent 0 "a", exLine 1, exIdent 2 "b"]))[2]? = some (.eoi exS.text.length) := rfl

/-- C23, syntactic parser: on a finite grammar without unit cycles it halts. -/
theorem c23_syntactic_halts {S G goal} (hl : ∀ goal p, S.lex goal p ≠ .error .fuel) (hf : Filed G)
    (hfin : FiniteGrammar G) (hac : Acyclic G) :
    ∃ F r, r ≠ .error .fuel ∧ ∀ f, F ≤ f → synParse S G goal f = r := synParse_halts hl hf hfin hac

example : ∀ goal p, exS.lex goal p ≠ .error .fuel := by
  intro goal p h
  simp only [exS] at h
  split at h
  · cases h
  split at h
  · cases h
  split at h <;> cases h

/-! ## C24: longest prefix -/

/-- C24. The lexical parser, started anywhere in a text, halts; it returns a tree of the longest prefix
of the rest that can be derived from the goal, or reports a parse error, and then no prefix can. -/
theorem c24_longest {env G goal text start} (hG : LexGrammar env G) (hfin : FiniteGrammar G) (hac : Acyclic G)
    (hgoal : (G goal).isSome = true) (hca : ConsApply env G text start) (hst : start ≤ text.length) :
    ∃ F, ∀ f, F ≤ f →
      (∃ node k, run (lexCfg env G goal text) f () start = .ok node ∧
        IsTree G (textWorld env text start) goal 0 k node ∧
        ∀ k' node', IsTree G (textWorld env text start) goal 0 k' node' → k' ≤ k) ∨
      (run (lexCfg env G goal text) f () start = .error .parse ∧
        ∀ k node, ¬ IsTree G (textWorld env text start) goal 0 k node) :=
  lex_run hG hfin hac hgoal hca hst

/-- C24, every grammar: whatever the parser answers is right. -/
theorem c24_longest_any {env G goal text start} (hG : LexGrammar env G)
    (hgoal : (G goal).isSome = true) (hca : ConsApply env G text start) (hst : start ≤ text.length) (f : Nat) :
      (∃ node k, run (lexCfg env G goal text) f () start = .ok node ∧
        IsTree G (textWorld env text start) goal 0 k node ∧
        ∀ k' node', IsTree G (textWorld env text start) goal 0 k' node' → k' ≤ k) ∨
      (run (lexCfg env G goal text) f () start = .error .parse ∧
        ∀ k node, ¬ IsTree G (textWorld env text start) goal 0 k node) ∨
      run (lexCfg env G goal text) f () start = .error .fuel :=
  lex_run_any hG hgoal hca hst f

example : LexGrammar exEnv exG ∧ FiniteGrammar exG ∧ Acyclic exG ∧ (exG "Word").isSome = true ∧
    ConsApply exEnv exG exText 0 ∧ ConsApply exEnv exG exText 2 :=
  ⟨exG_lex, exG_finite, exG_acyclic, rfl, exG_apply _ _, exG_apply _ _⟩
example : run (lexCfg exEnv exG "Word" exText) 40 () 0 = .ok exWord := rfl
example : run (lexCfg exEnv exG "Word" exText) 40 () 2 = .error .parse := rfl

/-! ## C25: automatic semicolon insertion -/

/-- C25. After any number of requests, a request that is answered hands out the next token of the stream
if it is expected; otherwise it inserts a semicolon before that token, and only if the token is preceded
by a line terminator, is `}` or the end of the input, or the semicolon ends a do-while statement, if a
semicolon is expected and would not be an empty statement, and if none was inserted at that position
before. -/
theorem c25_request {S rs st pos e kl rats pos' st'} (h : Calls S rs st pos)
    (hn : synNext S st pos e kl = .ok (some (rats, pos'), st')) :
    Step S rs.length pos e kl st.elems st'.elems rats pos' := (synNext_step (calls_inv h) hn).2.1

/-- C25. A request that is refused is one where the next token is not expected and no semicolon may be
inserted. -/
theorem c25_refused {S rs st pos e kl st'} (h : Calls S rs st pos) (hn : synNext S st pos e kl = .ok (none, st')) :
    Refused S rs.length pos e kl st.elems := synNext_refuses (calls_inv h) hn

/-- C25. After any number of requests: the tokens of the text have kept their order, the positions of the
inserted semicolons increase, so there is at most one at any position, and what has been handed out are
the tokens of the stream in order. -/
theorem c25_stream {S rs st pos} (h : Calls S rs st pos) :
    (∃ ns p, Lexed S ns p ∧ (realOf st.elems = ns.map .node ∨ (p = S.text.length ∧ realOf st.elems = ns.map .node ++ [.eoi p]))) ∧
    (semisOf st.elems).Pairwise (· < ·) ∧
    ∀ (k : Nat) r, rs[k]? = some r → r ≠ [] ∧ ∃ tok, (tokensOf st.elems)[k]? = some tok ∧ ∀ q ∈ r, Instance S tok q.1 q.2 := by
  have hi := calls_inv h
  refine ⟨?_, hi.incr, hi.inst⟩
  obtain ⟨ns, h1, h2⟩ := hi.core.lexed
  refine ⟨ns, st.scout, h1, ?_⟩
  cases hd : st.done with
  | false => rw [hd] at h2; left; simpa using h2
  | true =>
    rw [hd] at h2
    right
    have := hi.core.fin hd
    exact ⟨this, by rw [this]; simpa using h2⟩

/-- C25. The leaves of a returned tree are the tokens of the text in order and the inserted semicolons,
at most one at any position. -/
theorem c25_tree {S G goal fuel node} (hf : Filed G) (hnf : NoFinal G) (h : synParse S G goal fuel = .ok node) :
    ∃ ns es toks, Lexed S ns S.text.length ∧ realOf es = ns.map .node ++ [.eoi S.text.length] ∧
      tokensOf es = toks ++ [.eoi S.text.length] ∧ (semisOf es).Pairwise (· < ·) ∧
      (leaves node).length = toks.length ∧
      ∀ (m : Nat) l tok, (leaves node)[m]? = some l → toks[m]? = some tok → ∃ t, Instance S tok t l :=
  synParse_tokens hf hnf h

/-- The state of the token stream after the text `a`, line feed, `b` has been read. -/
def exSt : Syn := ⟨commonElems exS [exIdent 0 "a", exLine 1, exIdent 2 "b"],
  [(.node (exIdent 0 "a"), 0), (.node (exIdent 2 "b"), 2), (.eoi 3, 3)], 0, 3, true, none⟩

/-- The first token is handed out; before the second, which is on a new line and not expected, a
semicolon is inserted; a second one is refused. -/
example : Calls exS [] exSt 0 := .start rfl
example : synNext exS exSt 0 [.named "IdentifierName"] none =
    .ok (some ([(.named "IdentifierName", .named (exIdentName 0 "a"))], 1), { exSt with seen := 1 }) := rfl
example : (match synNext exS { exSt with seen := 1 } 1 [.lit ";"] none with
    | .ok (some r, st) => some (r, semisOf st.elems)
    | _ => none) = some (([(.lit ";", .lit [';'] 1 1)], 1), [1]) := rfl
example : (match synNext exS { exSt with seen := 1 } 1 [.lit "="] none with
    | .ok (none, _) => true
    | _ => false) = true := rfl

end Verif.Earley
