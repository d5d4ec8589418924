import Verif.Defs.GrammarLemmas
/-!
# C55: the productions that define the grammar are checked completely, and the grammars are made of them
-/
namespace Verif.Defs
open Spec

/-- The processing stops exactly if one of the productions isn't allowed on its own or beside the others, or if something in a right-hand side
isn't. -/
theorem c55_stops (doc : List Block) :
    process doc = none ↔ ¬LeftOk doc ∨ ∃ s p, (s, p) ∈ prodns doc ∧ RightStops doc s p := process_none doc

/-- Otherwise the messages are exactly the faults of the mentions of nonterminals in right-hand sides. -/
theorem c55_messages (doc : List Block) (ms : List Msg) (t : Table) (h : process doc = some (ms, t)) (m : Msg) : m ∈ ms ↔ Fault doc m := by
  rw [(process_some doc ms t h).2]
  unfold FaultOf Fault
  constructor
  · rintro ⟨s, p, h1, r, guard, g, h2, h3, h4⟩
    exact ⟨s, p, r, guard, g, arenaOf s, h1, (arenaOf_iff ..).1 rfl, h2, h3, h4⟩
  · rintro ⟨s, p, r, guard, g, a, h1, ha, h2, h3, h4⟩
    rw [← arenaOf_iff] at ha
    subst ha
    exact ⟨s, p, h1, r, guard, g, h2, h3, h4⟩

/-- The table has the nonterminals that are defined, each with the number of colons that all its definitions have, and for each arena the definition
in that arena, with its number in the document and the right-hand sides it ends up with. -/
theorem c55_table (doc : List Block) (ms : List Msg) (t : Table) (h : process doc = some (ms, t)) :
    (∀ n, (∃ info, t.lookup n = some info) ↔ Defined doc n) ∧
    ∀ n info, t.lookup n = some info →
      (∀ i a p, Defines doc i a n p → p.colons = info.colons) ∧
      ∀ a d, info.occs.lookup a = some d ↔
        ∃ s p rs, (prodns doc)[d.docI]? = some (s, p) ∧ p.lhs.name = n ∧ IsArena s a ∧ FinalRhss doc d.docI rs ∧
          d.arena = a ∧ (d.augments = true ↔ Adds s) ∧ d.prod = { p with rhss := rs } := by
  have hi := (process_some doc ms t h).1
  refine ⟨fun n => defined_iff hi n, ?_⟩
  intro n info hl
  refine ⟨?_, ?_⟩
  · rintro i a p ⟨s, h1, h2, _⟩
    exact hi.colons n info hl i s p h1 h2
  · intro a d
    rw [hi.occs n info hl]
    constructor
    · rintro ⟨i, s, p, rs, ⟨h1, h2, h3⟩, h4, h5⟩
      subst h5
      exact ⟨s, p, rs, h1, h2, (arenaOf_iff ..).1 h3, (finalRhss_iff h1 rs).1 h4, h3, augB_iff s, rfl⟩
    · rintro ⟨s, p, rs, h1, h2, h3, h4, h5, h6, h7⟩
      rw [← arenaOf_iff] at h3
      refine ⟨d.docI, s, p, rs, ⟨h1, h2, h3⟩, (finalRhss_iff h1 rs).2 h4, ?_⟩
      have h8 : d.augments = augB s := by
        rw [← augB_iff] at h6
        cases hd : d.augments <;> cases hb : augB s <;> simp_all
      obtain ⟨i, a', aug, pr⟩ := d
      simp only at h5 h7 h8
      subst h5; subst h7; subst h8
      unfold mkD
      rw [h3]

/-- Making the grammars never fails.  The grammar of a level and an arena has, in the order of their names, the nonterminals of that level that are
defined in that arena or in the main body, each with the production that counts there. -/
theorem c55_grammar (doc : List Block) (ms : List Msg) (t : Table) (h : process doc = some (ms, t)) (l : Level) (a : Arena) :
    ∃ g, grammarOf t l a = some g ∧ Increasing (g.map (·.1)) ∧
      (∀ n d, (n, d) ∈ g → ∃ p rs, Counts doc a n d.docI p ∧ FinalRhss doc d.docI rs ∧ (l = .syntactic ↔ Syntactic n p) ∧
        d.prod = { p with rhss := rs }) ∧
      (∀ n i p rs, Counts doc a n i p → FinalRhss doc i rs → (l = .syntactic ↔ Syntactic n p) →
        ∃ d, (n, d) ∈ g ∧ d.docI = i ∧ d.prod = { p with rhss := rs }) :=
  grammar_spec (process_some doc ms t h).1 l a

/-- The goal symbols of a grammar are, in order and once each, its nonterminals that occur in no right-hand side, and the named terminals are the
names in right-hand sides that aren't its nonterminals. -/
theorem c55_goals (l : Level) (a : Arena) (g : List (Str × DProd)) :
    Increasing (leftRight l a g).goals ∧ Increasing (leftRight l a g).namedTerminals ∧
    (∀ n, n ∈ (leftRight l a g).goals ↔ n ∈ g.map (·.1) ∧ ¬∃ m d r, (m, d) ∈ g ∧ r ∈ d.prod.rhss ∧ OccursIn n r) ∧
    (∀ n, n ∈ (leftRight l a g).namedTerminals ↔ n ∉ g.map (·.1) ∧ ∃ m d r, (m, d) ∈ g ∧ r ∈ d.prod.rhss ∧ OccursIn n r) :=
  leftRight_spec l a g

/-! ## A small grammar -/

def clause (title num : String) : Sec := ⟨"emu-clause".toList, title.toList, num.toList⟩
def nt (pos : Nat) (name : String) (args : List Param := []) : Gnt := ⟨pos, pos + 5, name.toList, args⟩
def arg (pos : Nat) (sign : Sign) (name : String) : Param := ⟨pos, sign, name.toList⟩
def tok (s : String) : Item := .plain (.other .backticked s.toList [])
def ln (is : List Item) (guard : List Param := []) : Rhs := .line guard (.items is) []

/-- `Stmt[Yield] : IfStmt[?Yield]` and `[+Yield] Yexpr[+Yield, ?In] Nope?`, on several lines. -/
def stmt : Prodn := ⟨100, true, nt 100 "Stmt" [arg 101 .bare "Yield"], 1,
  [ln [.plain (.gnt (nt 110 "IfStmt" [arg 111 .query "Yield"]))],
   ln [.plain (.gnt (nt 120 "Yexpr" [arg 121 .plus "Yield", arg 122 .query "In"])), .qm (.gnt (nt 123 "Nope"))] [arg 119 .plus "Yield"]]⟩

/-- `IfStmt[Yield] :` `if` `Stmt[Yield]` -/
def ifStmt : Prodn := ⟨200, true, nt 200 "IfStmt" [arg 201 .bare "Yield"], 1,
  [ln [tok "if", .plain (.gnt (nt 210 "Stmt" [arg 211 .bare "Yield"]))]]⟩

/-- `Yexpr[In, Yield] ::` `yield` `Word`, but not `Letter`. -/
def yexpr : Prodn := ⟨300, true, nt 300 "Yexpr" [arg 301 .bare "In", arg 302 .bare "Yield"], 2,
  [ln [tok "yield", .plain (.gnt (nt 310 "Word")), .plain (.other .butNot "but not Letter".toList ["Letter".toList])]]⟩

/-- `Word :: one of` … -/
def word : Prodn := ⟨400, true, nt 400 "Word", 2, [.thing "a".toList, .thing "b".toList]⟩

/-- In annex B, `IfStmt[Yield] :` `if` `Decl`, and `Decl :` `decl`. -/
def ifStmtB : Prodn := ⟨500, true, nt 500 "IfStmt" [arg 501 .bare "Yield"], 1, [ln [tok "if", .plain (.gnt (nt 510 "Decl"))]]⟩
def decl : Prodn := ⟨600, true, nt 600 "Decl", 1, [ln [tok "decl"]]⟩

def exDoc : List Block :=
  [⟨true, clause "Statements" "14.1", true, [stmt, ifStmt]⟩,
   ⟨true, clause "Words" "12.7", true, [yexpr, word]⟩,
   ⟨true, clause "FunctionDeclarations in IfStatement Statement Clauses" "B.3.3", true, [ifStmtB]⟩,
   ⟨true, clause "Other Things" "B.4", true, [decl]⟩]

example : (process exDoc).map (·.1) = some
    [⟨125, .argOrder ["Yield".toList, "In".toList] ["In".toList, "Yield".toList]⟩,
     ⟨100, .notOnLhs "In".toList⟩,
     ⟨123, .undefinedNt⟩,
     ⟨211, .noSign⟩, ⟨211, .expectQuery "IfStmt".toList "Yield".toList⟩] := by decide +kernel

/-- The augmented production, and the two grammars of the syntactic level. -/
example : ((process exDoc).bind (fun r => (r.2.lookup "IfStmt".toList).bind (fun i => (i.occs.lookup .B).map (fun d => (d.docI, d.prod.rhss.length))))) =
    some (4, 2) := by decide +kernel
example : ((process exDoc).bind (fun r => grammarOf r.2 .syntactic .A)).map (·.map (fun x => (String.ofList x.1, x.2.docI))) =
    some [("IfStmt", 1), ("Stmt", 0)] := by decide +kernel
example : ((process exDoc).bind (fun r => grammarOf r.2 .syntactic .B)).map (·.map (fun x => (String.ofList x.1, x.2.docI))) =
    some [("Decl", 5), ("IfStmt", 4), ("Stmt", 0)] := by decide +kernel
example : ((process exDoc).bind (fun r => grammarOf r.2 .lexical .B)).map (fun g => (leftRight .lexical .B g)) =
    some ⟨["Yexpr".toList], ["Letter".toList]⟩ := by decide +kernel

/-- Productions that stop it: the same nonterminal twice in the main body, other colons, a bad name, a guard about something else, a
mention in the main body of what only annex B defines, an addition to nothing. -/
example : process [⟨true, clause "Words" "12.7", true, [word, word]⟩] = none := by decide +kernel
example : process [⟨true, clause "Words" "12.7", true, [word]⟩, ⟨true, clause "X" "B.1", true, [{ word with colons := 1 }]⟩] = none := by
  decide +kernel
example : process [⟨true, clause "Words" "12.7", true, [{ word with lhs := nt 400 "W" }]⟩] = none := by decide +kernel
example : process [⟨true, clause "Words" "12.7", true, [{ word with lhs := nt 400 "uriX" }]⟩] = none := by decide +kernel
example : (process [⟨true, clause "URI Syntax and Semantics" "19.2.6", true, [{ word with lhs := nt 400 "uriMark" }]⟩]).isSome := by
  decide +kernel
example : process [⟨true, clause "Words" "12.7", true, [{ decl with rhss := [ln [tok "decl"] [arg 610 .plus "In"]] }]⟩] = none := by
  decide +kernel
example : process [⟨true, clause "A" "1", true, [{ word with rhss := [ln [.plain (.gnt (nt 410 "Decl"))]] }]⟩,
    ⟨true, clause "B" "B.4", true, [decl]⟩] = none := by decide +kernel
example : process [⟨true, clause "FunctionDeclarations in IfStatement Statement Clauses" "B.3.3", true, [decl]⟩] = none := by decide +kernel

/-! ## Two checks that never work -/

/-- A sign on a parameter of the left-hand side is meant to be reported ("On LHS, param must not have a prefix", emu_grammars.py:292), but isn't:
the check looks for nodes of a kind that the metagrammar doesn't have. -/
theorem c55_lhs_sign_witness : ∃ doc : List Block, (∃ s p x, (s, p) ∈ prodns doc ∧ x ∈ p.lhs.args ∧ x.sign = .query) ∧
    (process doc).map (·.1) = some [] :=
  ⟨[⟨true, clause "Words" "12.7", true, [{ decl with lhs := nt 600 "Decl" [arg 601 .query "In"] }]⟩],
    ⟨_, _, arg 601 .query "In", List.mem_singleton.2 rfl, List.mem_singleton.2 rfl, rfl⟩, by decide +kernel⟩

/-- `ArrowFormalParameters` is meant to be the first goal symbol of the syntactic grammar although it occurs in a right-hand side
(emu_grammars.py:1796-1800); but no grammar has the name that is tested for. -/
theorem c55_goal_witness : ∃ doc ms t g, process doc = some (ms, t) ∧ grammarOf t .syntactic .A = some g ∧
    "ArrowFormalParameters".toList ∈ g.map (·.1) ∧ ∀ l a, "ArrowFormalParameters".toList ∉ (leftRight l a g).goals := by
  refine ⟨[⟨true, clause "Functions" "15.9", true,
      [{ decl with lhs := nt 600 "Head", rhss := [ln [.plain (.gnt (nt 610 "ArrowFormalParameters"))]] },
       { decl with lhs := nt 700 "ArrowFormalParameters" }]⟩], _, _, _, rfl, rfl, by decide +kernel, ?_⟩
  intro l a
  cases l <;> cases a <;> decide +kernel

end Verif.Defs
