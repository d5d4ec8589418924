import Verif.Recs.Model
/-!
# What a record constructor is, and what it means that the types are right (C97)
-/
namespace Verif.Recs

variable {T E X : Type}

/-- The elements of a list in the order in which they are written. -/
inductive Written {α : Type} : Chain α → List α → Prop where
  | one (a : α) : Written (.one a) [a]
  | more {c : Chain α} {l : List α} (a : α) : Written c l → Written (.more c a) (l ++ [a])

/-- Two lists have the same length, and the relation holds of the elements at the same places. -/
inductive Pairs {α β : Type} (P : α → β → Prop) : List α → List β → Prop where
  | nil : Pairs P [] []
  | cons {a : α} {b : β} {l : List α} {m : List β} : P a b → Pairs P l m → Pairs P (a :: l) (b :: m)

/-- Values and stores: what an environment, a type and an expression mean.
What the checker finds out about one expression is right, if there is no message; and the union of environments covers each of them. -/
structure Right (w : World T E X) {S V : Type} (holds : E → S → Prop) (mem : T → V → Prop) (value : X → S → V → Prop) : Prop where
  tc : ∀ {x env t env' s}, w.tc x env = some ((t, env'), 0) → holds env s → holds env' s ∧ ∀ v, value x s v → mem t v
  ensure : ∀ {x env t env' s}, w.ensure env x t = some (env', 0) → holds env s → holds env' s ∧ ∀ v, value x s v → mem t v
  orOf : ∀ {es r e s}, w.orOf es = some r → e ∈ es → holds e s → ∃ e', r = some e' ∧ holds e' s

/-- A field is accepted for a schema: it is declared, and the check of its expression gives an environment and no message. -/
def Accepted (w : World T E X) (info : Str → Option T) (env0 : E) (item : Str × X) : Prop :=
  ∃ t e, info item.1 = some t ∧ w.ensure env0 item.2 t = some (e, 0)

/-- The text is one of a record with a schema of its own. -/
def Named (text : Str) : Prop := prefixOf text ≠ "Record".toList ∧ prefixOf text ≠ "Completion Record".toList

/-- What can be written before the fields, according to the grammar (pseudocode.grammar:1110-1153), but for records without a schema and completion records, and the name of the type that is meant. -/
def grammarNames : List (Str × Str) := [
  ("AsyncGeneratorRequest".toList, "AsyncGeneratorRequest Record".toList),
  ("Chosen Value Record".toList, "Chosen Value Record".toList),
  ("PrivateElement".toList, "PrivateElement".toList),
  ("PropertyDescriptor".toList, "Property Descriptor".toList),
  ("ReadModifyWriteSharedMemory".toList, "ReadModifyWriteSharedMemory Event".toList),
  ("ReadSharedMemory".toList, "ReadSharedMemory Event".toList),
  ("ResolvedBinding Record".toList, "ResolvedBinding Record".toList),
  ("Script Record".toList, "Script Record".toList),
  ("Source Text Module Record".toList, "Source Text Module Record".toList),
  ("WriteSharedMemory".toList, "WriteSharedMemory Event".toList),
  ("a new ExportEntry Record".toList, "ExportEntry Record".toList),
  ("a new ModuleRequest Record".toList, "ModuleRequest Record".toList),
  ("a new Set Record".toList, "Set Record".toList),
  ("a new Waiter Record".toList, "Waiter Record".toList),
  ("the CaptureRange".toList, "CaptureRange".toList),
  ("the ClassFieldDefinition Record".toList, "ClassFieldDefinition Record".toList),
  ("the ClassStaticBlockDefinition Record".toList, "ClassStaticBlockDefinition Record".toList),
  ("the DataView With Buffer Witness Record".toList, "DataView With Buffer Witness Record".toList),
  ("the DisposableResource Record".toList, "DisposableResource Record".toList),
  ("the ExportEntry Record".toList, "ExportEntry Record".toList),
  ("the GlobalSymbolRegistry Record".toList, "GlobalSymbolRegistry Record".toList),
  ("the GraphLoadingState Record".toList, "GraphLoadingState Record".toList),
  ("the ImportAttribute Record".toList, "ImportAttribute Record".toList),
  ("the ImportEntry Record".toList, "ImportEntry Record".toList),
  ("the Iterator Record".toList, "Iterator Record".toList),
  ("the JSON Parse Record".toList, "JSON Parse Record".toList),
  ("the JSON Serialization Record".toList, "JSON Serialization Record".toList),
  ("the JobCallback Record".toList, "JobCallback Record".toList),
  ("the LoadedModuleRequest Record".toList, "LoadedModuleRequest Record".toList),
  ("the Match Record".toList, "Match Record".toList),
  ("the MatchState".toList, "MatchState".toList),
  ("the ModuleRequest Record".toList, "ModuleRequest Record".toList),
  ("the PrivateEnvironment Record".toList, "PrivateEnvironment Record".toList),
  ("the PromiseCapability Record".toList, "PromiseCapability Record".toList),
  ("the PromiseReaction Record".toList, "PromiseReaction Record".toList),
  ("the PropertyDescriptor".toList, "Property Descriptor".toList),
  ("the Reference Record".toList, "Reference Record".toList),
  ("the RegExp Record".toList, "RegExp Record".toList),
  ("the Synthetic Module Record".toList, "Synthetic Module Record".toList),
  ("the Time Zone Identifier Record".toList, "Time Zone Identifier Record".toList),
  ("the TypedArray With Buffer Witness Record".toList, "TypedArray With Buffer Witness Record".toList)]

end Verif.Recs
