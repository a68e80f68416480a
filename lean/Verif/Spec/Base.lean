import Verif.Spec.Term
import Verif.Model.Command
/-
What is assumed of the part of the environment that the commands do not determine.
-/
namespace Ethos.Spec
open Ethos Kind

/-- `v` is a symbol that evaluation makes on the fly for a type (or term) `ty`: a bound variable or a temporary constant -/
def Own (b : Env) (v ty : Term) : Prop := (∃ x, v = b.boundVar x ty) ∨ v = b.tmp ty ∨ ∃ i, v = b.dummy i ty

/-- a term made of the symbols that exist from the start -/
def Basic (b : Env) (next : Nat) (t : Term) : Prop :=
  ∀ s, Sub s t → (∀ k i, s = .sym k i → i < next ∧ k ≠ VARIABLE ∧ ¬ ∃ ty, Own b s ty) ∧ s.kind ≠ LAMBDA ∧ s.kind ≠ PROOF ∧ ∀ k cs, s = .node k cs → isSymbol k = false

/-- The symbols of `b` are numbered below `next`, the first symbol a command makes, or are variables, of which commands
make none.  A symbol made on the fly for a type has that type or none. -/
structure BaseOk (b : Env) (next : Nat) : Prop where
  own : ∀ v ty, Own b v ty → ∃ k i, v = .sym k i ∧ (k = VARIABLE ∨ k = CONST ∧ i < next)
  ownType : ∀ v ty ty', Own b v ty → b.symType v = some ty' → ty' = ty
  types : ∀ v ty, (¬ ∃ u, Own b v u) → b.symType v = some ty → (∃ k i, v = .sym k i ∧ i < next) ∧ Basic b next ty
  self : Basic b next b.self
  listCons : Basic b next b.listCons
  listNil : Basic b next b.listNil
  listType : Basic b next b.listType
  proofType : Basic b next b.proofType

/-- The term `eo::self` stands for is a parameter, and nothing else that exists from the start mentions it. -/
structure SelfOk (b : Env) : Prop where
  param : ∃ i, b.self = .sym PARAM i
  types : ∀ v ty, (¬ ∃ u, Own b v u) → b.symType v = some ty → ¬ Sub b.self ty
  listCons : ¬ Sub b.self b.listCons
  listNil : ¬ Sub b.self b.listNil
  listType : ¬ Sub b.self b.listType
  proofType : ¬ Sub b.self b.proofType

end Ethos.Spec
