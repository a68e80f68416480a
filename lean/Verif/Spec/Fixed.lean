import Verif.Spec.Nil
import Verif.Spec.Program
/-
Specification of the terms and environments for which results of evaluation are fully reduced.
-/
namespace Ethos.Spec
open Ethos Kind

/-- `t` does not use `eo::nil` -/
def NoNil (t : Term) : Prop := ∀ k cs, Sub (.node k cs) t → k ≠ EVAL_NIL

/-- what evaluation can find in an environment: the closed types of symbols have nothing to compute, an operator with a terminator is
no program, variables are symbols, and the lists of constructors and selectors have nothing to compute -/
structure ReducedEnv (env : Env) : Prop where
  types : ∀ s ty, env.symType s = some ty → (∀ r, Sub r ty → ¬ IsParam r ∧ ¬ IsAny r) → IsValue ty
  operators : ∀ f a ct left, Declared env f a ct → NilAttr a left → ¬ IsProg f
  variables : ∀ x ty, ∃ i, env.boundVar x ty = .sym VARIABLE i
  listCons : IsValue env.listCons
  listNil : IsValue env.listNil
  datatypes : ∀ c a l, Declared env c a l → a ∈ [.DATATYPE, .DATATYPE_CONSTRUCTOR, .AMB_DATATYPE_CONSTRUCTOR] → IsValue l

/-- the right-hand sides of programs do not use `eo::nil`, and those that are returned as they are have nothing to compute -/
def NoNilPrograms (env : Env) : Prop :=
  ∀ p prog, env.program p = some prog → ∀ c ∈ prog.children, ∀ pat body r, c.children = pat :: body :: r →
    NoNil body ∧ (NoParam body ∨ (∀ q ∈ pat.children.tail, NoParam q) → IsValue body)

end Ethos.Spec
