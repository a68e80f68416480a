import Verif.Model.Eval
import Verif.Spec.Eval
/-
Results of the entry points of the type checker: the value returned by a terminating run.
-/
namespace Ethos.Spec
open Ethos Kind

/-- `evaluate(t, ctx)` terminates and returns `v` -/
def EvaluatesTo (env : Env) (ctx : Ctx) (t v : Term) : Prop := ∃ n, (ops env n).evaluate t ctx = .ok v

/-- `evaluateLiteralOpInternal(k, args)` terminates and returns `r` (`none`: null, the operator does not evaluate) -/
def OpResult (env : Env) (k : Kind) (args : List Term) (r : Option Term) : Prop := ∃ n, (ops env n).evalOp k args = .ok r

/-- the program case selected for `args` -/
def ProgResult (env : Env) (args : List Term) (r : Option (Term × Ctx)) : Prop := evalProgram env args = .ok r

/-- `getType(t)` terminates and returns `r` (`none`: null, not well typed) -/
def TypeResult (env : Env) (t : Term) (r : Option Term) : Prop := ∃ n, (ops env n).getType t = .ok r

/-- a closed term without computation: no parameter, no unknown, no program symbol, no applied builtin operator -/
def IsValue (t : Term) : Prop := ∀ s, Sub s t → ¬ IsParam s ∧ ¬ IsAny s ∧ ¬ IsComputation s

end Ethos.Spec
