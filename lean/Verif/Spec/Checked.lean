import Verif.Spec.Derive
/-
Formulas and types in commands.
-/
namespace Ethos.Spec
open Ethos Kind

/-- the environments of `st`, up to its table of names -/
def EnvAt (b : Env) (st : State) (env : Env) : Prop := ∃ sc, env = ({ st with scope := sc } : State).env b

/-- `t` has type `ty` in `st` -/
def Typed (b : Env) (st : State) (t ty : Term) : Prop := ∃ env, EnvAt b st env ∧ TypeResult env t (some ty)

/-- the formulas written in a command -/
def formulas : Event → List SExp
  | .cmd (.assume _ f) | .cmd (.assumePush _ f) | .cmd (.assert f) => [f]
  | .cmd (.step s) => s.conc.toList
  | _ => []

/-- a type as it may be declared: its type is `Type` and it contains no computation if it is closed -/
def ProperType (b : Env) (st : State) (t : Term) : Prop :=
  Typed b st t tType ∧ ((∀ s, Sub s t → ¬ IsParam s ∧ ¬ IsAny s) → ∀ s, Sub s t → ¬ IsComputation s)

/-- … and none at all -/
def PlainType (b : Env) (st : State) (t : Term) : Prop := Typed b st t tType ∧ ∀ s, Sub s t → ¬ IsComputation s

end Ethos.Spec
