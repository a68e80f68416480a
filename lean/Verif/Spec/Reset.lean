import Verif.Spec.Bindings
/-
Specification for C80: executions in which names are not overloaded when `reset` is executed.
-/
namespace Ethos.Spec
open Ethos

/-- whenever `reset` is executed, no name has several meanings -/
def PlainResets (b : Env) (n : Nat) : List Event → State → Prop
  | [], _ => True
  | e :: es, st => (e = .cmd .reset → ∀ x, st.scope.ov x = []) ∧ ∀ s1, replayEvent b n st e = .ok s1 → PlainResets b n es s1

end Ethos.Spec
