import Verif.Model.Parse
/- C73: the outcome of a computation that the model bounds. -/
namespace Ethos.Spec
open Ethos

/-- `run n d` is what the model computes with at most `n` nested evaluations and at most `d` nested files; `fuel` says that a bound was reached.
It settles on the outcome `r`: some bounds are large enough, and no larger ones change it. -/
def Settles {α : Type} (run : Nat → Nat → Run α) (r : Run α) : Prop :=
  r ≠ .fuel ∧ ∃ n d, ∀ n' d', n ≤ n' → d ≤ d' → run n' d' = r

end Ethos.Spec
