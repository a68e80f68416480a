import Verif.Spec.Term
/-
C79: terms in which bound parameters can be replaced.
-/
namespace Ethos.Spec
open Ethos Kind

/-- every `eo::ite` in the term has its three arguments -/
def IteComplete (t : Term) : Prop := ∀ s, Sub s t → s.kind = EVAL_IF_THEN_ELSE → s.children ≠ [] → s.children.length = 3

end Ethos.Spec
