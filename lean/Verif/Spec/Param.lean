import Verif.Spec.Program
/-
The type of a constant declared with parameters.
-/
namespace Ethos.Spec
open Ethos Kind

/-- the explicit parameters, in order -/
def explicit (vs : List (Term × SParam)) : List (Term × SParam) := vs.filter fun v => !v.2.implicit

/-- the argument at `i` must be known to say what the rest of the type is: the parameter `p` occurs in the type that is returned,
or in the type of a later argument that is not opaque -/
def Dependent (ty : Term → Option Term) (es : List (Term × SParam)) (ret : Term) (i : Nat) (p : Term) : Prop :=
  Sub p ret ∨ ∃ j q t, i < j ∧ es[j]? = some q ∧ q.2.opq = false ∧ ty q.1 = some t ∧ Sub p t

/-- the arguments of a constant with the explicit parameters `es` and the return type `ret`: first those that are opaque.  A
parameter on which the rest depends is quoted, and has a closed type; for the others the argument has the type of the parameter. -/
structure Arguments (ty : Term → Option Term) (es : List (Term × SParam)) (ret : Term) (opaqs args : List Term) : Prop where
  first : ∀ i p, es[i]? = some p → (p.2.opq = true ↔ i < opaqs.length)
  length : es.length = opaqs.length + args.length
  quoted : ∀ i p, es[i]? = some p → Dependent ty es ret i p.1 → (opaqs ++ args)[i]? = some (.node QUOTE_TYPE [p.1]) ∧ ∃ t, ty p.1 = some t ∧ NoParam t
  plain : ∀ i p, es[i]? = some p → ¬ Dependent ty es ret i p.1 → ∃ t, ty p.1 = some t ∧ (opaqs ++ args)[i]? = some t

/-- `t` takes the arguments `args` and returns `r`, where conditions on results do not count -/
inductive Returns : Term → List Term → Term → Prop
  | here (r : Term) : (∀ a q, r ≠ .node FUNCTION_TYPE [a, q]) → (∀ x y q, r ≠ .node EVAL_REQUIRES [x, y, q]) → Returns r [] r
  | arrow (a q : Term) (args : List Term) (r : Term) : Returns q args r → Returns (.node FUNCTION_TYPE [a, q]) (a :: args) r
  | requires (x y q : Term) (args : List Term) (r : Term) : Returns q args r → Returns (.node EVAL_REQUIRES [x, y, q]) args r

/-- the type of a constant takes the arguments `args` and returns `r`: a condition counts if there are no arguments -/
def Result (t : Term) (args : List Term) (r : Term) : Prop :=
  ((∃ a q, t = .node FUNCTION_TYPE [a, q]) ∧ Returns t args r) ∨ ((∀ a q, t ≠ .node FUNCTION_TYPE [a, q]) ∧ args = [] ∧ r = t)

/-- the arguments do not determine the result: it has a parameter that does not occur in their types -/
def Undetermined (opaqs : List Term) (t : Term) : Prop :=
  ∃ args r p, Result t args r ∧ IsParam p ∧ Sub p r ∧ ∀ a ∈ opaqs ++ args, ¬ Sub p a

end Ethos.Spec
