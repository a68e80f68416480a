import Verif.Spec.Run
/-
Specification of the typing of applications.
-/
namespace Ethos.Spec
open Ethos Kind

/-- the pattern in a declared argument type: the quoted term or the type itself -/
def argPattern : Term → Term
  | .node QUOTE_TYPE (q :: _) => q
  | d => d

/-- the argument `t` fits the declared argument type `d` under the instantiation `σ`: its type is the instance of
`d`, or, if `d` is `(eo::quote q)`, `t` is the instance of `q` and has the type of `q` -/
inductive Fits (env : Env) (σ : Term → Term) : Term → Term → Prop
  | plain (d t : Term) : d.kind ≠ QUOTE_TYPE → TypeResult env t (some (subst σ d)) → Fits env σ d t
  | quote (q t ty : Term) (r : List Term) : TypeResult env t (some ty) → TypeResult env q (some ty) → subst σ q = t →
      Fits env σ (.node QUOTE_TYPE (q :: r)) t

/-- the bindings `ctx` are a substitution for exactly the parameters of `ds` -/
def BindsExactly (ctx : Ctx) (ds : List Term) : Prop :=
  ∀ p, (∃ v, ctx.find p = some v) ↔ IsParam p ∧ ∃ d ∈ ds, Sub p (argPattern d)

/-- `(hd args…)` has type `ty`: the head has a function or program type with as many argument types as there are
arguments, one substitution for their parameters makes every argument fit, and the return type evaluates
to `ty` under it -/
structure AppTyping (env : Env) (hd : Term) (args : List Term) (ty : Term) : Prop where
  intro ::
  prop : ∃ k doms ret ctx, (k = FUNCTION_TYPE ∨ k = PROGRAM_TYPE) ∧ TypeResult env hd (some (.node k (doms ++ [ret]))) ∧
    doms.length = args.length ∧ BindsExactly ctx doms ∧
    (∀ (i : Nat) (d t : Term), doms[i]? = some d → args[i]? = some t → Fits env (ctxSub ctx) d t) ∧
    EvaluatesTo env ctx ret ty

end Ethos.Spec
