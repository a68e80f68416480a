import Verif.Spec.Typing
import Verif.Spec.Lists
/-
Specification of nil terminators.
-/
namespace Ethos.Spec
open Ethos Kind

/-- `o` is the operator `f` as written: `f` itself or `f` with explicit parameters -/
inductive Names (f : Term) : Term → Prop
  | plain : f.kind ≠ PARAMETERIZED → Names f f
  | param (ps : Term) (r : List Term) : Names f (.node PARAMETERIZED (ps :: f :: r))

/-- `f` is declared with attribute `a` (`:right-assoc-nil` etc.) and nil terminator `ct` -/
def Declared (env : Env) (f : Term) (a : Attr) (ct : Term) : Prop := ∃ k ov, env.appInfo f = some ⟨a, some ct, k, ov⟩

/-- the attributes that declare a nil terminator; `true`: left associative -/
inductive NilAttr : Attr → Bool → Prop
  | right : NilAttr .RIGHT_ASSOC_NIL false
  | rightNs : NilAttr .RIGHT_ASSOC_NS_NIL false
  | left : NilAttr .LEFT_ASSOC_NIL true
  | leftNs : NilAttr .LEFT_ASSOC_NS_NIL true

/-- the nil terminator for the operator `o` in an application with first argument `c`: the declared one, or, if it
has parameters, its value under the substitution found by typing `(o c)`, which must bind all of them to
closed terms -/
inductive NilFor (env : Env) (o c : Term) : Term → Term → Prop
  | const (ct : Term) : ct.kind ≠ PARAMETERIZED → NilFor env o c ct ct
  | infer (ps body : Term) (r : List Term) (ctx : Ctx) (k : Kind) (d ret ty nil : Term) :
      (k = FUNCTION_TYPE ∨ k = PROGRAM_TYPE) → TypeResult env o (some (.node k [d, ret])) →
      Fits env (ctxSub ctx) d c → BindsExactly ctx [d] → EvaluatesTo env ctx ret ty →
      (∀ s, Sub s (argPattern d) → ¬ IsAny s) →
      (∀ p ∈ ps.children, ∃ v, ctx.find p = some v ∧ ∀ s, Sub s v → ¬ IsParam s ∧ ¬ IsAny s) →
      EvaluatesTo env ctx body nil → NilFor env o c (.node PARAMETERIZED (ps :: body :: r)) nil

end Ethos.Spec
