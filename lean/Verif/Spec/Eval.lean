import Verif.Spec.Term
/-
Specification of evaluation: a big-step relation without evaluation stack, visited sets or caches.

`O k args r`: applying the builtin operator `k` to the values of its arguments gives `r` (`none`: it does not
evaluate).  `P args r`: the first case of the program `args[0]` matching `args` has the given right-hand side
and bindings (`none`: no case applies).
-/
namespace Ethos.Spec
open Ethos Kind

/-- the Boolean values -/
def boolVal (b : Bool) : Term := .lit (.bool b)

/-- a program symbol -/
def IsProg (t : Term) : Prop := t.kind = PROGRAM_CONST ∧ t.children = []

mutual
/-- `Eval O P ctx t v`: under the bindings `ctx`, `t` evaluates to `v` -/
inductive Eval (O : Kind → List Term → Option Term → Prop) (P : List Term → Option (Term × Ctx) → Prop) :
    Ctx → Term → Term → Prop
  /-- a bound parameter is replaced -/
  | bound (ctx t v) : IsParam t → ctx.find t = some v → Eval O P ctx t v
  /-- an unbound parameter stays -/
  | free (ctx t) : IsParam t → ctx.find t = none → Eval O P ctx t t
  /-- other leaves stay -/
  | leaf (ctx t) : ¬ IsParam t → t.children = [] → Eval O P ctx t t
  /-- `eo::ite` evaluates its condition, then only the selected branch -/
  | ite (ctx c x y b v) : Eval O P ctx c (boolVal b) → Eval O P ctx (if b then x else y) v →
      Eval O P ctx (.node EVAL_IF_THEN_ELSE [c, x, y]) v
  /-- if the condition is not a Boolean value, everything is evaluated and `eo::ite` stays -/
  | iteStuck (ctx c x y c' x' y') : Eval O P ctx c c' → (∀ b, c' ≠ boolVal b) → Eval O P ctx x x' → Eval O P ctx y y' →
      Eval O P ctx (.node EVAL_IF_THEN_ELSE [c, x, y]) (.node EVAL_IF_THEN_ELSE [c', x', y'])
  /-- an `eo::ite` without three arguments stays as it is -/
  | iteBad (ctx cs) : cs ≠ [] → cs.length ≠ 3 → Eval O P ctx (.node EVAL_IF_THEN_ELSE cs) (.node EVAL_IF_THEN_ELSE cs)
  /-- another builtin operator applied to the values of its arguments -/
  | op (ctx k cs cs' v) : isLiteralOp k = true → k ≠ EVAL_IF_THEN_ELSE → cs ≠ [] → EvalList O P ctx cs cs' →
      O k cs' (some v) → Eval O P ctx (.node k cs) v
  | opStuck (ctx k cs cs') : isLiteralOp k = true → k ≠ EVAL_IF_THEN_ELSE → cs ≠ [] → EvalList O P ctx cs cs' →
      O k cs' none → Eval O P ctx (.node k cs) (.node k cs')
  /-- a program applied to the values of its arguments: the right-hand side is returned as it is when it has
  no parameters or nothing was bound, and evaluated under the bindings otherwise -/
  | progStuck (ctx k cs p ps) : k = APPLY ∨ k = APPLY_OPAQUE → EvalList O P ctx cs (p :: ps) → IsProg p →
      P (p :: ps) none → Eval O P ctx (.node k cs) (.node k (p :: ps))
  | progConst (ctx k cs p ps body ctx') : k = APPLY ∨ k = APPLY_OPAQUE → EvalList O P ctx cs (p :: ps) →
      IsProg p → P (p :: ps) (some (body, ctx')) → body.ground = true ∨ ctx' = [] →
      Eval O P ctx (.node k cs) body
  | progRun (ctx k cs p ps body ctx' v) : k = APPLY ∨ k = APPLY_OPAQUE → EvalList O P ctx cs (p :: ps) →
      IsProg p → P (p :: ps) (some (body, ctx')) → body.ground = false → ctx' ≠ [] →
      Eval O P ctx' body v → Eval O P ctx (.node k cs) v
  /-- another application -/
  | app (ctx k cs p ps) : k = APPLY ∨ k = APPLY_OPAQUE → EvalList O P ctx cs (p :: ps) → ¬ IsProg p →
      Eval O P ctx (.node k cs) (.node k (p :: ps))
  /-- every other term: its children are evaluated -/
  | other (ctx k cs cs') : isLiteralOp k = false → k ≠ APPLY → k ≠ APPLY_OPAQUE → cs ≠ [] →
      EvalList O P ctx cs cs' → Eval O P ctx (.node k cs) (.node k cs')
/-- the same for lists of terms, element by element -/
inductive EvalList (O : Kind → List Term → Option Term → Prop) (P : List Term → Option (Term × Ctx) → Prop) :
    Ctx → List Term → List Term → Prop
  | nil (ctx) : EvalList O P ctx [] []
  | cons (ctx c cs v vs) : Eval O P ctx c v → EvalList O P ctx cs vs → EvalList O P ctx (c :: cs) (v :: vs)
end

end Ethos.Spec
