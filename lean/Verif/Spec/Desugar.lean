import Verif.Model.Desugar
import Verif.Spec.Nil
/-
Specification of the terms denoted by parsed applications (user_manual.md 296-560, 1220-1240).
-/
namespace Ethos.Spec
open Ethos Kind

/-- building the term of kind `k` with the given children terminates and gives `t` -/
def Builds (env : Env) (k : Kind) (cs : List Term) (t : Term) : Prop := ∃ n, mkExpr env (ops env n) n k cs = .ok t

/-- the parsed application `(f t1 … tn)` denotes `t` -/
def Denotes (env : Env) (f : Term) (args : List Term) (t : Term) : Prop := Builds env APPLY (f :: args) t

/-- `f` is declared with attribute `a` and the argument `c` of the attribute, and is neither overloaded nor builtin syntax -/
def HasAttr (env : Env) (f : Term) (a : Attr) (c : Option Term) : Prop := env.appInfo f = some ⟨a, c, NONE, none⟩

/-- `t` is a parameter marked `:list` -/
def IsListParam (env : Env) (t : Term) : Prop := ∃ ai, env.appInfo t = some ai ∧ ai.attr = .LIST

/-- `((f t1) … tn)`: the last argument is applied last -/
inductive Curry (f : Term) : List Term → Term → Prop
  | nil : Curry f [] f
  | snoc (ts t u) : Curry f ts u → Curry f (ts ++ [t]) (.node APPLY [u, t])

/-- `(f t1 (f t2 … tn))` -/
inductive RightNest (f : Term) : List Term → Term → Prop
  | last (t) : RightNest f [t] t
  | cons (t ts u) : RightNest f ts u → RightNest f (t :: ts) (bin f t u)

/-- `(f … (f t1 t2) … tn)` -/
inductive LeftNest (f : Term) : List Term → Term → Prop
  | first (t) : LeftNest f [t] t
  | snoc (t ts u) : LeftNest f ts u → LeftNest f (ts ++ [t]) (bin f u t)

/-- `(f t1 … tn)` for a `:right-assoc-nil` operator: the arguments marked `:list` are concatenated, the others are
prepended; the list ends in the last argument if it is marked `:list` and in `nil` otherwise -/
inductive RightNil (env : Env) (f nil : Term) : List Term → Term → Prop
  | lastList (t) : IsListParam env t → RightNil env f nil [t] t
  | last (t) : ¬ IsListParam env t → RightNil env f nil [t] (bin f t nil)
  | list (t ts u) : IsListParam env t → RightNil env f nil ts u → RightNil env f nil (t :: ts) (.node EVAL_LIST_CONCAT [f, t, u])
  | elem (t ts u) : ¬ IsListParam env t → RightNil env f nil ts u → RightNil env f nil (t :: ts) (bin f t u)

/-- the same for a `:left-assoc-nil` operator, from the left -/
inductive LeftNil (env : Env) (f nil : Term) : List Term → Term → Prop
  | firstList (t) : IsListParam env t → LeftNil env f nil [t] t
  | first (t) : ¬ IsListParam env t → LeftNil env f nil [t] (bin f nil t)
  | list (t ts u) : IsListParam env t → LeftNil env f nil ts u → LeftNil env f nil (ts ++ [t]) (.node EVAL_LIST_CONCAT [f, u, t])
  | elem (t ts u) : ¬ IsListParam env t → LeftNil env f nil ts u → LeftNil env f nil (ts ++ [t]) (bin f u t)

/-- the terminator used when the first argument is `t1`: the nil terminator of `f` if it can be determined, and
otherwise (a parameter of the declared terminator is not instantiated by a closed term) the term that computes it
later, `(eo::nil f (eo::typeof t1))` -/
inductive Terminator (env : Env) (f t1 ct : Term) : Term → Prop
  | known (nil) : NilFor env f t1 ct nil → Terminator env f t1 ct nil
  | later (ps body : Term) (r : List Term) (ctx : Ctx) (k : Kind) (d ret ty p : Term) :
      ct = .node PARAMETERIZED (ps :: body :: r) →
      (k = FUNCTION_TYPE ∨ k = PROGRAM_TYPE) → TypeResult env f (some (.node k [d, ret])) →
      Fits env (ctxSub ctx) d t1 → BindsExactly ctx [d] → EvaluatesTo env ctx ret ty →
      (∀ s, Sub s (argPattern d) → ¬ IsAny s) →
      p ∈ ps.children → (¬ ∃ v, ctx.find p = some v ∧ ∀ s, Sub s v → ¬ IsParam s ∧ ¬ IsAny s) →
      Terminator env f t1 ct (.node EVAL_NIL [f, .node EVAL_TYPE_OF [t1]])

/-- the pairs of neighbours, in order -/
def neighbours (ts : List Term) : List (Term × Term) := ts.zip ts.tail

/-- the pairs of an element and a later one, in order -/
def pairs : List Term → List (Term × Term)
  | [] => []
  | t :: ts => ts.map (fun u => (t, u)) ++ pairs ts

/-- there are at least two arguments not marked `:list` -/
def TwoElems (env : Env) (args : List Term) : Prop :=
  ∃ (i j : Nat) (a b : Term), i < j ∧ args[i]? = some a ∧ args[j]? = some b ∧ ¬ IsListParam env a ∧ ¬ IsListParam env b

/-- the term documented for `(f t1 … tn)` when `f` is declared with attribute `a` and argument `c` of the attribute -/
inductive AppForm (env : Env) (f : Term) : Attr → Option Term → List Term → Term → Prop
  | plain (args t) : args ≠ [] → f.kind ≠ LAMBDA → f.kind ≠ PROGRAM_CONST → f.kind ≠ PROOF_RULE →
      Curry f args t → AppForm env f .NONE none args t
  | rightAssoc (args t) : RightNest f args t → AppForm env f .RIGHT_ASSOC none args t
  | leftAssoc (args t) : LeftNest f args t → AppForm env f .LEFT_ASSOC none args t
  | rightNil (ct t1 ts nil t) : Terminator env f t1 ct nil → RightNil env f nil (t1 :: ts) t →
      AppForm env f .RIGHT_ASSOC_NIL (some ct) (t1 :: ts) t
  | leftNil (ct t1 ts nil t) : Terminator env f t1 ct nil → LeftNil env f nil (t1 :: ts) t →
      AppForm env f .LEFT_ASSOC_NIL (some ct) (t1 :: ts) t
  | rightNs (ct t1 ts nil t) : Terminator env f t1 ct nil → RightNil env f nil (t1 :: ts) t → TwoElems env (t1 :: ts) →
      AppForm env f .RIGHT_ASSOC_NS_NIL (some ct) (t1 :: ts) t
  | leftNs (ct t1 ts nil t) : Terminator env f t1 ct nil → LeftNil env f nil (t1 :: ts) t → TwoElems env (t1 :: ts) →
      AppForm env f .LEFT_ASSOC_NS_NIL (some ct) (t1 :: ts) t
  | rightElim (ct t1 ts nil u t) : Terminator env f t1 ct nil → RightNil env f nil (t1 :: ts) u →
      ¬ TwoElems env (t1 :: ts) → Builds env EVAL_LIST_SINGLETON_ELIM [f, u] t →
      AppForm env f .RIGHT_ASSOC_NS_NIL (some ct) (t1 :: ts) t
  | leftElim (ct t1 ts nil u t) : Terminator env f t1 ct nil → LeftNil env f nil (t1 :: ts) u →
      ¬ TwoElems env (t1 :: ts) → Builds env EVAL_LIST_SINGLETON_ELIM [f, u] t →
      AppForm env f .LEFT_ASSOC_NS_NIL (some ct) (t1 :: ts) t
  | chain2 (a b c) : c.kind ≠ PARAMETERIZED → AppForm env f .CHAINABLE (some c) [a, b] (bin f a b)
  | chain (c args t) : c.kind ≠ PARAMETERIZED → args.length ≠ 2 →
      Denotes env c ((neighbours args).map fun p => bin f p.1 p.2) t → AppForm env f .CHAINABLE (some c) args t
  | pair2 (a b c) : c.kind ≠ PARAMETERIZED → AppForm env f .PAIRWISE (some c) [a, b] (bin f a b)
  | pairwise (c args t) : c.kind ≠ PARAMETERIZED → args.length ≠ 2 →
      Denotes env c ((pairs args).map fun p => bin f p.1 p.2) t → AppForm env f .PAIRWISE (some c) args t
  | argList1 (c l) : c.kind ≠ PARAMETERIZED → IsListParam env l → AppForm env f .ARG_LIST (some c) [l] (.node APPLY [f, l])
  | argList (c args l) : c.kind ≠ PARAMETERIZED → ¬ (∃ x, args = [x] ∧ IsListParam env x) → Denotes env c args l →
      AppForm env f .ARG_LIST (some c) args (.node APPLY [f, l])

/-- `k` applied to the arguments from left to right, every application evaluating -/
inductive LeftFold (env : Env) (k : Kind) : Term → List Term → Term → Prop
  | nil (a) : LeftFold env k a [] a
  | cons (a b c d r) : OpResult env k [a, b] (some c) → LeftFold env k c r d → LeftFold env k a (b :: r) d

/-- what an argument of a `:right-assoc-nil` application contributes under the bindings `ctx`: the elements of the
list it stands for if it is marked `:list`, otherwise its value -/
inductive Contributes (env : Env) (ctx : Ctx) (f nil : Term) : Term → List Term → Prop
  | list (t xs) : IsListParam env t → EvaluatesTo env ctx t (rlist f nil xs) → Contributes env ctx f nil t xs
  | elem (t v) : ¬ IsListParam env t → EvaluatesTo env ctx t v → Contributes env ctx f nil t [v]

end Ethos.Spec
