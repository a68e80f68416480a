import Verif.Lemmas.RenameBuild
import Verif.Props.SafetyBuild
/-
C78: the choice of symbols does not matter.
-/
namespace Ethos.Props
open Ethos Kind Spec Term

/-- evaluating the renamed term with renamed bindings in the renamed state gives the renamed result, and is undefined or runs out of
calls exactly if the original does -/
theorem C78_evaluate (ρ : Renaming) (env : Env) (t : Term) (c : Ctx) (n : Nat) : (ops (ρ.env env) n).evaluate (ρ.term t) (ρ.ctx c) = ((ops env n).evaluate t c).map ρ.term :=
  (ren_ops ρ env n).evaluate t c

/-- so does applying a builtin operator; whether it applies is not changed -/
theorem C78_operator (ρ : Renaming) (env : Env) (k : Kind) (args : List Term) (n : Nat) :
    (ops (ρ.env env) n).evalOp k (args.map ρ.term) = ((ops env n).evalOp k args).map (Option.map ρ.term) :=
  (ren_ops ρ env n).evalOp k args

/-- so does computing a type; whether there is one is not changed -/
theorem C78_type (ρ : Renaming) (env : Env) (t : Term) (n : Nat) : (ops (ρ.env env) n).getType (ρ.term t) = ((ops env n).getType t).map (Option.map ρ.term) :=
  (ren_ops ρ env n).getType t

/-- so does running a program: the parameters of the cases can be chosen freely -/
theorem C78_program (ρ : Renaming) (env : Env) (args : List Term) (n : Nat) :
    evaluateProgramApp (ρ.env env) (ops (ρ.env env) n) (args.map ρ.term) = (evaluateProgramApp env (ops env n) args).map ρ.term := by
  unfold evaluateProgramApp
  rw [show args.map ρ.term = ρ.rens args from rfl, ren_evalProgram]
  refine out_bind _ _ fun r => ?_
  cases r with
  | none => simp only [Renaming.call, Option.map_none, Out.map, ren_node]; rfl
  | some r => exact (ren_ops ρ env n).evaluate r.1 r.2

/-- so does building a term: expanding operators with attributes, choosing overloads, reducing -/
theorem C78_build (ρ : Renaming) (env : Env) (k : Kind) (cs : List Term) (n m : Nat) :
    mkExpr (ρ.env env) (ops (ρ.env env) n) m k (cs.map ρ.term) = (mkExpr env (ops env n) m k cs).map ρ.term :=
  ren_mkExpr (ren_ops ρ env n) env m k cs

theorem ren_lit_iff (ρ : Renaming) {t : Term} {l : Lit} : ρ.term t = .lit l ↔ t = .lit l := by
  have h := ren_inj ρ (a := t) (b := .lit l)
  rwa [ren_lit] at h

/-- a condition that evaluates to a literal, such as the result of a check, has the same value with other symbols -/
theorem C78_check (ρ : Renaming) (env : Env) (t : Term) (c : Ctx) (l : Lit) (n : Nat) :
    (ops (ρ.env env) n).evaluate (ρ.term t) (ρ.ctx c) = .ok (.lit l) ↔ (ops env n).evaluate t c = .ok (.lit l) := by
  rw [C78_evaluate]
  cases (ops env n).evaluate t c <;> simp [Out.map, ren_lit_iff]

/-- two terms are the same exactly if they are the same after renaming, so that nothing is confused -/
theorem C78_injective (ρ : Renaming) (s t : Term) : ρ.term s = ρ.term t ↔ s = t := ren_inj ρ

/-- a symbol with a definition, a type or an attribute has that of the symbol it stands for in the renamed state -/
theorem C78_state (ρ : Renaming) (env : Env) (t : Term) : (ρ.env env).symType (ρ.term t) = (env.symType t).map ρ.term ∧
    (ρ.env env).appInfo (ρ.term t) = (env.appInfo t).map ρ.info ∧ (ρ.env env).symName (ρ.term t) = env.symName t ∧ (ρ.env env).hash (ρ.term t) = env.hash t :=
  ⟨env_symType ρ env t, env_appInfo ρ env t, env_symName ρ env t, env_hash ρ env t⟩

theorem evalGround_names {env : Env} {f : Term → List Nat} (h : ∀ t, t.kind = CONST ∨ t.kind = VARIABLE → f t = env.symName t) (o : Ops) (k : Kind) (args : List Term) :
    evalGround { env with symName := f } o k args = evalGround env o k args := by
  by_cases hk : k = EVAL_NAME_OF
  · subst hk
    simp only [evalGround]
    cases argO args 0 with
    | ok a =>
      simp only [Out.bind]
      split
      · rw [h a ‹_›]
      · rfl
    | _ => rfl
  · unfold evalGround
    split
    all_goals first
      | exact absurd rfl hk
      | rfl

theorem ops_names {env : Env} {f : Term → List Nat} (h : ∀ t, t.kind = CONST ∨ t.kind = VARIABLE → f t = env.symName t) : ∀ n, ops { env with symName := f } n = ops env n
  | 0 => rfl
  | n+1 => by
    have ih := ops_names h n
    have hop : ∀ k args, opStep { env with symName := f } (ops env n) k args = opStep env (ops env n) k args := fun k args => by
      unfold opStep
      split
      · rfl
      · rfl
      · rw [evalGround_names h]
    simp only [ops, ih]
    congr 1
    funext k args
    exact hop k args

theorem overloadLoop_names (env : Env) (f : Term → List Nat) (o : Ops) (mk : Kind → List Term → Out Term) (cs : List Term) (r : Option Term) (b : Bool) (l : List Term) :
    overloadLoop { env with symName := f } o mk cs r b l = overloadLoop env o mk cs r b l := by
  induction l with
  | nil => rfl
  | cons a l ih =>
    rw [overloadLoop, overloadLoop, ih]
    rfl

theorem mkExprStep_names (env : Env) (f : Term → List Nat) (o : Ops) (mk : Kind → List Term → Out Term) (k : Kind) (cs : List Term) :
    mkExprStep { env with symName := f } o mk k cs = mkExprStep env o mk k cs := by
  simp only [mkExprStep, mkApp, mkAs, getOverload, overloadLoop_names]
  rfl

/-- the names of parameters, programs and rules, of symbols other than constants and variables, are not used in any way when a term
is evaluated, typed or built -/
theorem C78_names {env : Env} {f : Term → List Nat} (h : ∀ t, t.kind = CONST ∨ t.kind = VARIABLE → f t = env.symName t) (n m : Nat) :
    ops { env with symName := f } n = ops env n ∧ mkExpr { env with symName := f } (ops { env with symName := f } n) m = mkExpr env (ops env n) m := by
  refine ⟨ops_names h n, ?_⟩
  rw [ops_names h]
  induction m with
  | zero => rfl
  | succ m ih =>
    funext k cs
    rw [mkExpr, mkExpr, ih, mkExprStep_names]

/-- the names of constants are used: `eo::nameof` returns them -/
theorem C78_nameof : ∃ (env : Env) (f : Term → List Nat) (t : Term), t.kind = CONST ∧ (ops { env with symName := f } 3).evalOp EVAL_NAME_OF [t] ≠ (ops env 3).evalOp EVAL_NAME_OF [t] :=
  ⟨safeEnv, fun _ => nm "other", .sym CONST 3, rfl, by decide +kernel⟩

/-! ### Example -/

/-- the parameter `PARAM 21` is exchanged with `PARAM 5`, the program `PROGRAM_CONST 20` with `PROGRAM_CONST 7` -/
def rnTo (k : Kind) (i : Nat) : Nat :=
  if k = PARAM then if i = 21 then 5 else if i = 5 then 21 else i
  else if k = PROGRAM_CONST then if i = 20 then 7 else if i = 7 then 20 else i
  else i

theorem rnTo_self (k : Kind) (i : Nat) : rnTo k (rnTo k i) = i := by
  unfold rnTo
  split
  · repeat' split
    all_goals omega
  · split
    · repeat' split
      all_goals omega
    · rfl

def rnEx : Renaming := ⟨rnTo, rnTo, rnTo_self, rnTo_self⟩

/-- the renamed program has another name and another parameter, and gives the same result -/
example : rnEx.term safePar = .sym PARAM 5 ∧ rnEx.term safeProg = .sym PROGRAM_CONST 7 ∧ rnEx.term safeProg ≠ safeProg ∧
    (rnEx.env safeEnv).program (.sym PROGRAM_CONST 7) = some (.node PROGRAM [.node TUPLE [.node APPLY [.sym PROGRAM_CONST 7, .sym PARAM 5], rnEx.term safeBody]]) ∧
    (rnEx.env safeEnv).program safeProg = none ∧
    (ops safeEnv 40).evaluate (.node APPLY [safeProg, .lit (.bool true)]) [] = .ok (.lit (.bool false)) ∧
    (ops (rnEx.env safeEnv) 40).evaluate (.node APPLY [.sym PROGRAM_CONST 7, .lit (.bool true)]) [] = .ok (.lit (.bool false)) := by decide +kernel
/-- building `(and x x)` with other symbols -/
example : mkExpr (rnEx.env sbEnv) (ops (rnEx.env sbEnv) 20) 20 APPLY ([sbAnd, safePar, safePar].map rnEx.term) =
    .ok (app2 sbAnd (.sym PARAM 5) (app2 sbAnd (.sym PARAM 5) (.lit (.bool true)))) := by decide +kernel

end Ethos.Props
