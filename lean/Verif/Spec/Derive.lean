import Verif.Spec.Rule
/-
Derivations with the declared rules: natural deduction, where a rule with `:assumption` discharges a hypothesis.
-/
namespace Ethos.Spec
open Ethos Kind

/-- the formulas `ps` are the premises of the rule `d` when its parameters stand for the terms `ctx` gives them: one by one, or, with
`:premise-list`, the operator applied to them is the one premise; without premises that is the nil terminator of the operator -/
def PremisesAre (env : Env) (d : RuleDef) (ctx : Ctx) (ps : List Term) : Prop :=
  match d.plist with
  | none => ps = d.prems.map (subst (ctxSub ctx))
  | some c => if c = .node ANY [] then ps = d.prems.map (subst (ctxSub ctx)) else ∃ p, d.prems = [p] ∧
      (ps ≠ [] → Denotes env c ps (subst (ctxSub ctx) p)) ∧
      (ps = [] → ∃ ai, env.appInfo c = some ai ∧ isListNilAttr ai.attr = true ∧ ai.cons = some (subst (ctxSub ctx) p))

/-- with the parameters of `d` standing for the terms `ctx` gives them, its premises are `ps`, its requirements are met and its
conclusion evaluates to `F` -/
def Infers (env : Env) (d : RuleDef) (ctx : Ctx) (ps : List Term) (F : Term) : Prop :=
  PremisesAre env d ctx ps ∧ (∀ q ∈ d.reqs, ∃ v, IsValue v ∧ EvaluatesTo env ctx q.1 v ∧ EvaluatesTo env ctx q.2 v) ∧ EvaluatesTo env ctx d.conc F

/-- `F` is derived from the hypotheses `Γ` by the rules `R`, whose computations are done in one of the environments `E` -/
inductive Derives (R : RuleDef → Prop) (E : Env → Prop) : (Term → Prop) → Term → Prop
  | hyp (Γ F) : Γ F → Derives R E Γ F
  | rule (Γ d env ctx ps F) : R d → d.asm = none → E env → Infers env d ctx ps F → (∀ p ∈ ps, Derives R E Γ p) → Derives R E Γ F
  | discharge (Γ d q env ctx ps F) : R d → d.asm = some q → E env → Infers env d ctx ps F →
      (∀ p ∈ ps, Derives R E (fun G => G = subst (ctxSub ctx) q ∨ Γ G) p) → Derives R E Γ F

/-- the rules declared in a run -/
def RuleOf (b : Env) (n : Nat) (es : List Event) (st0 : State) (d : RuleDef) : Prop :=
  ∃ r s, At b n es st0 (.cmd (.declareRule r)) s ∧ Declares b n s r d

/-- the environments of the states of a run, up to the marks of overloaded symbols -/
def EnvOf (b : Env) (n : Nat) (es : List Event) (st0 : State) (env : Env) : Prop :=
  ∃ e s mark, At b n es st0 e s ∧ env = ({ s with scope := { s.scope with mark := mark } } : State).env b

/-- the formulas of the `assume` commands of a run -/
def Assumed (b : Env) (n : Nat) (es : List Event) (st0 : State) (F : Term) : Prop :=
  ∃ x f s s', At b n es st0 (.cmd (.assume x f)) s ∧ parseFormula b n f s = .ok (s', F)

/-- the formulas of the open `assume-push` commands: the first assumption of each open scope -/
def OpenHyp (st : State) (F : Term) : Prop := ∃ k ∈ st.asmCtx, st.asms[k]? = some F

/-- the command binds `x` to a proof -/
def Concludes (e : Event) (x : Name) : Prop :=
  (∃ f, e = .cmd (.assume x f)) ∨ (∃ f, e = .cmd (.assumePush x f)) ∨ ∃ s, e = .cmd (.step s) ∧ s.name = x

/-- What is asked of a run.  No `reset`.  In the scope of an `assume-push` no `push`, `pop` or `declare-consts`, and no definition of
a program whose name is bound already.  What is assumed and what is concluded by a step are closed formulas without computation.  A `step-pop` has as many arguments as
its rule, and a step of a rule without arguments, premises, assumption and `:conclusion-explicit` has no arguments and premises. -/
structure Orderly (b : Env) (n : Nat) (es : List Event) (st0 : State) : Prop where
  reset : .cmd .reset ∉ es
  push : ∀ k s, At b n es st0 (.cmd (.push k)) s → s.asmCtx = []
  pop : ∀ k s, At b n es st0 (.cmd (.pop k)) s → s.asmCtx = []
  consts : ∀ k ty s, At b n es st0 (.cmd (.declareConsts k ty)) s → s.asmCtx = []
  program : ∀ x ps args ret cs s, At b n es st0 (.cmd (.program x ps args ret (some cs))) s → s.asmCtx = [] ∨ s.scope.get x = none
  closed : ∀ e s s' x F, At b n es st0 e s → Concludes e x → replayEvent b n s e = .ok s' → s'.scope.get x = some (.node PROOF [F]) → IsValue F
  args : ∀ s r, .cmd (.step s) ∈ es → .cmd (.declareRule r) ∈ es → r.name = s.rule → s.isPop = true → s.args.length = r.args.length
  nullary : ∀ s r, .cmd (.step s) ∈ es → .cmd (.declareRule r) ∈ es → r.name = s.rule → Nullary r → s.args = [] ∧ s.premises = []

end Ethos.Spec
