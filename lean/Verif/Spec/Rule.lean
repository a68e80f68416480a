import Verif.Spec.Run
import Verif.Spec.Desugar
import Verif.Spec.Command
/-
What a proof rule means: its declaration, and which inferences are instances of it.
-/
namespace Ethos.Spec
open Ethos Kind

/-- a proof rule: the pattern of the assumption it discharges, the patterns of its premises (with `:premise-list`, one pattern
and the operator that joins the premises), those of its arguments, the requirements and the conclusion; `explicit`: the
conclusion is given in the step and is matched like an argument -/
structure RuleDef where
  asm : Option Term
  prems : List Term
  plist : Option Term
  args : List Term
  reqs : List (Term × Term)
  conc : Term
  explicit : Bool

/-- `d` is the rule declared by the command `r` executed in `st`: its parts are the terms written in the command, in the
scope of its parameters -/
def Declares (b : Env) (n : Nat) (st : State) (r : SRule) (d : RuleDef) : Prop :=
  ∃ s1 s2 s3 s4 s5 s6, bindRuleParams b n r.params st.push = .ok s1 ∧ parseOpt b n r.assumption s1 = .ok (s2, d.asm) ∧
    parsePremises b n r.premises s2 = .ok (s3, d.prems, d.plist) ∧ parseList b n r.args s3 = .ok (s4, d.args) ∧
    parsePairs b n r.reqs s4 = .ok (s5, d.reqs) ∧ parseExpr b n r.conc s5 = .ok (s6, d.conc) ∧ d.explicit = r.explicit

/-- everything that is matched in a step, in order -/
def RuleDef.pats (d : RuleDef) : List Term :=
  d.args ++ (if d.explicit then [d.conc] else []) ++ d.asm.toList ++ d.prems.map fun p => .node PROOF [p]

/-- the assumption that a `step-pop` executed in `st` discharges: the first one made since the last open `assume-push` -/
def Discharges (st : State) (a : Term) : Prop := ∃ k r, st.asmCtx = k :: r ∧ st.asms[k]? = some a

/-- the premises as they are matched: one by one, or, with `:premise-list`, as one proof of the operator applied to the
proven formulas; without premises this is the nil terminator of the operator.  (The unknown type in place of the operator
counts as no operator.) -/
def Premises (env : Env) (plist : Option Term) (prems ps : List Term) : Prop :=
  match plist with
  | none => ps = prems
  | some c => if c = .node ANY [] then ps = prems else ∃ fs f, fs.length = prems.length ∧ (∀ (i : Nat) p, prems[i]? = some p → ∃ g r, p = .node PROOF (g :: r) ∧ fs[i]? = some g) ∧
      ps = [.node PROOF [f]] ∧ (fs ≠ [] → Denotes env c fs f) ∧ (fs = [] → ∃ ai, env.appInfo c = some ai ∧ isListNilAttr ai.attr = true ∧ ai.cons = some f)

/-- the terms that are matched in a step: its arguments, the stated conclusion if the rule is explicit, the discharged
assumption and the premises -/
structure Inputs (b : Env) (st : State) (d : RuleDef) (proven : Option Term) (prems args : List Term) (isPop : Bool) (inputs : List Term) : Prop where
  pop : isPop = d.asm.isSome
  stated : d.explicit = true → proven ≠ none
  parts : ∃ as ps, inputs = args ++ (if d.explicit then proven.toList else []) ++ as ++ ps ∧
    (if isPop then ∃ a, as = [a] ∧ Discharges st a else as = []) ∧ Premises (st.env b) d.plist prems ps

/-- `F` follows from `inputs` by the rule `d`: for one assignment of its parameters to terms the patterns are the inputs, both
sides of every requirement evaluate to the same value and the conclusion evaluates to `F`, which has nothing left to compute -/
def Instance (env : Env) (d : RuleDef) (inputs : List Term) (F : Term) : Prop :=
  ∃ ctx : Ctx, d.pats.map (subst (ctxSub ctx)) = inputs ∧ (∀ p, (∃ v, ctx.find p = some v) ↔ IsParam p ∧ ∃ q ∈ d.pats, Sub p q) ∧
    (∀ t ∈ inputs, IsValue t) ∧
    (∀ q ∈ d.reqs, ∃ v, IsValue v ∧ EvaluatesTo env ctx q.1 v ∧ EvaluatesTo env ctx q.2 v) ∧
    EvaluatesTo env ctx d.conc F ∧ ∀ s, Sub s F → ¬ IsComputation s ∧ ¬ IsAny s

/-- the rule has nothing to match -/
def Nullary (r : SRule) : Prop := r.args = [] ∧ r.explicit = false ∧ r.assumption = none ∧ r.premises = .each []

/-- The step `s` executed in `st`, with result `st'`, is justified by a rule that one of the commands `es` declared: its conclusion
`F` is an instance of the rule for the arguments, premises and assumption of the step, is the stated conclusion if there is
one, has Boolean type, and is what the name of the step proves afterwards. -/
def Justified (b : Env) (n : Nat) (es : List Event) (st0 st : State) (s : SStep) (st' : State) : Prop :=
  ∃ r s0 d, At b n es st0 (.cmd (.declareRule r)) s0 ∧ r.name = s.rule ∧ Declares b n s0 r d ∧
  ∃ s1 s2 s3 rule proven prems args inputs F, parseConc b n s.conc st = .ok (s1, proven) ∧
    parseList b n s.premises { s1 with used := rule :: s1.used } = .ok (s2, prems) ∧ parseList b n s.args s2 = .ok (s3, args) ∧
    Inputs b s3 d proven prems args s.isPop inputs ∧ Instance (s3.env b) d inputs F ∧ (∀ c, proven = some c → c = F) ∧
    (∃ ty, TypeResult (s3.env b) F (some ty) ∧ ty.kind = BOOL_TYPE) ∧ st'.scope.get s.name = some (.node PROOF [F])

/-- The `step-pop` `s` executed in `st`, with result `st'`, is an inference by a rule with `:assumption` that one of the commands
`es` declared, and it discharges the assumption it removes: for one assignment of the parameters of the rule, the assumption
pattern is the assumption, the argument patterns are the arguments, the premise patterns what the premises prove, and the
conclusion evaluates to what the name of the step proves afterwards. -/
def PopDischarges (b : Env) (n : Nat) (es : List Event) (st0 st : State) (s : SStep) (st' : State) : Prop :=
  ∃ r s0 d q, At b n es st0 (.cmd (.declareRule r)) s0 ∧ r.name = s.rule ∧ Declares b n s0 r d ∧ d.asm = some q ∧
  ∃ s1 s2 s3 rule proven prems args ps ctx F, parseConc b n s.conc st = .ok (s1, proven) ∧
    parseList b n s.premises { s1 with used := rule :: s1.used } = .ok (s2, prems) ∧ parseList b n s.args s2 = .ok (s3, args) ∧
    Discharges st (subst (ctxSub ctx) q) ∧ d.args.map (subst (ctxSub ctx)) = args ∧ Premises (s3.env b) d.plist prems ps ∧
    ps = d.prems.map (fun q => .node PROOF [subst (ctxSub ctx) q]) ∧ EvaluatesTo (s3.env b) ctx d.conc F ∧
    st'.scope.get s.name = some (.node PROOF [F])

/-- every `assume-push` of the sequence is closed in it by its own `step-pop`, and `reset` does not occur -/
inductive Nested : List Event → Prop
  | nil : Nested []
  | other (e es) : (∀ x f, e ≠ .cmd (.assumePush x f)) → (∀ s, e = .cmd (.step s) → s.isPop = false) → e ≠ .cmd .reset → Nested es →
      Nested (e :: es)
  | block (x f s es es') : s.isPop = true → Nested es → Nested es' → Nested (.cmd (.assumePush x f) :: (es ++ .cmd (.step s) :: es'))

end Ethos.Spec
