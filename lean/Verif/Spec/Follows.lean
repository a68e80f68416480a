import Verif.Spec.Rule
import Verif.Spec.Run
/-
What it means that a formula follows by a step.
-/
namespace Ethos.Spec
open Ethos Kind

/-- the step `s` names the rule `d`, and for what it says in `st` the formula `F` is the conclusion of an instance of the rule -/
def Follows (b : Env) (n : Nat) (st : State) (rule : Term) (d : RuleDef) (s : SStep) (F : Term) : Prop :=
  ∃ s1 s2 s3 proven prems args inputs ty, parseConc b n s.conc st = .ok (s1, proven) ∧
    parseList b n s.premises { s1 with used := rule :: s1.used } = .ok (s2, prems) ∧ parseList b n s.args s2 = .ok (s3, args) ∧
    Inputs b s3 d proven prems args s.isPop inputs ∧ Instance (s3.env b) d inputs F ∧ (∀ c, proven = some c → c = F) ∧
    TypeResult (s3.env b) F (some ty) ∧ ty.kind = BOOL_TYPE ∧ (s.isPop = true → ∃ s4, s3.popAssumption = .ok s4)

end Ethos.Spec
