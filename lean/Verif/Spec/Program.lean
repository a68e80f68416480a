import Verif.Spec.Rule
/-
The cases of a program as read from a command.
-/
namespace Ethos.Spec
open Ethos Kind

/-- no parameter occurs in `t` -/
def NoParam (t : Term) : Prop := ∀ s, Sub s t → ¬ IsParam s

/-- the command `(program x (ps) :signature (args) ret (cs))` executed in `st` defines the program `v` by the cases `pairs`: they
are the terms written in the command, in the scope of its parameters and of the program -/
def Cases (b : Env) (n : Nat) (st : State) (x : Name) (ps : List SParam) (args : List SExp) (ret : SExp) (cs : List (SExp × SExp)) (v : Term)
    (pairs : List (Term × Term)) : Prop :=
  ∃ s1 s2 ats s3 rt s4 isNew s5, bindRuleParams b n ps st.push = .ok s1 ∧ parseTypeList b n true args s1 = .ok (s2, ats) ∧
    parseType b n false true ret s2 = .ok (s3, rt) ∧ progVar b n s3 x (.node PROGRAM_TYPE (ats ++ [rt])) = .ok (s4, v, isNew) ∧
    parsePairs b n cs s4 = .ok (s5, pairs)

/-- every builtin operator applied in `t` computes a literal or selects one of its arguments: it is not a list operator, nor one of
those that return types, variables, constructors and selectors -/
def Selects (t : Term) : Prop :=
  ∀ k cs, Sub (.node k cs) t → isLiteralOp k = true → isListLiteralOp k = false ∧ k ≠ EVAL_TYPE_OF ∧ k ≠ EVAL_VAR ∧ k ≠ EVAL_DT_CONSTRUCTORS ∧ k ≠ EVAL_DT_SELECTORS

/-- the right-hand sides of all programs are such terms, and those without parameters, or of cases without parameters, have nothing
to compute -/
def ReducedPrograms (env : Env) : Prop :=
  ∀ p prog, env.program p = some prog → ∀ c ∈ prog.children, ∀ pat body r, c.children = pat :: body :: r →
    Selects body ∧ (NoParam body ∨ (∀ q ∈ pat.children.tail, NoParam q) → IsValue body)

end Ethos.Spec
