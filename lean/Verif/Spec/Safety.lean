import Verif.Model.Desugar
/-
Terms and states in which every application of a builtin operator has the number of arguments the operator takes.
-/
namespace Ethos.Spec
open Ethos Kind

/-- the number of arguments of a builtin operator; the operators not listed have two (`eo::add` and the other n-ary operators are
applied to two arguments at a time) -/
def opArity : Kind → Nat
  | EVAL_IS_OK | EVAL_TYPE_OF | EVAL_NAME_OF | EVAL_HASH | EVAL_NOT | EVAL_NEG | EVAL_IS_NEG | EVAL_LENGTH | EVAL_TO_INT | EVAL_TO_RAT
  | EVAL_TO_STRING | EVAL_IS_Z | EVAL_IS_Q | EVAL_IS_BIN | EVAL_IS_STR | EVAL_IS_BOOL | EVAL_IS_VAR | EVAL_DT_CONSTRUCTORS
  | EVAL_DT_SELECTORS => 1
  | EVAL_REQUIRES | EVAL_IF_THEN_ELSE | EVAL_EXTRACT | EVAL_CONS | EVAL_LIST_CONCAT | EVAL_LIST_NTH | EVAL_LIST_FIND | EVAL_LIST_ERASE
  | EVAL_LIST_ERASE_ALL | EVAL_LIST_MINCLUDE | EVAL_LIST_MEQ | EVAL_LIST_DIFF | EVAL_LIST_INTER => 3
  | _ => 2

/-- a term of kind `k` may have `n` parts: operators have their arguments, an application has a head, a proof, a quoted type and a
datatype constructor with its type have what they are made of, a lambda and a parameterized term have their list of variables and
their body -/
structure Formed (k : Kind) (n : Nat) : Prop where
  op : isLiteralOp k = true → n = opArity k
  app : k = APPLY ∨ k = APPLY_OPAQUE ∨ k = PROOF ∨ k = QUOTE_TYPE → 1 ≤ n
  body : k = LAMBDA ∨ k = PARAMETERIZED → 2 ≤ n

/-- all parts of a term are formed as required -/
inductive Shaped : Term → Prop
  | sym (k : Kind) (i : Nat) : Formed k 0 → Shaped (.sym k i)
  | lit (l : Lit) : Shaped (.lit l)
  | node (k : Kind) (cs : List Term) : Formed k cs.length → (∀ c ∈ cs, Shaped c) → Shaped (.node k cs)

/-- all terms kept in the state are formed as required; a program is a list of pairs of a pattern and a term; a datatype has a list
of constructors -/
structure ShapedEnv (env : Env) : Prop where
  symType : ∀ t ty, env.symType t = some ty → Shaped ty
  cons : ∀ t ai c, env.appInfo t = some ai → ai.cons = some c → Shaped c
  datatype : ∀ t ai, env.appInfo t = some ai → ai.attr = .DATATYPE → ∃ c, ai.cons = some c
  program : ∀ p prog, env.program p = some prog → ∀ c ∈ prog.children, ∃ pat body r, c.children = pat :: body :: r ∧ Shaped body
  litRule : ∀ k t, env.litRule k = some t → Shaped t
  boundVar : ∀ x ty, Shaped ty → Shaped (env.boundVar x ty)
  tmp : ∀ ty, Shaped ty → Shaped (env.tmp ty)
  listCons : Shaped env.listCons
  listNil : Shaped env.listNil
  listType : Shaped env.listType
  proofType : Shaped env.proofType

/-- what the state says about operators that are applied: the operator that combines a chain, pairs or a list of arguments is known
and is not a builtin operator, the number of opaque arguments is known, defined programs have a type -/
structure BuildEnv (env : Env) : Prop extends ShapedEnv env where
  combining : ∀ t ai, env.appInfo t = some ai → ai.attr = .CHAINABLE ∨ ai.attr = .PAIRWISE ∨ ai.attr = .ARG_LIST →
    ∃ c, ai.cons = some c ∧ c.kind ≠ PARAMETERIZED ∧ ∀ ci, env.appInfo c = some ci → ci.kind = NONE
  opaq : ∀ t ai, env.appInfo t = some ai → ai.attr = .OPAQUE → ∃ z, ai.cons = some (.lit (.num z))
  programs : ∀ p, p.kind = PROGRAM_CONST → env.constructorKind p ≠ .NONE → ∃ i, p = .sym PROGRAM_CONST i ∧ ∃ ty, env.symType p = some ty
  overloads : ∀ x t, t ∈ env.overloads x → Shaped t
  dummy : ∀ i ty, Shaped ty → Shaped (env.dummy i ty)

/-- a builtin of kind `k` may be written with `n` arguments: an operator with those it takes, and with more if it is n-ary -/
structure ArgsFor (k : Kind) (n : Nat) : Prop where
  op : isLiteralOp k = true → n = opArity k ∨ isNaryLiteralOp k = true ∧ 2 ≤ n
  some : k = APPLY ∨ k = APPLY_OPAQUE ∨ k = PROOF ∨ k = QUOTE_TYPE ∨ k = FUNCTION_TYPE ∨ k = AS_RETURN → 1 ≤ n
  both : k = LAMBDA ∨ k = PARAMETERIZED → 2 ≤ n

/-- the arguments of a term that is built are as many as its kind, or its head if that is a builtin, can be written with -/
structure Applied (env : Env) (k : Kind) (cs : List Term) : Prop where
  args : ArgsFor k cs.length
  head : k = APPLY → ∀ hd args ai, cs = hd :: args → env.appInfo hd = Option.some ai → ai.kind ≠ NONE → ArgsFor ai.kind args.length

end Ethos.Spec
