import Verif.Spec.Command
import Verif.Spec.Desugar
/-
Reference files: which formulas they assert, and how assumptions are compared with them.
-/
namespace Ethos.Spec
open Ethos Kind

/-- `a` is the formula `f` after the normalisation routine, if there is one: the routine applied to `f` -/
def Normal (env : Env) (routine : Option Term) (f a : Term) : Prop :=
  match routine with
  | none => a = f
  | some r => Denotes env r [f] a

/-- no file is entered -/
def NoEnter (es : List Event) : Prop := ∀ f isRef nf, Event.enter f isRef nf ∉ es

/-- the normalisation routine after the events `es`: that given with the file entered last -/
def Routine (b : Env) (n : Nat) (es : List Event) (st0 : State) (r : Option Term) : Prop :=
  (NoEnter es ∧ r = none) ∨ ∃ es1 f isRef nf es2 s1 s2, es = es1 ++ .enter f isRef nf :: es2 ∧ NoEnter es2 ∧
    replay b n es1 st0 = .ok s1 ∧ parseOpt b n nf s1 = .ok (s2, r)

/-- the event executed in `st` asserts the formula `f`: `assert` its argument, `define-fun` the equation of the new function
with its definition, which for a function with arguments is an application of `lambda`; the environment of the last state is
the one `f` is normalised in -/
inductive Asserts (b : Env) (n : Nat) : State → Event → Term → State → Prop
  | assert (st g s1 f) : parseFormula b n g st = .ok (s1, f) → Asserts b n st (.cmd (.assert g)) f s1
  | defineFun (st x ps ty e s1 vs s2 t s3 u eq rhs t' f) : defineParams b n ps st = .ok (s1, vs) → parseType b n false true ty s1 = .ok (s2, t) →
      parseExpr b n e s2 = .ok (s3, u) → s3.scope.get (nm "=") = some eq → defineFunRhs b n s3 vs u t = .ok (rhs, t') →
      Denotes ((s3.mkSymbol CONST x t').1.env b) eq [.sym CONST s3.next, rhs] f →
      Asserts b n st (.cmd (.defineFun x ps ty e)) f (s3.mkSymbol CONST x t').1

/-- `a` is one of the formulas asserted in the events `es`, after normalisation -/
def Asserted (b : Env) (n : Nat) (es : List Event) (st0 : State) (a : Term) : Prop :=
  ∃ es1 e es2 s0 s1 f r, es = es1 ++ e :: es2 ∧ replay b n es1 st0 = .ok s0 ∧ Asserts b n s0 e f s1 ∧ Routine b n es1 st0 r ∧
    Normal (s1.env b) r f a

/-- The assumption `(assume x f)` made in `st`, after the events `es`, is covered by the reference: after normalisation, which
takes place when `x` is already bound, it is one of the asserted formulas. -/
def Covered (b : Env) (n : Nat) (es : List Event) (st0 st : State) (x : Name) (f : SExp) : Prop :=
  ∃ s1 F a r, parseFormula b n f st = .ok (s1, F) ∧ Routine b n es st0 r ∧ Normal ((s1.bind x (.node PROOF [F])).env b) r F a ∧ Asserted b n es st0 a

end Ethos.Spec
