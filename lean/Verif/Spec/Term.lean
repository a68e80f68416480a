import Verif.Model.Term
/-
Specification vocabulary for terms: subterms, occurrences, substitution.
-/
namespace Ethos.Spec
open Ethos Kind

/-- `s` is a subterm of `t` (reflexive) -/
inductive Sub : Term → Term → Prop
  | refl (t) : Sub t t
  | child (s k cs c) : c ∈ cs → Sub s c → Sub s (.node k cs)

/-- a parameter: a leaf of kind PARAM -/
def IsParam (t : Term) : Prop := t.kind = PARAM ∧ t.children = []

/-- the "unknown" leaf -/
def IsAny (t : Term) : Prop := t.kind = ANY ∧ t.children = []

/-- an occurrence of a program symbol or of an applied builtin operator -/
def IsComputation (t : Term) : Prop :=
  (t.kind = PROGRAM_CONST ∧ t.children = []) ∨ (isLiteralOp t.kind = true ∧ t.children ≠ [])

/-- parameters occur as leaves only (they are created by `mkSymbol`) -/
def ParamsAreLeaves (t : Term) : Prop := ∀ s, Sub s t → s.kind = PARAM → s.children = []

mutual
/-- simultaneous replacement of parameters -/
def subst (σ : Term → Term) : Term → Term
  | .sym k i => if k = PARAM then σ (.sym k i) else .sym k i
  | .lit l => .lit l
  | .node k cs => if k = PARAM ∧ cs = [] then σ (.node k cs) else .node k (substs σ cs)
def substs (σ : Term → Term) : List Term → List Term
  | [] => []
  | c :: cs => subst σ c :: substs σ cs
end

/-- the substitution denoted by a context: unbound parameters stay -/
def ctxSub (c : Ctx) (p : Term) : Term := (c.find p).getD p

end Ethos.Spec
