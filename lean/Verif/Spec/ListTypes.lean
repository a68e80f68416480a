import Verif.Spec.Nil
/-
Specification of operators whose applications are lists of elements of one type.
-/
namespace Ethos.Spec
open Ethos Kind

/-- the type `(-> A R)` -/
def fnType (a r : Term) : Term := .node FUNCTION_TYPE [a, r]

/-- a type that can be written as the type of an argument or as a return type: closed, reduced, not a quoted term -/
def ReducedType (t : Term) : Prop := IsValue t ∧ t.kind ≠ QUOTE_TYPE

/-- the operator `f` takes an element of type `A` and a list of type `B` to a list of type `B`, and its terminator is a list: it is
declared `(-> A B B)`, or `(-> B A B)` if its lists are written from the left -/
structure ListOperator (env : Env) (f nil : Term) (left : Bool) (A B : Term) : Prop where
  typed : TypeResult env f (some (if left then fnType B (fnType A B) else fnType A (fnType B B)))
  elem : ReducedType A
  list : ReducedType B
  terminator : TypeResult env nil (some B)

/-- the lists of `f` whose elements satisfy `E` -/
inductive ListOf (f nil : Term) (left : Bool) (E : Term → Prop) : Term → Prop
  | nil : ListOf f nil left E nil
  | cons (x l : Term) : E x → ListOf f nil left E l → ListOf f nil left E (if left then bin f l x else bin f x l)

end Ethos.Spec
