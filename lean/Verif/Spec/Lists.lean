import Verif.Spec.Term
/-
Specification of f-lists and of the list operators (user_manual.md 980-1026).
-/
namespace Ethos.Spec
open Ethos Kind

/-- the binary application `(f a b)`, i.e. `((f a) b)` -/
def bin (f a b : Term) : Term := .node APPLY [.node APPLY [f, a], b]

/-- the right-associative f-list with children `xs`: `(f x1 (f x2 ... (f xn nil)))` -/
def rlist (f nil : Term) : List Term → Term
  | [] => nil
  | x :: xs => bin f x (rlist f nil xs)

/-- `acc` extended to the left-associative f-list: `(f ... (f (f acc x1) x2) ... xn)` -/
def llistFrom (f : Term) : Term → List Term → Term
  | acc, [] => acc
  | acc, x :: xs => llistFrom f (bin f acc x) xs

/-- the left-associative f-list with children `xs`: `(f ... (f (f nil x1) x2) ... xn)` -/
def llist (f nil : Term) (xs : List Term) : Term := llistFrom f nil xs

/-- the term is not itself an application of `f` to (at least) two arguments -/
def NotApp (f t : Term) : Prop := ∀ x y r1 r2, t ≠ .node APPLY (.node APPLY (f :: x :: r1) :: y :: r2)

/-- all applications of `f` to two arguments in `t` are curried, as built by the term manager -/
def Curried (f t : Term) : Prop :=
  ∀ x y r1 r2, Sub (.node APPLY (.node APPLY (f :: x :: r1) :: y :: r2)) t → r1 = [] ∧ r2 = []

/-- number of occurrences -/
def mult (x : Term) : List Term → Nat
  | [] => 0
  | y :: ys => (if y = x then 1 else 0) + mult x ys

/-- drop each element after its first occurrence -/
def setOf : List Term → List Term
  | [] => []
  | x :: xs => x :: (setOf xs).filter (fun y => decide (y ≠ x))

/-- remove the first occurrence -/
def eraseFirst (x : Term) : List Term → List Term
  | [] => []
  | y :: ys => if y = x then ys else y :: eraseFirst x ys

/-- difference with multiplicity: "for each i, if t1i occurs in t2, remove one copy of it from that list,
otherwise append it to the final result" -/
def mdiff : List Term → List Term → List Term
  | [], _ => []
  | x :: xs, ys => if x ∈ ys then mdiff xs (eraseFirst x ys) else x :: mdiff xs ys

/-- intersection with multiplicity: "for each i, if t1i occurs in t2, erase one copy of it from that list
and append it to the final result" -/
def minter : List Term → List Term → List Term
  | [], _ => []
  | x :: xs, ys => if x ∈ ys then x :: minter xs (eraseFirst x ys) else minter xs ys

/-- `i` is the position of the first occurrence of `x` in `xs` -/
def FirstAt (x : Term) (xs : List Term) (i : Nat) : Prop :=
  xs[i]? = some x ∧ ∀ j, j < i → xs[j]? ≠ some x

end Ethos.Spec
