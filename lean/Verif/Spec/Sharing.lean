import Verif.Spec.Print
/-
Which subterms are written once and referred to when a term is printed with definitions.
-/
namespace Ethos.Spec
open Ethos Kind

/-- what is printed as a part of a term: its children, and for a variable its type -/
def parts (env : PrintEnv) : Term → List Term
  | .sym VARIABLE i => [env.varType i]
  | t => t.children

/-- the terms printed within a term, itself included -/
inductive Within (env : PrintEnv) (e : Term) : Term → Prop
  | self : Within env e e
  | part {t c} : Within env e t → c ∈ parts env t → Within env e c

/-- `D` lists the terms within `e`, each of them once -/
structure Lists (env : PrintEnv) (e : Term) (D : List Term) : Prop where
  nodup : D.Nodup
  mem : ∀ t, t ∈ D ↔ Within env e t

/-- in how many places the different terms `D` have `t` as a part -/
def places (env : PrintEnv) (D : List Term) (t : Term) : Nat := (D.map fun u => (parts env u).count t).sum

/-- how often the definitions and the body refer to the definition of number `i` -/
def references (i : Nat) (p : List (List Piece) × List Piece) : Nat := (p.1.map fun d => d.count (.ref i)).sum + p.2.count (.ref i)

/-- the number of pieces that are written -/
def amount (p : List (List Piece) × List Piece) : Nat := (p.1.map List.length).sum + p.2.length

/-- what is written for `t` itself: what comes before, between and after its parts, and one piece for each part without parts and for
each part that is defined -/
def share (env : PrintEnv) (defined : List Term) (t : Term) : Nat :=
  if parts env t = [] then 0
  else (parts env t).length + 1 + ((parts env t).filter fun c => decide (parts env c = [] ∨ c ∈ defined)).length

end Ethos.Spec
