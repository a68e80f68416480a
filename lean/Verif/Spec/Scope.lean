import Verif.Model.Scope
/-
Specification of the symbol table: a stack of scopes, each a list of bindings, the latest first.
-/
namespace Ethos.Spec
open Ethos

abbrev Binding := Name × Term

/-- the scopes that are open, innermost first, and the bindings made outside of every scope -/
structure Stack where
  scopes : List (List Binding)
  globals : List Binding

namespace Stack

def empty : Stack := ⟨[], []⟩

/-- all visible bindings, latest first -/
def all (a : Stack) : List Binding := a.scopes.flatten ++ a.globals

/-- a name denotes its latest binding -/
def lookup (a : Stack) (n : Name) : Option Term := (a.all.find? (fun b => b.1 = n)).map (·.2)

/-- the bindings of a name, oldest first -/
def cands (a : Stack) (n : Name) : List Term := ((a.all.filter fun b => b.1 = n).map (·.2)).reverse

def bind (a : Stack) (n : Name) (t : Term) : Stack :=
  match a.scopes with
  | [] => { a with globals := (n, t) :: a.globals }
  | s :: r => { a with scopes := ((n, t) :: s) :: r }

def step (a : Stack) : Scope.Op → Option Stack
  | .bind n t => some (a.bind n t)
  | .push => some { a with scopes := [] :: a.scopes }
  | .pop => match a.scopes with
    | [] => none
    | _ :: r => some { a with scopes := r }

/-- `none`: a scope is closed although none is open -/
def run : List Scope.Op → Stack → Option Stack
  | [], a => some a
  | o :: os, a => (a.step o).bind (run os)

end Stack

/-- sequences of bindings and nested scopes, every scope that is opened being closed -/
inductive Balanced : List Scope.Op → Prop
  | nil : Balanced []
  | bind (n t os) : Balanced os → Balanced (.bind n t :: os)
  | scope (is os) : Balanced is → Balanced os → Balanced (.push :: is ++ .pop :: os)

end Ethos.Spec
