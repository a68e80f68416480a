import Verif.Model.Desugar
/-
C78: exchanging symbols.
-/
namespace Ethos.Spec
open Ethos Kind

/-- a permutation of the symbols of every kind -/
structure Renaming where
  to : Kind → Nat → Nat
  inv : Kind → Nat → Nat
  inv_to : ∀ k i, inv k (to k i) = i
  to_inv : ∀ k i, to k (inv k i) = i

mutual
/-- the term with other symbols in the place of its symbols -/
def rename (f : Kind → Nat → Nat) : Term → Term
  | .sym k i => .sym k (f k i)
  | .lit l => .lit l
  | .node k cs => .node k (renames f cs)
def renames (f : Kind → Nat → Nat) : List Term → List Term
  | [] => []
  | c :: cs => rename f c :: renames f cs
end

/-- a term and the term it is renamed from -/
def Renaming.term (ρ : Renaming) : Term → Term := rename ρ.to
def Renaming.back (ρ : Renaming) : Term → Term := rename ρ.inv

/-- bindings -/
def Renaming.ctx (ρ : Renaming) (c : Ctx) : Ctx := c.map fun p => (ρ.term p.1, ρ.term p.2)

/-- what is known about a symbol -/
def Renaming.info (ρ : Renaming) (ai : AppInfo) : AppInfo := { ai with cons := ai.cons.map ρ.term }

/-- the state in which every symbol is replaced -/
def Renaming.env (ρ : Renaming) (env : Env) : Env where
  symType t := (env.symType (ρ.back t)).map ρ.term
  symName t := env.symName (ρ.back t)
  appInfo t := (env.appInfo (ρ.back t)).map ρ.info
  litRule k := (env.litRule k).map ρ.term
  hash t := env.hash (ρ.back t)
  boundVar x t := ρ.term (env.boundVar x (ρ.back t))
  tmp t := ρ.term (env.tmp (ρ.back t))
  self := ρ.term env.self
  listCons := ρ.term env.listCons
  listNil := ρ.term env.listNil
  listType := ρ.term env.listType
  proofType := ρ.term env.proofType
  dummy i t := ρ.term (env.dummy i (ρ.back t))
  overloads x := (env.overloads x).map ρ.term

end Ethos.Spec
