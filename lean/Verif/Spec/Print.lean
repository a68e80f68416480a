import Verif.Model.Print
/-
What printed definitions stand for: definitions are read in order and a reference is replaced by the text of an earlier definition.
-/
namespace Ethos.Spec
open Ethos

/-- the pieces with references replaced by texts; undefined if there is none -/
def substPieces (vals : List (List Nat)) : List Piece → Option (List Nat)
  | [] => some []
  | .text s :: ps => (substPieces vals ps).map (s ++ ·)
  | .ref n :: ps => vals[n]?.bind fun v => (substPieces vals ps).map (v ++ ·)

/-- the texts of the definitions `ds`, of which each may refer only to those before it and to the given ones -/
def expandDefs : List (List Nat) → List (List Piece) → Option (List (List Nat))
  | vals, [] => some vals
  | vals, d :: ds => (substPieces vals d).bind fun v => expandDefs (vals ++ [v]) ds

/-- the text that definitions and body stand for -/
def expand (p : List (List Piece) × List Piece) : Option (List Nat) := (expandDefs [] p.1).bind fun vals => substPieces vals p.2

/-- No term is printed inside itself: this can only fail if the type of a variable contains the variable. -/
def Printable (env : PrintEnv) : Prop := WellFounded fun c t => c ∈ printChildren env t

end Ethos.Spec
