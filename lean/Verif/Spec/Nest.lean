import Verif.Spec.Command
/-
Specification of where files may be read: the level of open assumption scopes and whether the file read last is a reference,
along the commands of the files.
-/
namespace Ethos.Spec
open Ethos

/-- the commands of SMT-LIB that may occur in reference files only -/
def RefOnly : Cmd → Prop
  | .assert _ | .checkSatAssuming _ | .declareFun .. | .defineConst .. | .defineFun .. | .defineSort .. => True
  | _ => False

/-- the commands that may occur in all files -/
def Common : Cmd → Prop
  | .declareConst .. | .declareDatatype .. | .declareDatatypes .. | .declareSort .. | .reset | .push _ | .pop _ | .nop | .exit => True
  | _ => False

/-- a command may occur in a reference file (`isRef`) or in another one -/
def MayOccur (isRef : Bool) (c : Cmd) : Prop := Common c ∨ (RefOnly c ↔ isRef = true)

/-- the files read so far, the number of open assumptions, and whether the file read last is a reference -/
structure Pos where
  inc : List Name := []
  level : Nat := 0
  ref : Bool := false

/-- the number of open assumptions after a command; `none` if the command is an error for that reason -/
def levelAfter (l : Nat) : Cmd → Option Nat
  | .assumePush _ _ => some (l + 1)
  | .step s => if s.isPop then (if l = 0 then none else some (l - 1)) else some l
  | .reset => some 0
  | _ => some l

mutual
/-- the commands of a file, from one position to the next one -/
inductive Nest (fs : Name → Option (List Cmd)) : Bool → List Cmd → Pos → Pos → Prop
  | nil (isRef p) : Nest fs isRef [] p p
  | exit (isRef cs p) : Nest fs isRef (.exit :: cs) p p
  | cmd (isRef c cs p l p') : fileOf c = none → c ≠ .exit → MayOccur isRef c → levelAfter p.level c = some l →
      Nest fs isRef cs { p with level := l } p' → Nest fs isRef (c :: cs) p p'
  /-- files are read when no assumption is open, and references when the file read last is not one -/
  | file (isRef c cs f r nf p p1 p') : fileOf c = some (f, r, nf) → MayOccur isRef c → p.level = 0 → (r = true → p.ref = false) →
      Into fs f r p p1 → Nest fs isRef cs p1 p' → Nest fs isRef (c :: cs) p p'
/-- reading one file -/
inductive Into (fs : Name → Option (List Cmd)) : Name → Bool → Pos → Pos → Prop
  | seen (f r p) : f ∈ p.inc → Into fs f r p p
  /-- at the end of the file no assumption is open -/
  | enter (f r p cmds p') : f ∉ p.inc → fs f = some cmds → Nest fs r cmds { p with inc := f :: p.inc, ref := r } p' → p'.level = 0 →
      Into fs f r p p'
end

/-- the files of the options of the process -/
def IncludeOptions (fs : Name → Option (List Cmd)) : List (Name × Bool) → Pos → Pos → Prop
  | [], p, p' => p' = p
  | (f, r) :: fs', p, p' => ∃ p1, Into fs f r p p1 ∧ IncludeOptions fs fs' p1 p'

/-- the whole input of the process -/
def Whole (fs : Name → Option (List Cmd)) (includes : List (Name × Bool)) (i : Input) (p' : Pos) : Prop :=
  ∃ p, IncludeOptions fs includes {} p ∧ match i with
    | .file f => Into fs f false p p'
    | .stdin cmds => Nest fs false cmds p p'

end Ethos.Spec
