import Verif.Model.Command
/-
Which commands a run executes: specified by the contents of the files alone, without the state of the checker.
-/
namespace Ethos.Spec
open Ethos

/-- a file is entered, an `include` of a file that was already read is skipped, or a command is executed -/
inductive Event where
  | enter (f : Name) (isRef : Bool) (nf : Option SExp)
  | skip (f : Name) (isRef : Bool) (nf : Option SExp)
  | cmd (c : Cmd)

/-- the file named by a command, whether it is a reference and its normalisation routine -/
def fileOf : Cmd → Option (Name × Bool × Option SExp)
  | .incl f => some (f, false, none)
  | .reference f nf => some (f, true, nf)
  | _ => none

/-- The events of the commands of a file, when the files `inc` were entered before; afterwards these are `inc'`.  A command
must be one that is allowed in the file; `exit` ends the file. -/
inductive Reads (fs : Name → Option (List Cmd)) : Bool → List Name → List Cmd → List Event → List Name → Prop
  | nil (isRef inc) : Reads fs isRef inc [] [] inc
  | exit (isRef inc cs) : Reads fs isRef inc (.exit :: cs) [] inc
  | seen (isRef inc c cs f r nf evs inc') : fileOf c = some (f, r, nf) → c.allowed isRef = true → f ∈ inc →
      Reads fs isRef inc cs evs inc' → Reads fs isRef inc (c :: cs) (.skip f r nf :: evs) inc'
  | file (isRef inc c cs f r nf cmds e1 inc1 e2 inc2) : fileOf c = some (f, r, nf) → c.allowed isRef = true → f ∉ inc →
      fs f = some cmds → Reads fs r (f :: inc) cmds e1 inc1 → Reads fs isRef inc1 cs e2 inc2 →
      Reads fs isRef inc (c :: cs) (.enter f r nf :: (e1 ++ e2)) inc2
  | cmd (isRef inc c cs evs inc') : fileOf c = none → c ≠ .exit → c.allowed isRef = true →
      Reads fs isRef inc cs evs inc' → Reads fs isRef inc (c :: cs) (.cmd c :: evs) inc'

/-- the files entered -/
def files : List Event → List Name
  | [] => []
  | .enter f _ _ :: es => f :: files es
  | _ :: es => files es

/-- the commands given to the process: the files of its options, then its input -/
def mainCmds (includes : List (Name × Bool)) : Input → List Cmd
  | .file f => includes.map (fun p => if p.2 then .reference p.1 none else .incl p.1) ++ [.incl f]
  | .stdin cmds => includes.map (fun p => if p.2 then .reference p.1 none else .incl p.1) ++ cmds

/-- the effect of an event on the state -/
def replayEvent (b : Env) (n : Nat) (st : State) : Event → Run State
  | .enter f isRef nf => (parseOpt b n nf st).map fun p =>
      { p.1 with included := f :: p.1.included, hasRef := isRef, refNf := p.2 }
  | .skip _ _ nf => (parseOpt b n nf st).map fun p => p.1
  | .cmd c => exec b n st c

/-- execution of a sequence of events -/
def replay (b : Env) (n : Nat) : List Event → State → Run State
  | [], st => .ok st
  | e :: es, st => (replayEvent b n st e).bind (replay b n es)

/-- an event of `es` and the state in which it is executed, the first one being executed in `st` -/
inductive At (b : Env) (n : Nat) : List Event → State → Event → State → Prop
  | head (e es st) : At b n (e :: es) st e st
  | tail (e es st s1 e' s2) : replayEvent b n st e = .ok s1 → At b n es s1 e' s2 → At b n (e :: es) st e' s2

end Ethos.Spec
