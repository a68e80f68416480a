import Verif.Model.CmdReader
import Verif.Spec.CmdSyntax
/-
What a command that is written in a file does.
-/
namespace Ethos.Spec
open Ethos

/-- not `exit`, `include` or `reference` -/
def Ordinary : Cmd → Prop
  | .exit | .incl _ | .reference _ _ => False
  | _ => True

/-- The state after a command and what remains to be done: to go on, to set an option, to end the file, or to read another file (with the
program that normalizes formulas).  Files are read while no assumption is open, a reference only if there is none. -/
inductive Outcome (b : Env) (n : Nat) : Cmd → Option (Name × Bool) → State → State → After → Prop
  | next (c st st') : Ordinary c → exec b n st c = .ok st' → Outcome b n c none st st' .next
  | option (c k v st st') : Ordinary c → exec b n st c = .ok st' → Outcome b n c (some (k, v)) st st' (.option k v)
  | exit (eff st) : Outcome b n .exit eff st st .finished
  | incl (f eff st) : st.asmCtx = [] → Outcome b n (.incl f) eff st st (.incl f false none)
  | reference (f eff st) : st.asmCtx = [] → st.hasRef = false → Outcome b n (.reference f none) eff st st (.incl f true none)
  | referenceNf (f e eff st st' t) : st.asmCtx = [] → st.hasRef = false → parseExpr b n e st = .ok (st', t) →
      Outcome b n (.reference f (some e)) eff st st' (.incl f true (some t))

end Ethos.Spec
