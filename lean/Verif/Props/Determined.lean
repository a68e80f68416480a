import Verif.Lemmas.ReadMono
import Verif.Spec.Settles
import Verif.Props.CommandLine
/-
C73: The outcome of a run does not depend on how far evaluations and files are nested.
-/
namespace Ethos.Props
open Ethos Kind Spec

variable {b : Env} {α : Type}

/-- **C73**: there is only one outcome -/
theorem C73_unique {run : Nat → Nat → Run α} {r r' : Run α} (h : Settles run r) (h' : Settles run r') : r = r' := by
  obtain ⟨_, n, d, h⟩ := h
  obtain ⟨_, n', d', h'⟩ := h'
  rw [← h (max n n') (max d d') (Nat.le_max_left ..) (Nat.le_max_left ..), h' (max n n') (max d d') (Nat.le_max_right ..) (Nat.le_max_right ..)]

theorem settles_of {run : Nat → Nat → Run α} (hm : ∀ n n' d d', n ≤ n' → d ≤ d' → RunLe (run n d) (run n' d')) {n d : Nat} {r : Run α}
    (h : run n d = r) (hr : r ≠ .fuel) : Settles run r := by
  refine ⟨hr, n, d, fun n' d' hn hd => ?_⟩
  rcases hm n n' d d' hn hd with e | e
  · exact absurd (h.symm.trans e) hr
  · rw [← e, h]

/-- **C73** for the program: whatever it does within some bounds — an answer, the help, an error or undefined behaviour — is its outcome. -/
theorem C73_program {tracing sg tty : Bool} {fs : Name → Option (List Nat)} {stdin : List Nat} {args : List Name} {st : State} {n d : Nat} {r : Run Printed}
    (h : program b n tracing sg tty fs stdin d args st = r) (hr : r ≠ .fuel) :
    Settles (fun n d => program b n tracing sg tty fs stdin d args st) r :=
  settles_of (fun _ _ _ _ hn hd => program_mono hn tracing sg tty fs stdin hd args st) h hr

/-- **C73** for the texts of files, with the state that is reached -/
theorem C73_texts {sg : Bool} {fs : Name → Option (List Nat)} {is : List (Name × Bool)} {i : TextInput} {o : TextOpts} {st : State} {n d : Nat}
    {r : Run (State × Response)} (h : mainText b n sg fs d is i o st = r) (hr : r ≠ .fuel) : Settles (fun n d => mainText b n sg fs d is i o st) r :=
  settles_of (fun _ _ _ _ hn hd => mainText_mono hn sg fs hd is i o st) h hr

/-- **C73** for the commands of files -/
theorem C73_files {fs : Name → Option (List Cmd)} {is : List (Name × Bool)} {i : Input} {st : State} {n d : Nat} {r : Run (State × Response)}
    (h : main b n fs d is i st = r) (hr : r ≠ .fuel) : Settles (fun n d => main b n fs d is i st) r :=
  settles_of (fun _ _ _ _ hn hd => main_mono hn fs hd is i st) h hr

/-- **C73** for one command -/
theorem C73_command {st : State} {c : Cmd} {n : Nat} {r : Run State} (h : exec b n st c = r) (hr : r ≠ .fuel) : Settles (fun n _ => exec b n st c) r :=
  settles_of (d := 0) (fun _ _ _ _ hn _ => exec_mono hn st c) h hr

/-- **C73** for reading an expression -/
theorem C73_expression {st : State} {o : ReadOpts} {toks : List Tk} {n : Nat} {r : Run (List Tk × State × Term)} (h : readExpr b n o toks st = r)
    (hr : r ≠ .fuel) : Settles (fun n _ => readExpr b n o toks st) r :=
  settles_of (d := 0) (fun _ _ _ _ hn _ => rExpr_mono hn o toks st) h hr

/-- **C73**: an answer of the program within some bounds is its answer within all bounds in which it ends -/
theorem C73_same {tracing sg tty : Bool} {fs : Name → Option (List Nat)} {stdin : List Nat} {args : List Name} {st : State} {n d n' d' : Nat}
    (h : program b n tracing sg tty fs stdin d args st ≠ .fuel) (h' : program b n' tracing sg tty fs stdin d' args st ≠ .fuel) :
    program b n tracing sg tty fs stdin d args st = program b n' tracing sg tty fs stdin d' args st :=
  C73_unique (C73_program rfl h) (C73_program rfl h')

/-- C73: the accepted proof is accepted within all larger bounds -/
example (n d : Nat) (hn : 10 ≤ n) (hd : 3 ≤ d) :
    program exB n false true true proofFiles [] d [bytes "--no-normalize-dec", bytes "d/p.smt3"] (State.init exB 10) = .ok (.response .correct) := by
  rcases program_mono hn false true true proofFiles [] hd [bytes "--no-normalize-dec", bytes "d/p.smt3"] (State.init exB 10) with e | e
  · rw [program_accepted] at e; cases e
  · rw [← e, program_accepted]
/-- C73: the bounds matter: one file only, or no evaluation, is not enough -/
example : program exB 10 false true true proofFiles [] 1 [bytes "d/p.smt3"] (State.init exB 10) = .fuel ∧
    program exB 0 false true true proofFiles [] 3 [bytes "d/p.smt3"] (State.init exB 10) = .fuel := by decide +kernel
/-- C73: an error is an outcome as well -/
example : Settles (fun n d => program exB n false true true proofFiles [] d [bytes "d/q.smt3"] (State.init exB 10)) .err :=
  C73_program (n := 10) (d := 3) (by decide +kernel) (by simp)

end Ethos.Props
