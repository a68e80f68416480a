import Verif.Spec.CmdRun
import Verif.Model.TextRun
/-
Files as sequences of commands.
-/
namespace Ethos.Spec
open Ethos

/-- a command with the canonical path of the file that it names, in the file `cur` -/
def located (cur : Name) : Cmd → Cmd
  | .incl f => .incl (includePath cur f)
  | .reference f e => .reference (includePath cur f) e
  | c => c

/-- The commands that the tokens of the file `cur` are, up to the first `exit` if there is one; `whole`: the tokens are all of the file.  The
options under which literals are read may change from command to command. -/
inductive Commands (isSig isRef : Bool) (cur : Name) (whole : Prop) : List Cmd → List Tk → Prop
  | nil : whole → Commands isSig isRef cur whole [] []
  | cons (o : TextOpts) (s s' name c eff w cs v) : Body (tokSem (o.read isSig)) true isRef name c eff w → c ≠ .exit →
      Commands isSig isRef cur whole cs v →
      Commands isSig isRef cur whole (located cur c :: cs) ((.LPAREN, s) :: (.SYMBOL, bytes name) :: w ++ (.RPAREN, s') :: v)
  | exit (s s' v) : Commands isSig isRef cur whole [.exit] ((.LPAREN, s) :: (.SYMBOL, bytes "exit") :: (.RPAREN, s') :: v)

/-- the text of the file `f` is these commands -/
def WrittenIn (sg : Bool) (fs : Name → Option (List Nat)) (f : Name) (cs : List Cmd) : Prop :=
  ∃ text isSig isRef, ∃ o : TextOpts, fs f = some text ∧
    Commands isSig isRef f ((textToks sg false (o.lexFlags isSig) text).2 = .ok ()) cs (textToks sg false (o.lexFlags isSig) text).1

/-- the option of this name has this value -/
inductive Setting (o : TextOpts) : Name → Bool → Prop
  | parseLet : Setting o (bytes "parse-let") o.parseLet
  | normNum : Setting o (bytes "normalize-num") o.normNum
  | normDec : Setting o (bytes "normalize-dec") o.normDec
  | normHex : Setting o (bytes "normalize-hex") o.normHex

/-- A run through the tokens of a file: the commands are executed in order until the end or `exit`, options are set as the commands say, and
other files are read (`incl`) where a command names them. -/
inductive FileRun (b : Env) (n : Nat) (incl : Name → Bool → Option Term → TextOpts → State → TextOpts → State → Prop) (isSig isRef : Bool) (whole : Prop) :
    List Tk → TextOpts → State → TextOpts → State → Prop
  | done (o st) : whole → FileRun b n incl isSig isRef whole [] o st o st
  | exit (s s' v o st) : FileRun b n incl isSig isRef whole ((.LPAREN, s) :: (.SYMBOL, bytes "exit") :: (.RPAREN, s') :: v) o st o st
  | cmd (s s' name c w v o st st1 o' st') : Body (tokSem (o.read isSig)) true isRef name c none w → c.allowed isRef = true → Ordinary c →
      exec b n st c = .ok st1 → FileRun b n incl isSig isRef whole v o st1 o' st' →
      FileRun b n incl isSig isRef whole ((.LPAREN, s) :: (.SYMBOL, bytes name) :: w ++ (.RPAREN, s') :: v) o st o' st'
  | option (s s' w k x v o st o' st') : Body (tokSem (o.read isSig)) true isRef "set-option" .nop (some (k, x)) w →
      FileRun b n incl isSig isRef whole v (o.set k x) st o' st' →
      FileRun b n incl isSig isRef whole ((.LPAREN, s) :: (.SYMBOL, bytes "set-option") :: w ++ (.RPAREN, s') :: v) o st o' st'
  | file (s s' name c eff w v f r nf o st st1 o1 st2 o' st') : Body (tokSem (o.read isSig)) true isRef name c eff w → c.allowed isRef = true →
      Outcome b n c eff st st1 (.incl f r nf) → incl f r nf o st1 o1 st2 → FileRun b n incl isSig isRef whole v o1 st2 o' st' →
      FileRun b n incl isSig isRef whole ((.LPAREN, s) :: (.SYMBOL, bytes name) :: w ++ (.RPAREN, s') :: v) o st o' st'

/-- Reading the file that is named `s` in the file `cur`, with at most `d` nested files: it is skipped if it was read before; otherwise all
its commands are run, and no assumption may remain open.  Files named by `include` are signatures. -/
def Included (b : Env) (n : Nat) (sg : Bool) (fs : Name → Option (List Nat)) :
    Nat → Name → Name → Bool → Bool → Option Term → TextOpts → State → TextOpts → State → Prop
  | 0, _, _, _, _, _, _, _, _, _ => False
  | d+1, cur, s, isSig, isRef, nf, o, st, o', st' =>
    ∃ text, fs (includePath cur s) = some text ∧
      ((includePath cur s ∈ st.included ∧ o' = o ∧ st' = st) ∨
       (includePath cur s ∉ st.included ∧ st'.asmCtx = [] ∧
        FileRun b n (fun s' r => Included b n sg fs d (includePath cur s) s' (!r) r) isSig isRef
          ((textToks sg false (o.lexFlags isSig) text).2 = .ok ()) (textToks sg false (o.lexFlags isSig) text).1 o
          { st with included := includePath cur s :: st.included, hasRef := isRef, refNf := nf } o' st'))

/-- the files given by `--include` and `--reference`, one after the other -/
inductive IncludedAll (incl : Name → Bool → TextOpts → State → TextOpts → State → Prop) : List (Name × Bool) → TextOpts → State → TextOpts → State → Prop
  | nil (o st) : IncludedAll incl [] o st o st
  | cons (f r fr o st o1 st1 o' st') : incl f r o st o1 st1 → IncludedAll incl fr o1 st1 o' st' → IncludedAll incl ((f, r) :: fr) o st o' st'

/-- the input: a file, which is a signature if its name ends with `.eo`, or the standard input -/
def InputRun (b : Env) (n : Nat) (sg : Bool) (fs : Name → Option (List Nat)) (d : Nat) : TextInput → TextOpts → State → TextOpts → State → Prop
  | .file f, o, st, o', st' =>
    ∃ isSig, (isSig = true ↔ ∃ x, f = x ++ bytes ".eo") ∧ Included b n sg fs d [] f isSig false none o st o' st'
  | .stdin s, o, st, o', st' =>
    FileRun b n (fun s' r => Included b n sg fs d [] s' (!r) r) false false ((textToks sg true (o.lexFlags false) s).2 = .ok ())
      (textToks sg true (o.lexFlags false) s).1 o st o' st'

end Ethos.Spec
