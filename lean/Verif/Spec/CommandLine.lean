import Verif.Spec.TextRun
import Verif.Model.CommandLine
/-
The command line: what the arguments ask for.
-/
namespace Ethos.Spec
open Ethos

/-- the options -/
inductive Opt where
  | parseLet | printDag | stats | statsAll | statsCompact | ruleSymTable | normDec | normNum | normHex
deriving DecidableEq, Repr

def Opt.name : Opt → Name
  | .parseLet => bytes "parse-let"
  | .printDag => bytes "print-dag"
  | .stats => bytes "stats"
  | .statsAll => bytes "stats-all"
  | .statsCompact => bytes "stats-compact"
  | .ruleSymTable => bytes "rule-sym-table"
  | .normDec => bytes "normalize-dec"
  | .normNum => bytes "normalize-num"
  | .normHex => bytes "normalize-hex"

/-- options that are on if nothing is said -/
def Opt.initial : Opt → Bool
  | .parseLet | .printDag | .ruleSymTable | .normDec | .normHex => true
  | .stats | .statsAll | .statsCompact | .normNum => false

def Opt.of (o : Options) : Opt → Bool
  | .parseLet => o.parseLet
  | .printDag => o.printDag
  | .stats => o.stats
  | .statsAll => o.statsAll
  | .statsCompact => o.statsCompact
  | .ruleSymTable => o.ruleSymTable
  | .normDec => o.normDec
  | .normNum => o.normNum
  | .normHex => o.normHex

/-- what can be asked for on the command line -/
inductive Item where
  | set (x : Opt) (v : Bool)
  | incl (f : Name)
  | reference (f : Name)
  | help
  | config
  | trace (tag : Name)
  | verbose
  | file (f : Name)
deriving DecidableEq, Repr

/-- the arguments for an item that is not a file -/
inductive Marked : Item → List Name → Prop
  | on (x : Opt) : Marked (.set x true) [bytes "--" ++ x.name]
  | off (x : Opt) : Marked (.set x false) [bytes "--no-" ++ x.name]
  | incl (f) : Marked (.incl f) [bytes "--include=" ++ f]
  | reference (f) : Marked (.reference f) [bytes "--reference=" ++ f]
  | help : Marked .help [bytes "--help"]
  | config : Marked .config [bytes "--show-config"]
  | trace (tag) : Marked (.trace tag) [bytes "-t", tag]
  | verbose : Marked .verbose [bytes "-v"]

/-- the arguments as items; every other argument is a file -/
inductive Line : List Item → List Name → Prop
  | nil : Line [] []
  | marked (i is w ws) : Marked i w → Line is ws → Line (i :: is) (w ++ ws)
  | file (f is ws) : (∀ i w, ¬ Marked i (f :: w)) → Line is ws → Line (.file f :: is) (f :: ws)

/-- what an item says about the option `x`: the statistics are also turned on by their variants -/
def Item.says (x : Opt) : Item → Option Bool
  | .set y v => if y = x then some v else if x = .stats ∧ v = true ∧ (y = .statsAll ∨ y = .statsCompact) then some true else none
  | _ => none

/-- the value of the option `x`: the last one that is given -/
def value (x : Opt) (is : List Item) : Bool := (is.filterMap (Item.says x)).getLast?.getD x.initial

/-- the files to include, `true` as a reference, in order -/
def includesOf (is : List Item) : List (Name × Bool) :=
  is.filterMap fun i => match i with
    | .incl f => some (f, false)
    | .reference f => some (f, true)
    | _ => none

/-- the input files -/
def filesOf (is : List Item) : List Name :=
  is.filterMap fun i => match i with
    | .file f => some f
    | _ => none

/-- no item stops the program: no messages, traces only if the program has them, and not two files -/
def Goes (tracing : Bool) (is : List Item) : Prop :=
  .help ∉ is ∧ .config ∉ is ∧ (tracing = false → .verbose ∉ is ∧ ∀ tag, .trace tag ∉ is) ∧ (filesOf is).length ≤ 1

/-- the input: the file that is given, or the standard input if it is not a terminal -/
def InputOf (is : List Item) (tty : Bool) (stdin : List Nat) (i : TextInput) : Prop :=
  (∃ f, .file f ∈ is ∧ i = .file f) ∨ (filesOf is = [] ∧ tty = false ∧ i = .stdin stdin)

end Ethos.Spec
