import Verif.Model.TextRun
/-
The command line: model of `main`, `src/main.cpp` 21-219, with `Options`, `src/state.cpp` 18-80.

Simplifications: of the output only whether it is a message of `--help` or `--show-config` or the response is kept (not the statistics, which
come after the response, and not traces); `EO_FATAL` is the outcome `err`.
-/
namespace Ethos

/-- `Options`, state.h:31-49, with the values of its constructor, state.cpp:18-31 -/
structure Options where
  parseLet : Bool := true
  printDag : Bool := true
  stats : Bool := false
  statsAll : Bool := false
  statsCompact : Bool := false
  ruleSymTable : Bool := true
  normDec : Bool := true
  normHex : Bool := true
  normNum : Bool := false
deriving DecidableEq, Repr

/-- `Options::setOption`, state.cpp:33-80; `none` is the result `false` -/
def Options.setOption (o : Options) (key : Name) (val : Bool) : Option Options :=
  if key = bytes "parse-let" then some { o with parseLet := val }
  else if key = bytes "print-dag" then some { o with printDag := val }
  else if key = bytes "stats" then some { o with stats := val }
  else if key = bytes "stats-all" then some { o with stats := if val then true else o.stats, statsAll := val }
  else if key = bytes "stats-compact" then some { o with stats := if val then true else o.stats, statsCompact := val }
  else if key = bytes "rule-sym-table" then some { o with ruleSymTable := val }
  else if key = bytes "normalize-dec" then some { o with normDec := val }
  else if key = bytes "normalize-num" then some { o with normNum := val }
  else if key = bytes "normalize-hex" then some { o with normHex := val }
  else none

/-- the options that matter for what is read -/
def Options.text (o : Options) : TextOpts := ⟨o.parseLet, o.normNum, o.normDec, o.normHex⟩

/-- what the arguments ask for: a message, or a run with options, files to include (`true`: as a reference) and an input file -/
inductive Request where
  | help
  | config
  | run (o : Options) (includes : List (Name × Bool)) (file : Option Name)
deriving DecidableEq, Repr

/-- `arg.compare(0, p.size(), p) == 0` -/
def startsWith (p arg : Name) : Bool := decide (arg.take p.length = p)

/-- `arg.substr(arg.find_first_of("=") + 1)`, main.cpp:54-55 -/
def afterEq : Name → Name
  | [] => []
  | c :: s => if c = 61 then s else afterEq s

/-- the option set by an argument, main.cpp:35-48 -/
def argOption (o : Options) (arg : Name) : Option Options :=
  if startsWith (bytes "--no-") arg then o.setOption (arg.drop 5) false
  else if startsWith (bytes "--") arg then o.setOption (arg.drop 2) true
  else none

/-- the loop over the arguments, main.cpp:31-133.  `includes` are the files so far, `file` is the input file (`readFile`, `file`), `tracing` says
whether the program was built with traces. -/
def argLoop (tracing : Bool) : List Name → Options → List (Name × Bool) → Option Name → Run Request
  | [], o, includes, file => .ok (.run o includes file)
  | arg :: args, o, includes, file =>
    match argOption o arg with
    | some o => argLoop tracing args o includes file
    | none =>
      if startsWith (bytes "--include=") arg then argLoop tracing args o (includes ++ [(afterEq arg, false)]) file
      else if startsWith (bytes "--reference=") arg then argLoop tracing args o (includes ++ [(afterEq arg, true)]) file
      else if arg = bytes "--help" then .ok .help
      else if arg = bytes "--show-config" then .ok .config
      else if arg = bytes "-t" then
        match args with
        | [] => .err
        | _ :: args => if tracing then argLoop tracing args o includes file else .err
      else if arg = bytes "-v" then if tracing then argLoop tracing args o includes file else .err
      else
        match file with
        | none => argLoop tracing args o includes (some arg)
        | some _ => .err
termination_by structural args => args

/-- what is printed: a message, or the response -/
inductive Printed where
  | help
  | config
  | response (r : Response)
deriving DecidableEq, Repr

/-- `main`, main.cpp:21-219, for the arguments after the name of the program.  `tty` says whether the standard input is a terminal and `stdin` is
its text otherwise.  Runs with the option `rule-sym-table` off are not modelled, their outcome here is `fuel`, which no property counts as a
result. -/
def program (b : Env) (n : Nat) (tracing sg tty : Bool) (fs : Name → Option (List Nat)) (stdin : List Nat) (d : Nat) (args : List Name) (st : State) : Run Printed :=
  (argLoop tracing args {} [] none).bind fun q =>
  match q with
  | .help => .ok .help
  | .config => .ok .config
  | .run o includes file =>
    if !o.ruleSymTable then .fuel else
    (includeTexts b n sg fs d includes o.text st).bind fun p =>
    match file with
    | none => if tty then .err else (runTextInput b n sg fs d (.stdin stdin) p.1 p.2).map fun p => .response p.2.response
    | some f => (runTextInput b n sg fs d (.file f) p.1 p.2).map fun p => .response p.2.response

end Ethos
