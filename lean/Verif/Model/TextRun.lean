import Verif.Model.CmdReader
/-
Reading files as text: model of the loop over `CmdParser::parseNextCommand` (`src/cmd_parser.cpp` 93-100, 1075-1078), of `src/parser.cpp`
13-50, of `src/state.cpp` 33-80 and 281-346 and of `src/main.cpp` 130-205.

Simplifications: options that concern output only are left out; `exists` holds for the paths with a text; the tokens of a file are computed
in advance, and what comes after a failure of the lexer or after `exit` is not looked at.
-/
namespace Ethos

/-- the options of `Options` that matter for what is read, state.cpp:18-31 -/
structure TextOpts where
  parseLet : Bool := true
  normNum : Bool := false
  normDec : Bool := true
  normHex : Bool := true
deriving DecidableEq, Repr

/-- `Options::setOption`, state.cpp:33-80 -/
def TextOpts.set (o : TextOpts) (k : Name) (v : Bool) : TextOpts :=
  if k = bytes "parse-let" then { o with parseLet := v }
  else if k = bytes "normalize-dec" then { o with normDec := v }
  else if k = bytes "normalize-num" then { o with normNum := v }
  else if k = bytes "normalize-hex" then { o with normHex := v }
  else o

/-- the options for reading expressions, parser.cpp:13-20 -/
def TextOpts.read (o : TextOpts) (isSig : Bool) : ReadOpts := ⟨isSig, o.normNum, o.normDec, o.normHex⟩

/-- the lexer of a file, parser.cpp:16 -/
def TextOpts.lexFlags (o : TextOpts) (isSig : Bool) : LexFlags := ⟨!isSig && o.parseLet, isSig⟩

/-- The tokens of an input up to its end or a failure of the lexer, and which of both it is: calls of `Lexer::nextToken`, lexer.cpp:117-127.
The bounds are large enough. -/
def Lex.stream (fl : LexFlags) (f : Nat) : Nat → Lex → List Tk × Run Unit
  | 0, _ => ([], .fuel)
  | k + 1, l =>
    match Lex.nextToken fl f l with
    | .ok p => if p.1 = .EOF_TOK then ([], .ok ()) else ((p.1, p.2.token) :: (Lex.stream fl f k p.2).1, (Lex.stream fl f k p.2).2)
    | .err => ([], .err)
    | .ub => ([], .ub)
    | .fuel => ([], .fuel)

/-- the tokens of a text; files are read in blocks, the standard input character by character, input.cpp:20-48, lexer.h:45 -/
def textToks (sg interactive : Bool) (fl : LexFlags) (s : List Nat) : List Tk × Run Unit :=
  Lex.stream fl (s.length + 3) (s.length + 3) ⟨.init sg interactive 32768 s, none, []⟩

section
variable (b : Env) (n : Nat)

/-- The commands of one file: `parseNextCommand` in a loop, cmd_parser.cpp:93-100, 1075-1078; `eof` is what happens at the end of the tokens.
`incl` reads another file, before the closing parenthesis of the command is read.  Every command takes at least one token, which
bounds the number of rounds. -/
def runToks (incl : Name → Bool → Option Term → TextOpts → State → Run (TextOpts × State)) (isSig isRef : Bool) (eof : Run Unit) :
    Nat → List Tk → TextOpts → State → Run (TextOpts × State)
  | 0, _, _, _ => .fuel
  | _ + 1, [], o, st => eof.map fun _ => (o, st)
  | k + 1, tk :: r, o, st =>
    if tk.1 ≠ .LPAREN then .err
    else
      (readCmd b n (o.read isSig) isRef r st).bind fun q =>
      match q.2.2 with
      | .next => (eat .RPAREN q.1).bind fun r => runToks incl isSig isRef eof k r o q.2.1
      | .finished => (eat .RPAREN q.1).map fun _ => (o, q.2.1)
      | .option x v => (eat .RPAREN q.1).bind fun r => runToks incl isSig isRef eof k r (o.set x v) q.2.1
      | .incl f ref nf =>
        (incl f ref nf o q.2.1).bind fun p => (eat .RPAREN q.1).bind fun r => runToks incl isSig isRef eof k r p.1 p.2

/-- the commands of a text -/
def runText (incl : Name → Bool → Option Term → TextOpts → State → Run (TextOpts × State)) (sg interactive isSig isRef : Bool) (s : List Nat)
    (o : TextOpts) (st : State) : Run (TextOpts × State) :=
  let ts := textToks sg interactive (o.lexFlags isSig) s
  runToks b n incl isSig isRef ts.2 (ts.1.length + 1) ts.1 o st

/-- `State::includeFile`, state.cpp:281-346, with at most `d` nested files; `fs` are the texts of the existing files by their canonical
paths, `cur` is `d_inputFile`; included files are signatures unless they are references, cmd_parser.cpp:752 -/
def includeText (sg : Bool) (fs : Name → Option (List Nat)) : Nat → Name → Name → Bool → Bool → Option Term → TextOpts → State → Run (TextOpts × State)
  | 0, _, _, _, _, _, _, _ => .fuel
  | d+1, cur, s, isSig, isRef, nf, o, st =>
    let f := includePath cur s
    match fs f with
    | none => .err
    | some text =>
      if f ∈ st.included then .ok (o, st)
      else
        (runText b n (fun s r => includeText sg fs d f s (!r) r) sg false isSig isRef text o
          { st with included := f :: st.included, hasRef := isRef, refNf := nf }).bind fun p =>
        if p.2.asmCtx ≠ [] then .err else .ok p

/-- the files given by `--include` and `--reference`, main.cpp:136-147 -/
def includeTexts (sg : Bool) (fs : Name → Option (List Nat)) (d : Nat) : List (Name × Bool) → TextOpts → State → Run (TextOpts × State)
  | [], o, st => .ok (o, st)
  | (f, isRef) :: r, o, st => (includeText b n sg fs d [] f (!isRef) isRef none o st).bind fun p => includeTexts sg fs d r p.1 p.2

/-- the input given to `main`: the name of a file, or the text of the standard input -/
inductive TextInput where
  | file (f : Name)
  | stdin (s : List Nat)

/-- the name ends with `.eo`, main.cpp:181-182 -/
def isSignatureName (f : Name) : Bool := decide (f.length ≥ 3) && decide (f.drop (f.length - 3) = bytes ".eo")

/-- the input, main.cpp:160-188 -/
def runTextInput (sg : Bool) (fs : Name → Option (List Nat)) (d : Nat) (i : TextInput) (o : TextOpts) (st : State) : Run (TextOpts × State) :=
  match i with
  | .file f => includeText b n sg fs d [] f (isSignatureName f) false none o st
  | .stdin s => runText b n (fun s r => includeText b n sg fs d [] s (!r) r) sg true false false s o st

/-- `main`, main.cpp:130-205: the response for the texts of the given files -/
def mainText (sg : Bool) (fs : Name → Option (List Nat)) (d : Nat) (includes : List (Name × Bool)) (i : TextInput) (o : TextOpts) (st : State) :
    Run (State × Response) :=
  (includeTexts b n sg fs d includes o st).bind fun p =>
  (runTextInput b n sg fs d i p.1 p.2).map fun p => (p.2, p.2.response)

end
end Ethos
