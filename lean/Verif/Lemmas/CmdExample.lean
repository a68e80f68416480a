import Verif.Model.Command
/-
A base environment and notation for the concrete command sequences used beside the theorems.
-/
namespace Ethos.Props
open Ethos Kind

/-- the builtin lists and types; symbols 0 to 9 are reserved -/
def exB : Env where
  symType := fun t =>
    if t = .sym CONST 1 then some tType else if t = .sym CONST 2 then some (.sym CONST 1)
    else if t = .sym CONST 3 then some (mkFunctionType [.sym PARAM 5, .sym CONST 1] (.sym CONST 1))
    else if t = .sym CONST 4 then some tType
    else if t = .sym PARAM 0 then some tAny else if t = .sym PARAM 5 then some tType else none
  symName := fun _ => []
  appInfo := fun _ => none
  litRule := fun _ => none
  hash := fun _ => 0
  boundVar := fun _ _ => .sym VARIABLE 6
  tmp := fun _ => .sym CONST 7
  self := .sym PARAM 0
  listCons := .sym CONST 3
  listNil := .sym CONST 2
  listType := .sym CONST 1
  proofType := .sym CONST 4

/-- a symbol and an application as written -/
def sy (x : String) : SExp := .sym (nm x)
def ap (x : String) (l : List SExp) : SExp := .app (nm x) l

/-- the outcome of a command sequence on the standard input: the term bound to a name and the response -/
def runEx (cmds : List Cmd) (x : String) : Run (Option Term × Response) :=
  (main exB 10 (fun _ => none) 3 [] (.stdin cmds) (State.init exB 10)).map fun p => (p.1.scope.get (nm x), p.2)

end Ethos.Props
