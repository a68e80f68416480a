import Verif.Props.Rules
/-
C41: the order in which overloaded symbols are tried, against the manual.
-/
namespace Ethos.Props
open Ethos Kind Spec

/-- unary minus, as constant 12, and then subtraction, as constant 13: the order that user_manual.md:1325 recommends -/
def minusCmds : List Cmd := [
  .declareSort (nm "U") 0,
  .declareConst (nm "a") (sy "U") [],
  .declareConst (nm "-") (ap "->" [sy "U", sy "U"]) [],
  .declareConst (nm "-") (ap "->" [sy "U", sy "U", sy "U"]) []]

/-- **C41**, against the manual.  `user_manual.md:1322-1325` says that the first declared symbol that gives a well-typed term is used, that a symbol that is not applied is
the first one, and that unary negation should therefore be declared before subtraction.  With these declarations `(- a)` is the partial application of
subtraction, although the application of unary minus has type `U`, and `-` alone is subtraction: the last declared symbol is used. -/
theorem C41_manual_refuted :
    runEx (minusCmds.take 3 ++ [.define (nm "z") [] (ap "-" [sy "a"]) [sy "U"]]) "z" = .ok (some (.node APPLY [.sym CONST 12, .sym CONST 11]), .correct) ∧
    runEx (minusCmds ++ [.define (nm "z") [] (ap "-" [sy "a"]) []]) "z" = .ok (some (.node APPLY [.sym CONST 13, .sym CONST 11]), .correct) ∧
    (exRun (minusCmds ++ [.define (nm "z") [] (ap "-" [sy "a"]) [sy "U"]])).map (fun _ => ()) = .err ∧
    runEx (minusCmds ++ [.define (nm "z") [] (sy "-") []]) "z" = .ok (some (.sym CONST 13), .correct) :=
  ⟨by decide +kernel, by decide +kernel, by decide +kernel, by decide +kernel⟩

end Ethos.Props
