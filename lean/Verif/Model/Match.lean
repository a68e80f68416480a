import Verif.Model.Term
/-
Pattern matching: model of `TypeChecker::match`, src/type_checker.cpp 424-515.
-/
namespace Ethos
open Kind

/-- loop of `match`, type_checker.cpp:446-513.  Arguments: fuel, the stack of pairs (head = back), the
set `visited`, the context.  `none`: not finished; otherwise the boolean result and the context. -/
def matchLoop : Nat → List (Term × Term) → List (Term × Term) → Ctx → Option (Bool × Ctx)
  | _, [], _, ctx => some (true, ctx)
  | 0, _ :: _, _, _ => none
  | n+1, (a, b) :: st, visited, ctx =>
    if a.ground then
      if a = b then matchLoop n st visited ctx else some (false, ctx)
    else if (a, b) ∈ visited then matchLoop n st visited ctx
    else if a.children.length = 0 then
      if a.kind = PARAM then
        match ctx.find a with
        | none => matchLoop n st ((a, b) :: visited) ((a, b) :: ctx)
        | some v => if v ≠ b then some (false, ctx) else matchLoop n st ((a, b) :: visited) ctx
      else some (false, ctx)
    else if a.children.length ≠ b.children.length ∨ a.kind ≠ b.kind then some (false, ctx)
    else matchLoop n ((a.children.zip b.children).reverse ++ st) ((a, b) :: visited) ctx

/-- `TypeChecker::match(a, b, ctx)`, type_checker.cpp:424-428; the fuel is the size of the pattern (shown
sufficient in C28) -/
def matchTerm (a b : Term) (ctx : Ctx) : Option (Bool × Ctx) :=
  matchLoop (Term.size a) [(a, b)] [] ctx

/-- matching of the argument lists of a program case, type_checker.cpp:919-928: `none` for failure -/
def matchArgs : List Term → List Term → Ctx → Option Ctx
  | p :: ps, t :: ts, ctx =>
    match matchTerm p t ctx with
    | some (true, ctx') => matchArgs ps ts ctx'
    | _ => none
  | _, _, ctx => some ctx

end Ethos
