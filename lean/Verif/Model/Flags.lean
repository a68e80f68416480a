import Verif.Model.Term
/-
Flag computation and parameter collection: model of `src/expr.cpp` 52-114, 446-485, 513-551.
Stacks are lists whose head is the top (`back()`).
-/
namespace Ethos
open Kind

/-- the `d_flags` field of every term (expr.h:97-118): one bit each -/
structure Flags where
  computed : Term → Bool
  isEval : Term → Bool
  nonGround : Term → Bool

namespace Flags

/-- a fresh heap: `d_flags(0)`, expr.cpp:21-23 -/
def init : Flags := ⟨fun _ => false, fun _ => false, fun _ => false⟩

/-- `cur->setFlag(Flag::IS_FLAGS_COMPUTED, true)`, expr.cpp:64 -/
def setComputed (s : Flags) (t : Term) : Flags :=
  { s with computed := fun u => if u = t then true else s.computed u }

/-- `cur->setFlag(Flag::IS_EVAL, b)` -/
def setEval (s : Flags) (t : Term) (b : Bool) : Flags :=
  { s with isEval := fun u => if u = t then b else s.isEval u }

/-- `cur->setFlag(Flag::IS_NON_GROUND, b)` -/
def setNonGround (s : Flags) (t : Term) (b : Bool) : Flags :=
  { s with nonGround := fun u => if u = t then b else s.nonGround u }

/-- `cur->d_flags |= c->d_flags`, expr.cpp:96-99 (all three bits) -/
def orWith (s : Flags) (t c : Term) : Flags :=
  { computed := fun u => if u = t then s.computed t || s.computed c else s.computed u
    isEval := fun u => if u = t then s.isEval t || s.isEval c else s.isEval u
    nonGround := fun u => if u = t then s.nonGround t || s.nonGround c else s.nonGround u }

/-- state of the loop of `computeFlags`: the stack `visit` (head = back), the set `visited`, the flags -/
structure Machine where
  stack : List Term
  visited : List Term
  flags : Flags

/-- children pushed in order, skipping those already computed: expr.cpp:78-84 -/
def pushUncomputed (s : Flags) (cs : List Term) (stack : List Term) : List Term :=
  (cs.filter (fun c => !s.computed c)).reverse ++ stack

/-- one iteration of the do-while loop of `computeFlags`, expr.cpp:61-101 -/
def step (m : Machine) : Machine :=
  match m.stack with
  | [] => m
  | cur :: rest =>
    let s := m.flags.setComputed cur
    if cur.children.isEmpty then
      { m with
        stack := rest
        flags := (s.setEval cur (cur.kind == PROGRAM_CONST || cur.kind == ANY)).setNonGround cur
          (cur.kind == PARAM || cur.kind == ANY) }
    else if cur ∉ m.visited then
      { stack := pushUncomputed s cur.children (cur :: rest), visited := cur :: m.visited, flags := s }
    else
      let s1 := if isLiteralOp cur.kind then s.setEval cur true else s
      { m with
        stack := rest
        flags := cur.children.foldl (fun s c => s.orWith cur c) s1 }

/-- `n` iterations -/
def steps : Nat → Machine → Machine
  | 0, m => m
  | n+1, m => steps n (step m)

/-- the loop run until the stack is empty, at most `fuel` iterations; `none` if it has not finished -/
def loop : Nat → Machine → Option Flags
  | 0, m => if m.stack.isEmpty then some m.flags else none
  | n+1, m => if m.stack.isEmpty then some m.flags else loop n (step m)

/-- `ExprValue::computeFlags`, expr.cpp:52-103; `none` if more than `fuel` iterations are needed -/
def computeFlags (fuel : Nat) (s : Flags) (t : Term) : Option Flags :=
  if s.computed t then some s else loop fuel ⟨[t], [], s⟩

/-- a query made to a term: `isGround()` (expr.cpp:110-114) or `isEvaluatable()` (104-108) -/
inductive Query where
  | isGround (t : Term)
  | isEvaluatable (t : Term)

/-- answer of a query and the updated heap -/
def query (fuel : Nat) (s : Flags) : Query → Option (Bool × Flags)
  | .isGround t => (computeFlags fuel s t).map fun s' => (!s'.nonGround t, s')
  | .isEvaluatable t => (computeFlags fuel s t).map fun s' => (s'.isEval t, s')

/-- a sequence of queries on one heap -/
def queries (fuel : Nat) : Flags → List Query → Option (List Bool × Flags)
  | s, [] => some ([], s)
  | s, q :: qs =>
    match query fuel s q with
    | none => none
    | some (b, s') => (queries fuel s' qs).map fun (bs, s'') => (b :: bs, s'')

end Flags

/-- loop of `Expr::getVariables`, expr.cpp:453-485; arguments: `toVisit` (head = back), `visited`, `ret`
(in order of insertion).  `isGround` is the exact flag (C21). `none`: not finished. -/
def getVariablesLoop : Nat → List Term → List Term → List Term → Option (List Term)
  | _, [], _, ret => some ret
  | 0, _ :: _, _, _ => none
  | n+1, cur :: st, visited, ret =>
    if cur.ground then getVariablesLoop n st visited ret
    else if cur ∈ visited then getVariablesLoop n st visited ret
    else if cur.kind = PARAM then getVariablesLoop n st (cur :: visited) (ret ++ [cur])
    else getVariablesLoop n (cur.children.reverse ++ st) (cur :: visited) ret

/-- `Expr::getVariables(es)`, expr.cpp:453-485; the fuel is the total size, shown sufficient by C22 -/
def getVariables (es : List Term) : Option (List Term) :=
  getVariablesLoop (Term.sizes es) es.reverse [] []

/-- loop of `Expr::hasVariable`, expr.cpp:524-549.  Note that the groundness test is made on the root
`e`, not on `cur`. -/
def hasVariableLoop (e : Term) (vars : List Term) : Nat → List Term → List Term → Option Bool
  | _, [], _ => some false
  | 0, _ :: _, _ => none
  | n+1, cur :: st, visited =>
    if e.ground then hasVariableLoop e vars n st visited
    else if cur ∈ visited then hasVariableLoop e vars n st visited
    else if cur.kind = PARAM ∧ cur ∈ vars then some true
    else hasVariableLoop e vars n (cur.children.reverse ++ st) (cur :: visited)

/-- `Expr::hasVariable(e, vars)`, expr.cpp:513-551 -/
def hasVariable (e : Term) (vars : List Term) : Option Bool :=
  if vars.isEmpty then some false else hasVariableLoop e vars (Term.size e) [e] []

end Ethos
