import Verif.Model.Eval
/-
Typing with a cache: model of the loop of `TypeChecker::getType` (`src/type_checker.cpp` 91-145) with the table `d_typeCache`
(`src/state.h` 380, `src/state.cpp` 1654-1662).  `Model/Eval` has types without the table (`typeStep`).
-/
namespace Ethos
open Kind

/-- the entries of `d_typeCache` for terms that are not symbols -/
abbrev TypeCache := List (Term × Term)

/-- `State::lookupType`, state.cpp:1654-1662.  The type of a symbol is entered when it is made, state.cpp:622-623. -/
def TypeCache.find (env : Env) (c : TypeCache) (t : Term) : Option Term :=
  match t with
  | .sym _ _ => env.symType t
  | _ => c.lookup t

/-- `getTypeInternal` takes the types of terms from the table only, type_checker.cpp:225-422 -/
def lookupOps (env : Env) (o : Ops) (c : TypeCache) : Ops := { o with getType := fun t => .ok (c.find env t) }

/-- not a constant, variable or parameter; the types of these are in the table from the start -/
def nonSym : Term → Bool
  | .sym _ _ => false
  | _ => true

/-- The loop of `getType`, type_checker.cpp:100-144, on the stack `toVisit` (top first); `ret` is the variable `ret`.  `grow` are the entries
that are made by the evaluation of the type of a term.  A symbol without type, and a missing type of a child, do not occur in the code; they are no
type and `ub` here. -/
def typeLoop (env : Env) (o : Ops) (grow : TypeCache → Term → TypeCache) : Nat → List Term → List Term → TypeCache → Option Term → Out (Option Term × TypeCache)
  | _, [], _, c, ret => .ok (ret, c)
  | 0, _ :: _, _, _, _ => .fuel
  | f + 1, cur :: toVisit, visited, c, ret =>
    match c.find env cur with
    | some t => typeLoop env o grow f toVisit visited c (some t)
    | none =>
      if nonSym cur = false then .ok (none, c)
      else if cur ∉ visited then typeLoop env o grow f (cur.children.reverse ++ cur :: toVisit) (cur :: visited) c ret
      else
        (typesOf (lookupOps env o c) cur.children).bind fun cts =>
        match cts with
        | none => .ub
        | some ctypes =>
          (typeInternal env (lookupOps env o c) cur ctypes).bind fun r =>
          match r with
          | none => .ok (none, grow c cur)
          | some t =>
            if t.ground && t.evaluatable then .ok (none, grow c cur)
            else typeLoop env o grow f toVisit visited ((cur, t) :: grow c cur) (some t)

/-- `getType`, type_checker.cpp:91-145, with the table `c` -/
def cachedType (env : Env) (o : Ops) (grow : TypeCache → Term → TypeCache) (f : Nat) (e : Term) (c : TypeCache) : Out (Option Term × TypeCache) :=
  typeLoop env o grow f [e] [] c none

end Ethos
