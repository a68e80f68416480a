import Verif.Model.Term
/-
List operators: model of `src/type_checker.cpp` 955-1046 and 1320-1709.

`APPLY` terms have at least two children (curried applications have exactly two, state.cpp:1222-1232;
applications of programs have a head and at least one argument); a term of kind `APPLY` with fewer
children, which the state never builds, is treated as not being an application.
-/
namespace Ethos
open Kind

namespace Res
/-- `if (x is null) return null` -/
def bind {α β : Type} : Res α → (α → Res β) → Res β
  | val a, f => f a
  | null, _ => null
  | ub, _ => ub
end Res

/-- `std::vector::operator[]`: reading outside the vector is undefined behaviour -/
def argAt (args : List Term) (i : Nat) : Res Term :=
  match args[i]? with
  | some t => .val t
  | none => .ub

/-- the loop of `getNAryChildren`, type_checker.cpp:965-976: the elements met from the outside in, and
the term at which the loop stops -/
def naryLoop (op : Term) (isLeft : Bool) : Term → List Term × Term
  | .node APPLY (.node APPLY (o :: x :: r1) :: y :: r2) =>
    if o = op then
      if isLeft then
        let (cs, e) := naryLoop op isLeft x
        (y :: cs, e)
      else
        let (cs, e) := naryLoop op isLeft y
        (x :: cs, e)
    else ([], .node APPLY (.node APPLY (o :: x :: r1) :: y :: r2))
  | e => ([], e)

/-- `getNAryChildren` with a nil terminator to check, type_checker.cpp:959-985: `none` if the term is not
an `op`-list -/
def getNAryChildren (op nil : Term) (isLeft : Bool) (e : Term) : Option (List Term) :=
  let (cs, e') := naryLoop op isLeft e
  if e' ≠ nil then none else some cs

/-- `isNAryList`, type_checker.cpp:990-1004 (same loop, without collecting the elements) -/
def isNAryList (op nil : Term) (isLeft : Bool) (e : Term) : Bool :=
  decide ((naryLoop op isLeft e).2 = nil)

/-- `getNAryNthTail`, type_checker.cpp:1010-1019.  Only called with `n` at most the number of elements; the
assertion at line 1014 is outside that range -/
def nthTail (isLeft : Bool) : Nat → Term → Term
  | 0, e => e
  | n+1, .node APPLY (.node APPLY (_ :: x :: _) :: y :: _) => nthTail isLeft n (if isLeft then x else y)
  | _+1, e => e

/-- the binary application `((op a) b)` -/
def app2 (op a b : Term) : Term := .node APPLY [.node APPLY [op, a], b]

/-- `prependNAryChildren`, type_checker.cpp:1021-1046 -/
def prependNAry (op : Term) (isLeft : Bool) (ret : Term) (hargs : List Term) : Term :=
  if isLeft then hargs.foldl (fun ret a => app2 op ret a) ret
  else hargs.foldr (fun a ret => app2 op a ret) ret

/-- loop of `evaluateListEraseInternal`, type_checker.cpp:1535-1548; state: index, `result`,
`changeIndex`, `changeSize` -/
def eraseLoop (x : Term) (isAll : Bool) : List Term → Nat → List Term → Nat → Nat → List Term × Nat × Nat
  | [], _, result, ci, cs => (result, ci, cs)
  | h :: hs, i, result, ci, cs =>
    if h = x then
      if isAll then eraseLoop x isAll hs (i+1) result (i+1) result.length
      else (result, i+1, cs)
    else eraseLoop x isAll hs (i+1) (result ++ [h]) ci cs

/-- `evaluateListEraseInternal`, type_checker.cpp:1522-1565 -/
def listErase (isAll : Bool) (op nil : Term) (isLeft : Bool) (l x : Term) : Res Term :=
  match getNAryChildren op nil isLeft l with
  | none => .null
  | some hargs =>
    let (result, ci, cs) := eraseLoop x isAll hargs 0 [] 0 0
    if ci = 0 then .val l
    else .val (prependNAry op isLeft (nthTail isLeft ci l) (if isAll then result.take cs else result))

/-- loop of `evaluateListSetOfInternal`, type_checker.cpp:1581-1593 (`seen` as a list) -/
def setOfLoop : List Term → Nat → List Term → List Term → Nat → Nat → List Term × Nat × Nat
  | [], _, _, result, ci, cs => (result, ci, cs)
  | h :: hs, i, seen, result, ci, cs =>
    if h ∈ seen then setOfLoop hs (i+1) seen result (i+1) result.length
    else setOfLoop hs (i+1) (h :: seen) (result ++ [h]) ci cs

/-- `evaluateListSetOfInternal`, type_checker.cpp:1567-1604 -/
def listSetOf (op nil : Term) (isLeft : Bool) (l : Term) : Res Term :=
  match getNAryChildren op nil isLeft l with
  | none => .null
  | some hargs =>
    let (result, ci, cs) := setOfLoop hargs 0 [] [] 0 0
    if ci = 0 then .val l
    else .val (prependNAry op isLeft (nthTail isLeft ci l) (result.take cs))

/-- `++count[elem]` on an `unordered_map<const ExprValue*, uint32_t>` (type_checker.cpp:1624-1631) -/
def bump : List (Term × Nat) → Term → List (Term × Nat)
  | [], e => [(e, 1)]
  | (k, n) :: m, e => if k = e then (k, u32 (n + 1)) :: m else (k, n) :: bump m e

/-- the multiplicity map of a vector -/
def counts (l : List Term) : List (Term × Nat) := l.foldl bump []

/-- `count[e]`: an absent key has the value 0 -/
def countOf (m : List (Term × Nat)) (e : Term) : Nat := (m.lookup e).getD 0

/-- `evaluateListMPredInternal`, type_checker.cpp:1606-1648.  The entries of `count1` are visited in list
order; the C++ order is unspecified and does not influence the result. -/
def listMPred (isEq : Bool) (op nil : Term) (isLeft : Bool) (l1 l2 : Term) : Res Term :=
  match getNAryChildren op nil isLeft l1 with
  | none => .null
  | some h1 => match getNAryChildren op nil isLeft l2 with
    | none => .null
    | some h2 =>
      if l1 = l2 then .val (.lit (.bool true))
      else
        let c1 := counts h1
        let c2 := counts h2
        if isEq && decide (c1.length ≠ c2.length) then .val (.lit (.bool false))
        else if c1.any (fun e => if isEq then decide (countOf c2 e.1 ≠ e.2) else decide (countOf c2 e.1 < e.2))
        then .val (.lit (.bool false))
        else .val (.lit (.bool true))

/-- `itc->second--; if (itc->second == 0) count2.erase(..)` for a present key (type_checker.cpp:1682-1689) -/
def decr : List (Term × Nat) → Term → List (Term × Nat)
  | [], _ => []
  | (k, n) :: m, e =>
    if k = e then (if u32 ((n : Int) - 1) = 0 then m else (k, u32 ((n : Int) - 1)) :: m)
    else (k, n) :: decr m e

/-- loop of `evaluateListDiffInterInternal`, type_checker.cpp:1678-1697 -/
def diffLoop (isDiff : Bool) : List Term → Nat → List (Term × Nat) → List Term → Nat → Nat → List Term × Nat × Nat
  | [], _, _, result, ci, cs => (result, ci, cs)
  | h :: hs, i, c2, result, ci, cs =>
    let found := (c2.lookup h).isSome
    let c2' := if found then decr c2 h else c2
    if found = isDiff then diffLoop isDiff hs (i+1) c2' result (i+1) result.length
    else diffLoop isDiff hs (i+1) c2' (result ++ [h]) ci cs

/-- `evaluateListDiffInterInternal`, type_checker.cpp:1650-1709 -/
def listDiffInter (isDiff : Bool) (op nil : Term) (isLeft : Bool) (l1 l2 : Term) : Res Term :=
  match getNAryChildren op nil isLeft l1 with
  | none => .null
  | some h1 => match getNAryChildren op nil isLeft l2 with
    | none => .null
    | some h2 =>
      if l1 = l2 then .val (if isDiff then nil else l1)
      else
        let (result, ci, cs) := diffLoop isDiff h1 0 (counts h2) [] 0 0
        if ci = 0 then .val l1
        else .val (prependNAry op isLeft (nthTail isLeft ci l1) (result.take cs))

/-- `evaluateListRevInternal`, type_checker.cpp:1507-1520 -/
def listRev (op nil : Term) (isLeft : Bool) (l : Term) : Res Term :=
  match getNAryChildren op nil isLeft l with
  | none => .null
  | some hargs => .val (prependNAry op isLeft nil hargs.reverse)

/-- index of the first occurrence, `std::find` (type_checker.cpp:1447) -/
def indexOf (x : Term) : List Term → Option Nat
  | [] => none
  | h :: hs => if h = x then some 0 else (indexOf x hs).map (· + 1)

/-- the list part of `evaluateLiteralOpInternal` after the operator and its nil terminator have been found,
type_checker.cpp:1361-1504.  `args[0]` is the operator as written. -/
def evalListOp (k : Kind) (op nil : Term) (isLeft : Bool) (args : List Term) : Res Term :=
  match k with
  | EVAL_CONS =>
    (argAt args 2).bind fun ret =>
    if isNAryList op nil isLeft ret then
      (argAt args 1).bind fun a => .val (prependNAry op isLeft ret [a])
    else .null
  | EVAL_LIST_CONCAT =>
    (argAt args (if isLeft then 1 else 2)).bind fun ret =>
    if isNAryList op nil isLeft ret then
      (argAt args (if isLeft then 2 else 1)).bind fun hd =>
      match getNAryChildren op nil isLeft hd with
      | none => .null
      | some hargs => if ret = nil then .val hd else .val (prependNAry op isLeft ret hargs)
    else .null
  | EVAL_LIST_LENGTH =>
    (argAt args 1).bind fun l =>
    match getNAryChildren op nil isLeft l with
    | none => .null
    | some hargs => .val (.lit (.num (u32 hargs.length)))
  | EVAL_LIST_NTH =>
    (argAt args 2).bind fun i =>
    match i with
    | .lit (.num z) =>
      if Integer.fitsUnsignedInt z then
        (argAt args 1).bind fun l =>
        match getNAryChildren op nil isLeft l with
        | none => .null
        | some hargs => match hargs[Integer.toUnsignedInt z]? with
          | some t => .val t
          | none => .null
      else .null
    | _ => .null
  | EVAL_LIST_FIND =>
    (argAt args 1).bind fun l =>
    match getNAryChildren op nil isLeft l with
    | none => .null
    | some hargs =>
      (argAt args 2).bind fun x =>
      match indexOf x hargs with
      | none => .val (.lit (.num (-1)))
      | some i => .val (.lit (.num (u32 i)))
  | EVAL_LIST_ERASE =>
    (argAt args 1).bind fun l => (argAt args 2).bind fun x => listErase false op nil isLeft l x
  | EVAL_LIST_ERASE_ALL =>
    (argAt args 1).bind fun l => (argAt args 2).bind fun x => listErase true op nil isLeft l x
  | EVAL_LIST_REV => (argAt args 1).bind fun l => listRev op nil isLeft l
  | EVAL_LIST_SETOF => (argAt args 1).bind fun l => listSetOf op nil isLeft l
  | EVAL_LIST_MINCLUDE =>
    (argAt args 1).bind fun l1 => (argAt args 2).bind fun l2 => listMPred false op nil isLeft l1 l2
  | EVAL_LIST_MEQ =>
    (argAt args 1).bind fun l1 => (argAt args 2).bind fun l2 => listMPred true op nil isLeft l1 l2
  | EVAL_LIST_DIFF =>
    (argAt args 1).bind fun l1 => (argAt args 2).bind fun l2 => listDiffInter true op nil isLeft l1 l2
  | EVAL_LIST_INTER =>
    (argAt args 1).bind fun l1 => (argAt args 2).bind fun l2 => listDiffInter false op nil isLeft l1 l2
  | EVAL_LIST_SINGLETON_ELIM =>
    (argAt args 1).bind fun l =>
    match getNAryChildren op nil isLeft l with
    | none => .null
    | some hargs => match hargs with
      | [x] => .val x
      | _ => .val l
  | _ => .null

end Ethos
