import Verif.Model.Eval
/-
Construction of terms from parsed applications: model of `State::mkExpr` and `State::mkApplyAttr`
(`src/state.cpp` 516-598, 629-839, 872-887, 990-1232, 1772-1819) and of `Expr::getFunctionType` (`src/expr.cpp` 173-192).

`mkExpr` calls itself (chains of applications, n-ary operators); `mkExpr env o n` allows `n` nested calls.  Warnings
are not modelled.
-/
namespace Ethos
open Kind

/-- `State::mkApplyInternal`, state.cpp:1222-1232: the curried application -/
def mkApplyInternal (hd : Term) (args : List Term) : Term :=
  args.foldl (fun curr a => .node APPLY [curr, a]) hd

/-- `vchildren.size() > 2 ? mkApplyInternal(vchildren) : mkExprInternal(Kind::APPLY, vchildren)`,
state.cpp:659-661, 1201-1205, 1799-1802 -/
def mkApply (children : List Term) : Term :=
  match children with
  | hd :: a :: b :: r => mkApplyInternal hd (a :: b :: r)
  | cs => .node APPLY cs

/-- `State::getConstructorKind`, state.cpp:1333-1341 -/
def Env.constructorKind (env : Env) (t : Term) : Attr :=
  match env.appInfo t with
  | some ai => ai.attr
  | none => .NONE

/-- the loop of `getFunctionType`, expr.cpp:175-190; `inner` says that a function type was already seen, so that `eo::requires`
is stripped.  Function types have two children (`mkFunctionType`) and `eo::requires` three. -/
def functionTypeLoop : Bool → Term → List Term × Term
  | _, .node FUNCTION_TYPE [a, r] => let (as, t) := functionTypeLoop true r; (a :: as, t)
  | true, .node EVAL_REQUIRES [_, _, r] => functionTypeLoop true r
  | _, t => ([], t)

/-- `getFunctionType`, expr.cpp:173-192: the argument types of nested function types and the return type -/
def getFunctionType (t : Term) : List Term × Term := functionTypeLoop false t

/-- one iteration of the loop at state.cpp:1068-1085: combine the term built so far with the next child.  The second
component is `nlistTerms`. -/
def assocStep (env : Env) (hd : Term) (isNil isLeft : Bool) (st : Term × Nat) (next : Term) : Term × Nat :=
  if isNil && decide (env.constructorKind next = .LIST) then
    (.node EVAL_LIST_CONCAT (if isLeft then [hd, st.1, next] else [hd, next, st.1]), st.2)
  else (if isLeft then app2 hd st.1 next else app2 hd next st.1, st.2 + 1)

/-- the attributes of associative operators -/
def isAssocAttr : Attr → Bool
  | .LEFT_ASSOC | .RIGHT_ASSOC | .LEFT_ASSOC_NIL | .RIGHT_ASSOC_NIL | .LEFT_ASSOC_NS_NIL | .RIGHT_ASSOC_NS_NIL => true
  | _ => false

/-- the associative cases of `mkApplyAttr`, state.cpp:1002-1110.  The children are visited from left to right for
left-associative operators and from right to left otherwise. -/
def mkAssoc (env : Env) (mk : Kind → List Term → Out Term) (attr : Attr) (hd : Term) (args : List Term)
    (consT : Option Term) : Out (Option Term) :=
  match args with
  | [] => .ok consT
  | a1 :: _ =>
    let isLeft := decide (attr = .LEFT_ASSOC ∨ attr = .LEFT_ASSOC_NIL ∨ attr = .LEFT_ASSOC_NS_NIL)
    let isNsNil := decide (attr = .RIGHT_ASSOC_NS_NIL ∨ attr = .LEFT_ASSOC_NS_NIL)
    let isNil := isNsNil || decide (attr = .RIGHT_ASSOC_NIL ∨ attr = .LEFT_ASSOC_NIL)
    match (if isLeft then args else args.reverse) with
    | [] => .ub
    | first :: rest =>
      let (curr, n) :=
        if isNil && decide (env.constructorKind first ≠ .LIST) then
          let nil := consT.getD (.node EVAL_NIL [hd, .node EVAL_TYPE_OF [a1]])
          (first :: rest).foldl (assocStep env hd isNil isLeft) (nil, 0)
        else rest.foldl (assocStep env hd isNil isLeft) (first, 0)
      if isNsNil && decide (n < 2) then (mk EVAL_LIST_SINGLETON_ELIM [hd, curr]).map some
      else .ok (some curr)

/-- the applications of `hd` to neighbouring arguments, state.cpp:1117-1122 -/
def chainPairs (hd : Term) : List Term → List Term
  | a :: b :: r => app2 hd a b :: chainPairs hd (b :: r)
  | _ => []

/-- the applications of `hd` to pairs of arguments in order, state.cpp:1137-1145 -/
def allPairs (hd : Term) : List Term → List Term
  | [] => []
  | a :: r => r.map (fun b => app2 hd a b) ++ allPairs hd r

/-- combine the applications of a chainable or pairwise operator, state.cpp:1123-1130, 1146-1153.  The applications are
`cchildren[1..]`, and `cchildren[0]` is the constructor term; using it when it is null is undefined. -/
def combine (mk : Kind → List Term → Out Term) (consT : Option Term) (apps : List Term) : Out (Option Term) :=
  match apps with
  | [a] => .ok (some a)
  | _ => match consT with
    | none => .ub
    | some c => (mk APPLY (c :: apps)).map some

/-- the case of opaque arguments, state.cpp:1173-1213 -/
def mkOpaque (hd : Term) (args : List Term) (cons : Option Term) : Out (Option Term) :=
  match cons with
  | some (.lit (.num z)) =>
    let nargs := Integer.toUnsignedInt z
    if nargs ≥ args.length + 1 then .ok none
    else
      let op := (args.take nargs).foldl (fun curr a => Term.node APPLY_OPAQUE [curr, a]) hd
      if nargs = args.length then .ok (some op)
      else .ok (some (mkApply (op :: args.drop nargs)))
  | _ => .ub

/-- `State::mkApplyAttr`, state.cpp:990-1220; null is `none` -/
def mkApplyAttr (env : Env) (mk : Kind → List Term → Out Term) (ai : AppInfo) (hd : Term) (args : List Term)
    (consT : Option Term) : Out (Option Term) :=
  if isAssocAttr ai.attr then mkAssoc env mk ai.attr hd args consT
  else match ai.attr with
  | .CHAINABLE => combine mk consT (chainPairs hd args)
  | .PAIRWISE => combine mk consT (allPairs hd args)
  | .ARG_LIST =>
    (if args.length = 1 ∧ args.map env.constructorKind = [Attr.LIST] then argO args 0
      else match consT with
        | none => Out.ub
        | some c => mk APPLY (c :: args)).map fun l => some (.node APPLY [hd, l])
  | .OPAQUE => mkOpaque hd args ai.cons
  | _ => .ok none

/-- the application of the overload `f` in `getOverloadInternal`, state.cpp:1789-1803.  The constructor term is computed
from the original children (line 1796). -/
def overloadApp (env : Env) (o : Ops) (mk : Kind → List Term → Out Term) (children : List Term) (f : Term) : Out Term :=
  (match env.appInfo f with
    | none => Out.ok none
    | some ai => (consTerm o ai children).bind fun c => mkApplyAttr env mk ai f children.tail c).map fun (x : Option Term) =>
  x.getD (mkApply (f :: children.tail))

/-- the loop of `getOverloadInternal`, state.cpp:1785-1817, on the overloads from the last to the first.  `retType` is the
required type if any. -/
def overloadLoop (env : Env) (o : Ops) (mk : Kind → List Term → Out Term) (children : List Term)
    (retType : Option Term) (retApply : Bool) : List Term → Out (Option Term)
  | [] => .ok none
  | f :: fs =>
    (overloadApp env o mk children f).bind fun x =>
    (o.getType x).bind fun t =>
    match t with
    | some t =>
      if retType = none ∨ retType = some t then .ok (some (if retApply then x else f))
      else overloadLoop env o mk children retType retApply fs
    | none => overloadLoop env o mk children retType retApply fs

/-- `State::getOverloadInternal`, state.cpp:1772-1819 -/
def getOverload (env : Env) (o : Ops) (mk : Kind → List Term → Out Term) (overloads children : List Term)
    (retType : Option Term) (retApply : Bool) : Out (Option Term) :=
  overloadLoop env o mk children retType retApply overloads.reverse

/-- an application whose head has no special way of building terms, state.cpp:698-748: eager beta reduction, eager
evaluation of programs, currying -/
def mkPlainApp (env : Env) (o : Ops) (hd : Term) (args : List Term) : Out Term :=
  let curried : Term :=
    if hd.kind ≠ PROGRAM_CONST ∧ hd.kind ≠ PROOF_RULE then mkApply (hd :: args) else .node APPLY (hd :: args)
  if hd.kind = LAMBDA then
    (argO hd.children 0).bind fun vs =>
    (argO hd.children 1).bind fun body =>
    if vs.children.length = args.length then o.evaluate body (vs.children.zip args).reverse else .ok curried
  else if hd.kind = PROGRAM_CONST then
    if env.constructorKind hd ≠ .NONE then
      (o.getType hd).bind fun t =>
      match t with
      | none => .ub
      | some t =>
        if t.children.length = args.length + 1 then
          (evalProgram env (hd :: args)).bind fun r =>
          match r with
          | some (body, ctx) => o.evaluate body ctx
          | none => .ok curried
        else .ok curried
    else .ok curried
  else .ok curried

/-- a parsed application, state.cpp:636-748 -/
def mkApp (env : Env) (o : Ops) (mk : Kind → List Term → Out Term) (hd : Term) (args : List Term) : Out Term :=
  match env.appInfo hd with
  | none => mkPlainApp env o hd args
  | some ai =>
    if ai.kind ≠ NONE then
      if ai.kind = FUNCTION_TYPE then
        match args.getLast? with
        | none => .ub
        | some ret => .ok (mkFunctionType args.dropLast ret)
      else if ai.kind = APPLY then .ok (mkApply args)
      else mk ai.kind args
    else
      (match ai.overload with
        | none => Out.ok none
        | some name => getOverload env o mk (env.overloads name) (hd :: args) none true).bind fun r =>
      match r with
      | some t => .ok t
      | none =>
        (consTerm o ai (hd :: args)).bind fun c =>
        (mkApplyAttr env mk ai hd args c).bind fun r =>
        match r with
        | some t => .ok t
        | none => mkPlainApp env o hd args

/-- a builtin operator applied to terms, state.cpp:750-784 -/
def mkLitOp (o : Ops) (mk : Kind → List Term → Out Term) (k : Kind) (children : List Term) : Out Term :=
  match isNaryLiteralOp k, children with
  | true, a :: b :: c :: r =>
    (c :: r).foldl (fun curr x => curr.bind fun t => mk k [t, x]) (mk k [a, b])
  | _, cs => if checkArity k cs.length then evaluateLiteralOp o k cs else .ok (.node k cs)

/-- `(eo::as t T)`, state.cpp:797-832 -/
def mkAs (env : Env) (o : Ops) (mk : Kind → List Term → Out Term) (t ty : Term) : Out Term :=
  let ft := getFunctionType ty
  let dummies := ft.1.zipIdx.map fun p => env.dummy p.2 p.1
  let ov := match (env.appInfo t).bind (·.overload) with
    | some name => env.overloads name
    | none => [t]
  (getOverload env o mk ov (ty :: dummies) (some ft.2) false).map fun r => r.getD (.node AS [t, ty])

/-- one call of `State::mkExpr`, state.cpp:629-839; `mk` is the recursive call -/
def mkExprStep (env : Env) (o : Ops) (mk : Kind → List Term → Out Term) (k : Kind) (children : List Term) : Out Term :=
  if k = APPLY then
    match children with
    | [] => .ub
    | hd :: args => mkApp env o mk hd args
  else if isLiteralOp k then mkLitOp o mk k children
  else if k = AS_RETURN then
    match children with
    | [] => .ub
    | [c, t] =>
      if env.constructorKind c = .AMB_DATATYPE_CONSTRUCTOR ∨ env.constructorKind c = .AMB then mk APPLY_OPAQUE [c, t]
      else .ok (.node AS_RETURN [c, t])
    | cs => .ok (.node AS_RETURN cs)
  else if k = AS then
    match children with
    | [t, ty] => mkAs env o mk t ty
    | cs => .ok (.node AS cs)
  else .ok (.node k children)

/-- `State::mkExpr` with at most `n` nested calls -/
def mkExpr (env : Env) (o : Ops) : Nat → Kind → List Term → Out Term
  | 0, _, _ => .fuel
  | n+1, k, cs => mkExprStep env o (mkExpr env o n) k cs

/-- `State::mkRequires`, state.cpp:547-562, on the list of pairs -/
def mkRequires (mk : Kind → List Term → Out Term) (reqs : List (Term × Term)) (ret : Term) : Out Term :=
  reqs.foldr (fun r curr => curr.bind fun c => mk EVAL_REQUIRES [r.1, r.2, c]) (.ok ret)

/-- `State::mkProof`, state.cpp:576-579 -/
def mkProof (f : Term) : Term := .node PROOF [f]

/-- `State::mkList`, state.cpp:877-887 -/
def mkList (env : Env) (mk : Kind → List Term → Out Term) (args : List Term) : Out Term :=
  match args with
  | [] => .ok env.listNil
  | _ => mk APPLY (env.listCons :: args)

end Ethos
