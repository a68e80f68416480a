import Verif.Model.Match
import Verif.Model.ListOps
/-
Evaluation and type checking: model of `src/type_checker.cpp` 39-422, 517-953, 1048-1365, 1711-1878.

`evaluate`, `evaluateLiteralOpInternal` and `getType` call each other (through `eo::typeof`, the inference of
nil terminators and the types of applications), and evaluation of user programs need not terminate.  The
functions are therefore given as one step over a record `Ops` of the recursive calls; `ops env n` ties the
knot with at most `n` nested calls (and at most `n` iterations of the loop of `evaluate`).  Running out of this
bound is the outcome `fuel`, which no property counts as a result.

Not modelled: plugins, statistics, warnings and the text of error messages.
-/
namespace Ethos
open Kind

/-- Outcome of a C++ function: a result, undefined behaviour (a read outside a vector), or not finished
within the given bound. -/
inductive Out (α : Type) where
  | ok (a : α)
  | ub
  | fuel
deriving DecidableEq, Repr

namespace Out
def bind {α β : Type} : Out α → (α → Out β) → Out β
  | ok a, f => f a
  | ub, _ => ub
  | fuel, _ => fuel
def map {α β : Type} (f : α → β) : Out α → Out β
  | ok a => ok (f a)
  | ub => ub
  | fuel => fuel
/-- a `Res` (value, null or undefined behaviour) as an outcome; null is `none` -/
def ofRes {α : Type} : Res α → Out (Option α)
  | .val a => ok (some a)
  | .null => ok none
  | .ub => ub
end Out

/-- `AppInfo`, expr_info.h:27-49; `overload` is `d_overloadName` if `d_isOverloaded` -/
structure AppInfo where
  attr : Attr
  cons : Option Term
  kind : Kind := NONE
  overload : Option (List Nat) := none

/-- The part of the state the type checker reads.  Symbols are created with their type
(`mkSymbolInternal`, state.cpp:604-627); `hash` stands for `getHash` (state.cpp:1606-1617, see C13), `boundVar`
for `getBoundVar` on ground types (state.cpp:1354-1372, see C43), `tmp` for the fresh constant made for
`eo::nil` (type_checker.cpp:1363), `dummy` for the fresh constants made for `eo::as` (state.cpp:803-807),
`overloads` for `d_overloads`. -/
structure Env where
  symType : Term → Option Term
  symName : Term → List Nat
  appInfo : Term → Option AppInfo
  litRule : Kind → Option Term
  hash : Term → Nat
  boundVar : List Nat → Term → Term
  tmp : Term → Term
  self : Term
  listCons : Term
  listNil : Term
  listType : Term
  proofType : Term
  dummy : Nat → Term → Term := fun _ t => tmp t
  overloads : List Nat → List Term := fun _ => []

/-- `d_type`, `d_boolType`, `d_any` (state.cpp, constructor) -/
def tType : Term := .node TYPE []
def tBool : Term := .node BOOL_TYPE []
def tAny : Term := .node ANY []
def tTrue : Term := .lit (.bool true)
def tFalse : Term := .lit (.bool false)
/-- `State::mkBool`, state.cpp:845 -/
def mkBool (b : Bool) : Term := .lit (.bool b)

/-- `State::getProgram`, state.cpp:1584-1592 -/
def Env.program (env : Env) (hd : Term) : Option Term :=
  match env.appInfo hd with
  | some ai => if ai.attr = .PROGRAM then ai.cons else none
  | none => none

/-- `State::mkFunctionType`, state.cpp:516-533: nested unary function types -/
def mkFunctionType (args : List Term) (ret : Term) : Term :=
  args.foldr (fun a curr => .node FUNCTION_TYPE [a, curr]) ret

/-- `State::mkList`, state.cpp:877-887, for arguments that are not marked `:list` (the constructors of a
datatype): `d_listCons` is declared right-assoc-nil with nil `d_listNil` -/
def mkListTerm (env : Env) (args : List Term) : Term :=
  args.foldr (fun a l => app2 env.listCons a l) env.listNil

/-! ### Programs -/

/-- loop over the cases of a program, type_checker.cpp:900-936 -/
def runCases (children : List Term) : List Term → Out (Option (Term × Ctx))
  | [] => .ok none
  | c :: cs =>
    match c.children with
    | pat :: body :: _ =>
      if children.length ≠ pat.children.length then .ok none
      else match matchArgs pat.children.tail children.tail [] with
        | some ctx => .ok (some (body, ctx))
        | none => runCases children cs
    | _ => .ub

/-- `evaluateProgramInternal`, type_checker.cpp:866-941: the right-hand side and the bindings of the first
matching case, `none` if the application does not evaluate.  A program without a definition does not
evaluate (the assertion at line 896 is only compiled in debug builds). -/
def evalProgram (env : Env) (children : List Term) : Out (Option (Term × Ctx)) :=
  if children.any (fun e => !e.ground) then .ok none
  else if children.tail.any Term.evaluatable then .ok none
  else match children with
    | [] => .ub
    | hd :: _ => match env.program hd with
      | none => .ok none
      | some prog => runCases children prog.children

/-! ### The evaluation machine -/

/-- `EvFrame`, type_checker.cpp:518-538.  `visited` is an association list whose first entry for a key counts;
the value `none` is the null expression stored on the first visit (line 611).  The head of `visit` is
`visit.back()`.  `key` is the node of `evalTrie` in which to store the result. -/
structure Frame where
  init : Term
  ctx : Ctx
  visited : List (Term × Option Term)
  visit : List Term
  key : Option (List Term)

/-- the evaluation stack (head = back) and `evalTrie`; a stored null expression is `none` -/
structure Mach where
  stack : List Frame
  trie : List (List Term × Option Term)

inductive Step where
  | next (m : Mach)
  | done (t : Term)
  | ub
  | fuel

/-- the evaluated children, if all have been computed -/
def allSome : List (Option Term) → Option (List Term)
  | [] => some []
  | none :: _ => none
  | some t :: r => (allSome r).map (t :: ·)

/-- `mkExprInternal(ck, cchildren)` if a child changed, else the term itself, type_checker.cpp:758-768 -/
def rebuild (cur : Term) (cs : List Term) : Term :=
  if cs = cur.children then cur else .node cur.kind cs

/-- assignment `visited[cur] = v; visit.pop_back()` in the top frame -/
def Frame.set (f : Frame) (cur : Term) (rest : List Term) (v : Term) : Frame :=
  { f with visited := (cur, some v) :: f.visited, visit := rest }

/-- store the result of a case, or the rebuilt term if the case did not evaluate, type_checker.cpp:755-773 -/
def finish (f : Frame) (fs : List Frame) (tr : List (List Term × Option Term)) (cur : Term) (rest : List Term)
    (cch : List (Option Term)) (r : Option Term) : Step :=
  match r with
  | some v => .next ⟨f.set cur rest v :: fs, tr⟩
  | none => match allSome cch with
    | some cs => .next ⟨f.set cur rest (rebuild cur cs) :: fs, tr⟩
    | none => .ub

/-- an application whose head evaluated to a program, type_checker.cpp:655-690 -/
def stepProg (P : List Term → Out (Option (Term × Ctx))) (f : Frame) (fs : List Frame)
    (tr : List (List Term × Option Term)) (cur : Term) (rest : List Term) (cch : List (Option Term)) : Step :=
  match allSome cch with
  | none => .ub
  | some cs => match tr.lookup cs with
    | some r => finish f fs tr cur rest cch r
    | none => match P cs with
      | .ok none => finish f fs ((cs, none) :: tr) cur rest cch none
      | .ok (some (body, nctx)) =>
        if body.ground || nctx.isEmpty then finish f fs ((cs, some body) :: tr) cur rest cch (some body)
        else .next ⟨⟨body, nctx, [], [body], some cs⟩ :: f :: fs, tr⟩
      | .ub => .ub
      | .fuel => .fuel

/-- the second visit of a term, type_checker.cpp:632-785.  The visit stack of `f` is `cur :: rest`.  Program
symbols and parameters are leaves (they are created by `mkSymbol`), so the tests of these kinds are made on
leaves only. -/
def stepSecond (O : Kind → List Term → Out (Option Term)) (P : List Term → Out (Option (Term × Ctx)))
    (f : Frame) (fs : List Frame) (tr : List (List Term × Option Term)) (cur : Term) (rest : List Term) : Step :=
  let cch := cur.children.map (fun c => (f.visited.lookup c).join)
  if cur.kind = APPLY ∨ cur.kind = APPLY_OPAQUE then
    match cch with
    | some h :: _ =>
      if h.kind = PROGRAM_CONST ∧ h.children = [] then stepProg P f fs tr cur rest cch
      else finish f fs tr cur rest cch none
    | _ => .ub
  else if cur.kind = EVAL_IF_THEN_ELSE then
    match cur.children, cch with
    | [_, t1, t2], [some c, a, b] =>
      match c with
      | .lit (.bool v) =>
        match (if v then a else b) with
        | none => .next ⟨{ f with visit := (if v then t1 else t2) :: cur :: rest } :: fs, tr⟩
        | some e => finish f fs tr cur rest cch (some e)
      | _ =>
        if a.isNone || b.isNone then
          .next ⟨{ f with visit := (if b.isNone then [t2] else []) ++ (if a.isNone then [t1] else []) ++ cur :: rest }
            :: fs, tr⟩
        else finish f fs tr cur rest cch none
    | _, _ => .ub
  else if isLiteralOp cur.kind then
    match allSome cch with
    | none => .ub
    | some cs => match O cur.kind cs with
      | .ok r => finish f fs tr cur rest cch r
      | .ub => .ub
      | .fuel => .fuel
  else finish f fs tr cur rest cch none

/-- one iteration of the inner loop on the term `cur` at the top of the visit stack,
type_checker.cpp:571-791 -/
def stepCur (O : Kind → List Term → Out (Option Term)) (P : List Term → Out (Option (Term × Ctx)))
    (f : Frame) (fs : List Frame) (tr : List (List Term × Option Term)) (cur : Term) (rest : List Term) : Step :=
  if !cur.evaluatable && (cur.ground || f.ctx.isEmpty) then .next ⟨f.set cur rest cur :: fs, tr⟩
  else if cur.kind = PARAM ∧ cur.children = [] then
    match f.ctx.find cur with
    | some v => .next ⟨f.set cur rest v :: fs, tr⟩
    | none => .next ⟨f.set cur rest cur :: fs, tr⟩
  else match f.visited.lookup cur with
    | none =>
      if cur.kind = EVAL_IF_THEN_ELSE then
        match cur.children with
        | [c, _, _] => .next ⟨{ f with visited := (cur, none) :: f.visited, visit := c :: cur :: rest } :: fs, tr⟩
        | _ => .next ⟨f.set cur rest cur :: fs, tr⟩
      else
        .next ⟨{ f with visited := (cur, none) :: f.visited, visit := cur.children.reverse ++ cur :: rest } :: fs, tr⟩
    | some (some _) => .next ⟨{ f with visit := rest } :: fs, tr⟩
    | some none => stepSecond O P f fs tr cur rest

/-- one iteration, type_checker.cpp:563-831: a visit in the top frame, or, when its visit stack is empty, the
return to the frame below -/
def stepMach (O : Kind → List Term → Out (Option Term)) (P : List Term → Out (Option (Term × Ctx)))
    (m : Mach) : Step :=
  match m.stack with
  | [] => .ub
  | f :: fs =>
    match f.visit with
    | cur :: rest => stepCur O P f fs m.trie cur rest
    | [] =>
      match f.visited.lookup f.init with
      | some (some v) =>
        let tr := match f.key with
          | some k => (k, some v) :: m.trie
          | none => m.trie
        match fs with
        | [] => .done v
        | g :: gs => match g.visit with
          | [] => .ub
          | c :: r => .next ⟨g.set c r v :: gs, tr⟩
      | _ => .ub

/-- the outer loop with at most `n` iterations -/
def runMach (O : Kind → List Term → Out (Option Term)) (P : List Term → Out (Option (Term × Ctx))) :
    Nat → Mach → Out Term
  | 0, _ => .fuel
  | n+1, m => match stepMach O P m with
    | .next m' => runMach O P n m'
    | .done t => .ok t
    | .ub => .ub
    | .fuel => .fuel

/-- the initial state of `evaluate(e, ctx)`, type_checker.cpp:540-558 -/
def initMach (t : Term) (ctx : Ctx) : Mach := ⟨[⟨t, ctx, [], [t], none⟩], []⟩

/-! ### Recursive calls -/

/-- the mutually recursive entry points of `TypeChecker` -/
structure Ops where
  /-- `evaluate(e, ctx)` -/
  evaluate : Term → Ctx → Out Term
  /-- `evaluateLiteralOpInternal(k, args)`; null is `none` -/
  evalOp : Kind → List Term → Out (Option Term)
  /-- `getType(e)`; null is `none` -/
  getType : Term → Out (Option Term)

/-- `v[i]` on a vector of terms -/
def argO (args : List Term) (i : Nat) : Out Term :=
  match args[i]? with
  | some t => .ok t
  | none => .ub

/-! ### Types -/

/-- the patterns and terms to match in `getTypeAppInternal`, type_checker.cpp:356-393, up to the first quoted
argument whose type differs from the type of the quoted term; the Boolean says whether there is none.  The
types looked up in the cache (`lookupType`) are recomputed by `getType`; a missing type of an argument, which
the callers rule out, is `ub`. -/
def appPairs (o : Ops) : List Term → List Term → Out (List (Term × Term) × Bool)
  | hdt :: hdts, child :: cs =>
    if hdt.kind = QUOTE_TYPE then
      (argO hdt.children 0).bind fun q =>
      (o.getType child).bind fun ct =>
      (o.getType q).bind fun cte =>
      match ct with
      | none => .ub
      | some t =>
        if cte = some t then (appPairs o hdts cs).map fun r => ((q, child) :: r.1, r.2)
        else .ok ([], false)
    else
      (o.getType child).bind fun ct =>
      match ct with
      | none => .ub
      | some t => (appPairs o hdts cs).map fun r => ((hdt, t) :: r.1, r.2)
  | _, _ => .ok ([], true)

/-- `getTypeAppInternal`, type_checker.cpp:327-422: the type (null is `none`) and the context built.  The loop
over the arguments shares one context and one `visited` set, which is one run of the matching loop on the
list of pairs. -/
def typeApp (o : Ops) (children : List Term) : Out (Option Term × Ctx) :=
  (argO children 0).bind fun hd =>
  (o.getType hd).bind fun ht =>
  match ht with
  | none => .ub
  | some hdType =>
    if hdType.kind ≠ FUNCTION_TYPE ∧ hdType.kind ≠ PROGRAM_TYPE then .ok (none, [])
    else if hdType.children.length ≠ children.length then .ok (none, [])
    else
      (appPairs o hdType.children.dropLast children.tail).bind fun r =>
      match matchLoop (Term.sizes (r.1.map Prod.fst)) r.1 [] [] with
      | none => .ub
      | some (false, ctx) => .ok (none, ctx)
      | some (true, ctx) =>
        if r.2 then
          match hdType.children.getLast? with
          | none => .ub
          | some ret => (o.evaluate ret ctx).map fun t => (some t, ctx)
        else .ok (none, ctx)

/-- `getOrSetLiteralTypeRule`, type_checker.cpp:60-89; an unset rule becomes `d_any` (state.cpp:586-590) -/
def litType (env : Env) (o : Ops) (k : Kind) (self : Option Term) : Out (Option Term) :=
  let tp := (env.litRule k).getD tAny
  if tp.ground then .ok (some tp)
  else (o.evaluate tp [(env.self, self.getD tAny)]).map some

/-- `getLiteralOpType`, type_checker.cpp:1711-1798 -/
def litOpType (env : Env) (o : Ops) (k : Kind) (children ctypes : List Term) : Out (Option Term) :=
  if !checkArity k ctypes.length then .ok none
  else match k with
  | EVAL_TYPE_OF => .ok (some tType)
  | EVAL_VAR | EVAL_NIL => (argO children 1).map some
  | EVAL_ADD | EVAL_MUL | EVAL_NEG | EVAL_AND | EVAL_OR | EVAL_XOR | EVAL_NOT | EVAL_CONCAT | EVAL_EXTRACT =>
    (argO ctypes 0).map some
  | EVAL_IF_THEN_ELSE | EVAL_CONS | EVAL_LIST_CONCAT | EVAL_LIST_NTH | EVAL_LIST_ERASE | EVAL_LIST_ERASE_ALL
  | EVAL_LIST_REV | EVAL_LIST_SETOF | EVAL_LIST_DIFF | EVAL_LIST_INTER | EVAL_LIST_SINGLETON_ELIM =>
    (argO ctypes 1).map some
  | EVAL_REQUIRES => (argO ctypes 2).map some
  | EVAL_IS_OK | EVAL_IS_EQ | EVAL_EQ | EVAL_IS_NEG | EVAL_COMPARE | EVAL_IS_Z | EVAL_IS_Q | EVAL_IS_BIN
  | EVAL_IS_STR | EVAL_IS_BOOL | EVAL_IS_VAR | EVAL_GT | EVAL_LIST_MINCLUDE | EVAL_LIST_MEQ => .ok (some tBool)
  | EVAL_HASH | EVAL_INT_DIV | EVAL_INT_MOD | EVAL_TO_INT | EVAL_LENGTH | EVAL_FIND | EVAL_LIST_LENGTH
  | EVAL_LIST_FIND => litType env o NUMERAL none
  | EVAL_RAT_DIV | EVAL_TO_RAT => litType env o RATIONAL none
  | EVAL_NAME_OF | EVAL_TO_STRING => litType env o STRING none
  | EVAL_TO_BIN => litType env o BINARY none
  | EVAL_DT_CONSTRUCTORS | EVAL_DT_SELECTORS => .ok (some env.listType)
  | _ => .ok none

/-- the types of the children in order; `none` if one of them has no type (type_checker.cpp:91-145 checks the
children of a term before the term and fails as soon as one of them fails) -/
def typesOf (o : Ops) : List Term → Out (Option (List Term))
  | [] => .ok (some [])
  | c :: cs =>
    (o.getType c).bind fun t =>
    match t with
    | none => .ok none
    | some t => (typesOf o cs).map fun r => r.map (t :: ·)

/-- `getTypeInternal`, type_checker.cpp:225-325, given the types of the children -/
def typeInternal (env : Env) (o : Ops) (e : Term) (ctypes : List Term) : Out (Option Term) :=
  match e.kind with
  | APPLY | APPLY_OPAQUE => (typeApp o e.children).map Prod.fst
  | LAMBDA =>
    (argO e.children 0).bind fun vars =>
    (typesOf o vars.children).bind fun ts =>
    match ts with
    | none => .ub
    | some ts => (argO ctypes 1).map fun ret => some (mkFunctionType ts ret)
  | TYPE | BOOL_TYPE | FUNCTION_TYPE | PROGRAM_TYPE | ANY => .ok (some tType)
  | PROOF =>
    (argO ctypes 0).bind fun ct =>
    if ct.kind ≠ BOOL_TYPE then .ok none else .ok (some env.proofType)
  | QUOTE_TYPE | TUPLE => .ok (some tAny)
  | BOOLEAN => .ok (some tBool)
  | NUMERAL | DECIMAL | RATIONAL | HEXADECIMAL | BINARY | STRING => litType env o e.kind (some e)
  | AS | AS_RETURN => .ok none
  | PARAMETERIZED => (argO ctypes 1).map some
  | k => if isLiteralOp k then litOpType env o k e.children ctypes else .ok none

/-- `getType`, type_checker.cpp:91-145.  Symbols have their type in the cache from their creation
(state.cpp:622); every type is recomputed here, the table of computed types is in `Model/TypeCache`. -/
def typeStep (env : Env) (o : Ops) (e : Term) : Out (Option Term) :=
  match e with
  | .sym _ _ => .ok (env.symType e)
  | _ =>
    (typesOf o e.children).bind fun cts =>
    match cts with
    | none => .ok none
    | some ctypes =>
      (typeInternal env o e ctypes).map fun r =>
        match r with
        | none => none
        | some t => if t.ground && t.evaluatable then none else some t

/-! ### Constructor terms (nil terminators) -/

/-- all parameters bound to ground terms, type_checker.cpp:1856-1873 -/
def paramsGround (ctx : Ctx) (ps : List Term) : Bool :=
  ps.all fun p => match ctx.find p with
    | some v => v.ground
    | none => false

/-- `computeConstructorTermInternal`, type_checker.cpp:1800-1878 -/
def consTerm (o : Ops) (ai : AppInfo) (children : List Term) : Out (Option Term) :=
  match ai.cons with
  | none => .ok none
  | some ct =>
    if ct.kind ≠ PARAMETERIZED then .ok (some ct)
    else
      match children with
      | [] => .ub
      | [_] => .ok none
      | hd :: c1 :: _ =>
        if !isNAryAttr ai.attr then .ok none
        else
          (o.getType hd).bind fun t0 =>
          match t0 with
          | none => .ok none
          | some _ =>
            (o.getType c1).bind fun t1 =>
            match t1 with
            | none => .ok none
            | some _ =>
              (typeApp o [hd, c1]).bind fun r =>
              match ct.children with
              | ps :: body :: _ =>
                if paramsGround r.2 ps.children then (o.evaluate body r.2).map some else .ok none
              | _ => .ub

/-! ### Builtin operators -/

/-- the literal stored in a term -/
def asLit : Term → Option Lit
  | .lit l => some l
  | _ => none

/-- all arguments as literals -/
def allLits : List Term → Option (List Lit)
  | [] => some []
  | t :: ts => match asLit t with
    | some l => (allLits ts).map (l :: ·)
    | none => none

/-- the list part, type_checker.cpp:1327-1505 -/
def evalList (env : Env) (o : Ops) (k : Kind) (args : List Term) : Out (Option Term) :=
  (argO args 0).bind fun a0 =>
  (if a0.kind = PARAMETERIZED then argO a0.children 1 else .ok a0).bind fun op =>
  match env.appInfo op with
  | none => .ok none
  | some ai =>
    if !isListNilAttr ai.attr then .ok none
    else
      let isLeft := decide (ai.attr = .LEFT_ASSOC_NIL) || decide (ai.attr = .LEFT_ASSOC_NS_NIL)
      if k = EVAL_NIL then
        (argO args 1).bind fun ty => consTerm o ai [a0, env.tmp ty]
      else
        match args[1]? with
        | none => .ok none
        | some a1 =>
          (consTerm o ai [a0, a1]).bind fun nil =>
          match nil with
          | none => .ok none
          | some nil => Out.ofRes (evalListOp k op nil isLeft args)

/-- evaluation on literals, else on lists, type_checker.cpp:1285-1505 -/
def evalValues (env : Env) (o : Ops) (k : Kind) (args : List Term) : Out (Option Term) :=
  match allLits args with
  | some ls =>
    if !checkArity k args.length then .ok none
    else (Out.ofRes (Lit.evaluate k ls)).map (Option.map Term.lit)
  | none => if !isListLiteralOp k then .ok none else evalList env o k args

/-- head of nested applications, `do { sym = sym[0]; } while (sym.getKind() == APPLY)` -/
def stripApply : Term → Term
  | .node APPLY (h :: _) => stripApply h
  | t => t

/-- `EVAL_DT_SELECTORS`, type_checker.cpp:1214-1234 -/
def dtSelectors (env : Env) (a0 : Term) : Out (Option Term) :=
  (if a0.kind = APPLY_OPAQUE then argO a0.children 0 else .ok a0).bind fun s =>
  match env.appInfo s with
  | some ai =>
    if ai.attr = .DATATYPE_CONSTRUCTOR ∨ ai.attr = .AMB_DATATYPE_CONSTRUCTOR then .ok ai.cons else .ok none
  | none => .ok none

/-- `EVAL_DT_CONSTRUCTORS`, type_checker.cpp:1235-1281 -/
def dtConstructors (env : Env) (o : Ops) (a0 : Term) : Out (Option Term) :=
  (if a0.kind = APPLY then (o.getType a0).map fun t => decide (t = some tType) else .ok false).bind fun isParam =>
  match env.appInfo (if isParam then stripApply a0 else a0) with
  | some ai =>
    if ai.attr = .DATATYPE then
      if isParam then
        match ai.cons with
        | none => .ub
        | some l =>
          .ok (some (mkListTerm env ((naryLoop env.listCons false l).1.map fun c =>
            match env.appInfo c with
            | some ci => if ci.attr = .AMB_DATATYPE_CONSTRUCTOR then .node APPLY_OPAQUE [c, a0] else c
            | none => c)))
      else .ok ai.cons
    else .ok none
  | none => .ok none

/-- the kind a category tester tests for, type_checker.cpp:1157-1166 -/
def testerKind : Kind → Kind
  | EVAL_IS_Z => NUMERAL
  | EVAL_IS_Q => RATIONAL
  | EVAL_IS_BIN => BINARY
  | EVAL_IS_STR => STRING
  | EVAL_IS_BOOL => BOOLEAN
  | EVAL_IS_VAR => VARIABLE
  | _ => NONE

/-- operators on ground arguments, type_checker.cpp:1095-1505 -/
def evalGround (env : Env) (o : Ops) (k : Kind) (args : List Term) : Out (Option Term) :=
  match k with
  | EVAL_IS_OK => (argO args 0).map fun a => some (mkBool (!a.evaluatable))
  | EVAL_IS_EQ =>
    (argO args 0).bind fun a =>
    if a.evaluatable then .ok (some (mkBool false))
    else (argO args 1).map fun b => some (mkBool (!b.evaluatable && decide (a = b)))
  | EVAL_EQ =>
    (argO args 0).bind fun a =>
    if a.evaluatable then .ok none
    else (argO args 1).map fun b => if b.evaluatable then none else some (mkBool (decide (a = b)))
  | EVAL_HASH =>
    (argO args 0).map fun a => if a.evaluatable then none else some (.lit (.num (u32 (env.hash a))))
  | EVAL_COMPARE =>
    (argO args 0).bind fun a =>
    if a.evaluatable then .ok none
    else (argO args 1).map fun b =>
      if b.evaluatable then none else some (mkBool (decide (env.hash a > env.hash b)))
  | EVAL_IS_Z | EVAL_IS_Q | EVAL_IS_BIN | EVAL_IS_STR | EVAL_IS_BOOL | EVAL_IS_VAR =>
    (argO args 0).map fun a => some (mkBool (decide (a.kind = testerKind k)))
  | EVAL_TYPE_OF =>
    (argO args 0).bind fun a =>
    if a.evaluatable then evalValues env o k args
    else (o.getType a).bind fun t =>
      match t with
      | none => .ok none
      | some t => if t.ground then .ok (some t) else evalValues env o k args
  | EVAL_NAME_OF =>
    (argO args 0).bind fun a =>
    if a.kind = CONST ∨ a.kind = VARIABLE then .ok (some (.lit (.str (Str.toInternal (env.symName a) false))))
    else evalValues env o k args
  | EVAL_VAR =>
    (argO args 0).bind fun a =>
    match a with
    | .lit (.str s) =>
      (argO args 1).bind fun ty =>
      if ty.evaluatable then evalValues env o k args
      else (o.getType ty).bind fun tt =>
        match tt with
        | some tt =>
          if tt.kind = TYPE then .ok (some (env.boundVar (Str.toString s) ty)) else evalValues env o k args
        | none => evalValues env o k args
    | _ => evalValues env o k args
  | EVAL_DT_SELECTORS => (argO args 0).bind fun a => dtSelectors env a
  | EVAL_DT_CONSTRUCTORS => (argO args 0).bind fun a => dtConstructors env o a
  | k => evalValues env o k args

/-- `evaluateLiteralOpInternal`, type_checker.cpp:1048-1505; null is `none` -/
def opStep (env : Env) (o : Ops) (k : Kind) (args : List Term) : Out (Option Term) :=
  match k with
  | EVAL_IF_THEN_ELSE =>
    (argO args 0).bind fun c =>
    match c with
    | .lit (.bool b) => (argO args (if b then 1 else 2)).map some
    | _ => .ok none
  | EVAL_REQUIRES =>
    (argO args 0).bind fun a =>
    if a.ground && !a.evaluatable then
      (argO args 1).bind fun b =>
      if b.ground && !b.evaluatable && decide (a = b) then (argO args 2).map some else .ok none
    else .ok none
  | k => if args.any (fun e => !e.ground) then .ok none else evalGround env o k args

/-- the knot: at most `n` nested calls -/
def ops (env : Env) : Nat → Ops
  | 0 => ⟨fun _ _ => .fuel, fun _ _ => .fuel, fun _ => .fuel⟩
  | n+1 =>
    { evaluate := fun t ctx => runMach (ops env n).evalOp (evalProgram env) n (initMach t ctx)
      evalOp := opStep env (ops env n)
      getType := typeStep env (ops env n) }

/-- `evaluateLiteralOp`, type_checker.cpp:943-953 -/
def evaluateLiteralOp (o : Ops) (k : Kind) (args : List Term) : Out Term :=
  (o.evalOp k args).map fun r => r.getD (.node k args)

/-- `evaluateProgramApp`, type_checker.cpp:835-852 -/
def evaluateProgramApp (env : Env) (o : Ops) (args : List Term) : Out Term :=
  (evalProgram env args).bind fun r =>
  match r with
  | some (body, ctx) => o.evaluate body ctx
  | none => .ok (.node APPLY args)

end Ethos
