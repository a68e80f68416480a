import Verif.Model.Decl
import Verif.Model.Desugar
import Verif.Model.Flags
/-
From parsed expressions to terms: model of `src/expr_parser.cpp` 114-467 (`parseExpr`), 469-531 (`parseType`,
`parseFormula`), 533-692 (lists of expressions, sorted variables and let bindings), 1105-1310 and of `src/state.cpp` 83-195
(the builtin symbols), 481-545, 600-627, 1302-1331.

The input is a tree of type `SExp`: tokenisation and the matching of parentheses are not part of this file.  Literals are
given after the normalisation of numerals, decimals and hexadecimals that the options ask for.
-/
namespace Ethos
open Kind

/-- the bytes of a name of the source -/
def nm (s : String) : Name := s.toList.map Char.toNat

/-- An expression as written.  `binder` is `(f ((x1 e1) … (xn en)) t1 … tm)`: for a symbol marked `:binder` the `ei` are
types, for one marked `:let-binder` they are terms.  `appq` is an application of `(_ …)` or `(as …)`.  The attributes
of `(! t …)` are ignored by the code except that they are read; they are dropped here. -/
inductive SExp where
  | sym (n : Name)
  | lit (l : Lit)
  | type
  | bool
  | app (n : Name) (args : List SExp)
  | appq (h : SExp) (args : List SExp)
  | binder (n : Name) (xs : List Name) (es : List SExp) (args : List SExp)
  | letE (xs : List Name) (es : List SExp) (body : SExp)
  | annot (e : SExp)

/-- an expression of the form `(_ …)` or `(as …)`, expr_parser.cpp:150-161 -/
def SExp.indexed : SExp → Bool
  | .app x _ | .binder x _ _ _ => decide (x = nm "_" ∨ x = nm "as")
  | _ => false

/-- The state of the checker (state.h:330-400), the types and names of the symbols (`mkSymbolInternal` stores them in the
symbol) and the identity of the next symbol.  Vectors are lists whose head is the back.  `used` are the keys of
`Stats::d_rstats` (stats.h). -/
structure State where
  scope : Scope
  decls : Decls
  symType : Term → Option Term
  symName : Term → Name
  next : Nat
  pfrSorry : List Term
  asms : List Term
  asmCtx : List Nat
  hasRef : Bool
  refNf : Option Term
  refAsserts : List Term
  included : List Name
  used : List Term

namespace State

/-- the environment of the type checker in a state; the fields of `b` not given by the state (hash values, bound variables,
constants made on the fly, builtin lists) are those of `b` -/
def env (b : Env) (st : State) : Env :=
  { b with
    symType := st.symType
    symName := st.symName
    appInfo := st.decls.appInfo st.scope.mark
    litRule := st.decls.litRule
    overloads := st.scope.ov }

/-- `State::mkSymbol`, state.cpp:592-596, 600-627: every call makes a new symbol -/
def mkSymbol (st : State) (k : Kind) (n : Name) (ty : Term) : State × Term :=
  let v := Term.sym k st.next
  ({ st with
      next := st.next + 1
      symType := fun t => if t = v then some ty else st.symType t
      symName := fun t => if t = v then n else st.symName t }, v)

/-- `State::bind` on the main table -/
def bind (st : State) (n : Name) (t : Term) : State := { st with scope := st.scope.bind n t }
/-- `State::pushScope`, state.cpp:212-219 -/
def push (st : State) : State := { st with scope := st.scope.push }
/-- `State::popScope`, state.cpp:221-262 -/
def pop (st : State) : Run State := st.scope.pop.map fun s => { st with scope := s }

end State

/-- the outcome of evaluation and typing as the outcome of a command -/
def Run.lift {α : Type} : Out α → Run α
  | .ok a => .ok a
  | .ub => .ub
  | .fuel => .fuel

/-- a null expression is an error reported to the user -/
def Run.orErr {α : Type} : Option α → Run α
  | some a => .ok a
  | none => .err

/-- an `if` guarding a reported error -/
def Run.guard (b : Bool) : Run Unit := if b then .ok () else .err

section
variable (b : Env) (n : Nat)

/-- `State::mkExpr` in a state -/
def State.build (st : State) (k : Kind) (cs : List Term) : Run Term :=
  .lift (mkExpr (st.env b) (ops (st.env b) n) n k cs)

/-- `ExprParser::typeCheck(e)`, expr_parser.cpp:1182-1198 -/
def State.typeCheck (st : State) (e : Term) : Run Term :=
  (Run.lift ((ops (st.env b) n).getType e)).bind .orErr

/-- `ExprParser::typeCheck(e, expected)`, expr_parser.cpp:1200-1214 -/
def State.typeCheckAs (st : State) (e ty : Term) : Run Unit :=
  (st.typeCheck b n e).bind fun t => .guard (t = ty)

/-- `State::getBoundVar`, state.cpp:1354-1372; see `VarCache.getBoundVar` for the table of bound variables -/
def State.getBoundVar (st : State) (x : Name) (ty : Term) : Run Term :=
  if ty.ground then .ok (b.boundVar x ty) else st.build b n EVAL_VAR [.lit (.str x), ty]

/-- the checks of `ExprParser::parseType` on the parsed expression, expr_parser.cpp:500-522 -/
def State.checkType (st : State) (allowEval : Bool) (e : Term) : Run Unit :=
  (st.typeCheckAs b n e tType).bind fun _ => .guard (!(e.evaluatable && (e.ground || !allowEval)))

/-- `State::mkBinderList`, state.cpp:1302-1311; a missing constructor term is undefined -/
def State.mkBinderList (st : State) (f : Term) (vs : List Term) : Run Term :=
  match ((st.env b).appInfo f).bind (·.cons) with
  | none => .ub
  | some c => st.build b n APPLY (c :: vs)

/-- the pairs of `mkLetBinderList`, state.cpp:1323-1326 -/
def State.mkPairs (st : State) (pairCons : Term) : List (Term × Term) → Run (List Term)
  | [] => .ok []
  | (v, t) :: r => (st.build b n APPLY [pairCons, v, t]).bind fun p => (st.mkPairs pairCons r).map (p :: ·)

/-- `State::mkLetBinderList`, state.cpp:1313-1331 -/
def State.mkLetBinderList (st : State) (f : Term) (lls : List (Term × Term)) : Run Term :=
  match ((st.env b).appInfo f).bind (·.cons) with
  | some (.node _ (pairCons :: listCons :: _)) =>
    (st.mkPairs b n pairCons lls).bind fun vs => st.build b n APPLY (listCons :: vs)
  | _ => .ub

/-- bind several names, as in expr_parser.cpp:397-400, 685-688 -/
def State.bindAll (st : State) (l : List (Name × Term)) : State := l.foldl (fun st p => st.bind p.1 p.2) st

/-- A binder may only be applied to a list of variables, or to a term that does not begin with two parentheses
(expr_parser.cpp:184-231): an argument that begins with two parentheses is read as a list of variables, `binder` in `SExp`. -/
def binderArgs (ck : Attr) (args : List SExp) : Bool :=
  match args with
  | .appq .. :: _ => ck ≠ .BINDER ∧ ck ≠ .LET_BINDER
  | _ => true

mutual
/-- `ExprParser::parseExpr`, expr_parser.cpp:114-467 -/
def parseExpr : SExp → State → Run (State × Term)
  | .sym x, st =>
    match st.scope.get x with
    | none => .err
    | some t => if t.kind = BUILTIN_CONST then .err else .ok (st, t)
  | .lit l, st => .ok (st, .lit l)
  | .type, st => .ok (st, tType)
  | .bool, st => .ok (st, tBool)
  | .app x args, st =>
    match st.scope.get x with
    | none => .err
    | some hd =>
      if binderArgs ((st.env b).constructorKind hd) args then
        (parseList args st).bind fun p => (p.1.build b n APPLY (hd :: p.2)).map fun t => (p.1, t)
      else .err
  | .appq h args, st =>
    if h.indexed then
      (parseExpr h st).bind fun q =>
      (parseList args q.1).bind fun p => (p.1.build b n APPLY (q.2 :: p.2)).map fun t => (p.1, t)
    else .err
  | .binder x xs es args, st =>
    match st.scope.get x with
    | none => .err
    | some hd =>
      if xs.isEmpty then .err
      else if (st.env b).constructorKind hd = .BINDER then
        (parseVars xs es st.push).bind fun p =>
        (p.1.mkBinderList b n hd p.2).bind fun vl =>
        (parseList args p.1).bind fun p =>
        (p.1.build b n APPLY (hd :: vl :: p.2)).bind fun t => p.1.pop.map fun st => (st, t)
      else if (st.env b).constructorKind hd = .LET_BINDER then
        (parseLets xs es st.push).bind fun p =>
        let st := p.1.bindAll (p.2.map fun l => (l.1, l.2.1))
        (st.mkLetBinderList b n hd (p.2.map (·.2))).bind fun vl =>
        (parseList args st).bind fun p =>
        (p.1.build b n APPLY (hd :: vl :: p.2)).bind fun t => p.1.pop.map fun st => (st, t)
      else .err
  | .letE xs es body, st =>
    (parseList es st).bind fun p =>
    (parseExpr body (p.1.push.bindAll (xs.zip p.2))).bind fun p => p.1.pop.map fun st => (st, p.2)
  | .annot e, st => parseExpr e st
/-- `ExprParser::parseExprList`, expr_parser.cpp:533-547, and the arguments of an application -/
def parseList : List SExp → State → Run (State × List Term)
  | [], st => .ok (st, [])
  | e :: es, st =>
    (parseExpr e st).bind fun p => (parseList es p.1).map fun q => (q.1, p.2 :: q.2)
/-- `parseAndBindSortedVarList(Kind::NONE)`, expr_parser.cpp:613-668: the bound variables of a binder -/
def parseVars : List Name → List SExp → State → Run (State × List Term)
  | x :: xs, e :: es, st =>
    (parseExpr e st).bind fun p =>
    (p.1.checkType b n false p.2).bind fun _ =>
    (p.1.getBoundVar b n x p.2).bind fun v =>
    (parseVars xs es (p.1.bind x v)).map fun q => (q.1, v :: q.2)
  | _, _, st => .ok (st, [])
/-- `parseAndBindLetList` before the bindings are made, expr_parser.cpp:670-688: the variables with the name each one is
bound to, which is that of the variable (`Expr::getSymbol`, expr.cpp:161-169) and empty if the type is not ground, and their
terms -/
def parseLets : List Name → List SExp → State → Run (State × List (Name × Term × Term))
  | x :: xs, e :: es, st =>
    (parseExpr e st).bind fun p =>
    (p.1.typeCheck b n p.2).bind fun tt =>
    (p.1.getBoundVar b n x tt).bind fun v =>
    (parseLets xs es p.1).map fun q => (q.1, ((if tt.ground then x else []), v, p.2) :: q.2)
  | _, _, st => .ok (st, [])
end

/-- `ExprParser::parseType`, expr_parser.cpp:469-524 -/
def parseType (allowQuote allowEval : Bool) (e : SExp) (st : State) : Run (State × Term) :=
  let ordinary (_ : Unit) : Run (State × Term) :=
    (parseExpr b n e st).bind fun p => (p.1.checkType b n allowEval p.2).map fun _ => p
  match allowQuote, e with
  | true, .app q [x] =>
    if q = nm "eo::quote" then
      (parseExpr b n x st).bind fun p =>
      if p.2.kind = PARAM then .ok (p.1, .node QUOTE_TYPE [p.2]) else .err
    else ordinary ()
  | _, _ => ordinary ()

/-- `ExprParser::parseTypeList`, expr_parser.cpp:550-563 -/
def parseTypeList (allowQuote : Bool) : List SExp → State → Run (State × List Term)
  | [], st => .ok (st, [])
  | e :: es, st =>
    (parseType b n allowQuote false e st).bind fun p => (parseTypeList allowQuote es p.1).map fun q => (q.1, p.2 :: q.2)

/-- `ExprParser::parseFormula`, expr_parser.cpp:526-531 -/
def parseFormula (e : SExp) (st : State) : Run (State × Term) :=
  (parseExpr b n e st).bind fun p => (p.1.typeCheckAs b n p.2 tBool).map fun _ => p

/-- `ExprParser::parseExprPairList`, expr_parser.cpp:597-610 -/
def parsePairs : List (SExp × SExp) → State → Run (State × List (Term × Term))
  | [], st => .ok (st, [])
  | (x, y) :: r, st =>
    (parseExpr b n x st).bind fun p => (parseExpr b n y p.1).bind fun q =>
    (parsePairs r q.1).map fun s => (s.1, (p.2, q.2) :: s.2)

/-- the attributes of a parameter: `:list`, `:implicit`, `:opaque`, `:syntax` and `:restrict` with its term -/
inductive PAttr where
  | list
  | implicit
  | opq
  | synt
  | restrict (e : SExp)

/-- a parameter -/
structure SParam where
  name : Name
  type : SExp
  attrs : List PAttr := []

/-- the parameter is marked `:implicit` -/
def SParam.implicit (v : SParam) : Bool := v.attrs.any fun a => a matches .implicit
/-- the parameter is marked `:opaque` -/
def SParam.opq (v : SParam) : Bool := v.attrs.any fun a => a matches .opq

/-- `parseAttributeList` for the parameter `v`, expr_parser.cpp:1003-1040: `:list` is marked at once and the term of
`:restrict` is read and dropped.  The other attributes are allowed in `define` and `declare-parameterized-const` only, which
`rich` says. -/
def paramAttrs (rich : Bool) (v : Term) : List PAttr → State → Run State
  | [], st => .ok st
  | .list :: as, st => paramAttrs rich v as { st with decls := (st.decls.markConstructorKind v .LIST none).1 }
  | .restrict e :: as, st => if rich then (parseExpr b n e st).bind fun p => paramAttrs rich v as p.1 else .err
  | .implicit :: as, st | .opq :: as, st | .synt :: as, st => if rich then paramAttrs rich v as st else .err

/-- `ExprParser::parseAndBindSortedVarList` for parameters, expr_parser.cpp:621-668; all parameters are returned, with their
attributes -/
def bindParams (rich : Bool) : List SParam → State → Run (State × List (Term × SParam))
  | [], st => .ok (st, [])
  | v :: vs, st =>
    (parseType b n false false v.type st).bind fun p =>
    let q := p.1.mkSymbol PARAM v.name p.2
    (paramAttrs b n rich q.2 v.attrs (q.1.bind v.name q.2)).bind fun st =>
    (bindParams rich vs st).map fun r => (r.1, (q.2, v) :: r.2)

/-- parameters of rules and programs -/
def bindRuleParams (vs : List SParam) (st : State) : Run State := (bindParams b n false vs st).map (·.1)

end

/-- `ExprParser::findFreeVar`, expr_parser.cpp:1235-1251 (the bound on `getVariables` is sufficient, C22) -/
def findFreeVar (self : Term) (e : Term) (bvs : List Term) : Option Term :=
  ((getVariables [e]).getD []).find? fun v => v ∉ bvs ∧ v ≠ self

/-- `ExprParser::typeCheckProgramPair`, expr_parser.cpp:1216-1233, 1253-1263 -/
def typeCheckProgramPair (self pat ret : Term) : Bool :=
  (findFreeVar self ret ((getVariables [pat]).getD [])).isNone && pat.children.tail.all fun a => !a.evaluatable

end Ethos
