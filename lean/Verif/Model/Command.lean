import Verif.Model.Parse
/-
Execution of commands: model of `src/cmd_parser.cpp` 76-1080, of `src/state.cpp` 83-210, 264-346, 452-545,
877-918, 1374-1592, of `src/expr_parser.cpp` 613-668, 717-905, 975-1103, 1265-1310 and of `src/main.cpp` 130-205.

Commands are given as trees whose expressions are `SExp`.  Not modelled: plugins, statistics other than the set of rules
used, warnings, the option `rule-sym-table` (on, the default) and paths (a file is named by its canonical path).  Type rules of literals that were set by default when a
literal was first used (`getOrSetLiteralTypeRule`) are not recorded by the commands, so that `declare-consts` is accepted
more often than by the code.
-/
namespace Ethos
open Kind

/-- the builtin symbols, state.cpp:97-163, with the kinds their applications denote -/
def builtins : List (String × Kind) :=
  [("->", FUNCTION_TYPE), ("_", APPLY),
   ("eo::is_ok", EVAL_IS_OK), ("eo::is_eq", EVAL_IS_EQ), ("eo::eq", EVAL_EQ), ("eo::ite", EVAL_IF_THEN_ELSE),
   ("eo::requires", EVAL_REQUIRES), ("eo::hash", EVAL_HASH), ("eo::nameof", EVAL_NAME_OF), ("eo::typeof", EVAL_TYPE_OF),
   ("eo::var", EVAL_VAR), ("eo::cmp", EVAL_COMPARE), ("eo::is_z", EVAL_IS_Z), ("eo::is_q", EVAL_IS_Q),
   ("eo::is_bin", EVAL_IS_BIN), ("eo::is_str", EVAL_IS_STR), ("eo::is_bool", EVAL_IS_BOOL), ("eo::is_var", EVAL_IS_VAR),
   ("eo::nil", EVAL_NIL), ("eo::cons", EVAL_CONS), ("eo::list_len", EVAL_LIST_LENGTH),
   ("eo::list_concat", EVAL_LIST_CONCAT), ("eo::list_nth", EVAL_LIST_NTH), ("eo::list_find", EVAL_LIST_FIND),
   ("eo::list_erase", EVAL_LIST_ERASE), ("eo::list_erase_all", EVAL_LIST_ERASE_ALL), ("eo::list_rev", EVAL_LIST_REV),
   ("eo::list_setof", EVAL_LIST_SETOF), ("eo::list_minclude", EVAL_LIST_MINCLUDE), ("eo::list_meq", EVAL_LIST_MEQ),
   ("eo::list_diff", EVAL_LIST_DIFF), ("eo::list_inter", EVAL_LIST_INTER),
   ("eo::list_singleton_elim", EVAL_LIST_SINGLETON_ELIM),
   ("eo::not", EVAL_NOT), ("eo::and", EVAL_AND), ("eo::or", EVAL_OR), ("eo::xor", EVAL_XOR),
   ("eo::add", EVAL_ADD), ("eo::neg", EVAL_NEG), ("eo::mul", EVAL_MUL), ("eo::zdiv", EVAL_INT_DIV),
   ("eo::zmod", EVAL_INT_MOD), ("eo::qdiv", EVAL_RAT_DIV), ("eo::is_neg", EVAL_IS_NEG), ("eo::to_z", EVAL_TO_INT),
   ("eo::to_q", EVAL_TO_RAT), ("eo::to_bin", EVAL_TO_BIN), ("eo::to_str", EVAL_TO_STRING), ("eo::gt", EVAL_GT),
   ("eo::len", EVAL_LENGTH), ("eo::concat", EVAL_CONCAT), ("eo::extract", EVAL_EXTRACT), ("eo::find", EVAL_FIND),
   ("eo::dt_constructors", EVAL_DT_CONSTRUCTORS), ("eo::dt_selectors", EVAL_DT_SELECTORS),
   ("as", AS_RETURN), ("eo::as", AS)]

/-- the symbol of the `i`-th entry of `builtins` (`bindBuiltin`, state.cpp:1699-1710) -/
def builtinSym (i : Nat) : Term := .sym BUILTIN_CONST i

/-- the symbol table after the constructor of `State`, state.cpp:83-195 -/
def initScope (b : Env) : Scope :=
  let s := builtins.zipIdx.foldl (fun s p => Scope.bind s (nm p.1.1) (builtinSym p.2)) Scope.init
  let s := (s.bind (nm "true") tTrue).bind (nm "false") tFalse
  ((s.bind (nm "eo::List") b.listType).bind (nm "eo::List::nil") b.listNil).bind (nm "eo::List::cons") b.listCons

/-- the state after the constructor of `State`, state.cpp:83-195; the types of the builtin lists, of `eo::self` and of the
proof type are given by `b`, and symbols are numbered from `next` on -/
def State.init (b : Env) (next : Nat) : State where
  scope := initScope b
  decls :=
    { info := fun t => match t with
        | .sym BUILTIN_CONST i => (builtins[i]?).map fun p => ⟨.NONE, none, p.2, none⟩
        | t => if t = b.listCons then some ⟨.RIGHT_ASSOC_NIL, some b.listNil, NONE, none⟩ else none
      litRule := fun _ => none
      rules := fun _ => none }
  symType := b.symType
  symName := b.symName
  next := next
  pfrSorry := []
  asms := []
  asmCtx := []
  hasRef := false
  refNf := none
  refAsserts := []
  included := []
  used := []

/-- the premises of a rule: `:premises`, or `:premise-list` with its pattern and operator -/
inductive SPremises where
  | each (es : List SExp)
  | plist (pat cons : SExp)

/-- a `declare-rule` command -/
structure SRule where
  name : Name
  params : List SParam := []
  assumption : Option SExp := none
  premises : SPremises := .each []
  args : List SExp := []
  reqs : List (SExp × SExp) := []
  conc : SExp
  explicit : Bool := false
  sry : Bool := false

/-- a `step` or `step-pop` command -/
structure SStep where
  name : Name
  conc : Option SExp := none
  rule : Name
  premises : List SExp := []
  args : List SExp := []
  isPop : Bool := false

/-- an attribute of a declared constant with its argument, or both components of a pair -/
structure SAttr where
  attr : Attr
  val : Option SExp := none
  val2 : Option SExp := none

/-- a constructor of a datatype with its selectors and their types -/
structure SCons where
  name : Name
  sels : List (Name × SExp) := []

/-- the definition of a datatype: `(par (x1 … xn) (c1 … cm))`, or `(c1 … cm)` without parameters -/
structure SDt where
  params : List Name := []
  cons : List SCons

inductive Cmd where
  | assume (x : Name) (f : SExp)
  | assumePush (x : Name) (f : SExp)
  | declareConst (x : Name) (ty : SExp) (as : List SAttr)
  | declareFun (x : Name) (sorts : List SExp) (ret : SExp)
  | declareParam (x : Name) (ps : List SParam) (ret : SExp) (as : List SAttr)
  | declareDatatype (x : Name) (d : SDt)
  | declareDatatypes (xs : List (Name × Nat)) (ds : List SDt)
  | declareConsts (k : Kind) (ty : SExp)
  | declareRule (r : SRule)
  | declareSort (x : Name) (arity : Nat)
  | defineConst (x : Name) (ty e : SExp)
  | define (x : Name) (ps : List SParam) (e : SExp) (tys : List SExp)
  | defineFun (x : Name) (ps : List SParam) (ty e : SExp)
  | defineSort (x : Name) (ps : List Name) (ty : SExp)
  | program (x : Name) (ps : List SParam) (args : List SExp) (ret : SExp) (cases : Option (List (SExp × SExp)))
  | reset
  | step (s : SStep)
  | assert (f : SExp)
  | checkSatAssuming (fs : List SExp)
  | push (k : Nat)
  | pop (k : Nat)
  /-- `echo`, `set-logic`, `set-info`, `check-sat` and options without effect on the state -/
  | nop
  | exit
  | incl (file : Name)
  | reference (file : Name) (nf : Option SExp)

/-- the commands available in reference files and in the others, cmd_parser.cpp:36-71.  (`echo`, `set-option`, … are
one command of the model.) -/
def Cmd.allowed (isRef : Bool) : Cmd → Bool
  | .declareConst .. | .declareDatatype .. | .declareDatatypes .. | .declareSort .. | .reset | .push _ | .pop _ | .nop | .exit => true
  | .assert _ | .checkSatAssuming _ | .declareFun .. | .defineConst .. | .defineFun .. | .defineSort .. => isRef
  | _ => !isRef

section
variable (b : Env) (n : Nat)

/-- the argument of an attribute of a constant, expr_parser.cpp:1032-1075 -/
def parseAttr (a : SAttr) (st : State) : Run (State × Option Term) :=
  match a.attr, a.val, a.val2 with
  | .RIGHT_ASSOC, none, none | .LEFT_ASSOC, none, none => .ok (st, none)
  | .LET_BINDER, some e, some e' =>
    (parseExpr b n e st).bind fun p => (parseExpr b n e' p.1).map fun q => (q.1, some (.node TUPLE [p.2, q.2]))
  | k, some e, none =>
    if k = .RIGHT_ASSOC_NIL ∨ k = .LEFT_ASSOC_NIL ∨ k = .RIGHT_ASSOC_NS_NIL ∨ k = .LEFT_ASSOC_NS_NIL ∨ k = .CHAINABLE ∨
        k = .PAIRWISE ∨ k = .BINDER ∨ k = .ARG_LIST then
      (parseExpr b n e st).map fun p => (p.1, some p.2)
    else .err
  | _, _, _ => .err

/-- `ExprParser::processAttributeMap` for one attribute, expr_parser.cpp:1281-1310: an argument with parameters is
abstracted over them -/
def attrCons (c : Option Term) : Option Term :=
  c.map fun t => if t.ground then t else .node PARAMETERIZED [.node TUPLE ((getVariables [t]).getD []), t]

/-- `parseAttributeList` for a constant, expr_parser.cpp:967-1090; unknown attributes are not part of the list -/
def parseAttrList : List SAttr → State → Run (State × List (Attr × Option Term))
  | [], st => .ok (st, [])
  | a :: as, st =>
    (parseAttr b n a st).bind fun p => (parseAttrList as p.1).map fun q => (q.1, (a.attr, p.2) :: q.2)

/-- the attribute that `processAttributeMap` chooses from a map ordered by attributes, expr_parser.cpp:1283-1310: the first
argument given for the least attribute.  (The others get a warning.  All attributes of a constant say how terms are
constructed.) -/
def chooseAttr (l : List (Attr × Option Term)) : Attr × Option Term :=
  l.foldr (fun a r => if r.1 = .NONE ∨ a.1.ctorIdx ≤ r.1.ctorIdx then a else r) (.NONE, none)

/-- the attributes of a declaration: the kind and the constructor term that are chosen -/
def parseAttrs (as : List SAttr) (st : State) : Run (State × Attr × Option Term) :=
  (parseAttrList b n as st).map fun p => (p.1, (chooseAttr p.2).1, attrCons (chooseAttr p.2).2)

/-- make the constant and mark it, cmd_parser.cpp:263-275; a new symbol has no attribute, so that marking succeeds -/
def declare (st : State) (x : Name) (ty : Term) (ck : Attr) (c : Option Term) : Run (State × Term) :=
  let p := st.mkSymbol CONST x ty
  if ck = .NONE then .ok p
  else
    let m := p.1.decls.markConstructorKind p.2 ck c
    if m.2 then .ok ({ p.1 with decls := m.1 }, p.2) else .err

/-- the loop over the parameters of `declare-parameterized-const` from the last to the first, cmd_parser.cpp:175-224: the
type built so far and the types of the opaque arguments -/
def paramTypes (st : State) : List (Term × SParam) → Term → List Term → Run (Term × List Term)
  | [], t, op => .ok (t, op)
  | (p, a) :: r, t, op =>
    (st.typeCheck b n p).bind fun pt =>
    let quoted := (hasVariable t [p]).getD false
    if quoted && !pt.ground then .err
    else
      let qt : Term := if quoted then .node QUOTE_TYPE [p] else pt
      if a.opq then paramTypes st r t (qt :: op)
      else if op ≠ [] then .err
      else paramTypes st r (mkFunctionType [qt] t) op

/-- `State::mkDisambiguatedType`, state.cpp:889-918 -/
def mkDisambiguatedType (st : State) (disambPat ret : Term) (x : Name) : Run (State × Term) :=
  let p := st.mkSymbol PROGRAM_CONST (nm "$eo_disamb_type_" ++ x) (.node PROGRAM_TYPE [tType, tType])
  (p.1.build b n APPLY [p.2, disambPat]).bind fun tpat =>
  (p.1.build b n PROGRAM [.node TUPLE [tpat, ret]]).bind fun prog =>
  let st := { p.1 with decls := p.1.decls.defineProgram p.2 (some prog) }
  let q := st.mkSymbol PARAM (nm "$eo_disamb_type_" ++ x ++ nm "_var") tType
  (q.1.build b n APPLY [p.2, q.2]).map fun fapp => (q.1, mkFunctionType [.node QUOTE_TYPE [q.2]] fapp)

/-- the type of an ambiguous function, whose return type has parameters that its arguments do not determine,
cmd_parser.cpp:226-252 -/
def disambiguate (st : State) (x : Name) (t : Term) (op : List Term) (ck : Attr) : Run (State × Term × Attr) :=
  let ft := getFunctionType t
  match findFreeVar b.self ft.2 ((getVariables (ft.1 ++ op)).getD []) with
  | none => .ok (st, t, ck)
  | some _ =>
    if ck ≠ .NONE ∨ op ≠ [] then .err
    else (mkDisambiguatedType b n st ft.2 t x).map fun d => (d.1, d.2, .AMB)

/-- the type and the attribute of a function with opaque arguments, cmd_parser.cpp:255-269 -/
def opaqueType (t : Term) (op : List Term) (ck : Attr) (c : Option Term) : Run (Term × Attr × Option Term) :=
  if op = [] then .ok (t, ck, c)
  else if ck ≠ .NONE then .err
  else .ok (mkFunctionType op t, .OPAQUE, some (.lit (.num op.length)))

/-- `declare-parameterized-const`, cmd_parser.cpp:131-288 -/
def execDeclareParam (st : State) (x : Name) (ps : List SParam) (ret : SExp) (as : List SAttr) : Run State :=
  (bindParams b n true ps st.push).bind fun p =>
  (parseType b n false true ret p.1).bind fun q =>
  (parseAttrs b n as q.1).bind fun r =>
  let st := r.1
  (paramTypes b n st (p.2.filter fun v => !v.2.implicit).reverse q.2 []).bind fun tt =>
  (disambiguate b n st x tt.1 tt.2 r.2.1).bind fun d =>
  (opaqueType d.2.1 tt.2 d.2.2 r.2.2).bind fun e =>
  (declare d.1 x e.1 e.2.1 e.2.2).bind fun v => v.1.pop.map fun st => st.bind x v.2

/-- `State::mkTypeConstant`, state.cpp:497-515 -/
def State.mkTypeConst (st : State) (x : Name) (arity : Nat) : State × Term :=
  st.mkSymbol CONST x (mkFunctionType (List.replicate arity tType) tType)

/-- bind type parameters, expr_parser.cpp:768-778 and cmd_parser.cpp:679-686 -/
def typeParams (ps : List Name) (st : State) : State × List Term :=
  ps.foldl (fun (p : State × List Term) y =>
    let q := p.1.mkSymbol PARAM y tType
    (q.1.bind y q.2, p.2 ++ [q.2])) (st, [])

/-- the selectors of a constructor with their updaters, expr_parser.cpp:848-865: the types of the arguments, the selectors
and the names to bind -/
def dtSels (dt : Term) : List (Name × SExp) → State → Run (State × List Term × List Term × List (Name × Term))
  | [], st => .ok (st, [], [], [])
  | (x, e) :: r, st =>
    (parseType b n false true e st).bind fun p =>
    let s := p.1.mkSymbol CONST x (mkFunctionType [dt] p.2)
    let u := s.1.mkSymbol CONST (nm "update-" ++ x) (mkFunctionType [dt, p.2] dt)
    (dtSels dt r u.1).map fun q =>
      (q.1, p.2 :: q.2.1, s.2 :: q.2.2.1, (x, s.2) :: (nm "update-" ++ x, u.2) :: q.2.2.2)

/-- the type of a constructor and whether it is ambiguous, expr_parser.cpp:866-885 -/
def dtConsType (st : State) (dt : Term) (ps types : List Term) (x : Name) : Run (State × Term × Bool) :=
  let t := mkFunctionType types dt
  if ps = [] then .ok (st, t, false)
  else
    match findFreeVar b.self dt ((getVariables types).getD []) with
    | none => .ok (st, t, false)
    | some _ => (mkDisambiguatedType b n st dt t x).map fun d => (d.1, d.2, true)

/-- `ExprParser::parseConstructorDefinitionList`, expr_parser.cpp:832-903: the constructors, each with its selectors and
whether it is ambiguous, and the names to bind -/
def dtCtors (dt : Term) (ps : List Term) : List SCons → State →
    Run (State × List (Term × List Term × Bool) × List (Name × Term))
  | [], st => .ok (st, [], [])
  | c :: cs, st =>
    (dtSels b n dt c.sels st).bind fun p =>
    (dtConsType b n p.1 dt ps p.2.1 c.name).bind fun t =>
    let k := t.1.mkSymbol CONST c.name t.2.1
    let i := k.1.mkSymbol CONST (nm "is-" ++ c.name) (mkFunctionType [dt] tBool)
    (dtCtors dt ps cs i.1).map fun q =>
      (q.1, (k.2, p.2.2.1, t.2.2) :: q.2.1, p.2.2.2 ++ (c.name, k.2) :: (nm "is-" ++ c.name, i.2) :: q.2.2)

/-- the type of a datatype: the one made before with the given arity, or a new one with the arity of the definition, which
is bound in the scope of the parameters, expr_parser.cpp:785-802 -/
def dtType (x : Name) (pre : Option (Term × Nat)) (arity : Nat) (st : State) : Run (State × Term) :=
  match pre with
  | none => let s := st.mkTypeConst x arity; .ok (s.1.bind x s.2, s.2)
  | some (t, k) => if k = arity then .ok (st, t) else .err

/-- one definition of `parseDatatypesDef`, expr_parser.cpp:747-822: the datatype and its constructors -/
def dtBody (x : Name) (pre : Option (Term × Nat)) (d : SDt) (st : State) :
    Run (State × Term × List (Term × List Term × Bool)) :=
  let p := typeParams d.params (if d.params.isEmpty then st else st.push)
  (dtType x pre d.params.length p.1).bind fun q =>
  (if d.params.isEmpty then Run.ok q.2 else q.1.build b n APPLY (q.2 :: p.2)).bind fun dt =>
  (dtCtors b n dt p.2 d.cons q.1).bind fun c =>
  (if d.params.isEmpty then Run.ok c.1 else c.1.pop).map fun st => (st.bindAll c.2.2, q.2, c.2.1)

/-- the loop of `parseDatatypesDef`, expr_parser.cpp:744-825; too few definitions are accepted -/
def dtBodies : List (Name × Term × Nat) → List SDt → State →
    Run (State × List (Term × List (Term × List Term × Bool)))
  | _, [], st => .ok (st, [])
  | [], _ :: _, _ => .err
  | (x, t) :: xs, d :: ds, st =>
    (dtBody b n x (some t) d st).bind fun p => (dtBodies xs ds p.1).map fun q => (q.1, p.2 :: q.2)

/-- the types of `declare-datatypes`, expr_parser.cpp:726-742 -/
def dtTypes : List (Name × Nat) → State → State × List (Name × Term × Nat)
  | [], st => (st, [])
  | (x, k) :: xs, st =>
    let s := st.mkTypeConst x k
    let q := dtTypes xs (s.1.bind x s.2)
    (q.1, (x, s.2, k) :: q.2)

/-- `State::mkList`, state.cpp:877-887 -/
def State.mkList (st : State) (ts : List Term) : Run Term :=
  if ts.isEmpty then .ok b.listNil else st.build b n APPLY (b.listCons :: ts)

/-- mark the constructors with their selectors, cmd_parser.cpp:341-350.  The code goes through a map ordered by addresses;
the constructors are different new symbols, so that the order does not matter. -/
def dtMarkCons : List (Term × List Term × Bool) → State → Run State
  | [], st => .ok st
  | (c, sels, amb) :: r, st =>
    (st.mkList b n sels).bind fun l =>
    dtMarkCons r { st with
      decls := (st.decls.markConstructorKind c (if amb then .AMB_DATATYPE_CONSTRUCTOR else .DATATYPE_CONSTRUCTOR) (some l)).1 }

/-- mark the datatypes with their constructors, cmd_parser.cpp:333-340 -/
def dtMark : List (Term × List (Term × List Term × Bool)) → State → Run State
  | [], st => .ok st
  | (t, cs) :: r, st =>
    (st.mkList b n (cs.map (·.1))).bind fun l =>
    dtMark r { st with decls := (st.decls.markConstructorKind t .DATATYPE (some l)).1 }

/-- the datatypes and then the constructors are marked, cmd_parser.cpp:333-350 -/
def dtMarkAll (ds : List (Term × List (Term × List Term × Bool))) (st : State) : Run State :=
  (dtMark b n ds st).bind (dtMarkCons b n (ds.flatMap (·.2)))

/-- `declare-datatype`, cmd_parser.cpp:291-355 -/
def execDatatype (st : State) (x : Name) (d : SDt) : Run State :=
  (dtBody b n x none d st).bind fun p => dtMarkAll b n [p.2] p.1

/-- `declare-datatypes`, cmd_parser.cpp:291-355 -/
def execDatatypes (st : State) (xs : List (Name × Nat)) (ds : List SDt) : Run State :=
  if xs.isEmpty then .err
  else
    let p := dtTypes xs st
    (dtBodies b n p.2 ds p.1).bind fun q => dtMarkAll b n q.2 q.1

/-- the premises of a rule: the patterns and the operator of `:premise-list`, cmd_parser.cpp:400-414 -/
def parsePremises (p : SPremises) (st : State) : Run (State × List Term × Option Term) :=
  match p with
  | .each es => (parseList b n es st).map fun p => (p.1, p.2, none)
  | .plist pat cons =>
    (parseExpr b n pat st).bind fun p => (parseExpr b n cons p.1).map fun q => (q.1, [p.2], some q.2)

/-- an optional expression -/
def parseOpt (e : Option SExp) (st : State) : Run (State × Option Term) :=
  match e with
  | none => .ok (st, none)
  | some e => (parseExpr b n e st).map fun p => (p.1, some p.2)

/-- the types of the arguments of the program of a rule, cmd_parser.cpp:481-499 -/
def ruleArgTypes (pty : Term) : List Term → Nat → State → State × List Term
  | [], _, st => (st, [])
  | a :: as, i, st =>
    let p := if a.kind = PROOF then (st, pty) else st.mkSymbol PARAM (nm "$eo_arg_" ++ nm (toString i)) tType
    let q := ruleArgTypes pty as (i+1) p.1
    (q.1, p.2 :: q.2)

/-- the program of a rule or its conclusion if there is nothing to match, cmd_parser.cpp:475-524 -/
def ruleProg (st : State) (x : Name) (progArgs : List Term) (ret : Term) : Run (State × Term) :=
  match progArgs with
  | [] => if !ret.ground || ret.evaluatable then .err else .ok (st, ret)
  | _ :: _ =>
    let ts := ruleArgTypes b.proofType progArgs 0 st
    let p := ts.1.mkSymbol PROGRAM_CONST (nm "$eo_prog_" ++ x) (.node PROGRAM_TYPE (ts.2 ++ [tBool]))
    (p.1.build b n APPLY (p.2 :: progArgs)).bind fun ppat =>
    if typeCheckProgramPair b.self ppat ret then
      (p.1.build b n PROGRAM [.node TUPLE [ppat, ret]]).map fun prog =>
        ({ p.1 with decls := p.1.decls.defineProgram p.2 (some prog) }, p.2)
    else .err

/-- `declare-rule`, cmd_parser.cpp:372-544 -/
def execDeclareRule (st : State) (r : SRule) : Run State :=
  if st.asmCtx ≠ [] then .err
  else
    (bindRuleParams b n r.params st.push).bind fun st =>
    (parseOpt b n r.assumption st).bind fun asm =>
    (parsePremises b n r.premises asm.1).bind fun pr =>
    (parseList b n r.args pr.1).bind fun args =>
    (parsePairs b n r.reqs args.1).bind fun reqs =>
    (parseExpr b n r.conc reqs.1).bind fun conc =>
    let progArgs := args.2 ++ (if r.explicit then [conc.2] else []) ++ asm.2.toList ++ pr.2.1.map mkProof
    (Run.lift (mkRequires (mkExpr (conc.1.env b) (ops (conc.1.env b) n) n) reqs.2 conc.2)).bind fun ret =>
    conc.1.pop.bind fun st =>
    let rule := st.mkSymbol PROOF_RULE r.name tBool
    (ruleProg b n rule.1 r.name progArgs ret).bind fun p =>
    (p.1.decls.bindRule r.name rule.2).map fun decls =>
    let tuple : Term := .node TUPLE [pr.2.2.getD tAny, mkBool asm.2.isSome, mkBool r.explicit, p.2]
    { p.1 with
      decls := (decls.markConstructorKind rule.2 .PROOF_RULE (some tuple)).1
      pfrSorry := if r.sry then rule.2 :: p.1.pfrSorry else p.1.pfrSorry }

/-- `getCurrentAssumptions()[0]`, state.cpp:1599-1604 -/
def State.firstAssumption (st : State) : Run Term :=
  match st.asms[st.asmCtx.head?.getD 0]? with
  | some a => .ok a
  | none => .ub

/-- the formulas of the premises of a rule with `:premise-list`; every premise must be a proof, state.cpp:1473-1488 -/
def premiseFormulas : List Term → Run (List Term)
  | [] => .ok []
  | .node PROOF (f :: _) :: r => (premiseFormulas r).map (f :: ·)
  | .node PROOF [] :: _ => .ub
  | _ :: _ => .err

/-- the formula for an empty list of premises, state.cpp:1491-1511; an operator without entry is dereferenced -/
def emptyPremises (st : State) (plCons : Term) : Run Term :=
  match (st.env b).appInfo plCons with
  | none => .ub
  | some ai =>
    if isListNilAttr ai.attr then (match ai.cons with | some c => .ok c | none => .ub) else .err

/-- the proof built from the premises of a rule with `:premise-list`, state.cpp:1467-1518 -/
def collectPremises (st : State) (plCons : Term) (premises : List Term) : Run Term :=
  (premiseFormulas premises).bind fun fs =>
  (if fs.isEmpty then emptyPremises b st plCons else st.build b n APPLY (plCons :: fs)).map mkProof

/-- the explicit conclusion, if the rule has one, state.cpp:1433-1447 -/
def concInput (isExplicit : Bool) (proven : Option Term) : Run (List Term) :=
  if isExplicit then (Run.orErr proven).map fun p => [p] else .ok []

/-- the discharged assumption, state.cpp:1448-1460 -/
def asmInput (st : State) (isPop : Bool) : Run (List Term) :=
  if isPop then st.firstAssumption.map fun a => [a] else .ok []

/-- the premises, state.cpp:1465-1523 -/
def premInput (st : State) (plCons : Option Term) (premises : List Term) : Run (List Term) :=
  match plCons with
  | some c => (collectPremises b n st c premises).map fun t => [t]
  | none => .ok premises

/-- the terms the program of a rule is applied to, state.cpp:1420-1523; an error is the result `false` -/
def ruleInputs (st : State) (plCons : Option Term) (isAssume isExplicit : Bool) (proven : Option Term)
    (premises args : List Term) (isPop : Bool) : Run (List Term) :=
  (concInput isExplicit proven).bind fun cs =>
  if isPop ≠ isAssume then .err
  else
    (asmInput st isPop).bind fun as =>
    (premInput b n st plCons premises).map fun ps => args ++ cs ++ as ++ ps

/-- `State::notifyStep`, state.cpp:1397-1582, without plugin; an error is the result `false` -/
def notifyStep (st : State) (rule : Term) (proven : Option Term) (premises args : List Term) (isPop : Bool) :
    Run Term :=
  match (st.env b).appInfo rule with
  | none => .err
  | some ai =>
    match ai.cons with
    | some (.node _ [t0, t1, t2, prog]) =>
      (ruleInputs b n st (if t0 = tAny then none else some t0) (t1 = tTrue) (t2 = tTrue) proven premises args isPop).bind fun cs =>
      match cs with
      | [] => .ok prog
      | _ :: _ =>
        (Run.lift (evaluateProgramApp (st.env b) (ops (st.env b) n) (prog :: cs))).bind fun result =>
        if result.evaluatable then .err else .ok result
    | _ => .ub

/-- `State::popAssumptionScope`, state.cpp:272-280 -/
def State.popAssumption (st : State) : Run State :=
  match st.asmCtx with
  | [] => .ub
  | last :: r => ({ st with asmCtx := r, asms := st.asms.take last }).pop

/-- the conclusion given in a step, cmd_parser.cpp:883-889 -/
def parseConc (e : Option SExp) (st : State) : Run (State × Option Term) :=
  match e with
  | none => .ok (st, none)
  | some e => (parseFormula b n e st).map fun p => (p.1, some p.2)

/-- `step` and `step-pop`, cmd_parser.cpp:866-985 -/
def execStep (st : State) (s : SStep) : Run State :=
  if s.isPop ∧ st.asmCtx = [] then .err
  else
    (parseConc b n s.conc st).bind fun p =>
    match p.1.decls.rules s.rule with
    | none => .err
    | some rule =>
      let st := { p.1 with used := rule :: p.1.used }
      (parseList b n s.premises st).bind fun prem =>
      (parseList b n s.args prem.1).bind fun args =>
      let st := args.1
      (notifyStep b n st rule p.2 prem.2 args.2 s.isPop).bind fun conc =>
      (st.typeCheck b n conc).bind fun ty =>
      if ty.kind ≠ BOOL_TYPE then .err
      else if p.2.isSome && p.2 ≠ some conc then .err
      else
        (if s.isPop then st.popAssumption else .ok st).map fun st => st.bind s.name (mkProof conc)

/-- apply the normalisation routine of the reference, state.cpp:459-465, 471-477 -/
def State.normRef (st : State) (a : Term) : Run Term :=
  match st.refNf with
  | none => .ok a
  | some nf => st.build b n APPLY [nf, a]

/-- `State::addAssumption`, state.cpp:452-469 -/
def State.addAssumption (st : State) (a : Term) : Run State :=
  let st' := { st with asms := st.asms ++ [a] }
  if st.hasRef ∧ st.asmCtx = [] then
    (st'.normRef b n a).bind fun aa => if aa ∈ st.refAsserts then .ok st' else .err
  else .ok st'

/-- `State::addReferenceAssert`, state.cpp:471-481 -/
def State.addReferenceAssert (st : State) (a : Term) : Run State :=
  (st.normRef b n a).map fun aa => { st with refAsserts := aa :: st.refAsserts }

/-- `State::pushAssumptionScope`, state.cpp:264-270 -/
def State.pushAssumption (st : State) : State :=
  { st.push with asmCtx := st.asms.length :: st.asmCtx }

/-- `assume` and `assume-push`, cmd_parser.cpp:108-127 -/
def execAssume (st : State) (x : Name) (f : SExp) (isPush : Bool) : Run State :=
  (parseFormula b n f st).bind fun p =>
  let st := if isPush then p.1.pushAssumption else p.1
  (st.bind x (mkProof p.2)).addAssumption b n p.2

/-- the parameters of `define` and `define-fun`: the implicit ones are not visible in the body, cmd_parser.cpp:572-592 -/
def defineParams (ps : List SParam) (st : State) : Run (State × List Term) :=
  (bindParams b n true ps st.push).bind fun p =>
  let vars := p.2.filter fun v => !v.2.implicit
  if vars.length < p.2.length then
    p.1.pop.map fun st => (st.push.bindAll (vars.map fun v => (v.2.name, v.1)), vars.map (·.1))
  else .ok (p.1, vars.map (·.1))

/-- the attributes `:type` of `define`, expr_parser.cpp:1077-1088 -/
def checkTypeAttrs (e : Term) : List SExp → State → Run State
  | [], st => .ok st
  | ty :: tys, st =>
    (parseExpr b n ty st).bind fun q => (q.1.typeCheckAs b n e q.2).bind fun _ => checkTypeAttrs e tys q.1

/-- the definition of a macro, cmd_parser.cpp:566-665 for `define` -/
def execDefine (st : State) (x : Name) (ps : List SParam) (e : SExp) (tys : List SExp) : Run State :=
  (defineParams b n ps st).bind fun p =>
  (parseExpr b n e p.1).bind fun body =>
  let expr : Term := if p.2.isEmpty then body.2 else .node LAMBDA [.node TUPLE p.2, body.2]
  (checkTypeAttrs b n expr tys body.1).bind fun st => st.pop.map fun st => st.bind x expr

/-- the types of the variables of `define-fun`, cmd_parser.cpp:632-636 -/
def typesOfVars (st : State) : List Term → Run (List Term)
  | [] => .ok []
  | v :: vs => (st.typeCheck b n v).bind fun t => (typesOfVars st vs).map (t :: ·)

/-- the right-hand side and the type of the function of `define-fun`, cmd_parser.cpp:618-638 -/
def defineFunRhs (st : State) (vars : List Term) (body ret : Term) : Run (Term × Term) :=
  if vars.isEmpty then .ok (body, ret)
  else
    (Run.orErr (st.scope.get (nm "lambda"))).bind fun lambda =>
    (st.mkBinderList b n lambda vars).bind fun bvl =>
    (st.build b n APPLY [lambda, bvl, body]).bind fun rhs =>
    (typesOfVars b n st vars).map fun ts => (rhs, mkFunctionType ts ret)

/-- `define-fun`, cmd_parser.cpp:560-665: an equation added to the reference assertions -/
def execDefineFun (st : State) (x : Name) (ps : List SParam) (ty e : SExp) : Run State :=
  (defineParams b n ps st).bind fun p =>
  (parseType b n false true ty p.1).bind fun ret =>
  (parseExpr b n e ret.1).bind fun body =>
  let st := body.1
  (st.typeCheckAs b n body.2 ret.2).bind fun _ =>
  (Run.orErr (st.scope.get (nm "="))).bind fun eq =>
  (defineFunRhs b n st p.2 body.2 ret.2).bind fun r =>
  let c := st.mkSymbol CONST x r.2
  (c.1.build b n APPLY [eq, c.2, r.1]).bind fun a =>
  (c.1.addReferenceAssert b n a).bind fun st =>
  st.pop.map fun st => st.bind x c.2

/-- `define-sort`, cmd_parser.cpp:667-695 -/
def execDefineSort (st : State) (x : Name) (ps : List Name) (ty : SExp) : Run State :=
  let p := typeParams ps (if ps.isEmpty then st else st.push)
  (parseType b n false true ty p.1).bind fun t =>
  if ps.isEmpty then .ok (t.1.bind x t.2)
  else t.1.pop.map fun st => st.bind x (.node LAMBDA [.node TUPLE p.2, t.2])

/-- the checks of the cases of a program, cmd_parser.cpp:826-843 -/
def checkCases (self pvar : Term) (arity : Nat) (cs : List (Term × Term)) : Bool :=
  cs.all fun c =>
    decide (c.1.kind = APPLY) && decide (c.1.children.head? = some pvar) && decide (c.1.children.length = arity + 1) &&
    typeCheckProgramPair self c.1 c.2

/-- the symbol of a program, which may have been declared before, cmd_parser.cpp:793-822; the last component says that it is
new -/
def progVar (st : State) (x : Name) (progType : Term) : Run (State × Term × Bool) :=
  match st.scope.get x with
  | some prev =>
    if prev.kind ≠ PROGRAM_CONST then .err
    else if ((st.env b).program prev).isSome then .err
    else (st.typeCheckAs b n prev progType).map fun _ => (st, prev, false)
  | none =>
    let p := st.mkSymbol PROGRAM_CONST x progType
    .ok (p.1.bind x p.2, p.2, true)

/-- the cases of a program, cmd_parser.cpp:823-847 -/
def progBody (pvar : Term) (arity : Nat) (cases : Option (List (SExp × SExp))) (st : State) :
    Run (State × Option Term) :=
  match cases with
  | none => .ok (st, none)
  | some cs =>
    (parsePairs b n cs st).bind fun q =>
    if q.2.isEmpty then .err
    else if checkCases b.self pvar arity q.2 then
      (q.1.build b n PROGRAM (q.2.map fun c => .node TUPLE [c.1, c.2])).map fun t => (q.1, some t)
    else .err

/-- `program`, cmd_parser.cpp:761-858 -/
def execProgram (st : State) (x : Name) (ps : List SParam) (args : List SExp) (ret : SExp)
    (cases : Option (List (SExp × SExp))) : Run State :=
  (bindRuleParams b n ps st.push).bind fun st =>
  (parseTypeList b n true args st).bind fun ats =>
  (parseType b n false true ret ats.1).bind fun rt =>
  if ats.2.isEmpty then .err
  else
    (progVar b n rt.1 x (.node PROGRAM_TYPE (ats.2 ++ [rt.2]))).bind fun pv =>
    (progBody b n pv.2.1 ats.2.length cases pv.1).bind fun q =>
    q.1.pop.map fun st =>
    let st := { st with decls := st.decls.defineProgram pv.2.1 q.2 }
    if pv.2.2 then st.bind x pv.2.1 else st

/-- `push` and `pop` with a number, cmd_parser.cpp:998-1020 -/
def popN : Nat → State → Run State
  | 0, st => .ok st
  | k+1, st => st.pop.bind (popN k)
def pushN : Nat → State → State
  | 0, st => st
  | k+1, st => pushN k st.push

/-- `State::reset`, state.cpp:199-210 -/
def State.reset (st : State) : State := { st with scope := st.scope.reset, asms := [], asmCtx := [] }

/-- one command other than `include`, `reference` and `exit`: `parseNextCommand`, cmd_parser.cpp:93-1080 -/
def exec (st : State) : Cmd → Run State
  | .assume x f => execAssume b n st x f false
  | .assumePush x f => execAssume b n st x f true
  | .declareConst x ty as =>
    (parseType b n false true ty st).bind fun t =>
    (parseAttrs b n as t.1).bind fun r =>
    (declare r.1 x t.2 r.2.1 r.2.2).map fun v => v.1.bind x v.2
  | .declareFun x sorts ret =>
    (parseTypeList b n false sorts st).bind fun ts =>
    (parseType b n false true ret ts.1).bind fun t =>
    (declare t.1 x (mkFunctionType ts.2 t.2) .NONE none).map fun v => v.1.bind x v.2
  | .declareParam x ps ret as => execDeclareParam b n st x ps ret as
  | .declareDatatype x d => execDatatype b n st x d
  | .declareDatatypes xs ds => execDatatypes b n st xs ds
  | .declareConsts k ty =>
    (parseType b n false true ty (st.push.bind (nm "eo::self") b.self)).bind fun t =>
    (t.1.decls.setLiteralTypeRule k t.2).bind fun d => ({ t.1 with decls := d }).pop
  | .declareRule r => execDeclareRule b n st r
  | .declareSort x arity =>
    let p := st.mkTypeConst x arity
    .ok (p.1.bind x p.2)
  | .defineConst x ty e =>
    (parseType b n false true ty st).bind fun t =>
    (parseExpr b n e t.1).bind fun p => (p.1.typeCheckAs b n p.2 t.2).map fun _ => p.1.bind x p.2
  | .define x ps e tys => execDefine b n st x ps e tys
  | .defineFun x ps ty e => execDefineFun b n st x ps ty e
  | .defineSort x ps ty => execDefineSort b n st x ps ty
  | .program x ps args ret cases => execProgram b n st x ps args ret cases
  | .reset => .ok st.reset
  | .step s => execStep b n st s
  | .assert f => (parseFormula b n f st).bind fun p => p.1.addReferenceAssert b n p.2
  | .checkSatAssuming fs => (parseList b n fs st).map (·.1)
  | .push k => .ok (pushN k st)
  | .pop k => popN k st
  | .nop | .exit | .incl _ | .reference _ _ => .ok st

/-- the commands of one file: `parseNextCommand` in a loop; `incl` processes an included file (`includeFile`), cmd_parser.cpp:93-107, 716-759 -/
def runCmds (incl : Name → Bool → Option Term → State → Run State) (isRef : Bool) : List Cmd → State → Run State
  | [], st => .ok st
  | c :: cs, st =>
    if c.allowed isRef then
      match c with
      | .exit => .ok st
      | .incl f => if st.asmCtx ≠ [] then .err else (incl f false none st).bind (runCmds incl isRef cs)
      | .reference f nf =>
        if st.hasRef ∨ st.asmCtx ≠ [] then .err
        else (parseOpt b n nf st).bind fun p => (incl f true p.2 p.1).bind (runCmds incl isRef cs)
      | c => (exec b n st c).bind (runCmds incl isRef cs)
    else .err

/-- `State::includeFile`, state.cpp:281-346, with at most `d` nested files; `fs` are the contents of the existing files by
their canonical paths -/
def includeFile (fs : Name → Option (List Cmd)) : Nat → Name → Bool → Option Term → State → Run State
  | 0, _, _, _, _ => .fuel
  | d+1, f, isRef, nf, st =>
    match fs f with
    | none => .err
    | some cmds =>
      if f ∈ st.included then .ok st
      else
        (runCmds b n (includeFile fs d) isRef cmds
          { st with included := f :: st.included, hasRef := isRef, refNf := nf }).bind fun st =>
        if st.asmCtx ≠ [] then .err else .ok st

/-- the files given by `--include` and `--reference`, main.cpp:136-147 -/
def includeAll (fs : Name → Option (List Cmd)) (d : Nat) : List (Name × Bool) → State → Run State
  | [], st => .ok st
  | (f, isRef) :: r, st => (includeFile b n fs d f isRef none st).bind (includeAll fs d r)

/-- the two answers of a run without errors, main.cpp:181-198 -/
inductive Response where
  | correct
  | incomplete
deriving DecidableEq, Repr

def State.response (st : State) : Response :=
  if st.used.any fun r => decide (r ∈ st.pfrSorry) then .incomplete else .correct

/-- the input given to `main`: a file, or commands on the standard input -/
inductive Input where
  | file (f : Name)
  | stdin (cmds : List Cmd)

def runInput (fs : Name → Option (List Cmd)) (d : Nat) (i : Input) (st : State) : Run State :=
  match i with
  | .file f => includeFile b n fs d f false none st
  | .stdin cmds => runCmds b n (includeFile b n fs d) false cmds st

/-- `main`, main.cpp:130-205: the response for the given files -/
def main (fs : Name → Option (List Cmd)) (d : Nat) (includes : List (Name × Bool)) (i : Input) (st : State) :
    Run (State × Response) :=
  (includeAll b n fs d includes st).bind fun st =>
  (runInput b n fs d i st).map fun st => (st, st.response)

end
end Ethos
