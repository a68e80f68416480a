import Verif.Model.Reader
import Verif.Model.Path
/-
Reading commands and files from tokens: model of `src/cmd_parser.cpp` 34-1080, of `src/expr_parser.cpp` 469-1110, of
`src/parser.cpp` 13-50, of `src/state.cpp` 33-80 and 281-346 and of `src/main.cpp` 130-205.

As in `Model/Reader`, the lexer is the list of the tokens that are left.  What a command does after its parts have been read is
shared with `Model/Command` where that is a function of its own, and repeated otherwise.  Not modelled: the options that concern
printing and statistics, and `rule-sym-table` (see `Model/Command`).
-/
namespace Ethos
open Kind

/-- reading from the tokens and acting on the state -/
def Rd (α : Type) := List Tk → State → Run (List Tk × State × α)

namespace Rd
variable {α β : Type}
protected def pure (a : α) : Rd α := fun toks st => .ok (toks, st, a)
protected def bind (p : Rd α) (f : α → Rd β) : Rd β := fun toks st => (p toks st).bind fun r => f r.2.2 r.1 r.2.1
instance : Monad Rd where
  pure := Rd.pure
  bind := Rd.bind
/-- reading only -/
def tok (p : List Tk → Run (List Tk × α)) : Rd α := fun toks st => (p toks).map fun r => (r.1, st, r.2)
/-- acting on the state only -/
def act (f : State → Run (State × α)) : Rd α := fun toks st => (f st).map fun p => (toks, p.1, p.2)
/-- a computation in the state -/
def get (f : State → Run α) : Rd α := act fun st => (f st).map fun a => (st, a)
/-- a change of the state that may fail -/
def upd (f : State → Run State) : Rd Unit := act fun st => (f st).map fun s => (s, ())
/-- a new symbol or the like -/
def new (f : State → State × α) : Rd α := act fun st => .ok (f st)
/-- an error -/
def err : Rd α := fun _ _ => .err
end Rd

/-! ## Parts of commands -/

/-- `Lexer::eatToken`, lexer.cpp:150-159 -/
def rEat (t : Token) : Rd Unit := .tok fun toks => (eat t toks).map fun r => (r, ())

/-- `ExprParser::parseSymbol`, expr_parser.cpp:692-696 -/
def rName : Rd Name := .tok readName

/-- `Lexer::peekToken`, lexer.cpp:129-140.  At the end of the input the code goes on, to report the error when it reads the token. -/
def rPeek : Rd Token := .tok fun toks => match toks with | [] => .err | tk :: _ => .ok (toks, tk.1)

/-- `ExprParser::parseKeyword`, expr_parser.cpp:905-911, without the colon -/
def rKeyword : Rd Name := .tok fun toks =>
  match toks with
  | [] => .err
  | tk :: r => if tk.1 = .KEYWORD then .ok (r, (tokenStr tk.2).drop 1) else .err

/-- `ss >> result` for a `uint32_t`, expr_parser.cpp:928-931: a number that is too large becomes the largest one, a number
with a minus is subtracted from 2^32 (libstdc++) -/
def streamUnsigned : List Nat → Nat
  | 45 :: ds => let v := Integer.natOfString 10 ds; if v ≥ 2 ^ 32 then 2 ^ 32 - 1 else (2 ^ 32 - v) % 2 ^ 32
  | ds => let v := Integer.natOfString 10 ds; if v ≥ 2 ^ 32 then 2 ^ 32 - 1 else v

/-- `ExprParser::parseIntegerNumeral`, expr_parser.cpp:913-932 -/
def rNumeral : Rd Nat := .tok fun toks =>
  match toks with
  | [] => .err
  | tk :: r =>
    let s := tokenStr tk.2
    if tk.1 ≠ .INTEGER_LITERAL then .err
    else if s.length > 1 ∧ s.head? = some 48 then .err
    else .ok (r, streamUnsigned s)

/-- `parseStr(true)`, expr_parser.cpp:956-966 -/
def rStr : Rd Name := .tok fun toks =>
  match toks with
  | [] => .err
  | tk :: r => if tk.1 = .STRING_LITERAL then (unescapeString (tokenStr tk.2)).map fun s => (r, s) else .err

/-- `ExprParser::parseSymbolicExpr`, expr_parser.cpp:574-595 -/
def rSkip : Rd Unit := .tok fun toks => (skipSexp 0 toks).map fun r => (r, ())

/-- the literal kinds, expr_parser.cpp:85-91 -/
def litKindTable : List (List Nat × Kind) :=
  [(bytes "<boolean>", BOOLEAN), (bytes "<numeral>", NUMERAL), (bytes "<decimal>", DECIMAL), (bytes "<rational>", RATIONAL),
   (bytes "<hexadecimal>", HEXADECIMAL), (bytes "<binary>", BINARY), (bytes "<string>", STRING)]

/-- `ExprParser::parseLiteralKind`, expr_parser.cpp:1092-1103 -/
def rLitKind : Rd Kind := do
  let x ← rName
  .get fun _ => .orErr ((litKindTable.find? fun p => decide (p.1 = x)).map (·.2))

section
variable {α : Type}

/-- read with `p` until the next token is a right parenthesis, which is read, expr_parser.cpp:537-545, 554-562, 704-712 -/
def untilClose (p : Rd α) : Nat → Rd (List α)
  | 0 => fun _ _ => .fuel
  | f + 1 => fun toks st =>
    match toks with
    | [] => .err
    | tk :: r =>
      if tk.1 = .RPAREN then .ok (r, st, [])
      else (p toks st).bind fun q => (untilClose p f q.1 q.2.1).map fun s => (s.1, s.2.1, q.2.2 :: s.2.2)

/-- `while (d_lex.eatTokenChoice(Token::LPAREN, Token::RPAREN))` with the body `p` -/
def whileOpen (p : Rd α) : Nat → Rd (List α)
  | 0 => fun _ _ => .fuel
  | f + 1 => fun toks st =>
    match toks with
    | [] => .err
    | tk :: r =>
      if tk.1 = .RPAREN then .ok (r, st, [])
      else if tk.1 = .LPAREN then (p r st).bind fun q => (whileOpen p f q.1 q.2.1).map fun s => (s.1, s.2.1, q.2.2 :: s.2.2)
      else .err

/-- a list in parentheses; every element takes at least one token -/
def rList (p : Rd α) : Rd (List α) := do
  rEat .LPAREN
  fun toks st => untilClose p (toks.length + 1) toks st

/-- what follows the opening parenthesis of a list whose elements are in parentheses -/
def rItems (p : Rd α) : Rd (List α) := fun toks st => whileOpen p (toks.length + 1) toks st

/-- `ExprParser::parseAttributeList`, expr_parser.cpp:967-1090; `h` reads the value of a known attribute or reports that it
cannot be used here -/
def attrLoop (h : Attr → Rd α) : Nat → Rd (List α)
  | 0 => fun _ _ => .fuel
  | f + 1 => fun toks st =>
    match toks with
    | [] => .err
    | tk :: r =>
      if tk.1 = .RPAREN then .ok (toks, st, [])
      else if tk.1 = .KEYWORD then
        match findAttr (tokenStr tk.2) with
        | none => (skipValue r).bind fun r => attrLoop h f r st
        | some a => (h a r st).bind fun q => (attrLoop h f q.1 q.2.1).map fun s => (s.1, s.2.1, q.2.2 :: s.2.2)
      else .err

def rAttrs (h : Attr → Rd α) : Rd (List α) := fun toks st => attrLoop h (toks.length + 1) toks st

end

section
variable (b : Env) (n : Nat) (o : ReadOpts)

/-- `ExprParser::parseExpr`, expr_parser.cpp:114-467 -/
def rExpr : Rd Term := readExpr b n o

/-- the tokens begin with `( eo::quote`, expr_parser.cpp:471-481 -/
def startsQuote : List Tk → Bool
  | t1 :: t2 :: _ => decide (t1.1 = .LPAREN) && decide (t2.1 = .SYMBOL) && decide (tokenStr t2.2 = bytes "eo::quote")
  | _ => false

/-- `ExprParser::parseType`, expr_parser.cpp:469-524 -/
def rType (quote eval : Bool) : Rd Term := fun toks st =>
  if quote && startsQuote toks then
    (do
      let t ← rExpr b n o
      .get fun _ => if t.kind = PARAM then .ok () else .err
      rEat .RPAREN
      pure (Term.node QUOTE_TYPE [t]) : Rd Term) (toks.drop 2) st
  else
    (do
      let t ← rExpr b n o
      .get fun st => st.checkType b n eval t
      pure t : Rd Term) toks st

/-- `ExprParser::parseFormula`, expr_parser.cpp:526-531 -/
def rFormula : Rd Term := do
  let t ← rExpr b n o
  let _ ← .get fun st => st.typeCheckAs b n t tBool
  pure t

/-- `ExprParser::parseExprList`, expr_parser.cpp:533-547 -/
def rExprList : Rd (List Term) := rList (rExpr b n o)

/-- `ExprParser::parseTypeList`, expr_parser.cpp:550-563 -/
def rTypeList (quote : Bool) : Rd (List Term) := rList (rType b n o quote false)

/-- `ExprParser::parseSymbolList`, expr_parser.cpp:700-715 -/
def rNameList : Rd (List Name) := rList rName

/-- two terms and a right parenthesis -/
def rTwo : Rd (Term × Term) := do
  let x ← rExpr b n o
  let y ← rExpr b n o
  rEat .RPAREN
  pure (x, y)

/-- `ExprParser::parseExprPairList`, expr_parser.cpp:597-610 -/
def rPairs : Rd (List (Term × Term)) := do
  rEat .LPAREN
  rItems (rTwo b n o)

/-- the attributes of parameters, expr_parser.cpp:1003-1040 -/
def rParamAttr (rich : Bool) (v : Term) : Attr → Rd PAttr
  | .LIST => do
    .upd fun st => .ok { st with decls := (st.decls.markConstructorKind v .LIST none).1 }
    pure .list
  | .IMPLICIT => if rich then pure .implicit else .err
  | .OPAQUE => if rich then pure .opq else .err
  | .RESTRICT => if rich then (do let _ ← rExpr b n o; pure (.restrict .type)) else .err
  | .SYNTAX => if rich then (do let _ ← rLitKind; pure .synt) else .err
  | _ => .err

/-- the body of the loop of `parseAndBindSortedVarList`, expr_parser.cpp:625-666.  The result has the name and the attributes of the
parameter; the expressions of its type and of `:restrict` are not kept. -/
def rParam (rich : Bool) : Rd (Term × SParam) := do
  let x ← rName
  let t ← rType b n o false false
  let v ← .new fun st => let q := st.mkSymbol PARAM x t; (q.1.bind x q.2, q.2)
  let as ← rAttrs (rParamAttr b n o rich v)
  rEat .RPAREN
  pure (v, ⟨x, .type, as⟩)

/-- `ExprParser::parseAndBindSortedVarList` for parameters, expr_parser.cpp:613-668 -/
def rParams (rich : Bool) : Rd (List (Term × SParam)) := do
  rEat .LPAREN
  rItems (rParam b n o rich)

/-- the attributes of constants, expr_parser.cpp:1042-1075 -/
def rConstAttr : Attr → Rd (Attr × Option Term)
  | .RIGHT_ASSOC => pure (.RIGHT_ASSOC, none)
  | .LEFT_ASSOC => pure (.LEFT_ASSOC, none)
  | .LET_BINDER => do
    rEat .LPAREN
    let p ← rTwo b n o
    pure (.LET_BINDER, some (.node TUPLE [p.1, p.2]))
  | a =>
    if a = .RIGHT_ASSOC_NIL ∨ a = .LEFT_ASSOC_NIL ∨ a = .RIGHT_ASSOC_NS_NIL ∨ a = .LEFT_ASSOC_NS_NIL ∨ a = .CHAINABLE ∨
        a = .PAIRWISE ∨ a = .BINDER ∨ a = .ARG_LIST then do
      let t ← rExpr b n o
      pure (a, some t)
    else .err

/-- the attribute of `define`, expr_parser.cpp:1076-1088 -/
def rTypeAttr (e : Term) : Attr → Rd Unit
  | .TYPE => do
    let t ← rExpr b n o
    let _ ← .get fun st => st.typeCheckAs b n e t
    pure ()
  | _ => .err

/-- the attribute of rules, expr_parser.cpp:993-1001; the rule is marked by the caller -/
def rRuleAttr : Attr → Rd Unit
  | .SORRY => pure ()
  | _ => .err

/-! ## Datatypes -/

/-- a selector, expr_parser.cpp:848-865: its type, the selector, and the names to bind -/
def rSel (dt : Term) : Rd (Term × Term × List (Name × Term)) := do
  let x ← rName
  let t ← rType b n o false true
  let s ← .new fun st => st.mkSymbol CONST x (mkFunctionType [dt] t)
  let u ← .new fun st => st.mkSymbol CONST (nm "update-" ++ x) (mkFunctionType [dt, t] dt)
  rEat .RPAREN
  pure (t, s, [(x, s), (nm "update-" ++ x, u)])

/-- a constructor, expr_parser.cpp:843-902: with its selectors and whether it is ambiguous, and the names to bind -/
def rCons (dt : Term) (ps : List Term) : Rd ((Term × List Term × Bool) × List (Name × Term)) := do
  let x ← rName
  let sels ← rItems (rSel b n o dt)
  let t ← .act fun st => (dtConsType b n st dt ps (sels.map (·.1)) x)
  let k ← .new fun st => st.mkSymbol CONST x t.1
  let i ← .new fun st => st.mkSymbol CONST (nm "is-" ++ x) (mkFunctionType [dt] tBool)
  pure ((k, sels.map (·.2.1), t.2), sels.flatMap (·.2.2) ++ [(x, k), (nm "is-" ++ x, i)])

/-- one definition of `parseDatatypesDef`, expr_parser.cpp:747-822, after its opening parenthesis.  Without `par` that parenthesis is
put back and is the one of the list of constructors. -/
def rDt (x : Name) (pre : Option (Term × Nat)) : Rd (Term × List (Term × List Term × Bool)) := do
  let tk ← rPeek
  if tk = .PAR then
    rEat .PAR
    .upd fun st => .ok st.push
    let names ← rNameList
    .get fun _ => if names.isEmpty then .err else .ok ()
    let ps ← .new fun st => typeParams names st
    let t ← .act fun st => dtType x pre names.length st
    let dt ← .get fun st => st.build b n APPLY (t :: ps)
    rEat .LPAREN
    let cs ← rItems (rCons b n o dt ps)
    rEat .RPAREN
    .upd State.pop
    .upd fun st => .ok (st.bindAll (cs.flatMap (·.2)))
    pure (t, cs.map (·.1))
  else
    let t ← .act fun st => dtType x pre 0 st
    let cs ← rItems (rCons b n o t [])
    .upd fun st => .ok (st.bindAll (cs.flatMap (·.2)))
    pure (t, cs.map (·.1))

/-- the loop of `parseDatatypesDef`, expr_parser.cpp:744-830; the token after the last definition is put back -/
def rDts : List (Name × Option (Term × Nat)) → Rd (List (Term × List (Term × List Term × Bool)))
  | [] => do
    let tk ← rPeek
    if tk = .LPAREN then .err else pure []
  | (x, pre) :: xs => do
    let tk ← rPeek
    if tk = .LPAREN then
      rEat .LPAREN
      let d ← rDt b n o x pre
      let ds ← rDts xs
      pure (d :: ds)
    else pure []

/-- `(x k)` after the parenthesis, cmd_parser.cpp:305-312 -/
def rSortDec : Rd (Name × Nat) := do
  let x ← rName
  let k ← rNumeral
  rEat .RPAREN
  pure (x, k)

/-! ## Commands -/

/-- `assume` and `assume-push`, cmd_parser.cpp:108-127 -/
def rAssume (isPush : Bool) : Rd Unit := do
  let x ← rName
  let t ← rFormula b n o
  .upd fun st =>
    let st := if isPush then st.pushAssumption else st
    (st.bind x (mkProof t)).addAssumption b n t

/-- `declare-const`, cmd_parser.cpp:131-288 -/
def rDeclareConst : Rd Unit := do
  let x ← rName
  let t ← rType b n o false true
  let as ← rAttrs (rConstAttr b n o)
  .upd fun st => (declare st x t (chooseAttr as).1 (attrCons (chooseAttr as).2)).map fun v => v.1.bind x v.2

/-- `declare-fun`, cmd_parser.cpp:131-288 -/
def rDeclareFun : Rd Unit := do
  let x ← rName
  let ts ← rTypeList b n o false
  let t ← rType b n o false true
  .upd fun st => (declare st x (mkFunctionType ts t) .NONE none).map fun v => v.1.bind x v.2

/-- `declare-parameterized-const`, cmd_parser.cpp:131-288 -/
def rDeclareParam : Rd Unit := do
  let x ← rName
  .upd fun st => .ok st.push
  let ps ← rParams b n o true
  let t ← rType b n o false true
  let as ← rAttrs (rConstAttr b n o)
  .upd fun st =>
    (paramTypes b n st (ps.filter fun v => !v.2.implicit).reverse t []).bind fun tt =>
    (disambiguate b n st x tt.1 tt.2 (chooseAttr as).1).bind fun d =>
    (opaqueType d.2.1 tt.2 d.2.2 (attrCons (chooseAttr as).2)).bind fun e =>
    (declare d.1 x e.1 e.2.1 e.2.2).bind fun v => v.1.pop.map fun st => st.bind x v.2

/-- `declare-datatype`, cmd_parser.cpp:291-355 -/
def rDeclareDatatype : Rd Unit := do
  let x ← rName
  let ds ← rDts b n o [(x, none)]
  .get fun _ => if ds.isEmpty then .err else .ok ()
  .upd fun st => dtMarkAll b n ds st

/-- `declare-datatypes`, cmd_parser.cpp:291-355 -/
def rDeclareDatatypes : Rd Unit := do
  rEat .LPAREN
  let xs ← rItems rSortDec
  .get fun _ => if xs.isEmpty then .err else .ok ()
  rEat .LPAREN
  let ts ← .new fun st => dtTypes xs st
  let ds ← rDts b n o (ts.map fun t => (t.1, some t.2))
  .upd fun st => dtMarkAll b n ds st
  rEat .RPAREN

/-- `declare-consts`, cmd_parser.cpp:357-370 -/
def rDeclareConsts : Rd Unit := do
  .upd fun st => .ok (st.push.bind (nm "eo::self") b.self)
  let k ← rLitKind
  let t ← rType b n o false true
  .upd fun st => (st.decls.setLiteralTypeRule k t).bind fun d => ({ st with decls := d }).pop

/-- a part of a rule that follows the keyword `x`, read with `p`, and the keyword after it; `k` is the last keyword -/
def rSection {α : Type} (x : Name) (p : Rd α) (a : α) (k : Name) : Rd (α × Name) :=
  if k = x then do
    let a ← p
    let k ← rKeyword
    pure (a, k)
  else pure (a, k)

/-- the premises of a rule, cmd_parser.cpp:399-414, after the keyword `k`; the next keyword -/
def rRulePremises (k : Name) : Rd ((List Term × Option Term) × Name) :=
  if k = bytes "premises" then rSection (bytes "premises") (do let es ← rExprList b n o; pure (es, none)) ([], none) k
  else
    rSection (bytes "premise-list") (do
      let p ← rExpr b n o
      let c ← rExpr b n o
      pure ([p], some c)) ([], none) k

/-- `declare-rule`, cmd_parser.cpp:372-544 -/
def rDeclareRule : Rd Unit := do
  .get fun st => if st.asmCtx ≠ [] then .err else .ok ()
  .upd fun st => .ok st.push
  let x ← rName
  let _ ← rParams b n o false
  let k ← rKeyword
  let (asm, k) ← rSection (bytes "assumption") (do let t ← rExpr b n o; pure (some t)) none k
  let (prems, k) ← rRulePremises b n o k
  let (args, k) ← rSection (bytes "args") (rExprList b n o) [] k
  let (reqs, k) ← rSection (bytes "requires") (rPairs b n o) [] k
  let explicit ← .get fun _ => if k = bytes "conclusion" then .ok false else if k = bytes "conclusion-explicit" then .ok true else .err
  let conc ← rExpr b n o
  let progArgs := args ++ (if explicit then [conc] else []) ++ asm.toList ++ prems.1.map mkProof
  let ret ← .get fun st => Run.lift (mkRequires (mkExpr (st.env b) (ops (st.env b) n) n) reqs conc)
  .upd State.pop
  let rule ← .new fun st => st.mkSymbol PROOF_RULE x tBool
  let prog ← .act fun st => ruleProg b n st x progArgs ret
  .upd fun st =>
    (st.decls.bindRule x rule).map fun decls =>
    let tuple : Term := .node TUPLE [prems.2.getD tAny, mkBool asm.isSome, mkBool explicit, prog]
    { st with decls := (decls.markConstructorKind rule .PROOF_RULE (some tuple)).1 }
  let as ← rAttrs rRuleAttr
  .upd fun st => .ok { st with pfrSorry := if as.isEmpty then st.pfrSorry else rule :: st.pfrSorry }

/-- `declare-sort`, cmd_parser.cpp:546-557 -/
def rDeclareSort : Rd Unit := do
  let x ← rName
  let k ← rNumeral
  .upd fun st => let p := st.mkTypeConst x k; .ok (p.1.bind x p.2)

/-- `define-const`, cmd_parser.cpp:559-570 -/
def rDefineConst : Rd Unit := do
  let x ← rName
  let t ← rType b n o false true
  let e ← rExpr b n o
  .upd fun st => (st.typeCheckAs b n e t).map fun _ => st.bind x e

/-- the parameters of `define` and `define-fun`, cmd_parser.cpp:576-598 -/
def rDefineParams : Rd (List Term) := do
  let ps ← rParams b n o true
  let vars := ps.filter fun v => !v.2.implicit
  if vars.length < ps.length then
    .upd fun st => st.pop.map fun st => st.push.bindAll (vars.map fun v => (v.2.name, v.1))
  pure (vars.map (·.1))

/-- `define`, cmd_parser.cpp:572-665 -/
def rDefine : Rd Unit := do
  .upd fun st => .ok st.push
  let x ← rName
  let vars ← rDefineParams b n o
  let e ← rExpr b n o
  let expr : Term := if vars.isEmpty then e else .node LAMBDA [.node TUPLE vars, e]
  let _ ← rAttrs (rTypeAttr b n o expr)
  .upd fun st => st.pop.map fun st => st.bind x expr

/-- `define-fun`, cmd_parser.cpp:572-665 -/
def rDefineFun : Rd Unit := do
  .upd fun st => .ok st.push
  let x ← rName
  let vars ← rDefineParams b n o
  let ret ← rType b n o false true
  let e ← rExpr b n o
  .upd fun st =>
    (st.typeCheckAs b n e ret).bind fun _ =>
    (Run.orErr (st.scope.get (nm "="))).bind fun eq =>
    (defineFunRhs b n st vars e ret).bind fun r =>
    let c := st.mkSymbol CONST x r.2
    (c.1.build b n APPLY [eq, c.2, r.1]).bind fun a =>
    (c.1.addReferenceAssert b n a).bind fun st =>
    st.pop.map fun st => st.bind x c.2

/-- `define-sort`, cmd_parser.cpp:667-695 -/
def rDefineSort : Rd Unit := do
  let x ← rName
  let names ← rNameList
  let ps ← .new fun st => typeParams names (if names.isEmpty then st else st.push)
  let t ← rType b n o false true
  .upd fun st =>
    if names.isEmpty then .ok (st.bind x t) else st.pop.map fun st => st.bind x (.node LAMBDA [.node TUPLE ps, t])

/-- the cases of a program, cmd_parser.cpp:823-847 -/
def rCases (pvar : Term) (arity : Nat) : Rd (Option Term) := do
  let tk ← rPeek
  if tk = .RPAREN then pure none
  else
    let cs ← rPairs b n o
    .get fun st =>
      if cs.isEmpty then .err
      else if checkCases b.self pvar arity cs then (st.build b n PROGRAM (cs.map fun c => .node TUPLE [c.1, c.2])).map some
      else .err

/-- `program`, cmd_parser.cpp:761-858 -/
def rProgram : Rd Unit := do
  let x ← rName
  .upd fun st => .ok st.push
  let _ ← rParams b n o false
  let k ← rKeyword
  .get fun _ => if k = bytes "signature" then .ok () else .err
  let ats ← rTypeList b n o true
  let rt ← rType b n o false true
  .get fun _ => if ats.isEmpty then .err else .ok ()
  let pv ← .act fun st => (progVar b n st x (.node PROGRAM_TYPE (ats ++ [rt])))
  let prog ← rCases b n o pv.1 ats.length
  .upd fun st => st.pop.map fun st =>
    let st := { st with decls := st.decls.defineProgram pv.1 prog }
    if pv.2 then st.bind x pv.1 else st

/-- `if (d_lex.peekToken()==Token::KEYWORD) keyword = d_eparser.parseKeyword()`, cmd_parser.cpp:905-908, 913-916 -/
def rNextKeyword (k : Name) : Rd Name := do
  let tk ← rPeek
  if tk = .KEYWORD then rKeyword else pure k

/-- the conclusion given in a step, cmd_parser.cpp:883-889 -/
def rOptConc : Rd (Option Term) := do
  let tk ← rPeek
  if tk ≠ .KEYWORD then (do let t ← rFormula b n o; pure (some t) : Rd (Option Term)) else pure none

/-- the premises and arguments of a step, cmd_parser.cpp:904-923, where `k` is the last keyword -/
def rStepArgs (k : Name) : Rd (List Term × List Term) := do
  let k ← rNextKeyword k
  let (prems, k) ← if k = bytes "premises" then (do
      let ts ← rExprList b n o
      let k ← rNextKeyword k
      pure (ts, k) : Rd (List Term × Name)) else pure ([], k)
  let args ← if k = bytes "args" then rExprList b n o else pure []
  pure (prems, args)

/-- `step` and `step-pop`, cmd_parser.cpp:866-985 -/
def rStep (isPop : Bool) : Rd Unit := do
  .get fun st => if isPop ∧ st.asmCtx = [] then .err else .ok ()
  let x ← rName
  let proven ← rOptConc b n o
  let k ← rKeyword
  .get fun _ => if k = bytes "rule" then .ok () else .err
  let r ← rName
  let rule ← .act fun st => (Run.orErr (st.decls.rules r)).map fun rule => ({ st with used := rule :: st.used }, rule)
  let (prems, args) ← rStepArgs b n o k
  .upd fun st =>
    (notifyStep b n st rule proven prems args isPop).bind fun conc =>
    (st.typeCheck b n conc).bind fun ty =>
    if ty.kind ≠ BOOL_TYPE then .err
    else if proven.isSome && proven ≠ some conc then .err
    else (if isPop then st.popAssumption else .ok st).map fun st => st.bind x (mkProof conc)

/-- `assert`, cmd_parser.cpp:987-993 -/
def rAssert : Rd Unit := do
  let t ← rFormula b n o
  .upd fun st => st.addReferenceAssert b n t

/-- the number of `push` and `pop`, cmd_parser.cpp:1004-1011 -/
def rCount : Rd Nat := do
  let tk ← rPeek
  if tk = .INTEGER_LITERAL then rNumeral else pure 1

/-- what a command asks of the loop that reads commands -/
inductive After where
  | next
  | finished
  /-- `setOption`, if the value is `true` or `false` -/
  | option (key : Name) (val : Bool)
  | incl (file : Name) (isRef : Bool) (nf : Option Term)

/-- `set-option` in a file that is no reference, cmd_parser.cpp:1050-1073; only a plain symbol can be a value -/
def rSetOption : Rd After := do
  let k ← rKeyword
  let v ← .tok fun toks =>
    match toks with
    | [] => .err
    | tk :: _ =>
      .ok (toks, if tk.1 = .SYMBOL then
        (if tokenStr tk.2 = bytes "true" then some true else if tokenStr tk.2 = bytes "false" then some false else none) else none)
  rSkip
  pure (match v with | some v => .option k v | none => .next)

/-- `include` and `reference`, cmd_parser.cpp:716-759; the file is included by the caller -/
def rInclude (isRef : Bool) : Rd After := do
  .get fun st => if isRef ∧ st.hasRef then .err else if st.asmCtx ≠ [] then .err else .ok ()
  let f ← rStr
  if isRef then
    let tk ← rPeek
    let nf ← if tk ≠ .RPAREN then (do let t ← rExpr b n o; pure (some t) : Rd (Option Term)) else pure none
    pure (.incl f true nf)
  else pure (.incl f false none)

/-- a command without effect on the loop -/
def Rd.next (p : Rd Unit) : Rd After := do
  p
  pure .next

/-- the commands of all files, cmd_parser.cpp:36-48 -/
def commonTable : List (List Nat × (Bool → Rd After)) :=
  [(bytes "declare-const", fun _ => (rDeclareConst b n o).next), (bytes "declare-datatype", fun _ => (rDeclareDatatype b n o).next),
   (bytes "declare-datatypes", fun _ => (rDeclareDatatypes b n o).next), (bytes "declare-sort", fun _ => rDeclareSort.next),
   -- cmd_parser.cpp:697-711
   (bytes "echo", fun _ => do
      let tk ← rPeek
      if tk = .STRING_LITERAL then (do let _ ← rStr; pure .next : Rd After) else pure .next),
   (bytes "exit", fun _ => pure .finished),
   -- in a reference the value is skipped
   (bytes "set-option", fun isRef => if isRef then (do let _ ← rKeyword; rSkip; pure .next : Rd After) else rSetOption),
   (bytes "pop", fun _ => do let k ← rCount; .upd fun st => popN k st; pure .next),
   (bytes "push", fun _ => do let k ← rCount; .upd fun st => .ok (pushN k st); pure .next),
   (bytes "reset", fun _ => do .upd fun st => .ok st.reset; pure .next)]

/-- the commands of reference files, cmd_parser.cpp:50-61 -/
def refTable : List (List Nat × Rd After) :=
  [(bytes "assert", (rAssert b n o).next), (bytes "declare-fun", (rDeclareFun b n o).next),
   (bytes "define-const", (rDefineConst b n o).next), (bytes "define-fun", (rDefineFun b n o).next),
   (bytes "define-sort", (rDefineSort b n o).next), (bytes "check-sat", pure .next),
   (bytes "check-sat-assuming", do let _ ← rExprList b n o; pure .next),
   (bytes "set-logic", do let _ ← rName; pure .next),
   (bytes "set-info", do let _ ← rKeyword; rSkip; pure .next)]

/-- the other commands, cmd_parser.cpp:62-75 -/
def fileTable : List (List Nat × Rd After) :=
  [(bytes "assume", (rAssume b n o false).next), (bytes "assume-push", (rAssume b n o true).next),
   (bytes "declare-consts", (rDeclareConsts b n o).next), (bytes "declare-parameterized-const", (rDeclareParam b n o).next),
   (bytes "declare-rule", (rDeclareRule b n o).next), (bytes "define", (rDefine b n o).next),
   (bytes "include", rInclude b n o false), (bytes "program", (rProgram b n o).next),
   (bytes "reference", rInclude b n o true), (bytes "step", (rStep b n o false).next), (bytes "step-pop", (rStep b n o true).next)]

/-- the commands by their names: `d_table` and the switch of `parseNextCommand`, cmd_parser.cpp:34-75, 93-1078 -/
def cmdTable (isRef : Bool) : List (List Nat × Rd After) :=
  (commonTable b n o).map (fun p => (p.1, p.2 isRef)) ++ if isRef then refTable b n o else fileTable b n o

/-- the body of a command after its opening parenthesis: `nextCommandToken` and the switch of `parseNextCommand`, cmd_parser.cpp:77-91,
93-1078 -/
def readCmd (isRef : Bool) : Rd After := fun toks st =>
  match toks with
  | [] => .err
  | tk :: r =>
    if tk.1 = .SYMBOL then
      match (cmdTable b n o isRef).find? fun p => decide (p.1 = tokenStr tk.2) with
      | some p => p.2 r st
      | none => .err
    else .err

end
end Ethos
