import Verif.Model.Command
import Verif.Model.Lexer
/-
Reading expressions from tokens: model of `src/expr_parser.cpp` 63-91, 114-467, 469-692, 967-1090 and of
`src/lexer.cpp` 117-180 (tokens put back, and tokens that are required).

The lexer is a list of tokens with their characters; a token put back is read again.  (The code keeps the characters of the
last token only.  A token put back whose characters are used is always the last one that was read.)  Reading past the end of
the list is an error: both the end of the input and a lexical error are errors inside a command.  The loops carry a bound on
the number of iterations.
-/
namespace Ethos
open Kind

/-- a token with its characters -/
abbrev Tk := Token × List Nat

/-- the options that matter for reading literals, state.cpp:33-80, and whether the file is a signature -/
structure ReadOpts where
  isSig : Bool
  normNum : Bool
  normDec : Bool
  normHex : Bool

/-! ## Literals -/

/-- the digits `Integer(s, base)` accepts -/
def isDigitOf (base c : Nat) : Bool := if base = 16 then Str.isHexDigit c else decide (48 ≤ c) && decide (c < 48 + base)

/-- `Integer(s, base)`, integer.cpp:20-22: `none` if GMP throws -/
def Integer.ofDigits (base : Nat) (s : List Nat) : Option Nat :=
  if s ≠ [] ∧ s.all (isDigitOf base) then some (Integer.natOfString base s) else none

/-- `Integer(s)`, integer.cpp:20-22, for a text that may begin with a minus -/
def Integer.ofText : List Nat → Option Int
  | 45 :: s => (Integer.ofDigits 10 s).map fun n : Nat => -(n : Int)
  | s => (Integer.ofDigits 10 s).map fun n : Nat => (n : Int)

/-- `Rational(s)`, rational.h:52-55; `none` if GMP throws or divides by zero -/
def Rational.ofText (s : List Nat) : Option Rat :=
  if 47 ∈ s then
    (Integer.ofText (s.takeWhile (· ≠ 47))).bind fun p =>
    (Integer.ofText ((s.dropWhile (· ≠ 47)).drop 1)).bind fun q => if q = 0 then none else some (Rational.mk p q)
  else (Integer.ofText s).map fun z => (z : Rat)

/-- `Rational::fromDecimal`, rational.cpp:26-43 -/
def Rational.fromDecimal (s : List Nat) : Option Rat :=
  if 46 ∈ s then
    let i := s.takeWhile (· ≠ 46)
    let r := (s.dropWhile (· ≠ 46)).drop 1
    (Integer.ofText (i ++ r)).map fun z => Rational.mk z ((10 : Int) ^ r.length)
  else Rational.ofText s

/-- the literal of a token, expr_parser.cpp:268-347, with `State::mkLiteral`, state.cpp:849-870.  Numerals, decimals and
hexadecimal constants that are normalised, and strings, are printed and read again. -/
def litOfToken (o : ReadOpts) (tk : Tk) : Run Lit :=
  let s := tokenStr tk.2
  match tk.1 with
  | .INTEGER_LITERAL =>
    if !o.isSig && o.normNum then
      .orErr (((Rational.ofText s).bind fun r => Rational.ofText (Rational.toString r)).map .rat)
    else .orErr ((Integer.ofText s).map .num)
  | .DECIMAL_LITERAL =>
    if !o.isSig && o.normDec then
      .orErr (((Rational.fromDecimal s).bind fun r => Rational.ofText (Rational.toString r)).map .rat)
    else .orErr ((Rational.fromDecimal s).map .dec)
  | .RATIONAL_LITERAL =>
    if 47 ∈ s ∧ ((s.dropWhile (· ≠ 47)).drop 1).all (· = 48) then .err else .orErr ((Rational.ofText s).map .rat)
  | .HEX_LITERAL =>
    let h := s.drop 2
    if !o.isSig && o.normHex then .ok (.bin (BV.ofString ((BV.ofString h 16).toString 2) 2)) else .ok (.hex (BV.ofString h 16))
  | .BINARY_LITERAL => .ok (.bin (BV.ofString (s.drop 2) 2))
  | .STRING_LITERAL => (tokenString tk.2).map fun s => .str (Str.toInternal (Str.toString s) true)
  | _ => .err

/-! ## Tokens that are required or ignored -/

/-- `Lexer::eatToken`, lexer.cpp:150-159 -/
def eat (t : Token) : List Tk → Run (List Tk)
  | [] => .err
  | tk :: r => if tk.1 = t then .ok r else .err

/-- `ExprParser::parseSymbol`, expr_parser.cpp:692-696 -/
def readName : List Tk → Run (List Tk × Name)
  | [] => .err
  | tk :: r => (tokenStrToSymbol tk.1 tk.2).map fun x => (r, x)

/-- `ExprParser::parseSymbolicExpr`, expr_parser.cpp:574-595, with `d` open parentheses (a `size_t` in the code) -/
def skipSexp (d : Int) : List Tk → Run (List Tk)
  | [] => .err
  | tk :: r =>
    let d' := if tk.1 = .LPAREN then d + 1 else if tk.1 = .RPAREN then d - 1 else d
    if d' = 0 then .ok r else skipSexp d' r

/-- the attributes the code knows, expr_parser.cpp:66-83 -/
def attrTable : List (List Nat × Attr) :=
  [(bytes ":implicit", .IMPLICIT), (bytes ":type", .TYPE), (bytes ":list", .LIST), (bytes ":left-assoc", .LEFT_ASSOC),
   (bytes ":right-assoc", .RIGHT_ASSOC), (bytes ":left-assoc-nil", .LEFT_ASSOC_NIL), (bytes ":right-assoc-nil", .RIGHT_ASSOC_NIL),
   (bytes ":left-assoc-non-singleton-nil", .LEFT_ASSOC_NS_NIL), (bytes ":right-assoc-non-singleton-nil", .RIGHT_ASSOC_NS_NIL),
   (bytes ":chainable", .CHAINABLE), (bytes ":pairwise", .PAIRWISE), (bytes ":binder", .BINDER),
   (bytes ":let-binder", .LET_BINDER), (bytes ":arg-list", .ARG_LIST), (bytes ":opaque", .OPAQUE), (bytes ":syntax", .SYNTAX),
   (bytes ":restrict", .RESTRICT), (bytes ":sorry", .SORRY)]

/-- `d_strToAttr.find` -/
def findAttr (s : List Nat) : Option Attr := (attrTable.find? fun p => decide (p.1 = s)).map (·.2)

/-- skip the value of an unknown attribute, if there is one, expr_parser.cpp:979-983 -/
def skipValue (toks : List Tk) : Run (List Tk) :=
  match toks with
  | [] => .err
  | tk :: _ => if tk.1 = .KEYWORD ∨ tk.1 = .RPAREN then .ok toks else skipSexp 0 toks

/-- `parseAttributeList(Kind::NONE, …)`, expr_parser.cpp:967-1090: the attributes of an annotated term -/
def skipAttrs : Nat → List Tk → Run (List Tk)
  | 0, _ => .fuel
  | _ + 1, [] => .err
  | f + 1, tk :: r =>
    if tk.1 = .RPAREN then .ok (tk :: r)
    else if tk.1 = .KEYWORD then
      if (findAttr (tokenStr tk.2)).isSome then .err else (skipValue r).bind (skipAttrs f)
    else .err

/-! ## Expressions -/

/-- an entry of the stack of `parseExpr`, expr_parser.cpp:36-61, 94-112.  The binders of a `let` (`letBinders`) are part of its
entry; `x` is the name whose term is read. -/
inductive PFrame where
  | nextArg (nscopes : Nat) (args : List Term)
  | letNext (bs : List (Name × Term)) (x : Name)
  | letBody
  | annot

/-- the tokens begin with two left parentheses, expr_parser.cpp:184-191 -/
def twoOpen : List Tk → Bool
  | t1 :: t2 :: _ => decide (t1.1 = .LPAREN) && decide (t2.1 = .LPAREN)
  | _ => false

section
variable (b : Env) (n : Nat) (o : ReadOpts)

/-- the term of a token that is a term by itself, expr_parser.cpp:254-353 -/
def leafTerm (tk : Tk) (st : State) : Run Term :=
  match tk.1 with
  | .SYMBOL | .QUOTED_SYMBOL =>
    (tokenStrToSymbol tk.1 tk.2).bind fun x =>
    match st.scope.get x with
    | none => .err
    | some t => if t.kind = BUILTIN_CONST then .err else .ok t
  | .TYPE => .ok tType
  | .BOOL_TYPE => .ok tBool
  | _ => (litOfToken o tk).map .lit

mutual
/-- one iteration of the loop of `ExprParser::parseExpr`, expr_parser.cpp:127-465: `S` is the stack.  A right parenthesis with
an empty stack reads `pstack.back()` (expr_parser.cpp:239). -/
def rloop : Nat → List PFrame → List Tk → State → Run (List Tk × State × Term)
  | 0, _, _, _ => .fuel
  | _ + 1, _, [], _ => .err
  | f + 1, S, tk :: r, st =>
    match tk.1 with
    | .LPAREN =>
      match r with
      | [] => .err
      | tk :: r =>
        match tk.1 with
        | .LET | .EVAL_DEFINE => (eat .LPAREN r).bind fun r => rlet f S [] r st
        | .ATTRIBUTE => rloop f (.annot :: S) r st
        | .LPAREN =>
          (readName r).bind fun p =>
          if p.2 = nm "_" ∨ p.2 = nm "as" then rhead f (.nextArg 0 [] :: S) p.2 p.1 st else .err
        | .SYMBOL | .QUOTED_SYMBOL => (tokenStrToSymbol tk.1 tk.2).bind fun x => rhead f S x r st
        | _ => .err
    | .RPAREN =>
      match S with
      | [] => .ub
      | .nextArg k args :: S =>
        (st.build b n APPLY args).bind fun t => (popN k st).bind fun st => rret f S r st t
      | _ => .err
    | _ => (leafTerm o tk st).bind fun t => rret f S r st t
/-- the head of an application, expr_parser.cpp:163-226 -/
def rhead : Nat → List PFrame → Name → List Tk → State → Run (List Tk × State × Term)
  | 0, _, _, _, _ => .fuel
  | f + 1, S, x, r, st =>
    match st.scope.get x with
    | none => .err
    | some v =>
      let ck := (st.env b).constructorKind v
      if ck = .BINDER ∧ twoOpen r then
        (rvars f (r.drop 1) st.push).bind fun p =>
        if p.2.2.isEmpty then .err
        else (p.2.1.mkBinderList b n v p.2.2).bind fun vl => rloop f (.nextArg 1 [v, vl] :: S) p.1 p.2.1
      else if ck = .LET_BINDER ∧ twoOpen r then
        (rlets f (r.drop 1) st.push).bind fun p =>
        let st := p.2.1.bindAll (p.2.2.map fun l => (l.1, l.2.1))
        if p.2.2.isEmpty then .err
        else (st.mkLetBinderList b n v (p.2.2.map (·.2))).bind fun vl => rloop f (.nextArg 1 [v, vl] :: S) p.1 st
      else rloop f (.nextArg 0 [v] :: S) r st
/-- the loop that hands the term that was read to the stack, expr_parser.cpp:366-465 -/
def rret : Nat → List PFrame → List Tk → State → Term → Run (List Tk × State × Term)
  | 0, _, _, _, _ => .fuel
  | _ + 1, [], r, st, t => .ok (r, st, t)
  | f + 1, .nextArg k args :: S, r, st, t => rloop f (.nextArg k (args ++ [t]) :: S) r st
  | f + 1, .letNext bs x :: S, r, st, t => (eat .RPAREN r).bind fun r => rlet f S (bs ++ [(x, t)]) r st
  | f + 1, .letBody :: S, r, st, t => (eat .RPAREN r).bind fun r => st.pop.bind fun st => rret f S r st t
  | f + 1, .annot :: S, r, st, t => (skipAttrs f r).bind fun r => (eat .RPAREN r).bind fun r => rret f S r st t
/-- another binding of a `let` or its body, expr_parser.cpp:401-427 -/
def rlet : Nat → List PFrame → List (Name × Term) → List Tk → State → Run (List Tk × State × Term)
  | 0, _, _, _, _ => .fuel
  | _ + 1, _, _, [], _ => .err
  | f + 1, S, bs, tk :: r, st =>
    if tk.1 = .LPAREN then (readName r).bind fun p => rloop f (.letNext bs p.2 :: S) p.1 st
    else if tk.1 = .RPAREN then rloop f (.letBody :: S) r (st.push.bindAll bs)
    else .err
/-- the loop of `parseAndBindSortedVarList(Kind::NONE)`, expr_parser.cpp:620-668 -/
def rvars : Nat → List Tk → State → Run (List Tk × State × List Term)
  | 0, _, _ => .fuel
  | _ + 1, [], _ => .err
  | f + 1, tk :: r, st =>
    if tk.1 = .LPAREN then
      (readName r).bind fun x =>
      (rloop f [] x.1 st).bind fun p =>
      (p.2.1.checkType b n false p.2.2).bind fun _ =>
      (p.2.1.getBoundVar b n x.2 p.2.2).bind fun v =>
      (eat .RPAREN p.1).bind fun r =>
      (rvars f r (p.2.1.bind x.2 v)).map fun q => (q.1, q.2.1, v :: q.2.2)
    else if tk.1 = .RPAREN then .ok (r, st, [])
    else .err
/-- the loop of `parseAndBindLetList`, expr_parser.cpp:670-684 -/
def rlets : Nat → List Tk → State → Run (List Tk × State × List (Name × Term × Term))
  | 0, _, _ => .fuel
  | _ + 1, [], _ => .err
  | f + 1, tk :: r, st =>
    if tk.1 = .LPAREN then
      (readName r).bind fun x =>
      (rloop f [] x.1 st).bind fun p =>
      (eat .RPAREN p.1).bind fun r =>
      (p.2.1.typeCheck b n p.2.2).bind fun tt =>
      (p.2.1.getBoundVar b n x.2 tt).bind fun v =>
      (rlets f r p.2.1).map fun q => (q.1, q.2.1, ((if tt.ground then x.2 else []), v, p.2.2) :: q.2.2)
    else if tk.1 = .RPAREN then .ok (r, st, [])
    else .err
end

/-- `ExprParser::parseExpr`, expr_parser.cpp:114-467; the bound is large enough for whatever
can be read (`C65_expr`) -/
def readExpr (toks : List Tk) (st : State) : Run (List Tk × State × Term) := rloop b n o (4 * toks.length + 4) [] toks st

end
end Ethos
