import Verif.Model.Scope
import Verif.Model.Eval
/-
Declarations that outlive their scope: attributes of constants (`d_appData`), definitions of programs, type rules of
literals, the table of proof rules and bound variables.  Model of `src/state.cpp` 1258-1269, 1354-1384, 1717-1730, 1751-1770
and `src/type_checker.cpp` 25-80.
-/
namespace Ethos
open Kind

/-- `d_appData` without the overload fields (these are `Scope.mark`), `d_literalTypeRules` and `d_ruleSymTable`
(state.h:340-372, type_checker.h:176) -/
structure Decls where
  info : Term → Option AppInfo
  litRule : Kind → Option Term
  rules : Name → Option Term

namespace Decls

/-- the entry of a term in `d_appData`, with the overload fields -/
def appInfo (d : Decls) (mark : Term → Option Name) (t : Term) : Option AppInfo :=
  match d.info t, mark t with
  | some ai, m => some { ai with overload := m }
  | none, some n => some ⟨.NONE, none, NONE, some n⟩
  | none, none => none

/-- `State::markConstructorKind`, state.cpp:1751-1770; the result says whether the attribute was set -/
def markConstructorKind (d : Decls) (v : Term) (a : Attr) (c : Option Term) : Decls × Bool :=
  let ai := (d.info v).getD ⟨.NONE, none, NONE, none⟩
  if ai.attr ≠ .NONE then (d, false)
  else ({ d with info := fun t => if t = v then some { ai with attr := a, cons := c } else d.info t }, true)

/-- `State::defineProgram`, state.cpp:1717-1730, without plugins -/
def defineProgram (d : Decls) (v : Term) (p : Option Term) : Decls :=
  match p with
  | some p => (d.markConstructorKind v .PROGRAM (some p)).1
  | none => d

/-- the categories of literals, type_checker.cpp:27-32 -/
def hasTypeRule : Kind → Bool
  | BOOLEAN | NUMERAL | RATIONAL | BINARY | STRING | DECIMAL | HEXADECIMAL => true
  | _ => false

/-- `TypeChecker::setLiteralTypeRule`, type_checker.cpp:39-58 -/
def setLiteralTypeRule (d : Decls) (k : Kind) (t : Term) : Run Decls :=
  if hasTypeRule k then
    match d.litRule k with
    | some t' => if t' = t then .ok d else .err
    | none => .ok { d with litRule := fun j => if j = k then some t else d.litRule j }
  else .err

/-- the effect of `TypeChecker::getOrSetLiteralTypeRule` on the rules, type_checker.cpp:60-80: a category without a rule
gets the builtin type `any` (`mkBuiltinType`, state.cpp:586-590) -/
def getOrSetLiteralTypeRule (d : Decls) (any : Term) (k : Kind) : Run Decls :=
  if hasTypeRule k then
    match d.litRule k with
    | some _ => .ok d
    | none => .ok { d with litRule := fun j => if j = k then some any else d.litRule j }
  else .err

/-- `State::bind` on the table of proof rules, state.cpp:1258-1269, and the error of `ExprParser::bind`,
expr_parser.cpp:1171-1180 -/
def bindRule (d : Decls) (n : Name) (r : Term) : Run Decls :=
  match d.rules n with
  | some _ => .err
  | none => .ok { d with rules := fun m => if m = n then some r else d.rules m }

/-- operations on the declarations -/
inductive Op where
  | mark (v : Term) (a : Attr) (c : Option Term)
  | program (v : Term) (p : Option Term)
  | setLit (k : Kind) (t : Term)
  | useLit (k : Kind)
  | rule (n : Name) (r : Term)

def step (any : Term) (d : Decls) : Op → Run Decls
  | .mark v a c => .ok (d.markConstructorKind v a c).1
  | .program v p => .ok (d.defineProgram v p)
  | .setLit k t => d.setLiteralTypeRule k t
  | .useLit k => d.getOrSetLiteralTypeRule any k
  | .rule n r => d.bindRule n r

def run (any : Term) : List Op → Decls → Run Decls
  | [], d => .ok d
  | o :: os, d => (d.step any o).bind (run any os)

/-- `State::getProgram`, state.cpp:1584-1592 -/
def getProgram (d : Decls) (v : Term) : Option Term :=
  match d.info v with
  | some ai => if ai.attr = .PROGRAM then ai.cons else none
  | none => none

end Decls

/-- `d_boundVars` (state.h:382) and the symbols allocated so far; a new symbol gets the next identity -/
structure VarCache where
  cache : List ((Name × Term) × Term)
  next : Nat

namespace VarCache

/-- `State::getBoundVar`, state.cpp:1354-1372.  For a type that is not ground the term `(eo::var name type)` is made, which
is evaluated to a bound variable once the type is known (type_checker.cpp:1208-1222).  (`mkExpr` on `EVAL_VAR` makes a plain
node.) -/
def getBoundVar (c : VarCache) (n : Name) (ty : Term) : VarCache × Term :=
  if ty.ground then
    match c.cache.find? (fun p => p.1 = (n, ty)) with
    | some p => (c, p.2)
    | none =>
      let v := Term.sym VARIABLE c.next
      (⟨((n, ty), v) :: c.cache, c.next + 1⟩, v)
  else (c, .node EVAL_VAR [.lit (.str n), ty])

/-- a history of requests for bound variables and of other symbols being made -/
inductive Op where
  | var (n : Name) (ty : Term)
  | other

/-- the variables returned, in order -/
def run : List Op → VarCache → List Term
  | [], _ => []
  | .var n ty :: os, c => (c.getBoundVar n ty).2 :: run os (c.getBoundVar n ty).1
  | .other :: os, c => run os { c with next := c.next + 1 }

end VarCache
end Ethos
