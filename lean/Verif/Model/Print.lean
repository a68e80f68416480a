import Verif.Model.Lexer
import Verif.Model.Term
/-
Printing of terms, expr.cpp:241-445.  What is written is a list of pieces: fixed text, or a reference to a shared
term (`_v` and its number).  The loops are modelled with a bound on the number of iterations.
-/
namespace Ethos
open Kind

/-- What printing reads from the state: the type of variables (`lookupType`, which is never null for a variable), the names of symbols and
whether a function is ambiguous (`getConstructorKind` is AMB or AMB_DATATYPE_CONSTRUCTOR). -/
structure PrintEnv where
  varType : Nat → Term
  name : Kind → Nat → List Nat
  ambiguous : Term → Bool

/-- `kindToTerm`, kind.cpp:116-216.  The default case (the name of the kind in brackets) is not reached for terms without a literal. -/
def kindToTerm : Kind → List Nat
  | TYPE => bytes "Type" | FUNCTION_TYPE => bytes "->" | PROGRAM_TYPE => bytes "eo::arrow" | BOOL_TYPE => bytes "Bool"
  | QUOTE_TYPE => bytes "eo::quote" | TUPLE => bytes "eo::tuple" | APPLY => bytes "_" | APPLY_OPAQUE => bytes "_"
  | ANY => bytes "eo::?" | LAMBDA => bytes "lambda" | PROGRAM => bytes "program" | AS => bytes "eo::as" | AS_RETURN => bytes "as"
  | PARAMETERIZED => bytes "eo::_" | PROOF => bytes "eo::pf"
  | EVAL_IS_OK => bytes "eo::is_ok" | EVAL_IS_EQ => bytes "eo::is_eq" | EVAL_IF_THEN_ELSE => bytes "eo::ite"
  | EVAL_REQUIRES => bytes "eo::requires" | EVAL_HASH => bytes "eo::hash" | EVAL_VAR => bytes "eo::var"
  | EVAL_TYPE_OF => bytes "eo::typeof" | EVAL_NAME_OF => bytes "eo::nameof" | EVAL_COMPARE => bytes "eo::cmp"
  | EVAL_IS_Z => bytes "eo::is_z" | EVAL_IS_Q => bytes "eo::is_q" | EVAL_IS_BIN => bytes "eo::is_bin"
  | EVAL_IS_STR => bytes "eo::is_str" | EVAL_IS_BOOL => bytes "eo::is_bool" | EVAL_IS_VAR => bytes "eo::is_var"
  | EVAL_EQ => bytes "eo::eq" | EVAL_NIL => bytes "eo::nil" | EVAL_CONS => bytes "eo::cons"
  | EVAL_LIST_LENGTH => bytes "eo::list_len" | EVAL_LIST_CONCAT => bytes "eo::list_concat" | EVAL_LIST_NTH => bytes "eo::list_nth"
  | EVAL_LIST_FIND => bytes "eo::list_find" | EVAL_LIST_ERASE => bytes "eo::list_erase"
  | EVAL_LIST_ERASE_ALL => bytes "eo::list_erase_all" | EVAL_LIST_REV => bytes "eo::list_rev"
  | EVAL_LIST_SETOF => bytes "eo::list_setof" | EVAL_LIST_MINCLUDE => bytes "eo::list_minclude"
  | EVAL_LIST_MEQ => bytes "eo::list_meq" | EVAL_LIST_DIFF => bytes "eo::list_diff" | EVAL_LIST_INTER => bytes "eo::list_inter"
  | EVAL_LIST_SINGLETON_ELIM => bytes "eo::list_singleton_elim"
  | EVAL_NOT => bytes "eo::not" | EVAL_AND => bytes "eo::and" | EVAL_OR => bytes "eo::or" | EVAL_XOR => bytes "eo::xor"
  | EVAL_ADD => bytes "eo::add" | EVAL_NEG => bytes "eo::neg" | EVAL_MUL => bytes "eo::mul" | EVAL_INT_DIV => bytes "eo::zdiv"
  | EVAL_INT_MOD => bytes "eo::zmod" | EVAL_RAT_DIV => bytes "eo::qdiv" | EVAL_IS_NEG => bytes "eo::is_neg" | EVAL_GT => bytes "eo::gt"
  | EVAL_LENGTH => bytes "eo::len" | EVAL_CONCAT => bytes "eo::concat" | EVAL_EXTRACT => bytes "eo::extract" | EVAL_FIND => bytes "eo::find"
  | EVAL_TO_INT => bytes "eo::to_z" | EVAL_TO_RAT => bytes "eo::to_q" | EVAL_TO_BIN => bytes "eo::to_bin"
  | EVAL_TO_STRING => bytes "eo::to_str" | EVAL_DT_CONSTRUCTORS => bytes "eo::dt_constructors"
  | EVAL_DT_SELECTORS => bytes "eo::dt_selectors"
  | _ => bytes "[]"

/-- `Expr::getPrintChildren`, expr.cpp:241-257 -/
def printChildren (env : PrintEnv) : Term → List Term
  | .sym VARIABLE i => [env.varType i]
  | .sym _ _ => []
  | .lit _ => []
  | .node _ cs => cs

/-- the text of a term without children, expr.cpp:332-373 -/
def printLeaf (env : PrintEnv) : Term → List Nat
  | .sym k i => if isSymbol k then quoteSymbol (env.name k i) else env.name k i
  | .lit l =>
    match l with
    | .hex _ => bytes "#x" ++ l.toString
    | .bin b => if b.size = 0 then bytes "(eo::to_bin 0 0)" else bytes "#b" ++ l.toString
    | .str s => printString s
    | .dec _ => bytes "(! " ++ l.toString ++ bytes " :decimal)"
    | _ => l.toString
  | .node k _ => kindToTerm k

/-- what is written before the first child, expr.cpp:375-403 -/
def printOpen (env : PrintEnv) : Term → List Nat
  | .sym VARIABLE i => bytes "(eo::var \"" ++ env.name VARIABLE i ++ bytes "\" "
  | .node APPLY_OPAQUE (c :: _) => if env.ambiguous c then bytes "(as " else bytes "("
  | .node APPLY (c :: _) => if c.children.length > 0 then bytes "(" ++ kindToTerm APPLY ++ bytes " " else bytes "("
  | t => bytes "(" ++ kindToTerm t.kind ++ bytes " "

/-- what is written to the stream -/
inductive Piece where
  | text (s : List Nat)
  | ref (n : Nat)
deriving DecidableEq, Repr

/-- the loop of `Expr::printDebugInternal`, expr.cpp:311-419, on the stack `visit` (top first).  An entry with the number `i` of a term with
children has had its first `i` children printed; a variable has no children, but its type is printed like a first one. -/
def printLoop (env : PrintEnv) (lbind : List (Term × Nat)) : Nat → List (Term × Nat) → List Piece → Run (List Piece)
  | _, [], os => .ok os
  | 0, _ :: _, _ => .fuel
  | f + 1, (t, 0) :: visit, os =>
    match lbind.lookup t with
    | some i => printLoop env lbind f visit (os ++ [.ref i])
    | none =>
      match printChildren env t with
      | [] => printLoop env lbind f visit (os ++ [.text (printLeaf env t)])
      | c :: _ => printLoop env lbind f ((c, 0) :: (t, 1) :: visit) (os ++ [.text (printOpen env t)])
  | f + 1, (t, i + 1) :: visit, os =>
    match t.children[i + 1]? with
    | none => printLoop env lbind f visit (os ++ [.text [41]])
    | some c => printLoop env lbind f ((c, 0) :: (t, i + 2) :: visit) (os ++ [.text [32]])

/-- `lcount[cv]++` -/
def increment (t : Term) : List (Term × Nat) → List (Term × Nat)
  | [] => [(t, 1)]
  | (u, n) :: l => if u = t then (u, n + 1) :: l else (u, n) :: increment t l

/-- the first loop of `Expr::computeLetBinding`, expr.cpp:262-293, on the stack `visit` (top first).  The result is `llv` and `lcount`. -/
def letLoop (env : PrintEnv) : Nat → List Term → List Term → List Term → List (Term × Nat) → Run (List Term × List (Term × Nat))
  | _, [], _, llv, lcount => .ok (llv, lcount)
  | 0, _ :: _, _, _, _ => .fuel
  | f + 1, cur :: visit, visited, llv, lcount =>
    if printChildren env cur = [] then letLoop env f visit visited llv lcount
    else if cur ∉ visited then letLoop env f ((printChildren env cur).reverse ++ cur :: visit) (cur :: visited) llv lcount
    else letLoop env f visit visited (if lcount.lookup cur = none then llv ++ [cur] else llv) (increment cur lcount)

/-- the second loop of `Expr::computeLetBinding`, expr.cpp:294-308: `ll` and the map `lbind` -/
def keepShared (llv : List Term) (lcount : List (Term × Nat)) : List Term := llv.filter fun l => (lcount.lookup l).getD 0 > 1

def letBinding (ll : List Term) : List (Term × Nat) := ll.zipIdx

/-- `Expr::computeLetBinding`, expr.cpp:259-309 -/
def computeLetBinding (env : PrintEnv) (f : Nat) (e : Term) : Run (List Term) :=
  (letLoop env f [e] [] [] []).map fun r => keepShared r.1 r.2

/-- the loop of `Expr::printDebug`, expr.cpp:430-440: the definitions that are written; while one is written, its own entry is removed -/
def printBindings (env : PrintEnv) (f : Nat) (lbind : List (Term × Nat)) : List Term → Run (List (List Piece))
  | [] => .ok []
  | l :: ll => (printLoop env (lbind.filter (·.1 ≠ l)) f [(l, 0)] []).bind fun d => (printBindings env f lbind ll).map (d :: ·)

/-- `Expr::printDebug`, expr.cpp:421-445: definitions and body.  Without `d_printDag` there are no definitions. -/
def printTerm (env : PrintEnv) (dag : Bool) (f : Nat) (e : Term) : Run (List (List Piece) × List Piece) :=
  if dag then
    (computeLetBinding env f e).bind fun ll => (printBindings env f (letBinding ll) ll).bind fun ds =>
      (printLoop env (letBinding ll) f [(e, 0)] []).map fun b => (ds, b)
  else (printLoop env [] f [(e, 0)] []).map fun b => ([], b)

/-- `os << piece`, expr.cpp:325 -/
def Piece.write : Piece → List Nat
  | .text s => s
  | .ref n => bytes "_v" ++ Integer.natToString 10 n

def writePieces (ps : List Piece) : List Nat := ps.flatMap Piece.write

/-- the definitions from number `n` on with the body, expr.cpp:430-444 -/
def writeTerm : Nat → List (List Piece) → List Piece → List Nat
  | _, [], b => writePieces b
  | n, d :: ds, b => bytes "(eo::define ((_v" ++ Integer.natToString 10 n ++ bytes " " ++ writePieces d ++ bytes ")) " ++ writeTerm (n + 1) ds b ++ bytes ")"

end Ethos
