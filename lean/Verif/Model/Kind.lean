/-
Model of `src/kind.h`, `src/kind.cpp`, `src/attr.h`, `src/attr.cpp`.
-/
namespace Ethos

/-- `enum class Kind`, kind.h:19-126. -/
inductive Kind where
  | NONE
  -- types
  | TYPE | FUNCTION_TYPE | PROGRAM_TYPE | BOOL_TYPE | QUOTE_TYPE
  -- terms
  | APPLY | LAMBDA | TUPLE | PROGRAM | AS | AS_RETURN | PARAMETERIZED | APPLY_OPAQUE | ANY | PROOF
  -- symbols
  | PARAM | CONST | BUILTIN_CONST | PROGRAM_CONST | PROOF_RULE | VARIABLE
  -- literals
  | BOOLEAN | NUMERAL | DECIMAL | RATIONAL | HEXADECIMAL | BINARY | STRING
  -- core
  | EVAL_IS_OK | EVAL_IS_EQ | EVAL_IF_THEN_ELSE | EVAL_REQUIRES | EVAL_HASH | EVAL_VAR
  | EVAL_TYPE_OF | EVAL_NAME_OF | EVAL_COMPARE
  -- testers
  | EVAL_IS_Z | EVAL_IS_Q | EVAL_IS_BIN | EVAL_IS_STR | EVAL_IS_BOOL | EVAL_IS_VAR
  -- equality
  | EVAL_EQ
  -- lists
  | EVAL_NIL | EVAL_CONS | EVAL_LIST_LENGTH | EVAL_LIST_CONCAT | EVAL_LIST_NTH | EVAL_LIST_FIND
  | EVAL_LIST_ERASE | EVAL_LIST_ERASE_ALL | EVAL_LIST_REV | EVAL_LIST_SETOF | EVAL_LIST_MINCLUDE
  | EVAL_LIST_MEQ | EVAL_LIST_DIFF | EVAL_LIST_INTER | EVAL_LIST_SINGLETON_ELIM
  -- boolean
  | EVAL_NOT | EVAL_AND | EVAL_OR | EVAL_XOR
  -- arithmetic
  | EVAL_ADD | EVAL_NEG | EVAL_MUL | EVAL_INT_DIV | EVAL_INT_MOD | EVAL_RAT_DIV | EVAL_IS_NEG | EVAL_GT
  -- strings
  | EVAL_LENGTH | EVAL_CONCAT | EVAL_EXTRACT | EVAL_FIND
  -- conversions
  | EVAL_TO_INT | EVAL_TO_RAT | EVAL_TO_BIN | EVAL_TO_STRING
  -- datatypes
  | EVAL_DT_CONSTRUCTORS | EVAL_DT_SELECTORS
deriving DecidableEq, Repr, Inhabited

open Kind

/-- `isSymbol`, kind.cpp:218-230.  Note BUILTIN_CONST is not a symbol here. -/
def isSymbol : Kind → Bool
  | PARAM | CONST | PROGRAM_CONST | PROOF_RULE | VARIABLE => true
  | _ => false

/-- `isLiteral`, kind.cpp:231-245. -/
def isLiteral : Kind → Bool
  | BOOLEAN | NUMERAL | DECIMAL | RATIONAL | HEXADECIMAL | BINARY | STRING => true
  | _ => false

/-- `isLiteralOp`, kind.cpp:246-313. -/
def isLiteralOp : Kind → Bool
  | EVAL_IS_OK | EVAL_IS_EQ | EVAL_IF_THEN_ELSE | EVAL_REQUIRES | EVAL_HASH | EVAL_VAR
  | EVAL_TYPE_OF | EVAL_NAME_OF | EVAL_COMPARE
  | EVAL_IS_Z | EVAL_IS_Q | EVAL_IS_BIN | EVAL_IS_STR | EVAL_IS_BOOL | EVAL_IS_VAR
  | EVAL_EQ
  | EVAL_NIL | EVAL_CONS | EVAL_LIST_LENGTH | EVAL_LIST_CONCAT | EVAL_LIST_NTH | EVAL_LIST_FIND
  | EVAL_LIST_ERASE | EVAL_LIST_ERASE_ALL | EVAL_LIST_REV | EVAL_LIST_SETOF | EVAL_LIST_MINCLUDE
  | EVAL_LIST_MEQ | EVAL_LIST_DIFF | EVAL_LIST_INTER | EVAL_LIST_SINGLETON_ELIM
  | EVAL_NOT | EVAL_AND | EVAL_OR | EVAL_XOR
  | EVAL_ADD | EVAL_NEG | EVAL_MUL | EVAL_INT_DIV | EVAL_INT_MOD | EVAL_RAT_DIV | EVAL_IS_NEG | EVAL_GT
  | EVAL_LENGTH | EVAL_CONCAT | EVAL_EXTRACT | EVAL_FIND
  | EVAL_TO_INT | EVAL_TO_RAT | EVAL_TO_BIN | EVAL_TO_STRING
  | EVAL_DT_CONSTRUCTORS | EVAL_DT_SELECTORS => true
  | _ => false

/-- `isNaryLiteralOp`, kind.cpp:315-328. -/
def isNaryLiteralOp : Kind → Bool
  | EVAL_ADD | EVAL_MUL | EVAL_AND | EVAL_OR | EVAL_XOR | EVAL_CONCAT => true
  | _ => false

/-- `isListLiteralOp`, kind.cpp:330-353. -/
def isListLiteralOp : Kind → Bool
  | EVAL_NIL | EVAL_CONS | EVAL_LIST_LENGTH | EVAL_LIST_CONCAT | EVAL_LIST_NTH | EVAL_LIST_FIND
  | EVAL_LIST_ERASE | EVAL_LIST_ERASE_ALL | EVAL_LIST_REV | EVAL_LIST_SETOF | EVAL_LIST_MINCLUDE
  | EVAL_LIST_MEQ | EVAL_LIST_DIFF | EVAL_LIST_INTER | EVAL_LIST_SINGLETON_ELIM => true
  | _ => false

/-- `enum class Attr`, attr.h:19-64. -/
inductive Attr where
  | NONE | IMPLICIT | TYPE | SORRY
  | LIST | PROGRAM | BINDER | LET_BINDER | OPAQUE
  | SYNTAX | RESTRICT | PROOF_RULE
  | RIGHT_ASSOC | LEFT_ASSOC | RIGHT_ASSOC_NIL | LEFT_ASSOC_NIL | RIGHT_ASSOC_NS_NIL | LEFT_ASSOC_NS_NIL
  | CHAINABLE | PAIRWISE | ARG_LIST
  | AMB | DATATYPE | DATATYPE_CONSTRUCTOR | AMB_DATATYPE_CONSTRUCTOR
deriving DecidableEq, Repr, Inhabited

/-- `isNAryAttr`, attr.cpp:47-64. -/
def isNAryAttr : Attr → Bool
  | .LEFT_ASSOC | .RIGHT_ASSOC | .LEFT_ASSOC_NIL | .RIGHT_ASSOC_NIL | .RIGHT_ASSOC_NS_NIL
  | .LEFT_ASSOC_NS_NIL | .CHAINABLE | .PAIRWISE | .ARG_LIST => true
  | _ => false

/-- `isListNilAttr`, attr.cpp:66-77. -/
def isListNilAttr : Attr → Bool
  | .LEFT_ASSOC_NIL | .RIGHT_ASSOC_NIL | .RIGHT_ASSOC_NS_NIL | .LEFT_ASSOC_NS_NIL => true
  | _ => false

/-- `TypeChecker::checkArity`, type_checker.cpp:147-223. -/
def checkArity (k : Kind) (nargs : Nat) : Bool :=
  match k with
  | EVAL_IS_EQ | EVAL_VAR | EVAL_EQ | EVAL_INT_DIV | EVAL_INT_MOD | EVAL_RAT_DIV | EVAL_TO_BIN
  | EVAL_FIND | EVAL_COMPARE | EVAL_GT | EVAL_LIST_LENGTH | EVAL_LIST_REV | EVAL_LIST_SETOF
  | EVAL_LIST_SINGLETON_ELIM | EVAL_NIL => nargs == 2
  | EVAL_LIST_CONCAT => nargs == 3
  | PROOF | EVAL_IS_OK | EVAL_TYPE_OF | EVAL_NAME_OF | EVAL_HASH | EVAL_NOT | EVAL_NEG | EVAL_IS_NEG
  | EVAL_LENGTH | EVAL_TO_INT | EVAL_TO_RAT | EVAL_TO_STRING | EVAL_IS_Z | EVAL_IS_Q | EVAL_IS_BIN
  | EVAL_IS_STR | EVAL_IS_BOOL | EVAL_IS_VAR | EVAL_DT_CONSTRUCTORS | EVAL_DT_SELECTORS => nargs == 1
  | EVAL_REQUIRES | EVAL_IF_THEN_ELSE | EVAL_CONS | EVAL_LIST_FIND | EVAL_LIST_ERASE
  | EVAL_LIST_ERASE_ALL | EVAL_LIST_NTH | EVAL_LIST_MINCLUDE | EVAL_LIST_MEQ | EVAL_LIST_DIFF
  | EVAL_LIST_INTER => nargs == 3
  | EVAL_EXTRACT => nargs == 3 || nargs == 2
  | k => if isNaryLiteralOp k then nargs == 2 else false

/-- Outcome of a C++ evaluation function that returns an object or "null"
(`Literal()` of kind NONE, `d_null`), where reading a vector out of bounds is
undefined behaviour.  Undefined behaviour is kept as a separate outcome. -/
inductive Res (α : Type) where
  | val (a : α)
  | null
  | ub
deriving DecidableEq, Repr

end Ethos
