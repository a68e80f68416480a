import Verif.Spec.Syntax
import Verif.Spec.Bindings
import Verif.Spec.Print
/-
Specification of the terms whose printed text can be read again: every name, literal and operator in the text has, where it is
read, the meaning it has in the term.
-/
namespace Ethos.Spec
open Ethos Kind

/-- a name that is printed as one token with this name: no null character, backslash or bar, no reserved word or numeral, and only
the characters of simple symbols if it begins with `eo::` -/
structure PlainName (fl : LexFlags) (x : Name) : Prop where
  chars : ∀ b ∈ x, 0 < b ∧ b < 255
  bars : 92 ∉ x ∧ 124 ∉ x
  word : SymbolClass fl x .SYMBOL
  eo : x.take 4 = bytes "eo::" → ∀ b ∈ x, SymbolChar b

/-- a simple symbol -/
def SimpleName (fl : LexFlags) (x : Name) : Prop := ∃ la, Lexeme fl .SYMBOL x la

/-- the literals that are read as they are printed, if the options do not replace them: no decimals, hexadecimal constants that do not
begin with zero, no empty binary constants, and strings without double quotes -/
inductive PlainLit (o : ReadOpts) : Lit → Prop
  | num (z) : o.isSig = true ∨ o.normNum = false → PlainLit o (.num z)
  | rat (q) : PlainLit o (.rat q)
  | hex (k v) : o.isSig = true ∨ o.normHex = false → 4 * (k + 1) < 2 ^ 32 → 16 ^ k ≤ v → v < 16 ^ (k + 1) → PlainLit o (.hex ⟨4 * (k + 1), v⟩)
  | bin (b) : WfLit (.bin b) → 0 < b.size → PlainLit o (.bin b)
  | str (s) : WfLit (.str s) → 34 ∉ s → PlainLit o (.str s)

/-- `t` is printed as `(x c1 … cn)` -/
inductive Shown (fl : LexFlags) (P : PrintEnv) : Term → Name → List Term → Prop
  /-- the application of a symbol -/
  | app (k i cs) : isSymbol k = true → k ≠ VARIABLE → PlainName fl (P.name k i) →
      Shown fl P (.node APPLY (.sym k i :: cs)) (P.name k i) cs
  /-- the application of a term with children: `(_ f c1 … cn)` -/
  | apply (f cs) : f.children ≠ [] → Shown fl P (.node APPLY (f :: cs)) (bytes "_") (f :: cs)
  /-- the application of a symbol with opaque arguments -/
  | opaq (k i cs) : isSymbol k = true → k ≠ VARIABLE → PlainName fl (P.name k i) → P.ambiguous (.sym k i) = false →
      Shown fl P (.node APPLY_OPAQUE (.sym k i :: cs)) (P.name k i) cs
  /-- a disambiguated constructor: `(as f T)` -/
  | as (f cs) : P.ambiguous f = true → Shown fl P (.node APPLY_OPAQUE (f :: cs)) (bytes "as") (f :: cs)
  /-- other terms, by the name of the kind -/
  | node (k c cs) : k ≠ APPLY → k ≠ APPLY_OPAQUE → SimpleName fl (kindToTerm k) → Shown fl P (.node k (c :: cs)) (kindToTerm k) (c :: cs)
  /-- variables: `(eo::var "x" T)` -/
  | var (i) : (∀ b ∈ P.name VARIABLE i, 32 ≤ b ∧ b ≤ 126 ∧ b ≠ 34 ∧ b ≠ 92) →
      Shown fl P (.sym VARIABLE i) (bytes "eo::var") [.lit (.str (P.name VARIABLE i)), P.varType i]

/-- Read where `v` is visible, what is printed for `t` has the same meaning as in `t`: symbols are visible with their names, literals
are read as they are, and every printed application denotes the term it is printed for. -/
inductive Stable (fl : LexFlags) (o : ReadOpts) (P : PrintEnv) (E : Vis → Env) (v : Vis) : Term → Prop
  | lit (l) : PlainLit o l → Stable fl o P E v (.lit l)
  | tt : v.find (bytes "true") = some tTrue → Stable fl o P E v tTrue
  | ff : v.find (bytes "false") = some tFalse → Stable fl o P E v tFalse
  | type : fl.lexType = true → Stable fl o P E v tType
  | bool : Stable fl o P E v tBool
  | sym (k i) : isSymbol k = true → k ≠ VARIABLE → PlainName fl (P.name k i) → v.find (P.name k i) = some (.sym k i) →
      Stable fl o P E v (.sym k i)
  /-- the empty binary constant is printed as `(eo::to_bin 0 0)` -/
  | empty (hd) : o.isSig = true ∨ o.normNum = false → v.find (bytes "eo::to_bin") = some hd →
      Denotes (E v) hd [.lit (.num 0), .lit (.num 0)] (.lit (.bin ⟨0, 0⟩)) → Stable fl o P E v (.lit (.bin ⟨0, 0⟩))
  | app (t x hd cs) : Shown fl P t x cs → v.find x = some hd → (∀ c ∈ cs, Stable fl o P E v c) → Denotes (E v) hd cs t →
      Stable fl o P E v t

/-- the name `x` is visible as the builtin operator of kind `k` -/
def OpVisible (E : Vis → Env) (v : Vis) (x : Name) (k : Kind) : Prop := ∃ u ai, v.find x = some u ∧ (E v).appInfo u = some ai ∧ ai.kind = k

/-- Terms made of literals, visible symbols, curried applications of constants without attributes, function types and variables, where
the names of the builtin operators that are printed have their usual meaning. -/
inductive PlainTerm (fl : LexFlags) (o : ReadOpts) (P : PrintEnv) (E : Vis → Env) (v : Vis) : Term → Prop
  | lit (l) : PlainLit o l → PlainTerm fl o P E v (.lit l)
  | tt : v.find (bytes "true") = some tTrue → PlainTerm fl o P E v tTrue
  | ff : v.find (bytes "false") = some tFalse → PlainTerm fl o P E v tFalse
  | type : fl.lexType = true → PlainTerm fl o P E v tType
  | bool : PlainTerm fl o P E v tBool
  | sym (k i) : isSymbol k = true → k ≠ VARIABLE → PlainName fl (P.name k i) → v.find (P.name k i) = some (.sym k i) →
      PlainTerm fl o P E v (.sym k i)
  | empty : o.isSig = true ∨ o.normNum = false → OpVisible E v (bytes "eo::to_bin") EVAL_TO_BIN → PlainTerm fl o P E v (.lit (.bin ⟨0, 0⟩))
  | app1 (i a) : PlainName fl (P.name CONST i) → v.find (P.name CONST i) = some (.sym CONST i) → (E v).appInfo (.sym CONST i) = none →
      PlainTerm fl o P E v a → PlainTerm fl o P E v (.node APPLY [.sym CONST i, a])
  | app (f a) : f.children ≠ [] → OpVisible E v (bytes "_") APPLY → PlainTerm fl o P E v f → PlainTerm fl o P E v a →
      PlainTerm fl o P E v (.node APPLY [f, a])
  | arrow (a r) : OpVisible E v (bytes "->") FUNCTION_TYPE → PlainTerm fl o P E v a → PlainTerm fl o P E v r →
      PlainTerm fl o P E v (.node FUNCTION_TYPE [a, r])
  | var (i) : (∀ b ∈ P.name VARIABLE i, 32 ≤ b ∧ b ≤ 126 ∧ b ≠ 34 ∧ b ≠ 92) → OpVisible E v (bytes "eo::var") EVAL_VAR →
      (E v).boundVar (P.name VARIABLE i) (P.varType i) = .sym VARIABLE i → TypeResult (E v) (P.varType i) (some tType) →
      (P.varType i).ground = true → (P.varType i).evaluatable = false → PlainTerm fl o P E v (P.varType i) → PlainTerm fl o P E v (.sym VARIABLE i)

/-- the name of the definition number `j` in printed text -/
def defName (j : Nat) : Name := bytes "_v" ++ Integer.natToString 10 j

end Ethos.Spec
