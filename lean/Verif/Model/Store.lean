import Verif.Model.Term
/-
The term store: model of hash-consing, reference counting, garbage collection and hash numbers
(`src/state.cpp` 359-450, 604-627, 922-988, 1234-1249, 1606-1617, `src/expr.cpp` 22-40, 116-160,
`src/expr_trie.h`).

Handles (`ExprValue*`) are numbers; the allocator is arbitrary: a construction is given the address at which a new
object would be placed, which may be the address of an object freed before.

Simplifications: reference counts are unbounded (the code uses 32 bits); the address of the null expression
plays no role; the literal tables of the several categories are one table keyed by category and value;
`d_true`/`d_false` are entries of that table.
-/
namespace Ethos.Store
open Ethos Kind

/-! ### The trie of children -/

/-- `ExprTrie`, expr_trie.h:21-28: the term stored here and the map to subtries -/
inductive Trie where
  | mk (data : Option Nat) (kids : List (Nat × Trie))
deriving Inhabited

def Trie.data : Trie → Option Nat | mk d _ => d
def Trie.kids : Trie → List (Nat × Trie) | mk _ ks => ks
/-- default constructor, expr_trie.h:24 -/
def Trie.empty : Trie := .mk none []

/-- assignment `m[e] = t` of a map -/
def setKey {α : Type} (e : Nat) (t : α) : List (Nat × α) → List (Nat × α)
  | [] => [(e, t)]
  | (e', t') :: r => if e' = e then (e, t) :: r else (e', t') :: setKey e t r

/-- erasing a key of a map -/
def eraseKey {α : Type} (e : Nat) (m : List (Nat × α)) : List (Nat × α) := m.filter (fun x => decide (x.1 ≠ e))

/-- the `d_data` reached by `ExprTrie::get` (expr_trie.h:30-38); a path that does not exist yet leads to a new node,
whose data is null -/
def Trie.find : Trie → List Nat → Option Nat
  | t, [] => t.data
  | t, e :: es => match t.kids.lookup e with
    | some t' => t'.find es
    | none => none

/-- `get(children)->d_data = p` (expr_trie.h:30-38, state.cpp:1247) -/
def Trie.insert : Trie → List Nat → Nat → Trie
  | t, [], p => .mk (some p) t.kids
  | t, e :: es, p => .mk t.data (setKey e (Trie.insert ((t.kids.lookup e).getD .empty) es p) t.kids)

/-- the loop of `ExprTrie::remove`, expr_trie.h:46-61: the depth of `etd` after the loop.  `none`: an end iterator
is dereferenced (the assertion in line 55 is only compiled in debug builds). -/
def Trie.walk : Trie → List Nat → Nat → Option Nat → Option (Option Nat)
  | _, [], _, etd => some etd
  | t, e :: es, d, etd => match t.kids.lookup e with
    | none => none
    | some t' => t'.walk es (d + 1) (if t.kids.length > 1 then none else some (etd.getD d))

/-- `etd->d_children.erase(itetd)` for `etd` at the given depth of the path, expr_trie.h:63-66 -/
def Trie.eraseAt : Trie → List Nat → Nat → Trie
  | t, [], _ => t
  | t, e :: _, 0 => .mk t.data (eraseKey e t.kids)
  | t, e :: es, d + 1 => match t.kids.lookup e with
    | some t' => .mk t.data (setKey e (t'.eraseAt es d) t.kids)
    | none => t

/-- `et->d_data = nullptr`, expr_trie.h:67 -/
def Trie.clear : Trie → List Nat → Trie
  | t, [] => .mk none t.kids
  | t, e :: es => match t.kids.lookup e with
    | some t' => .mk t.data (setKey e (t'.clear es) t.kids)
    | none => t

/-- `ExprTrie::remove`, expr_trie.h:40-68.  When a subtrie is erased, `et` points into it, so line 67 writes to freed
memory: the Boolean records this. -/
def Trie.remove (t : Trie) (path : List Nat) : Option (Trie × Bool) :=
  match t.walk path 0 none with
  | none => none
  | some (some d) => some (t.eraseAt path d, true)
  | some none => some (t.clear path, false)

/-! ### The store -/

/-- contents of an `ExprValue`: a term with children, a literal, or a symbol (identified by a serial number; its name
and type play no role here) -/
inductive Node where
  | app (k : Kind) (cs : List Nat)
  | lit (l : Lit)
  | sym (k : Kind) (id : Nat)
deriving DecidableEq

/-- `ExprValue::d_children` -/
def Node.children : Node → List Nat
  | .app _ cs => cs
  | _ => []

/-- `ExprValue::d_kind` -/
def Node.kind : Node → Kind
  | .app k _ => k
  | .lit l => l.kind
  | .sym k _ => k

/-- the state of the term manager.  `att` lists the expressions stored for a term in `d_typeCache` and
`d_appData`; `ext` counts the `Expr` objects outside the maps above; `dangling` is set once freed memory has been
written. -/
structure St where
  heap : List (Nat × Node) := []
  rc : Nat → Nat := fun _ => 0
  trie : Kind → Trie := fun _ => .empty
  lits : List (Lit × Nat) := []
  att : List (Nat × Nat) := []
  hash : List (Nat × Nat) := []
  hashCounter : Nat := 0
  symCounter : Nat := 0
  ext : Nat → Nat := fun _ => 0
  dangling : Bool := false

/-- update of a function at a point -/
def upd {α β : Type} [DecidableEq α] (f : α → β) (a : α) (b : β) : α → β := fun x => if x = a then b else f x

/-- `ExprValue::inc`, expr.h:106 -/
def St.inc (s : St) (p : Nat) : St := { s with rc := upd s.rc p (s.rc p + 1) }

/-- `ExprValue::dec` during garbage collection, expr.cpp:116-124, state.cpp:363-367: the term is pushed onto
`d_toDelete` (the head of the list is its back) if its count becomes zero -/
def St.dec (s : St) (todo : List Nat) (p : Nat) : St × List Nat :=
  let s' := { s with rc := upd s.rc p (s.rc p - 1) }
  if s.rc p - 1 = 0 then (s', p :: todo) else (s', todo)

/-- the destructors of the expressions stored for a deleted term -/
def St.decAll (s : St) (todo : List Nat) : List Nat → St × List Nat
  | [] => (s, todo)
  | q :: qs => let r := s.dec todo q; r.1.decAll r.2 qs

/-- one iteration of the loop of `markDeleted`, state.cpp:369-437.  `free(e)` does not run the destructor of
`ExprValue`, so the counts of the children are not decremented.  `none`: undefined behaviour. -/
def St.delete (s : St) (todo : List Nat) (e : Nat) : Option (St × List Nat) :=
  match s.heap.lookup e with
  | none => none
  | some n =>
    -- state.cpp:373-410, the table of literals
    let s1 := match n with
      | .lit l => { s with lits := s.lits.filter (fun x => decide (x.1 ≠ l)) }
      | _ => s
    -- state.cpp:413-431, application data, hash and type
    let owned := (s1.att.filter (fun x => decide (x.1 = e))).map Prod.snd
    let s2 := { s1 with hash := eraseKey e s1.hash, att := eraseKey e s1.att }
    let r := s2.decAll todo owned
    -- state.cpp:433-436
    match (r.1.trie n.kind).remove n.children with
    | none => none
    | some (t, d) =>
      some ({ r.1 with trie := upd r.1.trie n.kind t, heap := eraseKey e r.1.heap, dangling := r.1.dangling || d }, r.2)

/-- `markDeleted`, state.cpp:359-450: the loop over `d_toDelete`, with a bound on the number of iterations -/
def St.collect (s : St) : Nat → List Nat → Option St
  | _, [] => some s
  | 0, _ => none
  | n + 1, e :: todo => match s.delete todo e with
    | some (s', todo') => s'.collect n todo'
    | none => none

/-- `getHash`, state.cpp:1606-1617 -/
def St.getHash (s : St) (e : Nat) : St × Nat :=
  match s.hash.lookup e with
  | some h => (s, h)
  | none => ({ s with hashCounter := s.hashCounter + 1, hash := (e, s.hashCounter + 1) :: s.hash }, s.hashCounter + 1)

/-- `mkExprInternal`, state.cpp:1234-1249, and the constructor of `ExprValue`, expr.cpp:24-31; `a` is the address of a
new object -/
def St.mkApp (s : St) (k : Kind) (cs : List Nat) (a : Nat) : St × Nat :=
  match (s.trie k).find cs with
  | some p => (s, p)
  | none =>
    let s1 := { s with heap := (a, .app k cs) :: s.heap, rc := upd s.rc a 0, trie := upd s.trie k ((s.trie k).insert cs a) }
    (cs.foldl St.inc s1, a)

/-- `mkLiteralInternal`, state.cpp:922-988; the table holds a reference to the literal -/
def St.mkLit (s : St) (l : Lit) (a : Nat) : St × Nat :=
  match s.lits.lookup l with
  | some p => (s, p)
  | none => ({ s with heap := (a, .lit l) :: s.heap, rc := upd s.rc a 1, lits := (l, a) :: s.lits }, a)

/-- `mkSymbolInternal`, state.cpp:604-627: always a new object -/
def St.mkSym (s : St) (k : Kind) (a : Nat) : St × Nat :=
  ({ s with heap := (a, .sym k s.symCounter) :: s.heap, rc := upd s.rc a 0, symCounter := s.symCounter + 1 }, a)

/-- `Expr(ev)`, `Expr(const Expr&)`, expr.cpp:127-147: a new handle -/
def St.retain (s : St) (p : Nat) : St := { s.inc p with ext := upd s.ext p (s.ext p + 1) }

/-- `Expr::~Expr`, expr.cpp:148-156, outside garbage collection -/
def St.release (s : St) (p : Nat) : Option St :=
  let s1 := { s with ext := upd s.ext p (s.ext p - 1) }
  let r := s1.dec [] p
  r.1.collect (r.1.heap.length) r.2

/-- EVAL_HASH on a term that is not evaluatable, type_checker.cpp:1135-1146: the numeral; the hash is converted to a
32 bit number (`Integer(unsigned int)`).  The counter of `getHash` is unbounded here (64 bits in the code). -/
def St.hashNum (s : St) (e : Nat) : St × Nat := ((s.getHash e).1, (s.getHash e).2 % 2 ^ 32)

/-- EVAL_COMPARE on terms that are not evaluatable, type_checker.cpp:1147-1157 -/
def St.cmp (s : St) (a b : Nat) : St × Bool :=
  let r1 := s.getHash a
  let r2 := r1.1.getHash b
  (r2.1, decide (r1.2 > r2.2))

/-- the client's operations; constructions are given the address of a new object -/
inductive Op where
  | app (k : Kind) (cs : List Nat) (a : Nat)
  | lit (l : Lit) (a : Nat)
  | sym (k : Kind) (a : Nat)
  | retain (p : Nat)
  | release (p : Nat)
  | attach (p q : Nat)
  | hash (p : Nat)

def St.live (s : St) (p : Nat) : Bool := (s.heap.lookup p).isSome

/-- the kinds of symbols: those of `isSymbol` and BUILTIN_CONST (state.cpp:1701) -/
def symKind (k : Kind) : Bool := isSymbol k || k == BUILTIN_CONST

/-- what a client can do: use live terms, release handles it holds; the allocator returns unused addresses.
Symbols and literals are not built by `mkExprInternal`. -/
def St.allowed (s : St) : Op → Bool
  | .app k cs a => cs.all s.live && !s.live a && !symKind k && !isLiteral k
  | .lit _ a => !s.live a
  | .sym k a => !s.live a && symKind k
  | .retain p => s.live p
  | .release p => decide (0 < s.ext p)
  | .attach p q => s.live p && s.live q
  | .hash p => s.live p

/-- one operation: the new state and the handle or number returned; `none` is undefined behaviour -/
def St.step (s : St) : Op → Option (St × Nat)
  | .app k cs a => let r := s.mkApp k cs a; some (r.1.retain r.2, r.2)
  | .lit l a => let r := s.mkLit l a; some (r.1.retain r.2, r.2)
  | .sym k a => let r := s.mkSym k a; some (r.1.retain r.2, r.2)
  | .retain p => some (s.retain p, p)
  | .release p => (s.release p).map (fun s' => (s', p))
  | .attach p q => some ({ s.inc q with att := (p, q) :: s.att }, q)
  | .hash p => some (s.getHash p)

end Ethos.Store
