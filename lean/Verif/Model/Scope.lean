import Verif.Model.Term
/-
The symbol table with scopes and overloads: model of `src/state.cpp` 199-262, 1251-1300, 1344-1352.

Vectors are lists whose head is the back.  The separate table for proof rules (`d_ruleSymTable`) is in
`Verif.Model.Command`; plugins are not modelled.
-/
namespace Ethos

/-- names as byte strings -/
abbrev Name := List Nat

/-- Outcome of a command: a result, an error reported to the user (`EO_FATAL` or a parse error, after which the process
ends), undefined behaviour, or not finished within the given bound. -/
inductive Run (α : Type) where
  | ok (a : α)
  | err
  | ub
  | fuel
deriving Repr, DecidableEq

namespace Run
def bind {α β : Type} : Run α → (α → Run β) → Run β
  | ok a, f => f a
  | err, _ => err
  | ub, _ => ub
  | fuel, _ => fuel
def map {α β : Type} (f : α → β) : Run α → Run β
  | ok a => ok (f a)
  | err => err
  | ub => ub
  | fuel => fuel
end Run

/-- `d_symTable`, `d_overloads` (an absent entry is the empty list), `d_decls`, `d_declsSizeCtx`, `d_overloadedDecls`
(state.h:343-369) and the fields `d_isOverloaded`, `d_overloadName` of `d_appData` (expr_info.h:27-49) -/
structure Scope where
  sym : Name → Option Term
  ov : Name → List Term
  decls : List Name
  ctx : List Nat
  oDecls : List Name
  mark : Term → Option Name

namespace Scope

/-- an empty table -/
def init : Scope := ⟨fun _ => none, fun _ => [], [], [], [], fun _ => none⟩

/-- `State::getVar`, state.cpp:1344-1352 -/
def get (s : Scope) (n : Name) : Option Term := s.sym n

/-- `State::bind` on the main table, state.cpp:1270-1299 -/
def bind (s : Scope) (n : Name) (t : Term) : Scope :=
  let s1 : Scope := match s.sym n with
    | none => s
    | some old =>
      { s with
        mark := fun x => if x = t then some n else s.mark x
        ov := fun m => if m = n then (if s.ov n = [] then [old] else s.ov n) ++ [t] else s.ov m
        oDecls := if s.ctx = [] then s.oDecls else n :: s.oDecls }
  { s1 with
    sym := fun m => if m = n then some t else s1.sym m
    decls := if s.ctx = [] then s1.decls else n :: s1.decls }

/-- `State::pushScope`, state.cpp:212-219 -/
def push (s : Scope) : Scope := { s with ctx := s.decls.length :: s.ctx }

/-- one iteration of the loop of `popScope`, state.cpp:233-260: revert the last declaration.  Writing through the end
iterator and reading the back of an empty vector are undefined. -/
def undo (s : Scope) : Run Scope :=
  match s.decls with
  | [] => .ub
  | n :: r =>
    if s.oDecls.head? = some n then
      match s.sym n, (s.ov n).dropLast.getLast? with
      | some _, some t => .ok
        { s with
          oDecls := s.oDecls.tail
          sym := fun m => if m = n then some t else s.sym m
          ov := fun m => if m = n then (if (s.ov n).dropLast.length = 1 then [] else (s.ov n).dropLast) else s.ov m
          decls := r }
      | _, _ => .ub
    else .ok { s with sym := fun m => if m = n then none else s.sym m, decls := r }

/-- the loop of `popScope` down to `lastSize` declarations, state.cpp:231-260 -/
def undoN : Nat → Scope → Run Scope
  | 0, s => .ok s
  | k+1, s => (undo s).bind (undoN k)

/-- `std::vector::resize` (head = back) -/
def resize (l : List Name) (n : Nat) : List Name :=
  List.replicate (n - l.length) [] ++ l.drop (l.length - n)

/-- `State::popScope`, state.cpp:221-262 -/
def pop (s : Scope) : Run Scope :=
  match s.ctx with
  | [] => .err
  | last :: r =>
    (undoN (s.decls.length - last) { s with ctx := r }).map fun s => { s with decls := resize s.decls last }

/-- `State::reset` on the symbol table, state.cpp:199-206: the overloads and their marks are kept -/
def reset (s : Scope) : Scope := { s with sym := fun _ => none, decls := [], ctx := [] }

/-- operations on the table -/
inductive Op where
  | bind (n : Name) (t : Term)
  | push
  | pop
deriving DecidableEq

def step (s : Scope) : Op → Run Scope
  | .bind n t => .ok (s.bind n t)
  | .push => .ok s.push
  | .pop => s.pop

def run : List Op → Scope → Run Scope
  | [], s => .ok s
  | o :: os, s => (s.step o).bind (run os)

end Scope
end Ethos
