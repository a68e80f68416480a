import Verif.Spec.Bindings
import Verif.Spec.Checked
import Verif.Spec.Desugar
import Verif.Spec.Lists
/-
Specification of declarations of datatypes: the symbols they make, with their types, and the bindings.
-/
namespace Ethos.Spec
open Ethos Kind

/-- `(-> a1 … an r)`, curried -/
def arrow : List Term → Term → Term
  | [], r => r
  | a :: as, r => .node FUNCTION_TYPE [a, arrow as r]

/-- corresponding elements are related -/
inductive Each {α β : Type} (R : α → β → Prop) : List α → List β → Prop
  | nil : Each R [] []
  | cons (a b as bs) : R a b → Each R as bs → Each R (a :: as) (b :: bs)

/-- a selector with its updater and the type of the argument it selects -/
structure Field where
  sel : Term
  upd : Term
  ty : Term

/-- a constructor with its tester -/
structure Ctor where
  con : Term
  test : Term
  fields : List Field

/-- a datatype: its symbol, its parameters, the type, which is the symbol applied to the parameters, and the constructors -/
structure Data where
  sort : Term
  params : List Term
  type : Term
  ctors : List Ctor

/-- `t` is a symbol made since there were `lo` symbols, with the name and type in `st'` -/
def NewSym (k : Kind) (lo : Nat) (st' : State) (x : Name) (ty t : Term) : Prop :=
  ∃ i, t = .sym k i ∧ lo ≤ i ∧ i < st'.next ∧ st'.symName t = x ∧ st'.symType t = some ty

/-- `e` is read as the type `ty` where the bindings are those of `a` -/
def ReadType (b : Env) (n lo : Nat) (a : Stack) (e : SExp) (ty : Term) : Prop :=
  ∃ s s', lo ≤ s.next ∧ Shows s a ∧ parseExpr b n e s = .ok (s', ty) ∧ ProperType b s ty

/-- a selector has type `(-> T ty)` and its updater `(-> T ty T)` -/
def FieldOk (b : Env) (n lo : Nat) (st' : State) (a : Stack) (T : Term) (d : Name × SExp) (f : Field) : Prop :=
  NewSym CONST lo st' d.1 (arrow [T] f.ty) f.sel ∧ NewSym CONST lo st' (nm "update-" ++ d.1) (arrow [T, f.ty] T) f.upd ∧
    ReadType b n lo a d.2 f.ty

/-- the arguments of a constructor do not determine all parameters of the datatype -/
def Ambiguous (params : List Term) (c : Ctor) : Prop := ∃ p ∈ params, ∀ f ∈ c.fields, ¬ Sub p f.ty

/-- the type of a constructor: the function type of its arguments, or for an ambiguous one the type that asks for the
datatype `v` first and is what a program gives for it, which maps the type of the declaration to the function type -/
def CtorType (st' : State) (lo : Nat) (params : List Term) (T : Term) (c : Ctor) (ty : Term) : Prop :=
  (¬ Ambiguous params c ∧ ty = arrow (c.fields.map (·.ty)) T) ∨
  (Ambiguous params c ∧ ∃ i j, lo ≤ i ∧ lo ≤ j ∧ ty = arrow [.node QUOTE_TYPE [.sym PARAM j]] (.node APPLY [.sym PROGRAM_CONST i, .sym PARAM j]) ∧
    st'.decls.info (.sym PROGRAM_CONST i) = some ⟨.PROGRAM,
      some (.node PROGRAM [.node TUPLE [.node APPLY [.sym PROGRAM_CONST i, T], arrow (c.fields.map (·.ty)) T]]), NONE, none⟩ ∧
    st'.symType (.sym PROGRAM_CONST i) = some (.node PROGRAM_TYPE [tType, tType]) ∧ st'.symType (.sym PARAM j) = some tType)

/-- a constructor as it is declared; the types of its arguments are read with the bindings `a` -/
def CtorOk (b : Env) (n lo : Nat) (st' : State) (a : Stack) (params : List Term) (T : Term) (d : SCons) (c : Ctor) : Prop :=
  Each (FieldOk b n lo st' a T) d.sels c.fields ∧ (∃ ty, CtorType st' lo params T c ty ∧ NewSym CONST lo st' d.name ty c.con) ∧
    NewSym CONST lo st' (nm "is-" ++ d.name) (arrow [T] tBool) c.test

/-- bind several names in order -/
def Stack.bindAll (a : Stack) (l : List (Name × Term)) : Stack := l.foldl (fun a p => a.bind p.1 p.2) a

/-- the bindings made for a constructor: selectors with updaters, the constructor, the tester -/
def ctorBinds (d : SCons) (c : Ctor) : List (Name × Term) :=
  ((d.sels.zip c.fields).flatMap fun p => [(p.1.1, p.2.sel), (nm "update-" ++ p.1.1, p.2.upd)]) ++ [(d.name, c.con), (nm "is-" ++ d.name, c.test)]

/-- the bindings made for the constructors of a datatype -/
def dataBinds (d : SDt) (D : Data) : List (Name × Term) := (d.cons.zip D.ctors).flatMap fun p => ctorBinds p.1 p.2

/-- a datatype as it is declared: its symbol takes as many types as it has parameters; `a` are the bindings visible to it, and
`own` those that are made for its body besides its parameters -/
def DataOk (b : Env) (n lo : Nat) (st' : State) (a : Stack) (own : List (Name × Term)) (x : Name) (d : SDt) (D : Data) : Prop :=
  NewSym CONST lo st' x (arrow (d.params.map fun _ => tType) tType) D.sort ∧
  Each (fun y p => NewSym PARAM lo st' y tType p) d.params D.params ∧
  Curry D.sort D.params D.type ∧
  Each (CtorOk b n lo st' (((if d.params = [] then a else a.opened).bindAll (d.params.zip D.params)).bindAll own) D.params D.type) d.cons D.ctors

/-- several datatypes as they are declared, each with the name and symbol of its type; the bindings made for one are visible to the
next.  Names without a definition may be left. -/
inductive DatasOk (b : Env) (n lo : Nat) (st' : State) : Stack → List (Name × Term) → List SDt → List Data → Stack → Prop
  | nil (a xs) : DatasOk b n lo st' a xs [] [] a
  | cons (a x xs d ds D Ds a') : DataOk b n lo st' a [] x d D → DatasOk b n lo st' (a.bindAll (dataBinds d D)) xs ds Ds a' →
      DatasOk b n lo st' a ((x, D.sort) :: xs) (d :: ds) (D :: Ds) a'

/-- what `eo::dt_constructors` and `eo::dt_selectors` give for a datatype, its constructors, and for the type applied to arguments:
ambiguous constructors are annotated by it -/
def Listed (b : Env) (st' : State) (D : Data) : Prop :=
  let list := rlist b.listCons b.listNil
  OpResult (st'.env b) EVAL_DT_CONSTRUCTORS [D.sort] (some (list (D.ctors.map (·.con)))) ∧
  (∀ c ∈ D.ctors, OpResult (st'.env b) EVAL_DT_SELECTORS [c.con] (some (list (c.fields.map (·.sel)))) ∧
    ∀ r, (∀ t ∈ r, ∀ s, Sub s t → ¬ IsParam s ∧ ¬ IsAny s) →
      OpResult (st'.env b) EVAL_DT_SELECTORS [.node APPLY_OPAQUE (c.con :: r)] (some (list (c.fields.map (·.sel))))) ∧
  ∀ ts t, ts ≠ [] → Curry D.sort ts t → (∀ s, Sub s t → ¬ IsParam s ∧ ¬ IsAny s) → TypeResult (st'.env b) t (some tType) →
    ∃ cs, OpResult (st'.env b) EVAL_DT_CONSTRUCTORS [t] (some (list cs)) ∧
      Each (fun (c : Ctor) u => (¬ Ambiguous D.params c ∧ u = c.con) ∨ (Ambiguous D.params c ∧ u = .node APPLY_OPAQUE [c.con, t])) D.ctors cs

end Ethos.Spec
