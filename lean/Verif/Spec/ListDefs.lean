import Verif.Spec.Run
import Verif.Spec.Nil
/-
The definitions of the builtin list operators as Eunoia programs, tests/eo-definitions.eo: "Modifying a Eunoia file to use $eo_
instead of eo:: should have no impact on behavior".
-/
namespace Ethos.Spec
open Ethos Kind

/-- the application of a program -/
def call (p : Term) (args : List Term) : Term := .node APPLY (p :: args)

/-- a numeral -/
def int (z : Int) : Term := .lit (.num z)

/-- `p` is a program with the given cases (patterns and right-hand side) -/
def ProgramIs (env : Env) (p : Term) (cases : List (List Term × Term)) : Prop :=
  IsProg p ∧ ∃ prog, env.program p = some prog ∧ prog.children = cases.map fun c => .node TUPLE [call p c.1, c.2]

/-- distinct parameters -/
def DistinctParams (l : List Term) : Prop := (∀ x ∈ l, IsParam x) ∧ l.Nodup

/-- the symbols of the programs of eo-definitions.eo; `nil` is the program `$eo_nil`, `cons` and `nilList` are `eo_List_cons` and
`eo_List_nil` -/
structure ListSyms where
  (nil eq isList getElements len concat nth find rev erase eraseAll setof minclude diff inter single cons nilList : Term)

/-- `(eo::requires c true t)` -/
def guarded (c t : Term) : Term := .node EVAL_REQUIRES [c, boolVal true, t]

/-- `(eo::ite c t e)` -/
def ite (c t e : Term) : Term := .node EVAL_IF_THEN_ELSE [c, t, e]

variable (S : ListSyms)

/-- `($eo_eq t s)` -/
def eqDef (t s : Term) : Term := call S.eq [t, s]

/-- `($eo_nil f (eo::typeof a))` -/
def nilDef (f a : Term) : Term := call S.nil [f, .node EVAL_TYPE_OF [a]]

/-- `($eo_is_list f a)` -/
def isListDef (f a : Term) : Term := call S.isList [f, nilDef S f a, a]

/-- `($eo_get_elements f a)` -/
def getElementsDef (f a : Term) : Term := guarded (isListDef S f a) (call S.getElements [f, nilDef S f a, a])

/-- `($eo_cons f e a)` -/
def consDef (f e a : Term) : Term := guarded (isListDef S f a) (bin f e a)

/-- `($eo_list_len f a)` -/
def lenDef (f a : Term) : Term := guarded (isListDef S f a) (call S.len [f, a])

/-- `($eo_list_concat f a b)` -/
def concatDef (f a b : Term) : Term := guarded (isListDef S f a) (guarded (isListDef S f b) (call S.concat [f, a, b]))

/-- `($eo_list_nth f a n)` -/
def nthDef (f a n : Term) : Term := guarded (isListDef S f a) (call S.nth [f, a, n])

/-- `($eo_list_find f a e)` -/
def findDef (f a e : Term) : Term := guarded (isListDef S f a) (call S.find [f, a, e, int 0])

/-- `($eo_list_rev f a)` -/
def revDef (f a : Term) : Term := guarded (isListDef S f a) (call S.rev [f, a, nilDef S f a])

/-- `($eo_list_erase f a e)` -/
def eraseDef (f a e : Term) : Term := guarded (isListDef S f a) (call S.erase [f, a, e])

/-- `($eo_list_erase_all f a e)` -/
def eraseAllDef (f a e : Term) : Term := guarded (isListDef S f a) (call S.eraseAll [f, a, e])

/-- `($eo_list_setof f a)` -/
def setofDef (f a : Term) : Term := guarded (isListDef S f a) (call S.setof [f, a])

/-- `($eo_list_minclude f a b)` -/
def mincludeDef (f a b : Term) : Term :=
  guarded (isListDef S f a) (guarded (isListDef S f b) (call S.minclude [getElementsDef S f a, getElementsDef S f b]))

/-- `($eo_list_meq f a b)` -/
def meqDef (f a b : Term) : Term := .node EVAL_AND [mincludeDef S f a b, mincludeDef S f b a]

/-- `($eo_list_diff f a b)` -/
def diffDef (f a b : Term) : Term := guarded (isListDef S f a) (guarded (isListDef S f b) (call S.diff [f, a, b]))

/-- `($eo_list_inter f a b)` -/
def interDef (f a b : Term) : Term := guarded (isListDef S f a) (guarded (isListDef S f b) (call S.inter [f, a, b]))

/-- `($eo_list_singleton_elim f a)` -/
def singleDef (f a : Term) : Term := guarded (isListDef S f a) (call S.single [f, nilDef S f a, a])

/-- the environment has the programs of eo-definitions.eo -/
structure ListDefs (env : Env) (S : ListSyms) : Prop where
  /-- `$eo_nil` is some program; what it returns is stated where it is used -/
  nil : ∃ cases, ProgramIs env S.nil cases
  eq : ∃ t s, DistinctParams [t, s] ∧ ProgramIs env S.eq [([t, t], boolVal true), ([t, s], boolVal false)]
  isList : ∃ f x y nil z, DistinctParams [f, x, y, nil, z] ∧ ProgramIs env S.isList
    [([f, nil, bin f x y], call S.isList [f, nil, y]), ([f, nil, z], eqDef S nil z)]
  getElements : ∃ f x y nil, DistinctParams [f, x, y, nil] ∧ ProgramIs env S.getElements
    [([f, nil, bin f x y], .node EVAL_CONS [S.cons, x, call S.getElements [f, nil, y]]), ([f, nil, nil], S.nilList)]
  len : ∃ f x y nil, DistinctParams [f, x, y, nil] ∧ ProgramIs env S.len
    [([f, bin f x y], .node EVAL_ADD [int 1, call S.len [f, y]]), ([f, nil], int 0)]
  concat : ∃ f x y z nil, DistinctParams [f, x, y, z, nil] ∧ ProgramIs env S.concat
    [([f, bin f x y, z], bin f x (call S.concat [f, y, z])), ([f, nil, z], z)]
  nth : ∃ f x y n, DistinctParams [f, x, y, n] ∧ ProgramIs env S.nth
    [([f, bin f x y, int 0], x), ([f, bin f x y, n], call S.nth [f, y, .node EVAL_ADD [n, int (-1)]])]
  find : ∃ f x y z nil n, DistinctParams [f, x, y, z, nil, n] ∧ ProgramIs env S.find
    [([f, bin f x y, z, n], ite (eqDef S x z) n (call S.find [f, y, z, .node EVAL_ADD [n, int 1]])), ([f, nil, z, n], int (-1))]
  rev : ∃ f x y nil acc, DistinctParams [f, x, y, nil, acc] ∧ ProgramIs env S.rev
    [([f, bin f x y, acc], call S.rev [f, y, bin f x acc]), ([f, nil, acc], acc)]
  erase : ∃ f x y z nil, DistinctParams [f, x, y, z, nil] ∧ ProgramIs env S.erase
    [([f, bin f x y, z], ite (eqDef S z x) y (bin f x (call S.erase [f, y, z]))), ([f, nil, z], nil)]
  eraseAll : ∃ f x y z nil, DistinctParams [f, x, y, z, nil] ∧ ProgramIs env S.eraseAll
    [([f, bin f x y, z], ite (eqDef S z x) (call S.eraseAll [f, y, z]) (bin f x (call S.eraseAll [f, y, z]))), ([f, nil, z], nil)]
  setof : ∃ f x y nil, DistinctParams [f, x, y, nil] ∧ ProgramIs env S.setof
    [([f, bin f x y], bin f x (call S.setof [f, eraseAllDef S f y x])), ([f, nil], nil)]
  minclude : ∃ x y z, DistinctParams [x, y, z] ∧ ProgramIs env S.minclude
    [([bin S.cons x y, z], ite (eqDef S (eraseDef S S.cons z x) z) (boolVal false) (call S.minclude [y, eraseDef S S.cons z x])),
     ([S.nilList, z], boolVal true)]
  diff : ∃ f x y z nil, DistinctParams [f, x, y, z, nil] ∧ ProgramIs env S.diff
    [([f, bin f x y, z], ite (eqDef S (eraseDef S f z x) z) (bin f x (call S.diff [f, y, eraseDef S f z x]))
        (call S.diff [f, y, eraseDef S f z x])), ([f, nil, z], nil)]
  inter : ∃ f x y z nil, DistinctParams [f, x, y, z, nil] ∧ ProgramIs env S.inter
    [([f, bin f x y, z], ite (eqDef S (eraseDef S f z x) z) (call S.inter [f, y, eraseDef S f z x])
        (bin f x (call S.inter [f, y, eraseDef S f z x]))), ([f, nil, z], nil)]
  single : ∃ f x z nil, DistinctParams [f, x, z, nil] ∧ ProgramIs env S.single
    [([f, nil, bin f x nil], x), ([f, nil, z], z)]

/-- `f` is an operator declared `:right-assoc-nil` (or `:right-assoc-non-singleton-nil`) with nil terminator `ct`, and `nil` is an
instance of it which is not itself an application of `f` -/
structure NilListOp (env : Env) (f ct nil : Term) : Prop where
  value : IsValue f
  notLit : ∀ l, f ≠ .lit l
  plain : f.kind ≠ PARAMETERIZED
  declared : ∃ a, Declared env f a ct ∧ NilAttr a false
  nilValue : IsValue nil
  nilNotApp : NotApp f nil

/-- `a` is a value whose applications of `f` have two arguments each, and `nil` is the terminator for its type, according to `$eo_nil`
and according to the declaration of `f` -/
structure ListArg (env : Env) (S : ListSyms) (f ct nil a : Term) : Prop where
  value : IsValue a
  curried : Curried f a
  nilDef : EvaluatesTo env [] (nilDef S f a) nil
  nilFor : NilFor env f a ct nil

/-- the elements that `a` has as an `f`-list have the property `P` -/
def Elements (f nil a : Term) (P : List Term → Prop) : Prop := ∀ xs, a = rlist f nil xs → P xs

/-- `$eo_nil` is right for all lists of elements of `xs` -/
def NilOn (env : Env) (S : ListSyms) (f nil : Term) (xs : List Term) : Prop :=
  ∀ ys, (∀ y ∈ ys, y ∈ xs) → EvaluatesTo env [] (nilDef S f (rlist f nil ys)) nil

/-- `eo_List_cons` as used by `$eo_list_minclude` -/
structure ElementList (env : Env) (S : ListSyms) (ct : Term) (xs : List Term) : Prop where
  op : NilListOp env S.cons ct S.nilList
  nilFor : ∀ x ∈ xs, NilFor env S.cons x ct S.nilList
  nilOn : NilOn env S S.cons S.nilList xs

end Ethos.Spec
