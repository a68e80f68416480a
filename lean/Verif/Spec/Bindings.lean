import Verif.Spec.Elab
import Verif.Spec.Command
/-
Specification of the bindings made by commands: which names denote what after a command, in terms of what they denoted
before it.
-/
namespace Ethos.Spec
open Ethos Kind

/-- what is visible in a state when the bindings are those of the stack `a` -/
def visible (a : Stack) (st : State) : Vis := ⟨a.all, st.scope.mark⟩

/-- the expression `e`, read in the state `st` with the bindings of `a`, denotes `t` -/
def Means (b : Env) (st : State) (a : Stack) (e : SExp) (t : Term) : Prop :=
  ∃ v', Elab (envAt b st) (visible a st) e t v'

namespace Stack
/-- open a scope -/
def opened (a : Stack) : Stack := ⟨[] :: a.scopes, a.globals⟩
/-- `k` scopes more -/
def openedN (k : Nat) (a : Stack) : Stack := ⟨List.replicate k [] ++ a.scopes, a.globals⟩
end Stack

/-- the names a constructor of a datatype declares: its selectors, each with an updater, the constructor and its tester -/
def consNames (c : SCons) : List Name :=
  (c.sels.flatMap fun s => [s.1, nm "update-" ++ s.1]) ++ [c.name, nm "is-" ++ c.name]

/-- the names the constructors of a datatype declare -/
def dtNames (d : SDt) : List Name := d.cons.flatMap consNames

/-- the names are bound, in this order, to different new constants numbered from `lo` on -/
inductive BindNew : Nat → Stack → List Name → Stack → Prop
  | nil (lo a) : BindNew lo a [] a
  | cons (lo i a x xs a') : lo ≤ i → BindNew (i+1) (a.bind x (.sym CONST i)) xs a' → BindNew lo a (x :: xs) a'

/-- The bindings `a` before a command in the state `st` and `a'` after it.  A declaration or definition binds its own name
and nothing else, and one of datatypes the types, constructors, selectors, updaters and testers; but the name of a single datatype with
parameters is not bound.  `reset` is not considered. -/
def Effect (b : Env) (st : State) (a : Stack) : Cmd → Stack → Prop
  | .assume x f, a' => ∃ F, Means b st a f F ∧ a' = a.bind x (.node PROOF [F])
  | .assumePush x f, a' => ∃ F, Means b st a f F ∧ a' = a.opened.bind x (.node PROOF [F])
  | .declareConst x _ _, a' | .declareFun x _ _, a' | .declareParam x _ _ _, a' | .declareSort x _, a' | .defineFun x _ _ _, a' =>
    ∃ i, st.next ≤ i ∧ a' = a.bind x (.sym CONST i)
  | .declareDatatype x d, a' => BindNew st.next a ((if d.params = [] then [x] else []) ++ dtNames d) a'
  | .declareDatatypes xs ds, a' => ds.length ≤ xs.length ∧ BindNew st.next a (xs.map (·.1) ++ ds.flatMap dtNames) a'
  | .defineConst x ty e, a' => ∃ u v t v', Elab (envAt b st) (visible a st) ty u v ∧ Elab (envAt b st) v e t v' ∧ a' = a.bind x t
  | .define x ps e _, a' => ∃ t, (ps = [] → Means b st a e t) ∧ a' = a.bind x t
  | .defineSort x ps e, a' => ∃ t, (ps = [] → Means b st a e t) ∧ a' = a.bind x t
  | .program x _ _ _ _, a' =>
    (∃ p, a.lookup x = some p ∧ p.kind = PROGRAM_CONST ∧ a' = a) ∨
    (a.lookup x = none ∧ ∃ i, st.next ≤ i ∧ a' = a.bind x (.sym PROGRAM_CONST i))
  | .step s, a' =>
    if s.isPop then ∃ F l r, a.scopes = l :: r ∧ a' = Stack.bind ⟨r, a.globals⟩ s.name (.node PROOF [F])
    else ∃ F, a' = a.bind s.name (.node PROOF [F])
  | .push k, a' => a' = a.openedN k
  | .pop k, a' => k ≤ a.scopes.length ∧ a' = ⟨a.scopes.drop k, a.globals⟩
  | .reset, _ => False
  | .declareConsts _ _, a' | .declareRule _, a' | .assert _, a' | .checkSatAssuming _, a' | .nop, a' | .exit, a' | .incl _, a' | .reference _ _, a' => a' = a

/-- the bindings along a sequence of events without `reset` -/
inductive Bindings (b : Env) (n : Nat) : List Event → State → Stack → State → Stack → Prop
  | nil (st a) : Bindings b n [] st a st a
  | file (e es st a s1 st' a') : (∀ c, e ≠ .cmd c) → replayEvent b n st e = .ok s1 → Bindings b n es s1 a st' a' →
      Bindings b n (e :: es) st a st' a'
  | cmd (c es st a s1 a1 st' a') : exec b n st c = .ok s1 → Effect b st a c a1 → Bindings b n es s1 a1 st' a' →
      Bindings b n (.cmd c :: es) st a st' a'

/-- the names resolve, and have the overloads, as the stack says -/
def Shows (st : State) (a : Stack) : Prop :=
  (∀ x, st.scope.get x = a.lookup x) ∧ ∀ x, st.scope.ov x = if 2 ≤ (a.cands x).length then a.cands x else []

/-- the names known from the start: the builtin operators, the Boolean constants and the builtin lists -/
def builtinNames (b : Env) : Stack where
  scopes := []
  globals := ((builtins.zipIdx.map fun p => (nm p.1.1, builtinSym p.2)) ++
    [(nm "true", tTrue), (nm "false", tFalse), (nm "eo::List", b.listType), (nm "eo::List::nil", b.listNil),
     (nm "eo::List::cons", b.listCons)]).reverse

end Ethos.Spec
