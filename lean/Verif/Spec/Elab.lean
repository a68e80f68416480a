import Verif.Spec.Desugar
import Verif.Spec.Scope
import Verif.Model.Parse
/-
Specification of the terms denoted by expressions, as a relation between an expression, the bindings that are visible where
it is written, and a term.  There is no symbol table and no scope that is opened and closed: a construct that binds names
is read with these names added to the visible bindings in its body, and nowhere else.

The only trace an expression leaves is on the terms that were bound to a name that was visible already: such a term is
marked as an overloaded symbol of that name, and keeps the mark.
-/
namespace Ethos.Spec
open Ethos Kind

/-- the visible bindings, latest first, and the overloaded symbols with their names -/
structure Vis where
  binds : List Binding
  marks : Term → Option Name

namespace Vis

/-- a name denotes its latest binding -/
def find (v : Vis) (x : Name) : Option Term := (v.binds.find? fun p => p.1 = x).map (·.2)

/-- the terms bound to a name, oldest first -/
def all (v : Vis) (x : Name) : List Term := ((v.binds.filter fun p => p.1 = x).map (·.2)).reverse

/-- add a binding -/
def add (v : Vis) (p : Binding) : Vis where
  binds := p :: v.binds
  marks := if (v.find p.1).isSome then fun u => if u = p.2 then some p.1 else v.marks u else v.marks

/-- add several bindings, the first one first -/
def addAll (v : Vis) : List Binding → Vis
  | [] => v
  | p :: ps => (v.add p).addAll ps

/-- the bindings of `v` with the marks made until `w` -/
def leave (v w : Vis) : Vis := ⟨v.binds, w.marks⟩

end Vis

/-- The environment in which terms are built where `v` is visible: types, names, attributes and literal type rules are those
of the state, a name has overloads if it has several visible bindings. -/
def envAt (b : Env) (st : State) (v : Vis) : Env :=
  { b with
    symType := st.symType
    symName := st.symName
    appInfo := st.decls.appInfo v.marks
    litRule := st.decls.litRule
    overloads := fun x => if 2 ≤ (v.all x).length then v.all x else [] }

/-- `f` is declared with the attribute `a` -/
def AttrIs (env : Env) (f : Term) (a : Attr) : Prop := ∃ ai, env.appInfo f = some ai ∧ ai.attr = a

/-- the argument of the attribute of `f` -/
def AttrArg (env : Env) (f c : Term) : Prop := ∃ ai, env.appInfo f = some ai ∧ ai.cons = some c

/-- the variable `x` of type `ty`: the canonical one, or the application of `eo::var` to be evaluated later if the type is
not ground -/
def Variable (env : Env) (x : Name) (ty v : Term) : Prop :=
  (ty.ground = true ∧ v = env.boundVar x ty) ∨ (ty.ground = false ∧ Builds env EVAL_VAR [.lit (.str x), ty] v)

/-- the pairs of variables and terms -/
inductive LetPairs (env : Env) (pair : Term) : List (Term × Term) → List Term → Prop
  | nil : LetPairs env pair [] []
  | cons (v t p r ps) : Denotes env pair [v, t] p → LetPairs env pair r ps → LetPairs env pair ((v, t) :: r) (p :: ps)

/-- an expression of the form `(_ …)` or `(as …)` -/
def SExp.isIndexed : SExp → Prop
  | .app x _ | .binder x _ _ _ => x = nm "_" ∨ x = nm "as"
  | _ => False

/-- an application headed by `(_ …)` or `(as …)` -/
def SExp.isQualified : SExp → Prop
  | .appq .. => True
  | _ => False

mutual
/-- `e`, read where `v` is visible, denotes `t`; `v'` is `v` with the marks made on the way -/
inductive Elab (E : Vis → Env) : Vis → SExp → Term → Vis → Prop
  /-- a name denotes its latest binding; the names of builtin operators are no expressions -/
  | sym (v x t) : v.find x = some t → t.kind ≠ BUILTIN_CONST → Elab E v (.sym x) t v
  | lit (v l) : Elab E v (.lit l) (.lit l) v
  | type (v) : Elab E v .type tType v
  | bool (v) : Elab E v .bool tBool v
  | annot (v e t v') : Elab E v e t v' → Elab E v (.annot e) t v'
  /-- the application of a symbol to its arguments in order; a binder is not applied to a qualified application -/
  | app (v x hd args ts v' t) : v.find x = some hd → Elabs E v args ts v' → Denotes (E v') hd ts t →
      ((AttrIs (E v) hd .BINDER ∨ AttrIs (E v) hd .LET_BINDER) → ∀ a, args.head? = some a → ¬ SExp.isQualified a) →
      Elab E v (.app x args) t v'
  /-- the application of what `(_ …)` or `(as …)` denotes -/
  | appq (v h hd v1 args ts v' t) : SExp.isIndexed h → Elab E v h hd v1 → Elabs E v1 args ts v' → Denotes (E v') hd ts t →
      Elab E v (.appq h args) t v'
  /-- a binder applied to the list of its variables and its arguments, in which the variables are visible -/
  | binder (v x hd xs es vs v1 c vl args ts v2 t) : v.find x = some hd → xs ≠ [] → AttrIs (E v) hd .BINDER →
      Vars E v xs es vs v1 → AttrArg (E v1) hd c → Denotes (E v1) c vs vl → Elabs E v1 args ts v2 →
      Denotes (E v2) hd (vl :: ts) t → Elab E v (.binder x xs es args) t (v.leave v2)
  /-- a let binder: its terms do not see its variables -/
  | letBinder (v x hd xs es v1 vs k pair list r ps vl args ts v2 t) : v.find x = some hd → xs ≠ [] →
      AttrIs (E v) hd .LET_BINDER → Lets E v xs es vs v1 →
      AttrArg (E (v1.addAll (vs.map fun p => (p.1, p.2.1)))) hd (.node k (pair :: list :: r)) →
      LetPairs (E (v1.addAll (vs.map fun p => (p.1, p.2.1)))) pair (vs.map (·.2)) ps →
      Denotes (E (v1.addAll (vs.map fun p => (p.1, p.2.1)))) list ps vl →
      Elabs E (v1.addAll (vs.map fun p => (p.1, p.2.1))) args ts v2 → Denotes (E v2) hd (vl :: ts) t →
      Elab E v (.binder x xs es args) t (v.leave v2)
  /-- `let`: the names stand for the terms in the body, the terms do not see the names -/
  | letE (v xs es ds v1 body t v2) : Elabs E v es ds v1 → Elab E (v1.addAll (xs.zip ds)) body t v2 →
      Elab E v (.letE xs es body) t (v.leave v2)
/-- expressions read one after the other -/
inductive Elabs (E : Vis → Env) : Vis → List SExp → List Term → Vis → Prop
  | nil (v) : Elabs E v [] [] v
  | cons (v e t v1 es ts v2) : Elab E v e t v1 → Elabs E v1 es ts v2 → Elabs E v (e :: es) (t :: ts) v2
/-- the variables of a binder: the type of each one may use the variables before it -/
inductive Vars (E : Vis → Env) : Vis → List Name → List SExp → List Term → Vis → Prop
  | nil (v xs es) : xs = [] ∨ es = [] → Vars E v xs es [] v
  | cons (v x xs e es ty v1 u us v2) : Elab E v e ty v1 → TypeResult (E v1) ty (some tType) → ty.evaluatable = false →
      Variable (E v1) x ty u → Vars E (v1.add (x, u)) xs es us v2 → Vars E v (x :: xs) (e :: es) (u :: us) v2
/-- the variables of a let binder `(f ((x1 t1) … (xn tn)) …)`, with the name each one is bound to (none, that is the empty one,
if its type is not ground) and its term -/
inductive Lets (E : Vis → Env) : Vis → List Name → List SExp → List (Name × Term × Term) → Vis → Prop
  | nil (v xs es) : xs = [] ∨ es = [] → Lets E v xs es [] v
  | cons (v x xs e es t v1 ty u us v2) : Elab E v e t v1 → TypeResult (E v1) t (some ty) → Variable (E v1) x ty u →
      Lets E v1 xs es us v2 → Lets E v (x :: xs) (e :: es) ((if ty.ground then x else [], u, t) :: us) v2
end

end Ethos.Spec
