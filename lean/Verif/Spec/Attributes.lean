import Verif.Spec.Bindings
import Verif.Spec.Term
/-
Specification for C81: the attributes of a declared constant.
-/
namespace Ethos.Spec
open Ethos Kind

/-- the attributes a constant can be declared with, in the order in which they take precedence -/
def attrOrder : List Attr := [.BINDER, .LET_BINDER, .RIGHT_ASSOC, .LEFT_ASSOC, .RIGHT_ASSOC_NIL, .LEFT_ASSOC_NIL, .RIGHT_ASSOC_NS_NIL,
  .LEFT_ASSOC_NS_NIL, .CHAINABLE, .PAIRWISE, .ARG_LIST]

/-- `k` takes precedence over `k'` -/
def Precedes (k k' : Attr) : Prop := attrOrder.idxOf k < attrOrder.idxOf k'

/-- one attribute as it is written, read where `v` is visible, and the term it has as an argument: `:right-assoc` and `:left-assoc` have none,
`:let-binder` has a pair of terms -/
inductive AttrSays (E : Vis → Env) : Vis → SAttr → Attr × Option Term → Vis → Prop
  | plain (v k) : k = .RIGHT_ASSOC ∨ k = .LEFT_ASSOC → AttrSays E v ⟨k, none, none⟩ (k, none) v
  | arg (v k e t v') : k ∈ attrOrder → k ≠ .RIGHT_ASSOC → k ≠ .LEFT_ASSOC → k ≠ .LET_BINDER → Elab E v e t v' → AttrSays E v ⟨k, some e, none⟩ (k, some t) v'
  | pair (v e t v1 e' t' v2) : Elab E v e t v1 → Elab E v1 e' t' v2 → AttrSays E v ⟨.LET_BINDER, some e, some e'⟩ (.LET_BINDER, some (.node TUPLE [t, t'])) v2

/-- attributes are read one after the other -/
inductive AttrsSay (E : Vis → Env) : Vis → List SAttr → List (Attr × Option Term) → Vis → Prop
  | nil (v) : AttrsSay E v [] [] v
  | cons (v a p v1 as l v2) : AttrSays E v a p v1 → AttrsSay E v1 as l v2 → AttrsSay E v (a :: as) (p :: l) v2

/-- the attribute that counts: the one that takes precedence, and if it is given several times, the first one -/
def Counts (l : List (Attr × Option Term)) (p : Attr × Option Term) : Prop :=
  ∃ l1 l2, l = l1 ++ p :: l2 ∧ (∀ q ∈ l1, Precedes p.1 q.1) ∧ ∀ q ∈ l2, q.1 = p.1 ∨ Precedes p.1 q.1

/-- the argument as it is kept: a term with parameters is abstracted over them -/
inductive Abstracts : Option Term → Option Term → Prop
  | none : Abstracts none none
  | ground (t) : (∀ s, Sub s t → ¬ IsParam s ∧ ¬ IsAny s) → Abstracts (some t) (some t)
  | params (t ps) : (∃ s, Sub s t ∧ (IsParam s ∨ IsAny s)) → ps.Nodup → (∀ p, p ∈ ps ↔ IsParam p ∧ Sub p t) →
      Abstracts (some t) (some (.node PARAMETERIZED [.node TUPLE ps, t]))

/-- the term `f`, which is no builtin operator, has the attribute `k` with the argument `c`; it may be one of several meanings `o` of a name -/
def Attributed (env : Env) (f : Term) (k : Attr) (c : Option Term) : Prop := ∃ o, env.appInfo f = some ⟨k, c, NONE, o⟩

/-- the term `f` has no attribute -/
def Unattributed (env : Env) (f : Term) : Prop := ∀ ai, env.appInfo f = some ai → ai.attr = .NONE ∧ ai.cons = none

end Ethos.Spec
