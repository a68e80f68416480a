import Verif.Spec.Command
import Verif.Spec.Base
import Verif.Spec.Run
/-
Terms that exist in a state, and what a later state may not add.
-/
namespace Ethos.Spec
open Ethos Kind

/-- the terms that exist in a state: made of literals, of the symbols made so far and of the symbols evaluation makes for existing types -/
inductive Made (b : Env) (st : State) : Term → Prop
  | lit (l) : Made b st (.lit l)
  | sym (k i) : k ≠ VARIABLE → k = BUILTIN_CONST ∨ i < st.next → (¬ ∃ ty, Own b (.sym k i) ty) → Made b st (.sym k i)
  | own (v ty) : Own b v ty → Made b st ty → Made b st v
  | node (k cs) : k ≠ LAMBDA → isSymbol k = false → (∀ c ∈ cs, Made b st c) → Made b st (.node k cs)
  | lambda (cs) : (∀ vs, cs.head? = some vs → vs.kind = TUPLE) → (∀ c ∈ cs, Made b st c) → Made b st (.node LAMBDA cs)

/-- no program that exists in `st` has got a definition since, and no category of literals a type -/
structure Settled (b : Env) (st st' : State) : Prop where
  program : ∀ p, Made b st p → st'.decls.getProgram p = st.decls.getProgram p
  literals : st'.decls.litRule = st.decls.litRule

/-- commands that define no program which was declared before and give no type to literals -/
structure Additive (b : Env) (n : Nat) (es : List Event) (st : State) : Prop where
  reset : .cmd .reset ∉ es
  program : ∀ x ps args ret cs s, At b n es st (.cmd (.program x ps args ret (some cs))) s → s.scope.get x = none
  literals : ∀ k ty, .cmd (.declareConsts k ty) ∉ es
/-- the terms that exist in `st` have the same types and values in `st'`, and the built-in operators the same results for them; also, the types are found in the
same number of steps -/
structure SameMeaning (b : Env) (st st' : State) : Prop where
  types : ∀ t r, Made b st t → (TypeResult (st'.env b) t r ↔ TypeResult (st.env b) t r)
  values : ∀ t ctx v, Made b st t → (∀ x w, ctx.find x = some w → Made b st w) → (EvaluatesTo (st'.env b) ctx t v ↔ EvaluatesTo (st.env b) ctx t v)
  operators : ∀ k args r, (∀ a ∈ args, Made b st a) → (OpResult (st'.env b) k args r ↔ OpResult (st.env b) k args r)
  fuel : ∀ m t, Made b st t → (ops (st'.env b) m).getType t = (ops (st.env b) m).getType t


end Ethos.Spec
