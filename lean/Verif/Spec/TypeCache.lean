import Verif.Spec.Run
import Verif.Model.TypeCache
/-
The table of types: what its entries mean.
-/
namespace Ethos.Spec
open Ethos Kind

/-- the entries are the types of their terms, and the children of a term with an entry have entries -/
structure Faithful (env : Env) (c : TypeCache) : Prop where
  typed : ∀ t ty, c.find env t = some ty → TypeResult env t (some ty)
  closed : ∀ t ty, c.find env t = some ty → ∀ s ∈ t.children, ∃ u, c.find env s = some u

/-- the entries made by the evaluation of types are of this kind, too, and no entry is changed -/
def Growing (env : Env) (grow : TypeCache → Term → TypeCache) : Prop :=
  ∀ c t, Faithful env c → Faithful env (grow c t) ∧ ∀ s ty, c.find env s = some ty → (grow c t).find env s = some ty

/-- the function type `ty` has an argument that must be, or match, the term `q` -/
def Quoted (q ty : Term) : Prop := ∃ a ∈ ty.children, a.kind = QUOTE_TYPE ∧ a.children[0]? = some q

/-- in the typing of `e`: a term that is quoted in the type of a term has an entry or is a part of the term -/
def QuotesKnown (env : Env) (c : TypeCache) (e : Term) : Prop :=
  ∀ t ty q, Sub t e → TypeResult env t (some ty) → Quoted q ty → (∃ u, c.find env q = some u) ∨ Sub q t

end Ethos.Spec
