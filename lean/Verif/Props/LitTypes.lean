import Verif.Props.OpTypes
import Verif.Lemmas.TypeCache
import Verif.Props.Substitution
import Verif.Props.History
import Verif.Props.Attributes
/-
C83: the types declared for categories of literals.
-/
namespace Ethos.Props
open Ethos Kind Spec

variable {b : Env} {n n0 : Nat} {es : List Event} {st st' : State}

/-- the types of a literal, given the type of its category -/
theorem lit_type_iff {env : Env} {l : Lit} {tp ty : Term} (hl : l.kind ≠ BOOLEAN) (hr : env.litRule l.kind = some tp) :
    TypeResult env (.lit l) (some ty) ↔ (Closed tp ∧ ty = tp ∨ ¬ Closed tp ∧ EvaluatesTo env [(env.self, .lit l)] tp ty) ∧ (Closed ty → IsValue ty) := by
  have hT : ∀ o : Ops, typeInternal env o (.lit l) [] = litType env o l.kind (some (.lit l)) := by
    intro o
    cases l <;> first | rfl | exact absurd rfl hl
  have hfin : (Closed ty → IsValue ty) ↔ ¬(ty.ground && ty.evaluatable) = true := by
    by_cases hc : Closed ty
    · have h1 := (closed_iff ty).mp hc
      have h2 := value_of_closed hc
      constructor
      · intro h
        simp [h1, h2.mp (h hc)]
      · intro h _
        rw [h2]
        simpa [h1] using h
    · have h1 : ty.ground = false := by
        cases hg : ty.ground with
        | false => rfl
        | true => exact absurd ((closed_iff ty).mpr hg) hc
      simp [h1, hc]
  have hlit : ∀ o : Ops, litType env o l.kind (some (.lit l)) = .ok (some ty) ↔
      (Closed tp ∧ ty = tp ∨ ¬ Closed tp ∧ o.evaluate tp [(env.self, .lit l)] = .ok ty) := by
    intro o
    have h1 := closed_iff tp
    simp only [litType, hr, Option.getD_some]
    cases hg : tp.ground with
    | true =>
      have hc : Closed tp := h1.mpr hg
      simp [hc, eq_comm]
    | false =>
      have hc : ¬ Closed tp := fun h => by have := h1.mp h; rw [hg] at this; cases this
      simp only [hc, Bool.false_eq_true, if_false, false_and, not_false_eq_true, true_and, false_or]
      cases o.evaluate tp [(env.self, .lit l)] <;> simp [Out.map]
  constructor
  · rintro ⟨m, h⟩
    obtain ⟨j, cts, _, h1, h2, h3⟩ := typeResult_inv rfl h
    have : cts = [] := by
      simp only [Term.children, typesOf, Out.ok.injEq, Option.some.injEq] at h1
      exact h1.symm
    subst this
    rw [hT, hlit] at h2
    refine ⟨?_, hfin.mpr h3⟩
    rcases h2 with h2 | ⟨h2, h4⟩
    · exact .inl h2
    · exact .inr ⟨h2, j, h4⟩
  · rintro ⟨h1, h2⟩
    have h3 := hfin.mp h2
    rcases h1 with h1 | ⟨h1, j, h4⟩
    · exact typeResult_of (m := 0) rfl rfl ((hT _).trans ((hlit _).mpr (.inl h1))) h3
    · exact typeResult_of (m := j) rfl rfl ((hT _).trans ((hlit _).mpr (.inr ⟨h1, h4⟩))) h3

theorem setRule_ok {d d' : Decls} {k : Kind} {t : Term} (h : d.setLiteralTypeRule k t = .ok d') :
    d'.litRule k = some t ∧ (∀ j, j ≠ k → d'.litRule j = d.litRule j) ∧ (∀ t', d.litRule k = some t' → t' = t) ∧ d'.info = d.info ∧ d'.rules = d.rules := by
  simp only [Decls.setLiteralTypeRule] at h
  split at h
  · split at h
    · rename_i t' ht
      split at h
      · rename_i he
        cases h
        subst he
        exact ⟨ht, fun _ _ => rfl, fun u hu => (by rw [ht] at hu; cases hu; rfl), rfl, rfl⟩
      · cases h
    · rename_i ht
      cases h
      exact ⟨by simp, fun j hj => by simp [hj], fun u hu => (by rw [ht] at hu; cases hu), rfl, rfl⟩
  · cases h

/-- **C83**.  An accepted `(declare-consts C ty)` makes what `ty` denotes, where `eo::self` is visible in addition, the type of the category `C`: it is the
only one ever declared for it, other categories, attributes, programs and rules stay as they are, and from then on, whatever happens later, the type of a literal of
this category is the declared one if it has no parameters, and otherwise its value for the literal as `eo::self`; the literal has no type if this is a closed
term that still has something to compute. -/
theorem C83_declared (hr : .cmd .reset ∉ es) (h : replay b n es (State.init b n0) = .ok st) {k : Kind} {ty : SExp}
    (hx : exec b n st (.declareConsts k ty) = .ok st') :
    ∃ a T v', Shows st a ∧
      Elab (envAt b (st.push.bind (nm "eo::self") b.self)) (visible ⟨[(nm "eo::self", b.self)] :: a.scopes, a.globals⟩ (st.push.bind (nm "eo::self") b.self)) ty T v' ∧
      (∀ T', st.decls.litRule k = some T' → T' = T) ∧ (∀ j, j ≠ k → st'.decls.litRule j = st.decls.litRule j) ∧ st'.decls.info = st.decls.info ∧
      st'.decls.rules = st.decls.rules ∧
      ∀ es' st'', replay b n es' st' = .ok st'' → ∀ l : Lit, l.kind = k → k ≠ BOOLEAN → ∀ w,
        TypeResult (st''.env b) (.lit l) (some w) ↔
          (Closed T ∧ w = T ∨ ¬ Closed T ∧ EvaluatesTo (st''.env b) [(b.self, .lit l)] T w) ∧ (Closed w → IsValue w) := by
  obtain ⟨a, _, ht⟩ := replay_table es hr (init_table b n0) h
  simp only [exec, Run.bind_ok] at hx
  obtain ⟨⟨s1, T⟩, h1, d, h2, h3⟩ := hx
  obtain ⟨e', T', h5, h6⟩ := parseType_cases h1
  obtain ⟨rfl, rfl⟩ := h6 rfl
  have t0 : Refines (st.push.bind (nm "eo::self") b.self).scope ⟨[(nm "eo::self", b.self)] :: a.scopes, a.globals⟩ :=
    refines_bind (refines_push ht) _ _
  obtain ⟨o1, e1⟩ := parseExpr_elab _ (On.refl t0) h5
  have hd : s1.decls = st.decls := by rw [o1.same]; rfl
  have h2 : s1.decls.setLiteralTypeRule k T' = .ok d := h2
  rw [hd] at h2
  obtain ⟨q1, q2, q3, q4, q5⟩ := setRule_ok h2
  have hst : st'.decls = d := by
    simp only [State.pop, Run.map_ok] at h3
    obtain ⟨s, _, rfl⟩ := h3
    rfl
  refine ⟨a, T', _, shows_of ht, e1, q3, fun j hj => by rw [hst]; exact q2 j hj, by rw [hst]; exact q4, by rw [hst]; exact q5, ?_⟩
  intro es' st'' hrep l hl hk w
  have h7 : (st''.env b).litRule l.kind = some T' := (C42_history hrep).2.2.2.1 l.kind T' (by rw [hst, hl]; exact q1)
  exact lit_type_iff (by rw [hl]; exact hk) h7

/-- **C83**.  If every `eo::ite` in the declared type has three arguments, its value for a literal as `eo::self` is the value of the
type with the literal in the place of `eo::self`. -/
theorem C83_self {env : Env} {l : Lit} {T w : Term} (hi : IteComplete T) :
    EvaluatesTo env [(b.self, .lit l)] T w ↔ EvaluatesTo env [] (subst (fun p => if p = b.self then .lit l else p) T) w := by
  have hv : ∀ l : Lit, IsValue (.lit l) := fun l => (isValue_iff _).mpr (by cases l <;> exact ⟨rfl, rfl⟩)
  rw [C79_values env hi (c := [(b.self, .lit l)]) ?_]
  · have : ctxSub [(b.self, .lit l)] = fun p => if p = b.self then .lit l else p := by
      funext p
      simp only [ctxSub, Ctx.find, List.lookup]
      by_cases hp : p = b.self
      · simp [hp]
      · rw [beq_eq_false_iff_ne.mpr hp, if_neg hp]
        rfl
    rw [this]
  · intro p v hf
    simp only [Ctx.find, List.lookup] at hf
    split at hf
    · cases hf; exact hv l
    · cases hf

/-- **C83**.  The type of a literal of a category without a declared type is unknown. -/
theorem C83_default {env : Env} {l : Lit} (hl : l.kind ≠ BOOLEAN) (hr : env.litRule l.kind = none) (w : Term) :
    TypeResult env (.lit l) (some w) ↔ w = tAny := by
  have hT : ∀ o : Ops, typeInternal env o (.lit l) [] = litType env o l.kind (some (.lit l)) := by
    intro o
    cases l <;> first | rfl | exact absurd rfl hl
  have h0 : TypeResult env (.lit l) (some tAny) :=
    typeResult_of (m := 5) rfl rfl ((hT _).trans (by simp only [litType, hr, Option.getD_none]; rfl)) (by decide)
  constructor
  · intro h
    have := TypeResult.det h h0
    cases this
    rfl
  · rintro rfl
    exact h0

/-- **C83**.  Booleans have the builtin type, whatever is declared. -/
theorem C83_boolean (env : Env) (x : Bool) (w : Term) : TypeResult env (.lit (.bool x)) (some w) ↔ w = tBool := by
  constructor
  · rintro ⟨m, h⟩
    cases m with
    | zero => cases h
    | succ m =>
      have h : Out.ok (some tBool) = Out.ok (some w) := h
      cases h
      rfl
  · rintro rfl
    exact bool_type env x

/-- `(declare-consts <binary> (BitVec (eo::len eo::self)))` -/
def bvConsts : List Cmd := [
  .declareConst (nm "Int") .type [],
  .declareConsts NUMERAL (sy "Int"),
  .declareConst (nm "BitVec") (ap "->" [sy "Int", .type]) [],
  .declareConsts BINARY (ap "BitVec" [ap "eo::len" [sy "eo::self"]])]

/-- both declarations are accepted, and the second mentions `eo::self` -/
example : ((exRun bvConsts).map fun st => (st.decls.litRule NUMERAL, st.decls.litRule BINARY)) =
    .ok (some (.sym CONST 10), some (.node APPLY [.sym CONST 11, .node EVAL_LENGTH [exB.self]])) := by decide +kernel

/-- so `#b101` has type `(BitVec 3)`, as `p` has by its declaration -/
example : runEx (bvConsts ++ [.declareConst (nm "p") (ap "BitVec" [.lit (.num 3)]) [],
      .define (nm "z") [] (ap "eo::eq" [ap "eo::typeof" [.lit (.bin ⟨3, 5⟩)], ap "eo::typeof" [sy "p"]]) []]) "z" =
    .ok (some (.lit (.bool true)), .correct) := by decide +kernel

/-- a second type for the same category is not accepted -/
example : ((exRun (bvConsts ++ [.declareConsts NUMERAL .bool])).map fun _ => ()) = .err := by decide +kernel

end Ethos.Props
