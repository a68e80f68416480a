import Verif.Lemmas.SymTypes
import Verif.Lemmas.BaseExample
import Verif.Props.Datatype
import Verif.Props.Rules
/-
C46 for the states that a sequence of commands leads to: the types with which symbols have been declared are closed terms without
computation, or have parameters. `C46_reduced` assumes this of the types of symbols; here it is shown of all that commands do.
-/
namespace Ethos.Props
open Ethos Kind Ethos.Spec
section
variable {b : Env} {n0 n : Nat}

/-- C46, symbols: after any commands, the type with which a symbol has been declared is a value if it is closed -/
theorem C46_declared (hb : BaseOk b n0)
    (hfirst : ∀ v ty, b.symType v = some ty → (¬ ∃ u, Own b v u) → Closed ty → IsValue ty) (hproof : Closed b.proofType → IsValue b.proofType)
    {es : List Event} {st : State} (h : replay b n es (State.init b n0) = .ok st)
    (hov : ∀ i ty, st.symType (.sym CONST i) = some (.node FUNCTION_TYPE [tType, ty]) → st.scope.mark (.sym CONST i) = none)
    {v ty : Term} (hv : st.symType v = some ty) (hown : ¬ ∃ u, Own b v u) (hc : Closed ty) : IsValue ty := by
  have hp : Red b.proofType := fun hg => ((isValue_iff _).1 (hproof ((closed_iff _).2 hg))).2
  have H := RedTypes.replay hb hp es (Fresh.init hb) (fun t ty ht => .inl ht) (fun i ty _ hs => hov i ty hs) h
  rcases H v ty hv with e | e
  · exact hfirst v ty e hown hc
  · exact (isValue_iff _).2 ⟨(closed_iff _).1 hc, e ((closed_iff _).1 hc)⟩

/-- C46, all terms: after any commands, every type of a term is a value if it is closed. A bound variable has the type it has
been made with (`hown`). `hov`: no type constructor with parameters is an overloaded name. -/
theorem C46_run (hb : BaseOk b n0)
    (hfirst : ∀ v ty, b.symType v = some ty → (¬ ∃ u, Own b v u) → Closed ty → IsValue ty) (hproof : Closed b.proofType → IsValue b.proofType)
    {es : List Event} {st : State} (h : replay b n es (State.init b n0) = .ok st)
    (hov : ∀ i ty, st.symType (.sym CONST i) = some (.node FUNCTION_TYPE [tType, ty]) → st.scope.mark (.sym CONST i) = none)
    {t ty : Term} (hown : ∀ u, Own b t u → Closed u → IsValue u) (ht : TypeResult (st.env b) t (some ty)) (hc : Closed ty) : IsValue ty := by
  cases t with
  | sym k i =>
    have hs : st.symType (.sym k i) = some ty := by
      obtain ⟨f, hf⟩ := ht
      cases f with
      | zero => simp [ops] at hf
      | succ f =>
        simp only [ops, typeStep, Out.ok.injEq] at hf
        exact hf
    by_cases ho : ∃ u, Own b (.sym k i) u
    · obtain ⟨u, ho⟩ := ho
      obtain ⟨m, _, F⟩ := Fresh.replay hb es (Fresh.init hb) h
      have e := F.built.ownType _ _ _ ho hs
      subst e
      exact hown _ ho hc
    · exact C46_declared hb hfirst hproof h hov hs ho hc
  | lit l => exact C46_compound (by simp) ht hc
  | node k cs => exact C46_compound (by simp) ht hc
end
/-! ### Cases that meet the hypotheses -/

set_option synthInstance.maxSize 2000

/-- a datatype with a parameter, rules, assumptions and constants of a type of the datatype and of a type that is computed -/
def symTyCmds : List Cmd := mpCmds.take 5 ++ [
  .declareDatatypes [(nm "List", 1)] [polyData],
  .declareConst (nm "l") (ap "List" [.bool]) [],
  .declareConst (nm "c") (ap "eo::ite" [sy "true", .bool, .type]) [],
  .assume (nm "h") (sy "c") ]

theorem exB_first : (∀ v ty, exB.symType v = some ty → (¬ ∃ u, Own exB v u) → Closed ty → IsValue ty) ∧ (Closed exB.proofType → IsValue exB.proofType) := by
  refine ⟨fun v ty h _ hc => ?_, fun _ => (isValue_iff _).2 ⟨by decide, by decide⟩⟩
  rw [closed_iff] at hc
  rw [isValue_iff]
  simp only [exB] at h
  repeat' (split at h)
  all_goals first | (cases h; done) | skip
  all_goals (cases h; first | exact ⟨by decide, by decide⟩ | exact absurd hc (by decide))

/-- that no name is overloaded can be computed -/
theorem symTy_met {cmds : List Cmd} {st : State} (h : exRun cmds = .ok st) (h1 : (List.range st.next).all (fun i => decide (st.scope.mark (.sym CONST i) = none)) = true) :
    ∀ i ty, st.symType (.sym CONST i) = some (.node FUNCTION_TYPE [tType, ty]) → st.scope.mark (.sym CONST i) = none := by
  intro i ty _
  obtain ⟨m, _, H⟩ := Fresh.replay exB_ok _ (Fresh.init exB_ok) h
  by_cases hi : i < st.next
  · simp only [List.all_eq_true, List.mem_range, decide_eq_true_eq] at h1
    exact h1 i hi
  · exact (H.noInfo exB_ok (k := CONST) (by simp) (by rw [← H.next]; omega)).2

/-- `C46_declared` and `C46_run`: the hypotheses are met; `c` has been declared with the type that is the value of the given one -/
example : ∃ st, replay exB 10 (symTyCmds.map .cmd) (State.init exB 10) = .ok st ∧
    (∀ i ty, st.symType (.sym CONST i) = some (.node FUNCTION_TYPE [tType, ty]) → st.scope.mark (.sym CONST i) = none) ∧
    st.symType (.sym CONST 35) = some tBool ∧ (¬ ∃ u, Own exB (.sym CONST 35) u) := by
  have h : (exRun symTyCmds).map (fun st => (((List.range st.next).all (fun i => decide (st.scope.mark (.sym CONST i) = none))), st.symType (.sym CONST 35))) =
    .ok (true, some tBool) := by decide +kernel
  simp only [Run.map_ok, Prod.mk.injEq] at h
  obtain ⟨st, h1, h2, h3⟩ := h
  refine ⟨st, h1, symTy_met h1 h2, h3, ?_⟩
  rintro ⟨u, hu⟩
  rcases exB_own.1 hu with e | e <;> cases e

end Ethos.Props
