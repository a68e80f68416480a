import Verif.Spec.Base
import Verif.Spec.Command
import Verif.Lemmas.CmdExample
import Verif.Lemmas.Command
/-
The base environment of the examples meets what is assumed of one.
-/
namespace Ethos.Props
open Ethos Kind Spec

deriving instance DecidableEq for Run

theorem basic_node {b : Env} {m : Nat} {k : Kind} {cs : List Term} (h1 : k ≠ LAMBDA) (h2 : k ≠ PROOF) (h3 : isSymbol k = false) (h : ∀ c ∈ cs, Basic b m c) : Basic b m (.node k cs) := by
  intro s hs
  cases hs with
  | refl => exact ⟨(by intro k i e; cases e), h1, h2, by rintro k' cs' e; cases e; exact h3⟩
  | child _ _ _ hc hs => exact h _ hc s hs

theorem basic_sym {b : Env} {m : Nat} {k : Kind} {i : Nat} (hi : i < m) (h1 : k ≠ LAMBDA) (h2 : k ≠ PROOF) (h3 : k ≠ VARIABLE)
    (h : ¬ ∃ ty, Own b (.sym k i) ty) : Basic b m (.sym k i) := by
  intro s hs
  cases hs with
  | refl => exact ⟨fun k' i' e => by cases e; exact ⟨hi, h3, h⟩, h1, h2, by rintro k' cs' e; cases e⟩

theorem exB_own {v ty : Term} : Own exB v ty ↔ v = .sym VARIABLE 6 ∨ v = .sym CONST 7 := by
  simp only [Own, exB]
  constructor
  · rintro (⟨_, h⟩ | h | ⟨_, h⟩)
    · exact .inl h
    · exact .inr h
    · exact .inr h
  · rintro (h | h)
    · exact .inl ⟨[], h⟩
    · exact .inr (.inl h)

theorem exB_sym {k : Kind} {i : Nat} (hi : i < 10) (h1 : k ≠ LAMBDA) (h2 : k ≠ PROOF) (h3 : k ≠ VARIABLE) (h : i ≠ 7) : Basic exB 10 (.sym k i) := by
  refine basic_sym hi h1 h2 h3 ?_
  rintro ⟨ty, ho⟩
  rcases exB_own.1 ho with e | e
  · cases e; exact h3 rfl
  · cases e; exact h rfl

theorem exB_ok : BaseOk exB 10 where
  own v ty h := by
    rcases exB_own.1 h with rfl | rfl
    · exact ⟨_, _, rfl, .inl rfl⟩
    · exact ⟨_, _, rfl, .inr ⟨rfl, by decide⟩⟩
  ownType v ty ty' h ht := by
    rcases exB_own.1 h with rfl | rfl
    · simp [exB] at ht
    · simp [exB] at ht
  types v ty _ h := by
    have hT : Basic exB 10 tType := basic_node (by decide) (by decide) (by decide) (by simp)
    have h1 : Basic exB 10 (.sym CONST 1) := exB_sym (by decide) (by decide) (by decide) (by decide) (by decide)
    simp only [exB] at h
    repeat' (split at h)
    all_goals first | (cases h; done) | skip
    all_goals (rename_i hv; cases h; subst hv; refine ⟨⟨_, _, rfl, by decide⟩, ?_⟩)
    · exact hT
    · exact h1
    · refine basic_node (by decide) (by decide) (by decide) ?_
      intro c hc
      simp only [List.mem_cons, List.not_mem_nil, or_false] at hc
      rcases hc with rfl | rfl
      · exact exB_sym (by decide) (by decide) (by decide) (by decide) (by decide)
      · refine basic_node (by decide) (by decide) (by decide) ?_
        intro c hc
        simp only [List.mem_cons, List.not_mem_nil, or_false] at hc
        rcases hc with rfl | rfl
        · exact h1
        · exact h1
    · exact hT
    · exact basic_node (by decide) (by decide) (by decide) (by simp)
    · exact hT
  self := exB_sym (by decide) (by decide) (by decide) (by decide) (by decide)
  listCons := exB_sym (by decide) (by decide) (by decide) (by decide) (by decide)
  listNil := exB_sym (by decide) (by decide) (by decide) (by decide) (by decide)
  listType := exB_sym (by decide) (by decide) (by decide) (by decide) (by decide)
  proofType := exB_sym (by decide) (by decide) (by decide) (by decide) (by decide)

/-- the state after a sequence of commands of an example -/
def exRun (cmds : List Cmd) : Run State := replay exB 10 (cmds.map .cmd) (State.init exB 10)

/-- a step of an example: its conclusion -/
theorem exStep {cmds : List Cmd} {s : SStep} {r : Option Term}
    (h : ((exRun cmds).bind fun st => exec exB 10 st (.step s)).map (fun st => st.scope.get s.name) = .ok r) :
    ∃ st st', exRun cmds = .ok st ∧ exec exB 10 st (.step s) = .ok st' ∧ st'.scope.get s.name = r := by
  simp only [Run.map_ok, Run.bind_ok] at h
  obtain ⟨st', ⟨st, h1, h2⟩, h3⟩ := h
  exact ⟨st, st', h1, h2, h3⟩

end Ethos.Props
