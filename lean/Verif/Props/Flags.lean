import Verif.Lemmas.Vars
/-
C21: ground / evaluatable flags.  C22: parameters of a term.
-/
namespace Ethos.Props
open Kind Spec Term Flags

/-- what a correct answer to a flag query is -/
def Answer : Query → Bool → Prop
  | .isGround t, b => b = true ↔ ∀ s, Sub s t → ¬ IsParam s ∧ ¬ IsAny s
  | .isEvaluatable t, b => b = true ↔ ∃ s, Sub s t ∧ (IsComputation s ∨ IsAny s)

/-- one correct answer per query -/
def AllAnswers : List Query → List Bool → Prop
  | [], [] => True
  | q :: qs, b :: bs => Answer q b ∧ AllAnswers qs bs
  | _, _ => False

def Query.term : Query → Term
  | .isGround t => t
  | .isEvaluatable t => t

theorem queries_correct (fuel : Nat) (qs : List Query) : ∀ (s : Flags), Good s [] →
    (∀ q ∈ qs, 2 * size (Query.term q) ≤ fuel) →
    ∃ bs s', queries fuel s qs = some (bs, s') ∧ AllAnswers qs bs := by
  induction qs with
  | nil => intro s _ _; exact ⟨[], s, rfl, trivial⟩
  | cons q qs ih =>
    intro s hg hf
    obtain ⟨s1, h1, h2, h3⟩ := computeFlags_correct s (Query.term q) hg fuel (hf q (by simp))
    obtain ⟨bs, s', h4, h5⟩ := ih s1 h2 (fun q hq => hf q (by simp [hq]))
    have hex := h2.done _ (by simp) h3
    cases q with
    | isGround t =>
      refine ⟨(!s1.nonGround t) :: bs, s', ?_, ?_, h5⟩
      · simp only [queries, query, Query.term] at h1 ⊢
        simp [h1, h4]
      · show (!s1.nonGround t) = true ↔ _
        rw [show s1.nonGround t = !t.ground from hex.2]
        simpa [Query.term] using ground_iff t
    | isEvaluatable t =>
      refine ⟨s1.isEval t :: bs, s', ?_, ?_, h5⟩
      · simp only [queries, query, Query.term] at h1 ⊢
        simp [h1, h4]
      · show (s1.isEval t) = true ↔ _
        rw [show s1.isEval t = t.evaluatable from hex.1]
        exact evaluatable_iff t

/-- **C21**.  Starting from a heap in which no flag was computed, every sequence of `isGround` /
`isEvaluatable` queries on any terms (sharing subterms in any way) terminates, each loop within two
iterations per node, and every answer is exact. -/
theorem C21_flags (qs : List Query) (fuel : Nat) (hf : ∀ q ∈ qs, 2 * size (Query.term q) ≤ fuel) :
    ∃ bs s', queries fuel Flags.init qs = some (bs, s') ∧ AllAnswers qs bs :=
  queries_correct fuel qs _ good_init hf

/-- `(f x (eo::neg x))` with a parameter `x`: shared subterm -/
def exTerm : Term := .node APPLY [.sym CONST 1, .sym PARAM 2, .node EVAL_NEG [.sym PARAM 2]]

example : ∃ s', queries 100 Flags.init [.isEvaluatable (.sym PARAM 2), .isGround exTerm, .isEvaluatable exTerm]
    = some ([false, false, true], s') := ⟨_, rfl⟩

/-- **C22**.  `getVariables` terminates and returns, without repetition, exactly the parameters that
occur in one of the terms. -/
theorem C22_variables (es : List Term) (hl : ∀ e ∈ es, ParamsAreLeaves e) :
    ∃ r, getVariables es = some r ∧ r.Nodup ∧ ∀ p, p ∈ r ↔ IsParam p ∧ ∃ e ∈ es, Sub p e := by
  apply getVariablesLoop_correct es hl
  · constructor
    · intro u hu
      rcases hu with h | h
      · exact ⟨u, List.mem_reverse.mp h, .refl u⟩
      · simp at h
    · intro e he; simp [he]
    · simp
    · simp
    · simp
  · rw [sizes_reverse]; omega

example : getVariables [exTerm, .node APPLY [.sym PARAM 7, exTerm]] = some [.sym PARAM 2, .sym PARAM 7] := rfl

/-- **C22**.  `hasVariable e vars` terminates and answers whether one of the parameters in `vars` occurs
in `e`. -/
theorem C22_has_variable (e : Term) (vars : List Term) (hl : ParamsAreLeaves e) :
    ∃ b, hasVariable e vars = some b ∧ (b = true ↔ ∃ p ∈ vars, IsParam p ∧ Sub p e) := by
  unfold hasVariable
  split
  · rename_i h
    simp at h
    exact ⟨false, rfl, by simp [h]⟩
  · by_cases hg : e.ground = true
    · refine ⟨false, hasVariableLoop_ground e vars hg _ _ _ (by simp [sizes]), ?_⟩
      simp only [Bool.false_eq_true, false_iff]
      rintro ⟨p, _, hp, hs⟩
      have := ground_sub hg hs
      rw [param_not_ground hp] at this
      cases this
    · apply hasVariableLoop_correct e vars hl (by simpa using hg)
      · constructor
        · intro u hu; simp at hu; subst hu; exact .refl u
        · simp
        · simp
        · simp
      · simp [sizes]

/-- the test agrees with the collected set -/
theorem C22_agree (e : Term) (vars : List Term) (hl : ParamsAreLeaves e) :
    ∃ r b, getVariables [e] = some r ∧ hasVariable e vars = some b ∧ (b = true ↔ ∃ p ∈ vars, p ∈ r) := by
  obtain ⟨r, h1, _, h2⟩ := C22_variables [e] (by simpa using hl)
  obtain ⟨b, h3, h4⟩ := C22_has_variable e vars hl
  refine ⟨r, b, h1, h3, ?_⟩
  rw [h4]
  simp [h2]

example : hasVariable exTerm [.sym PARAM 9, .sym PARAM 2] = some true ∧ hasVariable exTerm [.sym PARAM 9] = some false :=
  ⟨rfl, rfl⟩

end Ethos.Props
