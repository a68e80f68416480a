import Verif.Lemmas.SafetyMach
import Verif.Lemmas.BaseExample
import Verif.Spec.Run
/-
C77: no undefined behaviour (reads outside vectors, use of missing objects).
-/
namespace Ethos.Props
open Ethos Kind Spec Term

/-! ### Evaluation and typing -/

/-- evaluating a term, whatever it computes and however long it runs, has no undefined behaviour if all operators in the term, in the
bindings and in the state have their number of arguments; the same holds of the result -/
theorem C77_evaluate_partial {env : Env} (hE : ShapedEnv env) {t : Term} {ctx : Ctx} (ht : Shaped t) (hc : ∀ x v, ctx.find x = some v → Shaped v) (n : Nat) :
    (ops env n).evaluate t ctx ≠ .ub ∧ ∀ v, (ops env n).evaluate t ctx = .ok v → Shaped v :=
  have h := (ops_safe hE n).evaluate t ctx ht hc
  ⟨h.ne, fun _ e => h.ok e⟩

/-- so has the evaluation of an operator applied to its number of arguments -/
theorem C77_operator_partial {env : Env} (hE : ShapedEnv env) {k : Kind} {args : List Term} (hk : isLiteralOp k = true) (hl : args.length = opArity k)
    (ha : ∀ a ∈ args, Shaped a) (n : Nat) : (ops env n).evalOp k args ≠ .ub ∧ ∀ v, (ops env n).evalOp k args = .ok (some v) → Shaped v :=
  have h := (ops_safe hE n).evalOp k args hk hl ha
  ⟨h.ne, fun v e => h.ok e v rfl⟩

/-- so has the computation of a type -/
theorem C77_type_partial {env : Env} (hE : ShapedEnv env) {t : Term} (ht : Shaped t) (n : Nat) :
    (ops env n).getType t ≠ .ub ∧ ∀ ty, (ops env n).getType t = .ok (some ty) → Shaped ty :=
  have h := (ops_safe hE n).getType t ht
  ⟨h.ne, fun v e => h.ok e v rfl⟩

/-- so has the application of a program or a rule -/
theorem C77_program_partial {env : Env} (hE : ShapedEnv env) {args : List Term} (hne : args ≠ []) (ha : ∀ a ∈ args, Shaped a) (n : Nat) :
    evaluateProgramApp env (ops env n) args ≠ .ub ∧ ∀ v, evaluateProgramApp env (ops env n) args = .ok v → Shaped v := by
  have h : Out.Safe Shaped (evaluateProgramApp env (ops env n) args) := by
    unfold evaluateProgramApp
    refine (evalProgram_safe hE hne ha).bind fun r hr => ?_
    cases r with
    | none => exact .node _ _ (.apply (List.length_pos_iff.2 hne)) ha
    | some p => exact (ops_safe hE n).evaluate p.1 p.2 (hr p.1 p.2 rfl).1 (hr p.1 p.2 rfl).2
  exact ⟨h.ne, fun _ e => h.ok e⟩

/-- an operator on literals has no undefined behaviour if it is applied to its number of arguments -/
theorem C77_literal {k : Kind} {ls : List Lit} (h : ls.length = opArity k) : Lit.evaluate k ls ≠ .ub := evaluate_ne h

/-- the number of arguments is the one that is checked, except that `eo::extract` is also accepted with two arguments -/
theorem C77_arity {k : Kind} (hk : isLiteralOp k = true) (n : Nat) : checkArity k n = true → n = opArity k ∨ k = EVAL_EXTRACT ∧ n = 2 := by
  unfold checkArity
  split <;> intro h
  all_goals try simp only [beq_iff_eq, Bool.or_eq_true] at h
  all_goals try (left; exact h)
  · exact absurd hk (by decide)
  · rcases h with h | h
    · exact .inl h
    · exact .inr ⟨rfl, h⟩
  · split at h
    · rename_i hn
      unfold isNaryLiteralOp at hn
      split at hn
      all_goals try (left; exact beq_iff_eq.1 h)
      cases hn
    · cases h

/-- every operator accepts the number of arguments given here -/
theorem C77_accepts {k : Kind} {n : Nat} (h : checkArity k n = true) (hk : isLiteralOp k = true) : checkArity k (opArity k) = true := by
  rcases C77_arity hk n h with rfl | ⟨rfl, _⟩
  · exact h
  · rfl

/-! ### Where there is undefined behaviour -/

/-- `(eo::extract "abc" 1)` passes the check and reads a third argument (literal.cpp:347) -/
theorem C77_extract_refuted : checkArity EVAL_EXTRACT 2 = true ∧ exRun [.define (nm "f") [] (ap "eo::extract" [.lit (.str (nm "abc")), .lit (.num 1)]) []] = .ub :=
  ⟨rfl, by
    have : (exRun [.define (nm "f") [] (ap "eo::extract" [.lit (.str (nm "abc")), .lit (.num 1)]) []]).map (fun _ => ()) = .ub := by decide +kernel
    revert this
    cases exRun [.define (nm "f") [] (ap "eo::extract" [.lit (.str (nm "abc")), .lit (.num 1)]) []] <;> simp [Run.map]⟩

theorem run_ub {α : Type} {r : Run α} (h : r.map (fun _ => ()) = .ub) : r = .ub := by
  cases r <;> simp [Run.map] at h ⊢

/-- an operator without its arguments in a definition is accepted, and read outside its bounds when the definition is applied: the
number of arguments is not checked when a term is evaluated after a substitution -/
theorem C77_define_refuted : (∃ st, exRun [.define (nm "f") [{ name := nm "x", type := .bool }] (ap "eo::requires" [sy "x", .lit (.bool true)]) []] = .ok st) ∧
    exRun [.define (nm "f") [{ name := nm "x", type := .bool }] (ap "eo::requires" [sy "x", .lit (.bool true)]) [],
      .define (nm "g") [] (ap "f" [.lit (.bool true)]) []] = .ub := by
  refine ⟨?_, run_ub (by decide +kernel)⟩
  have : (exRun [.define (nm "f") [{ name := nm "x", type := .bool }] (ap "eo::requires" [sy "x", .lit (.bool true)]) []]).map (fun _ => ()) = .ok () := by decide +kernel
  rw [Run.map_ok] at this
  obtain ⟨st, h, _⟩ := this
  exact ⟨st, h⟩

/-- the same in the body of a program -/
theorem C77_body_refuted : exRun [.program (nm "p") [{ name := nm "x", type := .bool }] [.bool] .bool (some [(ap "p" [sy "x"], ap "eo::requires" [sy "x", .lit (.bool true)])]),
    .define (nm "g") [] (ap "p" [.lit (.bool true)]) []] = .ub := run_ub (by decide +kernel)

/-- `(->)` without types takes the last of no terms (state.cpp:650) -/
theorem C77_arrow_refuted : exRun [.define (nm "g") [] (ap "->" []) []] = .ub := run_ub (by decide +kernel)

/-- `(as)` without a term reads the first of no terms (state.cpp:789) -/
theorem C77_as_refuted : exRun [.define (nm "g") [] (ap "as" []) []] = .ub := run_ub (by decide +kernel)

/-- a chainable operator whose operator for chaining depends on parameters that are not determined uses a missing term
(state.cpp:1110-1123) -/
theorem C77_chain_refuted : exRun [.declareParam (nm "eq") [{ name := nm "z", type := .type }] (ap "->" [sy "z", sy "z", .bool]) [{ attr := .CHAINABLE, val := some (sy "z") }],
    .define (nm "g") [] (ap "eq" [.lit (.bool true), .lit (.bool true), .lit (.bool true)]) []] = .ub := run_ub (by decide +kernel)

/-- a step without premises of a rule with `:premise-list` uses the missing entry of an operator without attribute (state.cpp:1505) -/
theorem C77_premises_refuted : exRun [.declareConst (nm "and") (ap "->" [.bool, .bool, .bool]) [],
    .declareRule { name := nm "r", params := [{ name := nm "x", type := .bool }], premises := .plist (sy "x") (sy "and"), conc := sy "x" },
    .step { name := nm "s", rule := nm "r" }] = .ub := run_ub (by decide +kernel)

/-! ### Example -/

/-- a program that runs until its argument is `false` -/
def safeProg : Term := .sym PROGRAM_CONST 20
def safePar : Term := .sym PARAM 21
def safeBody : Term := .node EVAL_IF_THEN_ELSE [.node EVAL_IS_EQ [safePar, .lit (.bool false)], safePar, .node APPLY [safeProg, .node EVAL_NOT [safePar]]]
def safeEnv : Env := { exB with
  symType := fun t => if t = safePar then some tBool else if t = safeProg then some (.node PROGRAM_TYPE [tBool, tBool]) else exB.symType t
  appInfo := fun t => if t = safeProg then some ⟨.PROGRAM, some (.node PROGRAM [.node TUPLE [.node APPLY [safeProg, safePar], safeBody]]), NONE, none⟩ else none }

theorem shaped_sym {k : Kind} {i : Nat} (h : isLiteralOp k = false ∧ k ≠ APPLY ∧ k ≠ APPLY_OPAQUE ∧ k ≠ PROOF ∧ k ≠ QUOTE_TYPE ∧ k ≠ LAMBDA ∧ k ≠ PARAMETERIZED) : Shaped (.sym k i) :=
  .sym _ _ (.of h.1 h.2)

theorem safeBody_shaped : Shaped safeBody := by
  have hp : Shaped safePar := shaped_sym (by decide)
  refine .node _ _ ⟨by decide, by decide, by decide⟩ ?_
  simp only [List.mem_cons, List.not_mem_nil, or_false, forall_eq_or_imp, forall_eq]
  refine ⟨.node _ _ ⟨by decide, by decide, by decide⟩ ?_, hp, .node _ _ ⟨by decide, by decide, by decide⟩ ?_⟩
  · simp only [List.mem_cons, List.not_mem_nil, or_false, forall_eq_or_imp, forall_eq]
    exact ⟨hp, .lit _⟩
  · simp only [List.mem_cons, List.not_mem_nil, or_false, forall_eq_or_imp, forall_eq]
    refine ⟨shaped_sym (by decide), .node _ _ ⟨by decide, by decide, by decide⟩ ?_⟩
    simpa using hp

theorem shaped_nodes {k : Kind} {cs : List Term} (h : isLiteralOp k = false ∧ k ≠ APPLY ∧ k ≠ APPLY_OPAQUE ∧ k ≠ PROOF ∧ k ≠ QUOTE_TYPE ∧ k ≠ LAMBDA ∧ k ≠ PARAMETERIZED)
    (hc : ∀ c ∈ cs, Shaped c) : Shaped (.node k cs) := .node _ _ (.of h.1 h.2) hc

theorem safeEnv_ok : ShapedEnv safeEnv where
  symType t ty h := by
    simp only [safeEnv, exB] at h
    repeat' split at h
    all_goals cases h
    all_goals try exact shaped_sym (by decide)
    all_goals try exact shaped_nodes (cs := []) (by decide) (by simp)
    · exact shaped_nodes (by decide) (by simpa using shaped_bool)
    · refine shaped_nodes (by decide) ?_
      simp only [List.mem_cons, List.not_mem_nil, or_false, forall_eq_or_imp, forall_eq]
      refine ⟨shaped_sym (by decide), shaped_nodes (by decide) ?_⟩
      simpa using shaped_sym (by decide)
  cons t ai c h hc := by
    simp only [safeEnv] at h
    split at h
    · cases h
      cases hc
      refine shaped_nodes (by decide) ?_
      simp only [List.mem_cons, List.not_mem_nil, or_false, forall_eq]
      refine shaped_nodes (by decide) ?_
      simp only [List.mem_cons, List.not_mem_nil, or_false, forall_eq_or_imp, forall_eq]
      refine ⟨.node _ _ ⟨by decide, by decide, by decide⟩ ?_, safeBody_shaped⟩
      simp only [List.mem_cons, List.not_mem_nil, or_false, forall_eq_or_imp, forall_eq]
      exact ⟨shaped_sym (by decide), shaped_sym (by decide)⟩
    · cases h
  datatype t ai h ha := by
    simp only [safeEnv] at h
    split at h
    · cases h; cases ha
    · cases h
  program p prog h := by
    simp only [Env.program, safeEnv] at h
    split at h
    · rename_i ai hi
      split at hi
      · cases hi
        cases h
        simp only [Term.children, List.mem_cons, List.not_mem_nil, or_false, forall_eq]
        exact ⟨_, _, _, rfl, safeBody_shaped⟩
      · cases hi
    · cases h
  litRule k t h := by simp [safeEnv, exB] at h
  boundVar x ty _ := shaped_sym (by decide)
  tmp ty _ := shaped_sym (by decide)
  listCons := shaped_sym (by decide)
  listNil := shaped_sym (by decide)
  listType := shaped_sym (by decide)
  proofType := shaped_sym (by decide)

/-- the program is defined in a state as required, is called with `true`, runs with two calls and gives `false` -/
example : ShapedEnv safeEnv ∧ Shaped (.node APPLY [safeProg, .lit (.bool true)]) ∧
    (ops safeEnv 40).evaluate (.node APPLY [safeProg, .lit (.bool true)]) [] = .ok (.lit (.bool false)) := by
  refine ⟨safeEnv_ok, .node _ _ ⟨by decide, by decide, by decide⟩ ?_, by decide +kernel⟩
  simp only [List.mem_cons, List.not_mem_nil, or_false, forall_eq_or_imp, forall_eq]
  exact ⟨shaped_sym (by decide), .lit _⟩
/-- a type and an operator -/
example : (ops safeEnv 40).getType safeBody = .ok (some tBool) ∧ (ops safeEnv 9).evalOp EVAL_EXTRACT [.lit (.str [97, 98]), .lit (.num 1), .lit (.num 1)] = .ok (some (.lit (.str [98]))) ∧
    evaluateProgramApp safeEnv (ops safeEnv 40) [safeProg, .lit (.bool true)] = .ok (.lit (.bool false)) := by decide +kernel
example : Lit.evaluate EVAL_INT_DIV [.num 7, .num 2] = .val (.num 3) := by decide +kernel

end Ethos.Props
