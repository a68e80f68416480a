import Verif.Props.Programs
/-
C33: evaluating the result of an evaluation.
-/
namespace Ethos.Props
open Ethos Kind Spec

variable {env : Env}

theorem select_lit {k : Kind} {args : List Term} {o : Ops} {v : Term} (hl : isListLiteralOp k = false)
    (h : evalValues env o k args = .ok (some v)) : ∃ l, v = .lit l := by
  unfold evalValues at h
  split at h
  · split at h
    · simp at h
    · simp only [Out.map_ok] at h
      obtain ⟨r, _, h2⟩ := h
      cases r with
      | none => simp at h2
      | some l => simp only [Option.map_some, Option.some.injEq] at h2; exact ⟨l, h2.symm⟩
  · simp [hl] at h

/-- an operator that selects returns a literal or one of its arguments -/
theorem select_result {k : Kind} {args : List Term} {v : Term} (hl : isListLiteralOp k = false) (h1 : k ≠ EVAL_TYPE_OF) (h2 : k ≠ EVAL_VAR)
    (h3 : k ≠ EVAL_DT_CONSTRUCTORS) (h4 : k ≠ EVAL_DT_SELECTORS) (h : OpResult env k args (some v)) : (∃ l, v = .lit l) ∨ v ∈ args := by
  obtain ⟨n, h⟩ := h
  cases n with
  | zero => cases h
  | succ n =>
    have h : opStep env (ops env n) k args = .ok (some v) := h
    have arg : ∀ {i}, (argO args i).map some = .ok (some v) → v ∈ args := by
      intro i h
      simp only [Out.map_ok] at h
      obtain ⟨a, h, e⟩ := h
      cases e
      simp only [argO] at h
      split at h
      · rename_i t ht; cases h; exact List.mem_of_getElem? ht
      · cases h
    unfold opStep at h
    split at h
    · simp only [Out.bind_ok] at h
      obtain ⟨c, _, h⟩ := h
      split at h
      · exact .inr (arg h)
      · simp at h
    · simp only [Out.bind_ok] at h
      obtain ⟨c, _, h⟩ := h
      split at h
      · simp only [Out.bind_ok] at h
        obtain ⟨c, _, h⟩ := h
        split at h
        · exact .inr (arg h)
        · simp at h
      · simp at h
    · split at h
      · simp at h
      · left
        unfold evalGround at h
        split at h
        case h_12 => exact absurd rfl h1
        case h_13 =>
          simp only [Out.bind_ok] at h
          obtain ⟨a, _, h⟩ := h
          split at h
          · simp only [Out.ok.injEq, Option.some.injEq] at h; exact ⟨_, h.symm⟩
          · exact select_lit hl h
        case h_14 => exact absurd rfl h2
        case h_15 => exact absurd rfl h4
        case h_16 => exact absurd rfl h3
        case h_17 => exact select_lit hl h
        all_goals
          simp only [Out.bind_ok, Out.map_ok] at h
          obtain ⟨a, h1, h⟩ := h
          try split at h
          all_goals
            first
              | (simp at h; done)
              | (simp only [Option.some.injEq] at h; subst h; exact ⟨_, rfl⟩)
              | (simp only [Out.ok.injEq, Option.some.injEq] at h; subst h; exact ⟨_, rfl⟩)
              | (simp only [Out.map_ok] at h
                 obtain ⟨c, h2, h⟩ := h
                 try split at h
                 all_goals first | (cases h; exact ⟨_, rfl⟩) | cases h)

theorem match_values : ∀ {ps ts : List Term} {ctx : Ctx}, ps.length = ts.length → matchArgs ps ts [] = some ctx → (∀ t ∈ ts, IsValue t) →
    (∀ p v, ctx.find p = some v → IsValue v) ∧ (ctx = [] → ∀ q ∈ ps, NoParam q) := by
  intro ps ts ctx hl h hv
  obtain ⟨h1, h2, _, h4⟩ := C27_args hl h
  constructor
  · intro p v hp
    rcases h4 p v hp with h5 | ⟨hi, q, hq, hs⟩
    · cases h5
    · have hm : subst (ctxSub ctx) q ∈ ts := h1 ▸ List.mem_map_of_mem hq
      have := sub_subst (σ := ctxSub ctx) hi hs
      simp only [ctxSub, hp, Option.getD_some] at this
      intro s hs'
      exact hv _ hm s (sub_trans' hs' this)
  · rintro rfl q hq p hp hi
    obtain ⟨v, hv⟩ := h2 q hq p hp hi
    cases hv

/-- what a program returns: the bindings are values, and what is not evaluated any further is one -/
theorem prog_values_of {S : Term → Prop} (hR : ∀ p prog, env.program p = some prog → ∀ c ∈ prog.children, ∀ pat body r, c.children = pat :: body :: r →
      S body ∧ (NoParam body ∨ (∀ q ∈ pat.children.tail, NoParam q) → IsValue body)) {args : List Term} {body : Term} {ctx : Ctx} (h : ProgResult env args (some (body, ctx))) :
    S body ∧ (∀ p v, ctx.find p = some v → IsValue v) ∧ (body.ground = true ∨ ctx = [] → IsValue body) := by
  unfold ProgResult evalProgram at h
  split at h
  · cases h
  rename_i hg
  split at h
  · cases h
  rename_i hev
  split at h
  · cases h
  split at h
  · cases h
  rename_i hd tl _ prog hp
  have hval : ∀ t ∈ tl, IsValue t := by
    intro t ht
    rw [isValue_iff]
    simp only [List.any_eq_true, Bool.not_eq_true', not_exists, not_and, Bool.not_eq_false] at hg
    simp only [List.tail_cons, List.any_eq_true, not_exists, not_and, Bool.not_eq_true] at hev
    exact ⟨hg t (List.mem_cons_of_mem _ ht), hev t ht⟩
  have key : ∀ cs : List Term, (∀ c ∈ cs, c ∈ prog.children) → runCases (hd :: tl) cs = .ok (some (body, ctx)) →
      S body ∧ (∀ p v, ctx.find p = some v → IsValue v) ∧ (body.ground = true ∨ ctx = [] → IsValue body) := by
    intro cs
    induction cs with
    | nil => intro _ h; cases h
    | cons c cs ih =>
      intro hm h
      simp only [runCases] at h
      split at h
      · rename_i pat bd rest hc
        split at h
        · cases h
        rename_i hlen
        split at h
        · rename_i ctx1 h1
          simp only [Out.ok.injEq, Option.some.injEq, Prod.mk.injEq] at h
          obtain ⟨rfl, rfl⟩ := h
          have hlen : (hd :: tl).length = pat.children.length := Decidable.of_not_not hlen
          have hl : pat.children.tail.length = tl.length := by rw [List.length_tail, ← hlen]; simp
          obtain ⟨v1, v2⟩ := match_values hl h1 hval
          obtain ⟨r1, r2⟩ := hR hd prog hp c (hm c (by simp)) pat bd rest hc
          refine ⟨r1, v1, ?_⟩
          rintro (hgr | he)
          · exact r2 (.inl fun s hs => ((ground_iff _).1 hgr s hs).1)
          · exact r2 (.inr (v2 he))
        · exact ih (fun c hc => hm c (by simp [hc])) h
      · cases h
  exact key _ (fun c hc => hc) h

theorem prog_values (hR : ReducedPrograms env) {args : List Term} {body : Term} {ctx : Ctx} (h : ProgResult env args (some (body, ctx))) :
    Selects body ∧ (∀ p v, ctx.find p = some v → IsValue v) ∧ (body.ground = true ∨ ctx = [] → IsValue body) := prog_values_of hR h

theorem fixed_value {ctx : Ctx} {t : Term} (h : IsValue t) : Eval (OpResult env) (ProgResult env) ctx t t := by
  obtain ⟨h1, h2⟩ := (isValue_iff t).mp h
  exact Eval.self _ _ h2 (.inl h1)

theorem Selects.child {k : Kind} {cs : List Term} (h : Selects (.node k cs)) : ∀ c ∈ cs, Selects c :=
  fun _ hc k' cs' hs hl => h k' cs' (.child _ _ _ _ hc hs) hl

mutual
theorem eval_fixed (hR : ReducedPrograms env) : ∀ {ctx : Ctx} {t v : Term}, Eval (OpResult env) (ProgResult env) ctx t v →
    (∀ p v, ctx.find p = some v → IsValue v) → Selects t → Eval (OpResult env) (ProgResult env) [] v v
  | _, _, _, .bound _ t v _ hf, hc, _ => fixed_value (hc _ _ hf)
  | _, _, _, .free _ t hp _, _, _ => .free _ _ hp rfl
  | _, _, _, .leaf _ t hp h, _, _ => .leaf _ _ hp h
  | _, _, _, .ite _ c x y b v _ h, hc, hs => eval_fixed hR h hc (by cases b <;> exact Selects.child hs _ (by simp))
  | _, _, _, .iteStuck _ c x y c' x' y' h1 hb h2 h3, hc, hs =>
    .iteStuck _ _ _ _ _ _ _ (eval_fixed hR h1 hc (Selects.child hs _ (by simp))) hb (eval_fixed hR h2 hc (Selects.child hs _ (by simp)))
      (eval_fixed hR h3 hc (Selects.child hs _ (by simp)))
  | _, _, _, .iteBad _ cs h1 h2, _, _ => .iteBad _ _ h1 h2
  | _, _, _, .op _ k cs cs' v hk hi hn hl ho, hc, hs => by
    obtain ⟨g0, g1, g2, g3, g4⟩ := hs k cs (.refl _) hk
    rcases select_result g0 g1 g2 g3 g4 ho with ⟨l, rfl⟩ | hm
    · exact .leaf _ _ (by intro h; cases l <;> exact absurd h.1 (by simp [Term.kind, Lit.kind])) rfl
    · exact (evals_fixed hR hl hc (Selects.child hs)).2 _ hm
  | _, _, _, .opStuck _ k cs cs' hk hi hn hl ho, hc, hs =>
    .opStuck _ _ _ _ hk hi (by rintro rfl; cases hl; exact hn rfl) (evals_fixed hR hl hc (Selects.child hs)).1 ho
  | _, _, _, .progStuck _ k cs p ps hk hl hp hq, hc, hs => .progStuck _ _ _ _ _ hk (evals_fixed hR hl hc (Selects.child hs)).1 hp hq
  | _, _, _, .progConst _ k cs p ps body ctx' hk hl hp hq hb, _, _ => fixed_value ((prog_values hR hq).2.2 hb)
  | _, _, _, .progRun _ k cs p ps body ctx' v hk hl hp hq _ _ h, _, _ => eval_fixed hR h (prog_values hR hq).2.1 (prog_values hR hq).1
  | _, _, _, .app _ k cs p ps hk hl hp, hc, hs => .app _ _ _ _ _ hk (evals_fixed hR hl hc (Selects.child hs)).1 hp
  | _, _, _, .other _ k cs cs' h1 h2 h3 hn hl, hc, hs =>
    .other _ _ _ _ h1 h2 h3 (by rintro rfl; cases hl; exact hn rfl) (evals_fixed hR hl hc (Selects.child hs)).1
theorem evals_fixed (hR : ReducedPrograms env) : ∀ {ctx : Ctx} {ts vs : List Term}, EvalList (OpResult env) (ProgResult env) ctx ts vs →
    (∀ p v, ctx.find p = some v → IsValue v) → (∀ t ∈ ts, Selects t) →
    EvalList (OpResult env) (ProgResult env) [] vs vs ∧ ∀ v ∈ vs, Eval (OpResult env) (ProgResult env) [] v v
  | _, _, _, .nil _, _, _ => ⟨.nil _, by simp⟩
  | _, _, _, .cons _ c cs v vs h1 h2, hc, hs => by
    have a := eval_fixed hR h1 hc (hs _ (by simp))
    obtain ⟨b1, b2⟩ := evals_fixed hR h2 hc fun t ht => hs t (by simp [ht])
    refine ⟨.cons _ _ _ _ _ a b1, ?_⟩
    intro u hu
    rcases List.mem_cons.1 hu with rfl | hu
    · exact a
    · exact b2 _ hu
end

/-- **C33**.  The result of an evaluation evaluates to itself, if the builtin operators used compute literals or select one of their
arguments and the right-hand sides of programs that are returned without being evaluated have nothing to compute.  (The full
statement has neither condition; without the second it fails, see `C33_refuted`.) -/
theorem C33_reduced_partial (hR : ReducedPrograms env) {ctx : Ctx} {t v : Term} (hc : ∀ p v, ctx.find p = some v → IsValue v) (hs : Selects t)
    (h : EvaluatesTo env ctx t v) : EvaluatesTo env [] v v :=
  (evaluatesTo_iff _ _ _ _).2 (eval_fixed hR ((evaluatesTo_iff _ _ _ _).1 h) hc hs)

/-! ### Examples -/

/-- a program whose second case refers to the first -/
def chainCmds : List Cmd := [
  .declareSort (nm "U") 0,
  .declareConst (nm "a") (sy "U") [],
  .declareConst (nm "b") (sy "U") [],
  .declareConst (nm "c") (sy "U") [],
  .program (nm "g") [⟨nm "x", sy "U", []⟩] [sy "U"] (sy "U") (some [(ap "g" [sy "a"], sy "c"), (ap "g" [sy "b"], ap "g" [sy "a"])]) ]

/-- **C33** is false: after these commands `(g b)` evaluates to `(g a)`, because the right-hand side without parameters is returned as
it was read, and `(g a)` evaluates to `c`. -/
theorem C33_refuted : ¬ ∀ (b : Env) (n n0 : Nat) (es : List Event) (st : State) (t v : Term), BaseOk b n0 → replay b n es (State.init b n0) = .ok st →
    EvaluatesTo (st.env b) [] t v → (∀ s, Sub s v → ¬ IsParam s ∧ ¬ IsAny s) → EvaluatesTo (st.env b) [] v v := by
  intro hall
  have h : (exRun chainCmds).bind (fun st => .ok (decide ((ops (st.env exB) 20).evaluate (.node APPLY [.sym PROGRAM_CONST 15, .sym CONST 12]) [] =
      .ok (.node APPLY [.sym PROGRAM_CONST 15, .sym CONST 11])) && decide ((ops (st.env exB) 20).evaluate (.node APPLY [.sym PROGRAM_CONST 15, .sym CONST 11]) [] =
      .ok (.sym CONST 13)))) = .ok true := by decide +kernel
  simp only [Run.bind_ok, Run.ok.injEq, Bool.and_eq_true, decide_eq_true_eq] at h
  obtain ⟨st, h1, h2, h3⟩ := h
  have h4 := hall exB 10 10 _ st _ _ exB_ok h1 ⟨_, h2⟩ ?_
  · cases EvaluatesTo.det h4 ⟨_, h3⟩
  · have : (Term.node APPLY [.sym PROGRAM_CONST 15, .sym CONST 11]).ground = true := by decide +kernel
    exact (ground_iff _).1 this

/-- a recursive program: `((f c) c)`, `((f (s x)) (eo::ite (eo::is_eq x c) x (f x)))` -/
def recProg : Term := .node PROGRAM [
  .node TUPLE [.node APPLY [.sym PROGRAM_CONST 20, .sym CONST 21], .sym CONST 21],
  .node TUPLE [.node APPLY [.sym PROGRAM_CONST 20, .node APPLY [.sym CONST 22, .sym PARAM 23]],
    .node EVAL_IF_THEN_ELSE [.node EVAL_IS_EQ [.sym PARAM 23, .sym CONST 21], .sym PARAM 23, .node APPLY [.sym PROGRAM_CONST 20, .sym PARAM 23]]]]
def recEnv : Env := { exB with appInfo := fun t => if t = .sym PROGRAM_CONST 20 then some ⟨.PROGRAM, some recProg, NONE, none⟩ else none }
def recTerm : Term := .node APPLY [.sym PROGRAM_CONST 20, .node APPLY [.sym CONST 22, .node APPLY [.sym CONST 22, .sym CONST 21]]]

/-- C33: the hypotheses are met by this program, and `(f (s (s c)))` evaluates to `c` -/
example : ReducedPrograms recEnv ∧ Selects recTerm ∧ EvaluatesTo recEnv [] recTerm (.sym CONST 21) := by
  refine ⟨?_, ?_, 60, by decide +kernel⟩
  · intro p prog hp
    have : prog = recProg := by
      simp only [Env.program, recEnv] at hp
      split at hp
      · rename_i ai hai
        split at hai
        · cases hai; simpa using hp.symm
        · cases hai
      · cases hp
    subst this
    intro c hc pat body r he
    simp only [recProg, Term.children, List.mem_cons, List.not_mem_nil, or_false] at hc
    rcases hc with rfl | rfl <;> cases he
    · refine ⟨?_, fun _ => ?_⟩
      · intro k cs hs; cases hs
      · intro s hs; cases hs; simp [IsParam, IsAny, IsComputation, Term.kind, isLiteralOp]
    · constructor
      · intro k cs hs hk
        revert hk
        cases hs with
        | refl => decide
        | child _ _ _ hc hs =>
          simp only [List.mem_cons, List.not_mem_nil, or_false] at hc
          rcases hc with rfl | rfl | rfl
          · cases hs with
            | refl => decide
            | child _ _ _ hc hs =>
              simp only [List.mem_cons, List.not_mem_nil, or_false] at hc
              rcases hc with rfl | rfl <;> cases hs
          · cases hs
          · cases hs with
            | refl => decide
            | child _ _ _ hc hs =>
              simp only [List.mem_cons, List.not_mem_nil, or_false] at hc
              rcases hc with rfl | rfl <;> cases hs
      · rintro (h | h)
        · exact absurd ⟨rfl, rfl⟩ (h (.sym PARAM 23) (.child _ _ _ (.sym PARAM 23) (by simp) (.refl _)))
        · exact absurd ⟨rfl, rfl⟩ (h (.node APPLY [.sym CONST 22, .sym PARAM 23]) (by simp [Term.children]) (.sym PARAM 23) (.child _ _ _ _ (by simp) (.refl _)))
  · intro k cs hs hk
    have h : ∀ s, Sub s recTerm → isLiteralOp s.kind = false := by
      intro s hs
      cases hs with
      | refl => rfl
      | child _ _ _ hc hs =>
        simp only [List.mem_cons, List.not_mem_nil, or_false] at hc
        rcases hc with rfl | rfl
        · cases hs; rfl
        · cases hs with
          | refl => rfl
          | child _ _ _ hc hs =>
            simp only [List.mem_cons, List.not_mem_nil, or_false] at hc
            rcases hc with rfl | rfl
            · cases hs; rfl
            · cases hs with
              | refl => rfl
              | child _ _ _ hc hs =>
                simp only [List.mem_cons, List.not_mem_nil, or_false] at hc
                rcases hc with rfl | rfl <;> (cases hs; rfl)
    have := h _ hs
    simp only [Term.kind] at this
    rw [this] at hk
    cases hk

end Ethos.Props
