import Verif.Lemmas.EvalOps
import Verif.Props.Match
/-
C29-C32: evaluation of programs, `eo::ite`, determinism.
-/
namespace Ethos.Props
open Ethos Kind Spec

/-! ## C31 -/

/-- **C31**.  Evaluation with its explicit stack of frames, visited maps and cache of program applications
computes exactly the big-step relation of `Verif.Spec.Eval`, which has none of these: every result is
derivable, and whenever a result is derivable the run terminates with it. -/
theorem C31_bigstep (env : Env) (ctx : Ctx) (t v : Term) :
    EvaluatesTo env ctx t v ↔ Eval (OpResult env) (ProgResult env) ctx t v := evaluatesTo_iff env ctx t v

/-- **C31**.  Evaluation has at most one result. -/
theorem C31_deterministic (env : Env) (ctx : Ctx) (t v v' : Term) (h : EvaluatesTo env ctx t v)
    (h' : EvaluatesTo env ctx t v') : v = v' := EvaluatesTo.det h h'

/-- **C31**.  A builtin operator has at most one result, and so has type computation. -/
theorem C31_deterministic_op (env : Env) (k : Kind) (args : List Term) (r r' : Option Term) (h : OpResult env k args r)
    (h' : OpResult env k args r') : r = r' := OpResult.det _ _ _ _ h h'
theorem C31_deterministic_type (env : Env) (t : Term) (r r' : Option Term) (h : TypeResult env t r)
    (h' : TypeResult env t r') : r = r' := TypeResult.det h h'

theorem evalList_map {O : Kind → List Term → Option Term → Prop} {P : List Term → Option (Term × Ctx) → Prop} {ctx : Ctx}
    (f : Term → Term) : ∀ l : List Term, (∀ c ∈ l, Eval O P ctx c (f c)) → EvalList O P ctx l (l.map f)
  | [], _ => .nil _
  | a :: l, h => .cons _ _ _ _ _ (h a (by simp)) (evalList_map f l fun c hc => h c (by simp [hc]))

theorem subst_leaf_other (σ : Term → Term) (t : Term) (hc : t.children = []) (hp : ¬ IsParam t) : subst σ t = t := by
  cases t with
  | sym k i =>
    have : k ≠ PARAM := fun h => hp ⟨h, rfl⟩
    simp [subst, this]
  | lit l => simp [subst]
  | node k cs =>
    simp only [Term.children] at hc
    subst hc
    have : k ≠ PARAM := fun h => hp ⟨h, rfl⟩
    simp [subst, this, substs]

/-- computation-free terms are instantiated -/
theorem eval_subst {O : Kind → List Term → Option Term → Prop} {P : List Term → Option (Term × Ctx) → Prop} (ctx : Ctx)
    : ∀ t : Term, (∀ s, Sub s t → ¬ IsComputation s) → 
      (∀ p v, Sub p t → ctx.find p = some v → ¬ IsProg v) → Eval O P ctx t (subst (ctxSub ctx) t) := by
  apply Term.induct'
  intro t ih hnc hb
  by_cases hc : t.children = []
  · by_cases hp : IsParam t
    · rw [leaf_param_eq _ _ hp]
      unfold ctxSub
      cases hf : ctx.find t with
      | none => exact .free _ _ hp hf
      | some v => exact .bound _ _ _ hp hf
    · rw [subst_leaf_other _ _ hc hp]
      exact .leaf _ _ hp hc
  · obtain ⟨k, cs, rfl, hcs⟩ := node_of_children hc
    have hL : EvalList O P ctx cs (cs.map (subst (ctxSub ctx))) := by
      apply evalList_map
      intro c hcm
      exact ih c hcm (fun s hs => hnc s (.child _ _ _ _ hcm hs)) (fun p v hs => hb p v (.child _ _ _ _ hcm hs))
    have he : subst (ctxSub ctx) (.node k cs) = .node k (cs.map (subst (ctxSub ctx))) := by
      simp only [subst]
      rw [if_neg (fun h => hcs h.2), substs_eq_map]
    rw [he]
    have hlit : isLiteralOp k = false := by
      cases h : isLiteralOp k with
      | false => rfl
      | true => exact absurd (.inr ⟨h, hcs⟩) (hnc _ (.refl _))
    by_cases hk : k = APPLY ∨ k = APPLY_OPAQUE
    · cases cs with
      | nil => simp at hcs
      | cons p ps =>
        refine .app _ _ _ _ _ hk hL ?_
        have hsp : Sub p (.node k (p :: ps)) := .child _ _ _ p (by simp) (.refl _)
        by_cases hp : IsParam p
        · rw [leaf_param_eq _ _ hp]
          unfold ctxSub
          cases hf : ctx.find p with
          | none =>
            simp only [Option.getD_none]
            intro hpp
            have := hp.1
            rw [hpp.1] at this
            simp at this
          | some v => exact hb p v hsp hf
        · by_cases hcp : p.children = []
          · rw [subst_leaf_other _ _ hcp hp]
            intro hpp
            exact hnc p hsp (.inl hpp)
          · obtain ⟨k', cs', rfl, hcs'⟩ := node_of_children hcp
            simp only [subst]
            rw [if_neg (fun h => hcs' h.2), substs_eq_map]
            intro hpp
            have := hpp.2
            simp only [children_node, List.map_eq_nil_iff] at this
            exact hcs' this
    · exact .other _ _ _ _ hlit (fun h => hk (.inl h)) (fun h => hk (.inr h)) hcs hL

/-- **C31**.  A term without programs and builtin operators evaluates to its instance: the bound parameters
are replaced simultaneously and nothing else changes.  (A parameter bound to a program symbol would make an
application of it a program application; contexts built by matching values never do this.) -/
theorem C31_instance (env : Env) (ctx : Ctx) (t : Term) (hc : ∀ s, Sub s t → ¬ IsComputation s)
    (hb : ∀ p v, Sub p t → ctx.find p = some v → ¬ IsProg v) :
    EvaluatesTo env ctx t (subst (ctxSub ctx) t) := (evaluatesTo_iff _ _ _ _).mpr (eval_subst ctx t hc hb)

/-- **C31**.  A term without programs, builtin operators and bound parameters is unchanged in every
context. -/
theorem C31_values (env : Env) (ctx : Ctx) (t : Term) (hc : ∀ s, Sub s t → ¬ IsComputation s)
    (hb : ∀ p, Sub p t → IsParam p → ctx.find p = none) : EvaluatesTo env ctx t t := by
  rw [evaluatesTo_iff]
  have key : ∀ t : Term, (∀ s, Sub s t → ¬ IsComputation s) → (∀ p, Sub p t → IsParam p → ctx.find p = none) →
      Eval (OpResult env) (ProgResult env) ctx t t := by
    apply Term.induct'
    intro t ih hc hb
    by_cases hch : t.children = []
    · by_cases hp : IsParam t
      · exact .free _ _ hp (hb t (.refl _) hp)
      · exact .leaf _ _ hp hch
    · obtain ⟨k, cs, rfl, hcs⟩ := node_of_children hch
      have hL : EvalList (OpResult env) (ProgResult env) ctx cs (cs.map id) :=
        evalList_map id cs fun c hcm => ih c hcm (fun s hs => hc s (.child _ _ _ _ hcm hs))
          (fun p hs => hb p (.child _ _ _ _ hcm hs))
      rw [List.map_id] at hL
      have hlit : isLiteralOp k = false := by
        cases h : isLiteralOp k with
        | false => rfl
        | true => exact absurd (.inr ⟨h, hcs⟩) (hc _ (.refl _))
      by_cases hk : k = APPLY ∨ k = APPLY_OPAQUE
      · cases cs with
        | nil => simp at hcs
        | cons p ps => exact .app _ _ _ _ _ hk hL (fun hpp => hc p (.child _ _ _ p (by simp) (.refl _)) (.inl hpp))
      · exact .other _ _ _ _ hlit (fun h => hk (.inl h)) (fun h => hk (.inr h)) hcs hL
  exact key t hc hb

/-- **C31**.  A builtin operator other than `eo::ite` is applied to the values of its arguments (`qs`: the
arguments and their values); if it does not evaluate, the operator stays with evaluated arguments. -/
theorem C31_operator (env : Env) (ctx : Ctx) (k : Kind) (qs : List (Term × Term)) (hk : isLiteralOp k = true)
    (hite : k ≠ EVAL_IF_THEN_ELSE) (hne : qs ≠ []) (hev : ∀ q ∈ qs, EvaluatesTo env ctx q.1 q.2) (v : Term) :
    EvaluatesTo env ctx (.node k (qs.map Prod.fst)) v ↔
      OpResult env k (qs.map Prod.snd) (some v) ∨ (OpResult env k (qs.map Prod.snd) none ∧ v = .node k (qs.map Prod.snd)) := by
  have hL : EvalList (OpResult env) (ProgResult env) ctx (qs.map Prod.fst) (qs.map Prod.snd) := by
    clear hne
    induction qs with
    | nil => exact .nil _
    | cons q qs ih =>
      exact .cons _ _ _ _ _ ((evaluatesTo_iff _ _ _ _).mp (hev q (by simp))) (ih fun q hq => hev q (by simp [hq]))
  rw [evaluatesTo_iff]
  constructor
  · intro h
    generalize hfst : qs.map Prod.fst = as at h hL
    have hne : as ≠ [] := by rw [← hfst]; simpa using hne
    cases h with
    | op _ _ _ cs' _ _ _ _ hl ho =>
      rw [EvalList.det OpResult.det ProgResult.det hL hl]; exact .inl ho
    | opStuck _ _ _ cs' _ _ _ hl ho =>
      rw [EvalList.det OpResult.det ProgResult.det hL hl]; exact .inr ⟨ho, rfl⟩
    | bound _ _ _ hp => exact absurd hp.2 hne
    | free _ _ hp => exact absurd hp.2 hne
    | leaf _ _ _ hc => exact absurd hc hne
    | ite => simp at hite
    | iteStuck => simp at hite
    | iteBad => simp at hite
    | progStuck _ _ _ _ _ h => rcases h with rfl | rfl <;> simp [isLiteralOp] at hk
    | progConst _ _ _ _ _ _ _ h => rcases h with rfl | rfl <;> simp [isLiteralOp] at hk
    | progRun _ _ _ _ _ _ _ _ h => rcases h with rfl | rfl <;> simp [isLiteralOp] at hk
    | app _ _ _ _ _ h => rcases h with rfl | rfl <;> simp [isLiteralOp] at hk
    | other _ _ _ _ h => rw [h] at hk; simp at hk
  · have hne' : qs.map Prod.fst ≠ [] := by simpa using hne
    rintro (h | ⟨h, rfl⟩)
    · exact .op _ _ _ _ _ hk hite hne' hL h
    · exact .opStuck _ _ _ _ hk hite hne' hL h

/-! ## C32 -/

theorem ite_eval_inv {O : Kind → List Term → Option Term → Prop} {P : List Term → Option (Term × Ctx) → Prop}
    (hO : ∀ k a r r', O k a r → O k a r' → r = r') (hP : ∀ a r r', P a r → P a r' → r = r') {ctx : Ctx} {c x y v : Term}
    {b : Bool} (hc : Eval O P ctx c (boolVal b)) (h : Eval O P ctx (.node EVAL_IF_THEN_ELSE [c, x, y]) v) :
    Eval O P ctx (if b then x else y) v := by
  cases h with
  | ite _ _ _ _ b' _ h1 h2 =>
    have := Eval.det hO hP h1 hc
    simp only [boolVal, Term.lit.injEq, Lit.bool.injEq] at this
    subst this; exact h2
  | iteStuck _ _ _ _ c' _ _ h1 hnb => exact absurd (Eval.det hO hP h1 hc) (hnb b)
  | iteBad _ _ _ h => simp at h
  | bound _ _ _ hp => simp [IsParam, Term.children] at hp
  | free _ _ hp => simp [IsParam, Term.children] at hp
  | leaf _ _ _ hc => simp [Term.children] at hc
  | op _ _ _ _ _ _ h => simp at h
  | opStuck _ _ _ _ _ h => simp at h
  | progStuck _ _ _ _ _ h => simp at h
  | progConst _ _ _ _ _ _ _ h => simp at h
  | progRun _ _ _ _ _ _ _ _ h => simp at h
  | app _ _ _ _ _ h => simp at h
  | other _ _ _ _ h => simp [isLiteralOp] at h

/-- **C32**.  If the condition evaluates to `b`, then `eo::ite` evaluates exactly as the selected branch: it
terminates with `v` if and only if the selected branch does.  Nothing is assumed of the other branch, whose
evaluation may diverge or be undefined. -/
theorem C32_lazy (env : Env) (ctx : Ctx) (c x y : Term) (b : Bool) (hc : EvaluatesTo env ctx c (boolVal b)) (v : Term) :
    EvaluatesTo env ctx (.node EVAL_IF_THEN_ELSE [c, x, y]) v ↔ EvaluatesTo env ctx (if b then x else y) v := by
  rw [evaluatesTo_iff] at *
  rw [evaluatesTo_iff]
  exact ⟨ite_eval_inv OpResult.det ProgResult.det hc, fun h => .ite _ _ _ _ _ _ hc h⟩

/-- **C32**.  If the condition evaluates to anything else, `eo::ite` does not select a branch. -/
theorem C32_stuck (env : Env) (ctx : Ctx) (c x y c' x' y' : Term) (hc : EvaluatesTo env ctx c c') (hb : ∀ b, c' ≠ boolVal b)
    (hx : EvaluatesTo env ctx x x') (hy : EvaluatesTo env ctx y y') :
    EvaluatesTo env ctx (.node EVAL_IF_THEN_ELSE [c, x, y]) (.node EVAL_IF_THEN_ELSE [c', x', y']) := by
  rw [evaluatesTo_iff] at *
  exact .iteStuck _ _ _ _ _ _ _ hc hb hx hy

/-! ## C29, C30 -/

/-- a case of a program: argument patterns and right-hand side -/
structure Case where
  pats : List Term
  rhs : Term

/-- the program symbol `p` is defined by the given cases -/
def Defined (env : Env) (p : Term) (cases : List Case) : Prop :=
  ∃ prog, env.program p = some prog ∧
    prog.children = cases.map fun c => .node TUPLE [.node APPLY (p :: c.pats), c.rhs]

/-- the values `args` are an instance of the patterns of `c` under `σ` -/
def Matches (c : Case) (σ : Term → Term) (args : List Term) : Prop := c.pats.map (subst σ) = args

theorem matchArgs_none_of {c : Case} {args : List Term}
    (hno : ¬ ∃ σ, Matches c σ args) (hl : c.pats.length = args.length) : matchArgs c.pats args [] = none := by
  cases h : matchArgs c.pats args [] with
  | none => rfl
  | some ctx' =>
    obtain ⟨h1, _⟩ := C27_args hl h
    exact absurd ⟨_, h1⟩ hno

theorem runCases_cons (p : Term) (args pats : List Term) (rhs : Term) (cs : List Term) :
    runCases (p :: args) (.node TUPLE [.node APPLY (p :: pats), rhs] :: cs) =
      if args.length + 1 ≠ pats.length + 1 then .ok none
      else match matchArgs pats args [] with
        | some ctx => .ok (some (rhs, ctx))
        | none => runCases (p :: args) cs := rfl

theorem runCases_skip {p : Term} {args : List Term} : ∀ (pre post : List Case),
    (∀ c ∈ pre, c.pats.length = args.length ∧ ¬ ∃ σ, Matches c σ args) →
    runCases (p :: args) ((pre ++ post).map fun c => .node TUPLE [.node APPLY (p :: c.pats), c.rhs]) =
      runCases (p :: args) (post.map fun c => .node TUPLE [.node APPLY (p :: c.pats), c.rhs])
  | [], post, _ => rfl
  | c :: pre, post, h => by
    obtain ⟨hl, hno⟩ := h c (by simp)
    have ih := runCases_skip (p := p) pre post fun c hc => h c (by simp [hc])
    rw [List.cons_append, List.map_cons, runCases_cons, if_neg (by simp [hl]), matchArgs_none_of hno hl]
    exact ih

theorem evalProgram_values {env : Env} {p : Term} {args : List Term} {cases : List Case} (hp : IsProg p)
    (hd : Defined env p cases) (hv : ∀ a ∈ args, IsValue a) :
    evalProgram env (p :: args) = runCases (p :: args) (cases.map fun c => .node TUPLE [.node APPLY (p :: c.pats), c.rhs]) := by
  obtain ⟨prog, h1, h2⟩ := hd
  have hg : p.ground = true := by rw [ground_leaf p hp.2, hp.1]; rfl
  have hargs : ∀ a ∈ args, a.ground = true ∧ a.evaluatable = false := fun a ha => (isValue_iff a).mp (hv a ha)
  unfold evalProgram
  rw [if_neg, if_neg]
  · simp only [h1, h2]
  · simp only [List.tail_cons, List.any_eq_true, not_exists, not_and, Bool.not_eq_true]
    exact fun a ha => (hargs a ha).2
  · simp only [List.any_cons, hg, Bool.not_true, Bool.false_or, List.any_eq_true, not_exists, not_and,
      Bool.not_eq_true', Bool.not_eq_false]
    exact fun a ha => (hargs a ha).1

/-- **C29**.  A program applied to values selects the first case whose patterns match, with exactly the
matching bindings: all earlier cases (with the right number of patterns) have no matching substitution. -/
theorem C29_first (env : Env) (p : Term) (args : List Term) (pre post : List Case) (c : Case) (σ : Term → Term)
    (hp : IsProg p) (hd : Defined env p (pre ++ c :: post)) (hv : ∀ a ∈ args, IsValue a)
    (hpre : ∀ d ∈ pre, d.pats.length = args.length ∧ ¬ ∃ τ, Matches d τ args)
    (hany : ∀ q ∈ c.pats, ∀ s, Sub s q → ¬ IsAny s) (hm : Matches c σ args) :
    ∃ ctx', ProgResult env (p :: args) (some (c.rhs, ctx')) ∧
      (∀ q ∈ c.pats, ∀ x, Sub x q → IsParam x → ctx'.find x = some (σ x)) ∧
      (∀ x v, ctx'.find x = some v → IsParam x ∧ ∃ q ∈ c.pats, Sub x q) := by
  obtain ⟨ctx', h1, h2⟩ := C28_args σ c.pats [] hany (by intro q _ p v _ _ h; simp [Ctx.find] at h)
  have hm' : c.pats.map (subst σ) = args := hm
  rw [hm'] at h1
  have hl : c.pats.length = args.length := by rw [← hm']; simp
  obtain ⟨_, _, _, h4⟩ := C27_args hl h1
  refine ⟨ctx', ?_, h2, ?_⟩
  · unfold ProgResult
    rw [evalProgram_values hp hd hv, runCases_skip pre (c :: post) hpre]
    rw [List.map_cons, runCases_cons, if_neg (by simp [hl]), h1]
  · intro x v hx
    rcases h4 x v hx with h | h
    · simp [Ctx.find] at h
    · exact h

/-- **C29**.  If no case matches, the application does not evaluate. -/
theorem C29_none (env : Env) (p : Term) (args : List Term) (cases : List Case)
    (hp : IsProg p) (hd : Defined env p cases) (hv : ∀ a ∈ args, IsValue a)
    (hno : ∀ d ∈ cases, d.pats.length = args.length ∧ ¬ ∃ τ, Matches d τ args) : ProgResult env (p :: args) none := by
  unfold ProgResult
  rw [evalProgram_values hp hd hv]
  have := runCases_skip (p := p) cases [] hno
  rw [List.append_nil] at this
  rw [this]; rfl

/-- **C29**.  A case with another number of patterns is never used, and neither are the cases after it. -/
theorem C29_arity (env : Env) (p : Term) (args : List Term) (pre post : List Case) (c : Case)
    (hp : IsProg p) (hd : Defined env p (pre ++ c :: post)) (hv : ∀ a ∈ args, IsValue a)
    (hpre : ∀ d ∈ pre, d.pats.length = args.length ∧ ¬ ∃ τ, Matches d τ args)
    (hc : c.pats.length ≠ args.length) : ProgResult env (p :: args) none := by
  unfold ProgResult
  rw [evalProgram_values hp hd hv, runCases_skip pre (c :: post) hpre]
  rw [List.map_cons, runCases_cons, if_pos (by simp; omega)]

theorem evalList_values {O : Kind → List Term → Option Term → Prop} {P : List Term → Option (Term × Ctx) → Prop} (ctx : Ctx)
    (args : List Term) (hv : ∀ a ∈ args, IsValue a) : EvalList O P ctx args args := by
  have := evalList_map (O := O) (P := P) (ctx := ctx) id args fun a ha => by
    have := (isValue_iff a).mp (hv a ha)
    exact Eval.self ctx a this.2 (.inl this.1)
  rwa [List.map_id] at this

theorem eval_prog {O : Kind → List Term → Option Term → Prop} {P : List Term → Option (Term × Ctx) → Prop}
    (hO : ∀ k a r r', O k a r → O k a r' → r = r') (hP : ∀ a r r', P a r → P a r' → r = r') {ctx : Ctx}
    {p : Term} {args args' : List Term} (hp : IsProg p) (hL : EvalList O P ctx args args')
    {r : Option (Term × Ctx)} (hr : P (p :: args') r) (v : Term) :
    Eval O P ctx (.node APPLY (p :: args)) v ↔
      match r with
      | none => v = .node APPLY (p :: args')
      | some (body, ctx') => ((body.ground = true ∨ ctx' = []) ∧ v = body) ∨
          (body.ground = false ∧ ctx' ≠ [] ∧ Eval O P ctx' body v) := by
  have hpe : Eval O P ctx p p := .leaf _ _ (fun h => by have := h.1; rw [hp.1] at this; simp at this) hp.2
  have hL' : EvalList O P ctx (p :: args) (p :: args') := .cons _ _ _ _ _ hpe hL
  constructor
  · intro h
    cases h with
    | progStuck _ _ _ p' ps' _ hl hp' h =>
      obtain ⟨rfl, rfl⟩ := by simpa using EvalList.det hO hP hL' hl
      have := hP _ _ _ hr h; subst this
      rfl
    | progConst _ _ _ p' ps' body ctx' _ hl hp' h hg =>
      obtain ⟨rfl, rfl⟩ := by simpa using EvalList.det hO hP hL' hl
      have := hP _ _ _ hr h; subst this
      exact .inl ⟨hg, rfl⟩
    | progRun _ _ _ p' ps' body ctx' _ _ hl hp' h hg hne hb =>
      obtain ⟨rfl, rfl⟩ := by simpa using EvalList.det hO hP hL' hl
      have := hP _ _ _ hr h; subst this
      exact .inr ⟨hg, hne, hb⟩
    | app _ _ _ p' ps' _ hl hp' =>
      obtain ⟨rfl, rfl⟩ := by simpa using EvalList.det hO hP hL' hl
      exact absurd hp hp'
    | bound _ _ _ hp => simp [IsParam, Term.children] at hp
    | free _ _ hp => simp [IsParam, Term.children] at hp
    | leaf _ _ _ hc => simp [Term.children] at hc
    | op _ _ _ _ _ h => simp [isLiteralOp] at h
    | opStuck _ _ _ _ h => simp [isLiteralOp] at h
    | other _ _ _ _ _ h => simp at h
  · intro h
    cases r with
    | none => subst h; exact .progStuck _ _ _ _ _ (.inl rfl) hL' hp hr
    | some bc =>
      obtain ⟨body, ctx'⟩ := bc
      rcases h with ⟨hg, rfl⟩ | ⟨hg, hne, hb⟩
      · exact .progConst _ _ _ _ _ _ _ (.inl rfl) hL' hp hr hg
      · exact .progRun _ _ _ _ _ _ _ _ (.inl rfl) hL' hp hr hg hne hb

/-- **C29**.  The value of a program application whose first matching case `c` has a right-hand side without
programs and builtin operators, and without parameters that are not in the patterns: the instance of the
right-hand side. -/
theorem C29_instance (env : Env) (ctx : Ctx) (p : Term) (args : List Term) (pre post : List Case) (c : Case) (σ : Term → Term)
    (hp : IsProg p) (hd : Defined env p (pre ++ c :: post)) (hv : ∀ a ∈ args, IsValue a)
    (hpre : ∀ d ∈ pre, d.pats.length = args.length ∧ ¬ ∃ τ, Matches d τ args)
    (hany : ∀ q ∈ c.pats, ∀ s, Sub s q → ¬ IsAny s) (hm : Matches c σ args)
    (hrhs : ∀ s, Sub s c.rhs → ¬ IsComputation s ∧ ¬ IsAny s)
    (hpar : ∀ x, Sub x c.rhs → IsParam x → ∃ q ∈ c.pats, Sub x q) :
    EvaluatesTo env ctx (.node APPLY (p :: args)) (subst σ c.rhs) := by
  obtain ⟨ctx', h1, h2, h3⟩ := C29_first env p args pre post c σ hp hd hv hpre hany hm
  rw [evaluatesTo_iff]
  refine (eval_prog OpResult.det ProgResult.det hp (evalList_values ctx args hv) h1 _).mpr ?_
  dsimp only
  -- bound values are subterms of values
  have hsub : ∀ x v, ctx'.find x = some v → ¬ IsProg v := by
    intro x v hx hpv
    obtain ⟨hpx, q, hq, hs⟩ := h3 x v hx
    have hvx : v = σ x := by
      have := h2 q hq x hs hpx
      rw [hx] at this; injection this
    have hsubst : ∀ t, Sub x t → Sub (σ x) (subst σ t) := by
      apply Term.induct'
      intro t ih hst
      rcases hst.inv with rfl | ⟨c, hc, hst'⟩
      · rw [leaf_param_eq _ _ hpx]; exact .refl _
      · have hne : t.children ≠ [] := by intro h; rw [h] at hc; simp at hc
        obtain ⟨k, cs, rfl, hcs⟩ := node_of_children hne
        simp only [subst]
        rw [if_neg (fun h => hcs h.2), substs_eq_map]
        exact .child _ _ _ (subst σ c) (List.mem_map.mpr ⟨c, hc, rfl⟩) (ih c hc hst')
    have hmem : subst σ q ∈ args := by
      rw [← show c.pats.map (subst σ) = args from hm]
      exact List.mem_map.mpr ⟨q, hq, rfl⟩
    exact (hv _ hmem v (hvx ▸ hsubst q hs)).2.2 (.inl hpv)
  have hcong : subst (ctxSub ctx') c.rhs = subst σ c.rhs := by
    apply subst_congr
    intro x hx hpx
    obtain ⟨q, hq, hs⟩ := hpar x hx hpx
    simp [ctxSub, h2 q hq x hs hpx]
  by_cases hg : c.rhs.ground = true
  · exact .inl ⟨.inl hg, subst_ground _ _ hg⟩
  · right
    refine ⟨by simpa using hg, ?_, ?_⟩
    · rintro rfl
      apply hg
      rw [ground_iff]
      intro s hs
      refine ⟨fun hps => ?_, (hrhs s hs).2⟩
      obtain ⟨q, hq, hs'⟩ := hpar s hs hps
      have := h2 q hq s hs' hps
      simp [Ctx.find] at this
    · rw [← hcong]
      exact eval_subst ctx' c.rhs (fun s hs => (hrhs s hs).1) (fun x v _ hx => hsub x v hx)

/-- **C29**.  In general the value is that of the right-hand side evaluated under the bindings of the first
matching case; a right-hand side without parameters, or of a case without parameters in its patterns, is
returned as it is. -/
theorem C29_value (env : Env) (ctx : Ctx) (p : Term) (args : List Term) (pre post : List Case) (c : Case) (σ : Term → Term)
    (hp : IsProg p) (hd : Defined env p (pre ++ c :: post)) (hv : ∀ a ∈ args, IsValue a)
    (hpre : ∀ d ∈ pre, d.pats.length = args.length ∧ ¬ ∃ τ, Matches d τ args)
    (hany : ∀ q ∈ c.pats, ∀ s, Sub s q → ¬ IsAny s) (hm : Matches c σ args) :
    ∃ ctx' : Ctx, (∀ q ∈ c.pats, ∀ x, Sub x q → IsParam x → ctx'.find x = some (σ x)) ∧
      (∀ x v, ctx'.find x = some v → IsParam x ∧ ∃ q ∈ c.pats, Sub x q) ∧
      ∀ v, EvaluatesTo env ctx (.node APPLY (p :: args)) v ↔
        ((c.rhs.ground = true ∨ ctx' = []) ∧ v = c.rhs) ∨
          (c.rhs.ground = false ∧ ctx' ≠ [] ∧ EvaluatesTo env ctx' c.rhs v) := by
  obtain ⟨ctx', h1, h2, h3⟩ := C29_first env p args pre post c σ hp hd hv hpre hany hm
  refine ⟨ctx', h2, h3, fun v => ?_⟩
  rw [evaluatesTo_iff, evaluatesTo_iff]
  exact eval_prog OpResult.det ProgResult.det hp (evalList_values ctx args hv) h1 v

/-- **C30**.  If some argument is not a value then no case is selected, whatever the program. -/
theorem C30_not_run (env : Env) (p : Term) (args : List Term) (a : Term) (ha : a ∈ args) (hv : ¬ IsValue a) :
    ProgResult env (p :: args) none := by
  unfold ProgResult evalProgram
  by_cases h : ((p :: args).any fun e => !e.ground) = true
  · rw [if_pos h]
  · rw [if_neg h, if_pos]
    simp only [List.tail_cons, List.any_eq_true]
    refine ⟨a, ha, ?_⟩
    rw [isValue_iff] at hv
    simp only [List.any_eq_true, not_exists, not_and, Bool.not_eq_true', Bool.not_eq_false] at h
    have hg := h a (by simp [ha])
    cases he : a.evaluatable with
    | true => rfl
    | false => exact absurd ⟨hg, he⟩ hv

/-- **C30**.  A program application one of whose arguments evaluates to a term that is not a value stays, with
evaluated arguments (`qs`: the arguments and their results). -/
theorem C30_stuck (env : Env) (ctx : Ctx) (p : Term) (qs : List (Term × Term)) (hp : IsProg p)
    (hev : ∀ q ∈ qs, EvaluatesTo env ctx q.1 q.2) (q : Term × Term) (hq : q ∈ qs) (hv : ¬ IsValue q.2) (v : Term) :
    EvaluatesTo env ctx (.node APPLY (p :: qs.map Prod.fst)) v ↔ v = .node APPLY (p :: qs.map Prod.snd) := by
  have hL : EvalList (OpResult env) (ProgResult env) ctx (qs.map Prod.fst) (qs.map Prod.snd) := by
    clear hv hq
    induction qs with
    | nil => exact .nil _
    | cons q qs ih =>
      exact .cons _ _ _ _ _ ((evaluatesTo_iff _ _ _ _).mp (hev q (by simp))) (ih fun q hq => hev q (by simp [hq]))
  rw [evaluatesTo_iff]
  exact eval_prog OpResult.det ProgResult.det hp hL
    (C30_not_run env p _ q.2 (List.mem_map.mpr ⟨q, hq, rfl⟩) hv) v

/-! ### A concrete program -/

/-- an environment without programs -/
def env0 : Env where
  symType := fun _ => none
  symName := fun _ => []
  appInfo := fun _ => none
  litRule := fun _ => none
  hash := fun _ => 0
  boundVar := fun _ t => t
  tmp := fun t => t
  self := .sym PARAM 100
  listCons := .sym CONST 101
  listNil := .sym CONST 102
  listType := .node TYPE []
  proofType := .node TYPE []

/-- symbols: the program `p`, the constants `f`, `a`, `b`, the parameters `x`, `y` -/
def sP : Term := .sym PROGRAM_CONST 0
def sF : Term := .sym CONST 1
def sA : Term := .sym CONST 2
def sB : Term := .sym CONST 3
def sX : Term := .sym PARAM 4
def sY : Term := .sym PARAM 5
def fapp (x y : Term) : Term := app2 sF x y

/-- `(p (f x x)) = x`, `(p (f x y)) = (f y x)`, `(p a) = (p (f a b))`, `(p b) = (p b)` -/
def exCases : List Case :=
  [⟨[fapp sX sX], sX⟩, ⟨[fapp sX sY], fapp sY sX⟩, ⟨[sA], .node APPLY [sP, fapp sA sB]⟩,
    ⟨[sB], .node APPLY [sP, sB]⟩]

def exProg : Term := .node PROGRAM (exCases.map fun c => .node TUPLE [.node APPLY (sP :: c.pats), c.rhs])

/-- the environment in which `p` is defined by `exCases` -/
def exEnv : Env :=
  { env0 with appInfo := fun t => if t = sP then some ⟨.PROGRAM, some exProg, NONE, none⟩ else none }

theorem exDefined : Defined exEnv sP exCases := ⟨exProg, rfl, rfl⟩

/-- `(p (f a b))` evaluates to `(f b a)` by the second case; the first does not match -/
example : EvaluatesTo exEnv [] (.node APPLY [sP, fapp sA sB]) (fapp sB sA) := ⟨20, rfl⟩
/-- the same through `C29_instance`: its hypotheses hold -/
example : EvaluatesTo exEnv [] (.node APPLY [sP, fapp sA sB]) (subst (fun t => if t = sX then sA else sB) (fapp sY sX)) := by
  refine C29_instance exEnv [] sP [fapp sA sB] [⟨[fapp sX sX], sX⟩] [⟨[sA], .node APPLY [sP, fapp sA sB]⟩, ⟨[sB], .node APPLY [sP, sB]⟩]
    ⟨[fapp sX sY], fapp sY sX⟩ _ ⟨rfl, rfl⟩ exDefined ?_ ?_ ?_ rfl ?_ ?_
  · simp only [List.mem_singleton, forall_eq]; rw [isValue_iff]; exact ⟨rfl, rfl⟩
  · simp only [List.mem_singleton, forall_eq]
    refine ⟨rfl, ?_⟩
    rintro ⟨τ, h⟩
    simp only [Matches, List.map_cons, List.map_nil, List.cons.injEq, and_true, fapp, app2, subst, substs,
      Term.node.injEq, true_and, sX, sF, sA, sB, reduceCtorEq, if_false, if_true, false_and, and_true] at h
    rw [h.1] at h
    simp at h
  · simp only [List.mem_singleton, forall_eq]
    have : (fapp sX sY).evaluatable = false := rfl
    intro s hs ha
    have := (evaluatable_iff (fapp sX sY)).mpr ⟨s, hs, .inr ha⟩
    simp_all
  · intro s hs
    have he : (fapp sY sX).evaluatable = false := rfl
    constructor <;> intro h
    · have := (evaluatable_iff (fapp sY sX)).mpr ⟨s, hs, .inl h⟩; simp_all
    · have := (evaluatable_iff (fapp sY sX)).mpr ⟨s, hs, .inr h⟩; simp_all
  · intro x hx hp
    refine ⟨fapp sX sY, by simp, ?_⟩
    simp only [fapp, app2] at hx ⊢
    rcases hx.inv with rfl | ⟨c, hc, hx⟩
    · simp [IsParam, Term.children] at hp
    · simp only [Term.children, List.mem_cons, List.not_mem_nil, or_false] at hc
      rcases hc with rfl | rfl
      · rcases hx.inv with rfl | ⟨c, hc, hx⟩
        · simp [IsParam, Term.children] at hp
        · simp only [Term.children, List.mem_cons, List.not_mem_nil, or_false] at hc
          rcases hc with rfl | rfl
          · rcases hx.inv with rfl | ⟨c, hc, hx⟩
            · simp [IsParam, Term.kind, sF] at hp
            · simp [Term.children, sF] at hc
          · rcases hx.inv with rfl | ⟨c, hc, hx⟩
            · exact .child _ _ _ sY (by simp) (.refl _)
            · simp [Term.children, sY] at hc
      · rcases hx.inv with rfl | ⟨c, hc, hx⟩
        · exact .child _ _ _ (.node APPLY [sF, sX]) (by simp) (.child _ _ _ sX (by simp) (.refl _))
        · simp [Term.children, sX] at hc

/-- a stuck argument is propagated -/
example : EvaluatesTo exEnv [] (.node APPLY [sP, .node APPLY [sP, .lit (.num 1)]])
    (.node APPLY [sP, .node APPLY [sP, .lit (.num 1)]]) := ⟨20, rfl⟩

/-- the program `(p x) = (p x)` -/
def loopProg : Term := .node PROGRAM [.node TUPLE [.node APPLY [sP, sX], .node APPLY [sP, sX]]]
def loopEnv : Env :=
  { env0 with appInfo := fun t => if t = sP then some ⟨.PROGRAM, some loopProg, NONE, none⟩ else none }

/-- `(p a)` diverges -/
theorem loop_diverges : ¬ ∃ v, EvaluatesTo loopEnv [] (.node APPLY [sP, sA]) v := by
  have hargs : ∀ ctx cs p ps, EvalList (OpResult loopEnv) (ProgResult loopEnv) ctx cs (p :: ps) →
      ((cs = [sP, sX] ∧ ctx = [(sX, sA)]) ∨ cs = [sP, sA]) → p = sP ∧ ps = [sA] := by
    rintro ctx cs p ps h hc
    have h1 : ∀ ctx, Eval (OpResult loopEnv) (ProgResult loopEnv) ctx sP sP :=
      fun ctx => .leaf _ _ (by simp [IsParam, Term.kind, sP]) rfl
    have h2 : ∀ ctx, Eval (OpResult loopEnv) (ProgResult loopEnv) ctx sA sA :=
      fun ctx => .leaf _ _ (by simp [IsParam, Term.kind, sA]) rfl
    have h3 : Eval (OpResult loopEnv) (ProgResult loopEnv) [(sX, sA)] sX sA := .bound _ _ _ ⟨rfl, rfl⟩ rfl
    have : EvalList (OpResult loopEnv) (ProgResult loopEnv) ctx cs [sP, sA] := by
      rcases hc with ⟨rfl, rfl⟩ | rfl
      · exact .cons _ _ _ _ _ (h1 _) (.cons _ _ _ _ _ h3 (.nil _))
      · exact .cons _ _ _ _ _ (h1 _) (.cons _ _ _ _ _ (h2 _) (.nil _))
    simpa using EvalList.det OpResult.det ProgResult.det h this
  have hP : ProgResult loopEnv [sP, sA] (some (.node APPLY [sP, sX], [(sX, sA)])) := rfl
  have shape : ∀ {ctx : Ctx} {k : Kind} {cs : List Term},
      ((Term.node k cs = .node APPLY [sP, sX] ∧ ctx = [(sX, sA)]) ∨ (Term.node k cs = .node APPLY [sP, sA])) →
      ((cs = [sP, sX] ∧ ctx = [(sX, sA)]) ∨ cs = [sP, sA]) := by
    rintro ctx k cs (⟨h, h'⟩ | h) <;> injection h with _ h2
    · exact .inl ⟨h2, h'⟩
    · exact .inr h2
  have key : ∀ ctx t v, Eval (OpResult loopEnv) (ProgResult loopEnv) ctx t v →
      ¬ ((t = .node APPLY [sP, sX] ∧ ctx = [(sX, sA)]) ∨ (t = .node APPLY [sP, sA])) := by
    intro ctx t v h
    refine Eval.rec (motive_1 := fun ctx t v _ => ¬ ((t = .node APPLY [sP, sX] ∧ ctx = [(sX, sA)]) ∨ (t = .node APPLY [sP, sA])))
      (motive_2 := fun _ _ _ _ => True) ?_ ?_ ?_ ?_ ?_ ?_ ?_ ?_ ?_ ?_ ?_ ?_ ?_ ?_ ?_ h
    · rintro ctx t v hp _ (⟨rfl, _⟩ | rfl) <;> simp [IsParam, Term.children] at hp
    · rintro ctx t hp _ (⟨rfl, _⟩ | rfl) <;> simp [IsParam, Term.children] at hp
    · rintro ctx t _ hc (⟨rfl, _⟩ | rfl) <;> simp [Term.children] at hc
    · simp
    · simp
    · simp
    · rintro ctx k cs cs' v hk _ _ _ _ _ (⟨h, _⟩ | h) <;> injection h with h1 h2 <;> subst h1 <;> simp [isLiteralOp] at hk
    · rintro ctx k cs cs' hk _ _ _ _ _ (⟨h, _⟩ | h) <;> injection h with h1 h2 <;> subst h1 <;> simp [isLiteralOp] at hk
    · intro ctx k cs p ps _ hl _ hp _ h
      obtain ⟨rfl, rfl⟩ := hargs _ _ _ _ hl (shape h)
      have := ProgResult.det _ _ _ hP hp; simp at this
    · intro ctx k cs p ps body ctx' _ hl _ hp hg _ h
      obtain ⟨rfl, rfl⟩ := hargs _ _ _ _ hl (shape h)
      have := ProgResult.det _ _ _ hP hp
      simp only [Option.some.injEq, Prod.mk.injEq] at this
      obtain ⟨rfl, rfl⟩ := this
      rcases hg with hg | hg
      · revert hg; decide
      · simp at hg
    · intro ctx k cs p ps body ctx' v _ hl _ hp _ _ _ _ ih h
      obtain ⟨rfl, rfl⟩ := hargs _ _ _ _ hl (shape h)
      have := ProgResult.det _ _ _ hP hp
      simp only [Option.some.injEq, Prod.mk.injEq] at this
      obtain ⟨rfl, rfl⟩ := this
      exact ih (.inl ⟨rfl, rfl⟩)
    · intro ctx k cs p ps _ hl hp _ h
      obtain ⟨rfl, rfl⟩ := hargs _ _ _ _ hl (shape h)
      exact hp ⟨rfl, rfl⟩
    · rintro ctx k cs cs' _ hk _ _ _ _ (⟨h, _⟩ | h) <;> injection h with h1 h2 <;> exact hk h1
    · exact fun _ => trivial
    · intros; trivial
  rintro ⟨v, hv⟩
  exact key _ _ _ ((evaluatesTo_iff _ _ _ _).mp hv) (.inr rfl)

/-- a lazy `eo::ite` around a diverging branch: `(eo::ite true a (p a))` is `a` -/
example : EvaluatesTo loopEnv [] (.node EVAL_IF_THEN_ELSE [boolVal true, sA, .node APPLY [sP, sA]]) sA :=
  (C32_lazy loopEnv [] (boolVal true) sA (.node APPLY [sP, sA]) true ⟨5, rfl⟩ sA).mpr ⟨5, rfl⟩

end Ethos.Props
