import Verif.Spec.Substitution
import Verif.Lemmas.Substitution
import Verif.Props.Safety
/-
C79: binding parameters is substituting for them.
-/
namespace Ethos.Props
open Ethos Kind Spec

theorem eval_bound {O : Kind → List Term → Option Term → Prop} {P : List Term → Option (Term × Ctx) → Prop} {c : Ctx} {p : Term} (hp : IsParam p) (w : Term) :
    Eval O P c p w ↔ w = (c.find p).getD p := by
  constructor
  · exact fun h => (Eval.leaf_inv hp.2 h).1 hp
  · rintro rfl
    cases h : c.find p with
    | none => exact .free _ _ hp h
    | some v => exact .bound _ _ _ hp h

theorem subst_id (t : Term) : subst id t = t := by
  induction t using Term.induct with
  | hsym k i => simp [subst]
  | hlit l => simp [subst]
  | hnode k cs ih =>
    simp only [subst, id, substs_eq_map]
    split
    · rfl
    · rw [List.map_congr_left ih, List.map_id']

/-- only the bindings of parameters that occur in the term matter -/
theorem C79_relevant (env : Env) {c d : Ctx} {t : Term} (h : ∀ p, Sub p t → IsParam p → c.find p = d.find p) (w : Term) : EvaluatesTo env c t w ↔ EvaluatesTo env d t w := by
  rw [evaluatesTo_iff, evaluatesTo_iff]
  have hid : ∀ s : Term, subst id s = s := fun s => subst_id s
  have := eval_transfer (O := OpResult env) (P := ProgResult env) (c := c) (d := d) (σ := id) t
    (fun p hs hp w => by rw [eval_bound hp, id, eval_bound hp, h p hs hp]) (fun s _ _ _ _ => hid s) w
  rwa [hid] at this

/-- so a term without parameters has one value, under all bindings -/
theorem C79_closed (env : Env) (c d : Ctx) {t : Term} (h : ∀ p, Sub p t → ¬ IsParam p) (w : Term) : EvaluatesTo env c t w ↔ EvaluatesTo env d t w :=
  C79_relevant env (fun p hs hp => absurd hp (h p hs)) w

/-- a parameter that is bound to the value of a term can be replaced by the term: it makes no difference whether the arguments are
evaluated before or after they are put in the place of the parameters -/
theorem C79_arguments (env : Env) {c d : Ctx} {σ : Term → Term} {t : Term} (hi : IteComplete t) (h : ∀ p, Sub p t → IsParam p → ∃ v, c.find p = some v ∧ EvaluatesTo env d (σ p) v) (w : Term) :
    EvaluatesTo env c t w ↔ EvaluatesTo env d (subst σ t) w := by
  rw [evaluatesTo_iff, evaluatesTo_iff]
  refine eval_transfer t (fun p hs hp w => ?_) (fun s hs hk hc hl => absurd (hi s hs hk hc) hl) w
  obtain ⟨v, h1, h2⟩ := h p hs hp
  rw [evaluatesTo_iff] at h2
  rw [eval_bound hp, h1]
  exact ⟨fun e => by rw [e]; exact h2, fun e => Eval.det OpResult.det ProgResult.det e h2⟩

/-- evaluating under bindings is evaluating the term in which the bound parameters are replaced, if what they are bound to has nothing
to evaluate -/
theorem C79_substitute (env : Env) {c : Ctx} {t : Term} (hi : IteComplete t) (h : ∀ p v, Sub p t → IsParam p → c.find p = some v → EvaluatesTo env [] v v) (w : Term) :
    EvaluatesTo env c t w ↔ EvaluatesTo env [] (subst (ctxSub c) t) w := by
  rw [evaluatesTo_iff, evaluatesTo_iff]
  refine eval_transfer t (fun p hs hp w => ?_) (fun s hs hk hc hl => absurd (hi s hs hk hc) hl) w
  rw [eval_bound hp, ctxSub]
  cases hf : c.find p with
  | none =>
    rw [Option.getD_none, eval_bound hp]
    rfl
  | some v =>
    have h2 := h p v hs hp hf
    rw [evaluatesTo_iff] at h2
    exact ⟨fun e => by rw [e]; exact h2, fun e => Eval.det OpResult.det ProgResult.det e h2⟩

theorem value_self (env : Env) (c : Ctx) {v : Term} (h : IsValue v) : EvaluatesTo env c v v := by
  rw [evaluatesTo_iff]
  have := (isValue_iff v).mp h
  exact Eval.self c v this.2 (.inl this.1)

/-- in particular if they are bound to values -/
theorem C79_values (env : Env) {c : Ctx} {t : Term} (hi : IteComplete t) (h : ∀ p v, c.find p = some v → IsValue v) (w : Term) :
    EvaluatesTo env c t w ↔ EvaluatesTo env [] (subst (ctxSub c) t) w :=
  C79_substitute env hi (fun p v _ _ hf => value_self env [] (h p v hf)) w

theorem sub_of_subst {σ : Term → Term} {x : Term} (hx : IsParam x) : ∀ t, Sub x t → Sub (σ x) (subst σ t) := by
  apply Term.induct'
  intro t ih hst
  rcases hst.inv with rfl | ⟨c, hc, hst'⟩
  · rw [leaf_param_eq _ _ hx]; exact .refl _
  · have hne : t.children ≠ [] := by intro h; rw [h] at hc; simp at hc
    obtain ⟨k, cs, rfl, hcs⟩ := node_of_children hne
    simp only [subst]
    rw [if_neg (fun h => hcs h.2), substs_eq_map]
    exact .child _ _ _ (subst σ c) (List.mem_map.mpr ⟨c, hc, rfl⟩) (ih c hc hst')

/-- a program applied to values has the value of the right-hand side of the first matching case, with the parameters replaced as the
match says; for right-hand sides with parameters, all of which are in the patterns -/
theorem C79_call (env : Env) (ctx : Ctx) (p : Term) (args : List Term) (pre post : List Case) (c : Case) (σ : Term → Term)
    (hp : IsProg p) (hd : Defined env p (pre ++ c :: post)) (hv : ∀ a ∈ args, IsValue a)
    (hpre : ∀ d ∈ pre, d.pats.length = args.length ∧ ¬ ∃ τ, Matches d τ args)
    (hany : ∀ q ∈ c.pats, ∀ s, Sub s q → ¬ IsAny s) (hm : Matches c σ args)
    (hpar : ∀ x, Sub x c.rhs → IsParam x → ∃ q ∈ c.pats, Sub x q) (hsome : ∃ x, Sub x c.rhs ∧ IsParam x) (hi : IteComplete c.rhs) (w : Term) :
    EvaluatesTo env ctx (.node APPLY (p :: args)) w ↔ EvaluatesTo env [] (subst σ c.rhs) w := by
  obtain ⟨ctx', h2, h3, h4⟩ := C29_value env ctx p args pre post c σ hp hd hv hpre hany hm
  obtain ⟨x, hx, hxp⟩ := hsome
  have hg : c.rhs.ground = false := by
    cases hg : c.rhs.ground with
    | false => rfl
    | true => exact absurd hxp ((ground_iff _).mp hg x hx).1
  have hne : ctx' ≠ [] := by
    rintro rfl
    obtain ⟨q, hq, hs⟩ := hpar x hx hxp
    have := h2 q hq x hs hxp
    simp [Ctx.find] at this
  have hstep : EvaluatesTo env ctx' c.rhs w ↔ EvaluatesTo env [] (subst σ c.rhs) w := by
    refine C79_arguments env hi (fun y hy hyp => ?_) w
    obtain ⟨q, hq, hs⟩ := hpar y hy hyp
    refine ⟨σ y, h2 q hq y hs hyp, value_self env [] ?_⟩
    have hmem : subst σ q ∈ args := by
      rw [← show c.pats.map (subst σ) = args from hm]
      exact List.mem_map.mpr ⟨q, hq, rfl⟩
    intro s hsub
    exact hv _ hmem s (hsub.trans (sub_of_subst hyp q hs))
  rw [h4, ← hstep]
  constructor
  · rintro (⟨h | h, _⟩ | ⟨_, _, h⟩)
    · rw [hg] at h; cases h
    · exact absurd h hne
    · exact h
  · exact fun h => .inr ⟨hg, hne, h⟩

/-- an applied macro denotes the value of its body with the parameters replaced by the arguments, for arguments with nothing to
evaluate -/
theorem C79_macro {env : Env} {body : Term} {vs args : List Term} {ctx : Ctx} (hi : env.appInfo (.node LAMBDA [.node TUPLE vs, body]) = none)
    (hd : vs.Nodup) (hl : vs.length = args.length) (hc : ∀ v a, ctx.find v = some a ↔ (v, a) ∈ vs.zip args) (hb : IteComplete body)
    (ha : ∀ a ∈ args, EvaluatesTo env [] a a) (w : Term) :
    Denotes env (.node LAMBDA [.node TUPLE vs, body]) args w ↔ EvaluatesTo env [] (subst (ctxSub ctx) body) w := by
  rw [C56_macro w hi hd hl hc]
  exact C79_substitute env hb (fun p v _ _ hf => ha v (List.of_mem_zip ((hc p v).1 hf)).2) w

/-- the parameters in an `eo::ite` with another number of arguments are not replaced (type_checker.cpp:617-625) -/
theorem C79_malformed_refuted : ∃ (env : Env) (c : Ctx) (t w : Term), (∀ p v, c.find p = some v → IsValue v) ∧ EvaluatesTo env c t w ∧ ¬ EvaluatesTo env [] (subst (ctxSub c) t) w := by
  have hf : EvaluatesTo safeEnv [] (subst (ctxSub [(safePar, .lit (.bool true))]) (.node EVAL_IF_THEN_ELSE [safePar])) (.node EVAL_IF_THEN_ELSE [.lit (.bool true)]) := ⟨9, by decide +kernel⟩
  refine ⟨safeEnv, [(safePar, .lit (.bool true))], .node EVAL_IF_THEN_ELSE [safePar], .node EVAL_IF_THEN_ELSE [safePar], ?_, ⟨9, by decide +kernel⟩, fun h => ?_⟩
  · intro p v h
    rw [Ctx.find, List.lookup] at h
    split at h
    · cases h
      exact (isValue_iff _).mpr ⟨rfl, rfl⟩
    · cases h
  · have := EvaluatesTo.det h hf
    revert this
    decide

/-! ### Example -/

theorem complete_leaf {t : Term} (h : t.children = []) : IteComplete t := by
  intro s hs _ hc
  rcases hs.inv with rfl | ⟨c, h', _⟩
  · exact absurd h hc
  · rw [h] at h'; cases h'
theorem complete_node {k : Kind} {cs : List Term} (h : k = EVAL_IF_THEN_ELSE → cs.length = 3) (hc : ∀ c ∈ cs, IteComplete c) : IteComplete (.node k cs) := by
  intro s hs hk hne
  rcases hs.inv with rfl | ⟨c, h', hs'⟩
  · exact h hk
  · exact hc c h' s hs' hk hne

theorem safeBody_complete : IteComplete safeBody := by
  have hp : IteComplete safePar := complete_leaf rfl
  refine complete_node (fun _ => rfl) ?_
  simp only [List.mem_cons, List.not_mem_nil, or_false, forall_eq_or_imp, forall_eq]
  refine ⟨complete_node (by decide) ?_, hp, complete_node (by decide) ?_⟩
  · simp only [List.mem_cons, List.not_mem_nil, or_false, forall_eq_or_imp, forall_eq]
    exact ⟨hp, complete_leaf rfl⟩
  · simp only [List.mem_cons, List.not_mem_nil, or_false, forall_eq_or_imp, forall_eq]
    refine ⟨complete_leaf rfl, complete_node (by decide) ?_⟩
    simp only [List.mem_cons, List.not_mem_nil, or_false, forall_eq]
    exact hp

/-- the hypotheses of `C79_call` hold for that program -/
example (w : Term) : EvaluatesTo safeEnv [] (.node APPLY [safeProg, .lit (.bool true)]) w ↔ EvaluatesTo safeEnv [] (subst (ctxSub [(safePar, .lit (.bool true))]) safeBody) w := by
  refine C79_call safeEnv [] safeProg [.lit (.bool true)] [] [] ⟨[safePar], safeBody⟩ _ ⟨rfl, rfl⟩ ⟨_, rfl, rfl⟩ ?_ (by simp) ?_ (by rfl) ?_ ⟨safePar, ?_, rfl, rfl⟩ safeBody_complete w
  · simp only [List.mem_cons, List.not_mem_nil, or_false, forall_eq]
    exact (isValue_iff _).mpr ⟨rfl, rfl⟩
  · simp only [List.mem_cons, List.not_mem_nil, or_false, forall_eq]
    intro s hs h
    rcases hs.inv with rfl | ⟨c, h', _⟩
    · exact absurd h.1 (by decide)
    · cases h'
  · intro x hx hp
    refine ⟨safePar, by simp, ?_⟩
    have hleaf : ∀ {t : Term}, t.children = [] → t = safePar ∨ ¬ IsParam t → Sub x t → x = safePar := by
      intro t hc ht h
      rcases h.inv with rfl | ⟨c, h', _⟩
      · rcases ht with h | h
        · exact h
        · exact absurd hp h
      · rw [hc] at h'; cases h'
    have hl : ∀ b : Bool, ¬ IsParam (.lit (.bool b)) := fun b h => absurd h.1 (by cases b <;> decide)
    have hnode : ∀ {k : Kind} {cs : List Term}, cs ≠ [] → (∀ c ∈ cs, Sub x c → x = safePar) → Sub x (.node k cs) → x = safePar := by
      intro k cs hne ih h
      rcases h.inv with rfl | ⟨c, h', h2⟩
      · exact absurd hp.2 hne
      · exact ih c h' h2
    have : x = safePar := by
      refine hnode (by simp) ?_ hx
      simp only [List.mem_cons, List.not_mem_nil, or_false, forall_eq_or_imp, forall_eq]
      refine ⟨hnode (by simp) ?_, hleaf rfl (.inl rfl), hnode (by simp) ?_⟩
      · simp only [List.mem_cons, List.not_mem_nil, or_false, forall_eq_or_imp, forall_eq]
        exact ⟨hleaf rfl (.inl rfl), hleaf rfl (.inr (hl _))⟩
      · simp only [List.mem_cons, List.not_mem_nil, or_false, forall_eq_or_imp, forall_eq]
        refine ⟨hleaf rfl (.inr fun h => absurd h.1 (by decide)), hnode (by simp) ?_⟩
        simp only [List.mem_cons, List.not_mem_nil, or_false, forall_eq]
        exact hleaf rfl (.inl rfl)
    rw [this]; exact .refl _
  · exact .child _ _ _ safePar (by simp) (.refl _)

/-- the program of C77 called with `true`: the right-hand side with `true` for the parameter is `(eo::ite (eo::is_eq true false) true
(p (eo::not true)))` -/
example : subst (ctxSub [(safePar, .lit (.bool true))]) safeBody = .node EVAL_IF_THEN_ELSE [.node EVAL_IS_EQ [.lit (.bool true), .lit (.bool false)], .lit (.bool true),
      .node APPLY [safeProg, .node EVAL_NOT [.lit (.bool true)]]] ∧
    (ops safeEnv 40).evaluate safeBody [(safePar, .lit (.bool true))] = .ok (.lit (.bool false)) ∧
    (ops safeEnv 40).evaluate (subst (ctxSub [(safePar, .lit (.bool true))]) safeBody) [] = .ok (.lit (.bool false)) := by decide +kernel

end Ethos.Props
