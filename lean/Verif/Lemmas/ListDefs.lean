import Verif.Props.Ops
import Verif.Props.Core
import Verif.Spec.ListDefs
/- Evaluation of the programs of eo-definitions.eo. -/
namespace Ethos.Props
open Ethos Kind Spec

theorem sub_of_mem {s c : Term} {k : Kind} {cs : List Term} (h : c ∈ cs) (hs : Sub s c) : Sub s (.node k cs) := .child _ _ _ _ h hs

theorem sub_bin_f (f x y : Term) : Sub f (bin f x y) := sub_of_mem (c := .node APPLY [f, x]) (by simp) (sub_of_mem (by simp) (.refl _))
theorem sub_bin_x (f x y : Term) : Sub x (bin f x y) := sub_of_mem (c := .node APPLY [f, x]) (by simp) (sub_of_mem (by simp) (.refl _))
theorem sub_bin_y (f x y : Term) : Sub y (bin f x y) := sub_of_mem (by simp) (.refl _)

/-- the unknown does not occur -/
def AnyFree (t : Term) : Prop := ∀ s, Sub s t → ¬ IsAny s

theorem anyFree_param {x : Term} (h : IsParam x) : AnyFree x := by
  intro s hs ha
  rcases hs.inv with rfl | ⟨c, hc, _⟩
  · have h1 := h.1; have h2 := ha.1; rw [h1] at h2; cases h2
  · rw [h.2] at hc; simp at hc

theorem anyFree_node {k : Kind} {cs : List Term} (hne : cs ≠ []) (h : ∀ c ∈ cs, AnyFree c) : AnyFree (.node k cs) := by
  intro s hs ha
  rcases hs.inv with rfl | ⟨c, hc, hs⟩
  · exact hne ha.2
  · exact h c hc s hs ha

theorem anyFree_value {t : Term} (h : IsValue t) : AnyFree t := fun s hs => (h s hs).2.1

theorem anyFree_bin {f x y : Term} (hf : AnyFree f) (hx : AnyFree x) (hy : AnyFree y) : AnyFree (bin f x y) :=
  anyFree_node (by simp) (by
    simp only [List.mem_cons, List.not_mem_nil, or_false, forall_eq_or_imp, forall_eq]
    exact ⟨anyFree_node (by simp) (by simpa using ⟨hf, hx⟩), hy⟩)

theorem not_ground_param {x t : Term} (hx : IsParam x) (h : Sub x t) : t.ground = false := by
  cases hg : t.ground with
  | false => rfl
  | true => exact absurd hx ((ground_iff t).mp hg x h).1

theorem subst_param {σ : Term → Term} {x : Term} (h : IsParam x) : subst σ x = σ x := by
  cases x with
  | sym k i => have := h.1; simp only [Term.kind] at this; subst this; simp [subst]
  | lit l => have := h.1; simp only [Term.kind] at this; cases l <;> simp [Lit.kind] at this
  | node k cs => have h1 := h.1; have h2 := h.2; simp only [Term.kind, Term.children] at h1 h2; subst h1; subst h2; simp [subst]

theorem subst_bin (σ : Term → Term) (f x y : Term) : subst σ (bin f x y) = bin (subst σ f) (subst σ x) (subst σ y) := by
  simp [bin, subst, substs]

theorem subst_of_value (σ : Term → Term) : ∀ t : Term, IsValue t → subst σ t = t := by
  intro t
  induction t using Term.induct' with
  | h t ih =>
    intro hv
    by_cases hch : t.children = []
    · exact subst_leaf_other σ t hch (hv t (.refl _)).1
    · obtain ⟨k, cs, rfl, hcs⟩ := node_of_children hch
      have : substs σ cs = cs := by
        have hall : ∀ c ∈ cs, subst σ c = c := fun c hc => ih c hc (fun s hs => hv s (.child _ _ _ _ hc hs))
        clear ih hv hch hcs
        induction cs with
        | nil => rfl
        | cons c cs ih => rw [substs, hall c (by simp), ih fun c hc => hall c (by simp [hc])]
      rw [subst, if_neg (fun h => hcs h.2), this]

theorem bool_value (b : Bool) : IsValue (boolVal b) := lit_value _
theorem int_value (z : Int) : IsValue (int z) := lit_value _

theorem value_bin {f x y : Term} : IsValue (bin f x y) ↔ IsValue f ∧ IsValue x ∧ IsValue y := by
  constructor
  · intro h
    exact ⟨fun s hs => h s (hs.trans (sub_bin_f f x y)), fun s hs => h s (hs.trans (sub_bin_x f x y)), fun s hs => h s (hs.trans (sub_bin_y f x y))⟩
  · rintro ⟨hf, hx, hy⟩ s hs
    have leafless : ∀ cs : List Term, cs ≠ [] → ¬ IsParam (.node APPLY cs) ∧ ¬ IsAny (.node APPLY cs) ∧ ¬ IsComputation (.node APPLY cs) := by
      intro cs hne
      refine ⟨fun h => hne h.2, fun h => hne h.2, ?_⟩
      rintro (h | h)
      · exact hne h.2
      · simp [Term.kind, isLiteralOp] at h
    rcases hs.inv with rfl | ⟨c, hc, hs1⟩
    · exact leafless _ (by simp)
    · simp only [bin, Term.children, List.mem_cons, List.not_mem_nil, or_false] at hc
      rcases hc with rfl | rfl
      · rcases hs1.inv with rfl | ⟨c, hc, hs2⟩
        · exact leafless _ (by simp)
        · simp only [Term.children, List.mem_cons, List.not_mem_nil, or_false] at hc
          rcases hc with rfl | rfl
          · exact hf s hs2
          · exact hx s hs2
      · exact hy s hs1

theorem value_rlist {f nil : Term} (hf : IsValue f) (hn : IsValue nil) : ∀ xs : List Term, IsValue (rlist f nil xs) ↔ ∀ x ∈ xs, IsValue x
  | [] => by simp [rlist, hn]
  | x :: xs => by simp [rlist, value_bin, value_rlist hf hn xs, hf]

theorem notProg_of_value {t : Term} (h : IsValue t) : ¬ IsProg t := fun hp => (h t (.refl _)).2.2 (.inl hp)

section
variable {env : Env}

/-- evaluation of an application `(f x y)` of a value -/
theorem ev_bin {ctx : Ctx} {F X Y f x y : Term} (hf : IsValue f) (h1 : EvaluatesTo env ctx F f) (h2 : EvaluatesTo env ctx X x)
    (h3 : EvaluatesTo env ctx Y y) : EvaluatesTo env ctx (bin F X Y) (bin f x y) := by
  rw [evaluatesTo_iff] at *
  refine .app _ _ _ _ _ (.inl rfl) (.cons _ _ _ _ _ (.app _ _ _ _ _ (.inl rfl) (.cons _ _ _ _ _ h1 (.cons _ _ _ _ _ h2 (.nil _))) (notProg_of_value hf))
    (.cons _ _ _ _ _ h3 (.nil _))) ?_
  intro h
  simp [IsProg, Term.children] at h

theorem ev_list {ctx : Ctx} : ∀ (qs : List (Term × Term)), (∀ q ∈ qs, EvaluatesTo env ctx q.1 q.2) →
    EvalList (OpResult env) (ProgResult env) ctx (qs.map Prod.fst) (qs.map Prod.snd)
  | [], _ => .nil _
  | q :: qs, h => .cons _ _ _ _ _ ((evaluatesTo_iff _ _ _ _).mp (h q (by simp))) (ev_list qs fun q hq => h q (by simp [hq]))

/-- the cases of a program in the form used by C29 -/
theorem _root_.Ethos.Spec.ProgramIs.defined {p : Term} {cases : List (List Term × Term)} (h : ProgramIs env p cases) :
    Defined env p (cases.map fun c => ⟨c.1, c.2⟩) := by
  obtain ⟨_, prog, h1, h2⟩ := h
  exact ⟨prog, h1, by rw [h2, List.map_map]; rfl⟩

theorem _root_.Ethos.Spec.ProgramIs.result {p : Term} {cases : List (List Term × Term)} (h : ProgramIs env p cases) {args : List Term}
    (hv : ∀ a ∈ args, IsValue a) : ∃ r, ProgResult env (p :: args) r := by
  unfold ProgResult
  rw [evalProgram_values h.1 h.defined hv]
  generalize (cases.map fun c => (⟨c.1, c.2⟩ : Case)) = cs
  induction cs with
  | nil => exact ⟨none, rfl⟩
  | cons c cs ih =>
    rw [List.map_cons, runCases_cons]
    split
    · exact ⟨_, rfl⟩
    · split
      · exact ⟨_, rfl⟩
      · exact ih

/-- a program is applied to the values of its arguments -/
theorem ev_call {ctx : Ctx} {p : Term} {cases : List (List Term × Term)} (hp : ProgramIs env p cases) (qs : List (Term × Term))
    (hq : ∀ q ∈ qs, EvaluatesTo env ctx q.1 q.2) (hv : ∀ q ∈ qs, IsValue q.2) (v : Term) :
    EvaluatesTo env ctx (call p (qs.map Prod.fst)) v ↔ EvaluatesTo env [] (call p (qs.map Prod.snd)) v := by
  have hv' : ∀ a ∈ qs.map Prod.snd, IsValue a := by
    intro a ha
    obtain ⟨q, hq, rfl⟩ := List.mem_map.mp ha
    exact hv q hq
  obtain ⟨r, hr⟩ := hp.result hv'
  rw [evaluatesTo_iff, evaluatesTo_iff]
  unfold call
  rw [eval_prog OpResult.det ProgResult.det hp.1 (ev_list qs hq) hr v,
    eval_prog OpResult.det ProgResult.det hp.1 (evalList_values [] _ hv') hr v]

/-- the first matching case, with a right-hand side to be evaluated -/
theorem run_case {p : Term} {pre post : List (List Term × Term)} {pats : List Term} {rhs : Term} (hp : ProgramIs env p (pre ++ (pats, rhs) :: post))
    {vs : List Term} (hv : ∀ a ∈ vs, IsValue a) (σ : Term → Term)
    (hpre : ∀ d ∈ pre, d.1.length = vs.length ∧ ¬ ∃ τ, d.1.map (subst τ) = vs)
    (hany : ∀ q ∈ pats, AnyFree q) (hm : pats.map (subst σ) = vs) (ps : List Term)
    (hps : ∀ x ∈ ps, IsParam x ∧ ∃ q ∈ pats, Sub x q) (hr : ∃ x ∈ ps, Sub x rhs) {v : Term}
    (h : ∀ ctx : Ctx, (∀ x ∈ ps, ctx.find x = some (σ x)) → EvaluatesTo env ctx rhs v) : EvaluatesTo env [] (call p vs) v := by
  have hd := hp.defined
  rw [List.map_append, List.map_cons] at hd
  obtain ⟨ctx', h1, h2, h3⟩ := C29_value env [] p vs _ _ ⟨pats, rhs⟩ σ hp.1 hd hv (by
    intro d hd
    obtain ⟨q, hq, rfl⟩ := List.mem_map.mp hd
    exact hpre q hq) hany hm
  refine (h3 v).mpr (.inr ⟨?_, ?_, h ctx' ?_⟩)
  · obtain ⟨x, hx, hs⟩ := hr
    exact not_ground_param (hps x hx).1 hs
  · obtain ⟨x, hx, hs⟩ := hr
    obtain ⟨hpx, q, hq, hsx⟩ := hps x hx
    have := h1 q hq x hsx hpx
    intro he
    rw [he] at this
    simp [Ctx.find] at this
  · intro x hx
    obtain ⟨hpx, q, hq, hsx⟩ := hps x hx
    exact h1 q hq x hsx hpx

/-- the first matching case, with a right-hand side that is a value -/
theorem run_const {p : Term} {pre post : List (List Term × Term)} {pats : List Term} {rhs : Term} (hp : ProgramIs env p (pre ++ (pats, rhs) :: post))
    {vs : List Term} (hv : ∀ a ∈ vs, IsValue a) (σ : Term → Term)
    (hpre : ∀ d ∈ pre, d.1.length = vs.length ∧ ¬ ∃ τ, d.1.map (subst τ) = vs)
    (hany : ∀ q ∈ pats, AnyFree q) (hm : pats.map (subst σ) = vs) (hr : IsValue rhs) : EvaluatesTo env [] (call p vs) rhs := by
  have hd := hp.defined
  rw [List.map_append, List.map_cons] at hd
  obtain ⟨ctx', h1, h2, h3⟩ := C29_value env [] p vs _ _ ⟨pats, rhs⟩ σ hp.1 hd hv (by
    intro d hd
    obtain ⟨q, hq, rfl⟩ := List.mem_map.mp hd
    exact hpre q hq) hany hm
  exact (h3 rhs).mpr (.inl ⟨.inl ((isValue_iff rhs).mp hr).1, rfl⟩)

/-- a bound parameter -/
theorem ev_param {ctx : Ctx} {x v : Term} (hx : IsParam x) (h : ctx.find x = some v) : EvaluatesTo env ctx x v := by
  rw [evaluatesTo_iff]; exact .bound _ _ _ hx h

/-- `(eo::requires c true t)` where the condition is Boolean -/
theorem ev_guarded {ctx : Ctx} {c t v : Term} {b : Bool} (hc : EvaluatesTo env ctx c (boolVal b)) (hv : IsValue v) :
    EvaluatesTo env ctx (guarded c t) v ↔ b = true ∧ EvaluatesTo env ctx t v := by
  constructor
  · intro h
    rw [evaluatesTo_iff] at h
    have key : ∀ cs', EvalList (OpResult env) (ProgResult env) ctx [c, boolVal true, t] cs' →
        ∃ t', cs' = [boolVal b, boolVal true, t'] ∧ EvaluatesTo env ctx t t' := by
      intro cs' hl
      cases hl with
      | cons _ _ _ c' _ h1 hl =>
      cases hl with
      | cons _ _ _ b' _ h2 hl =>
      cases hl with
      | cons _ _ _ t' _ h3 hl =>
      cases hl
      have e1 : c' = boolVal b := C31_deterministic env ctx c _ _ ((evaluatesTo_iff _ _ _ _).mpr h1) hc
      have e2 : b' = boolVal true := C31_deterministic env ctx _ _ _ ((evaluatesTo_iff _ _ _ _).mpr h2) (value_eval _ _ _ (bool_value _))
      subst e1; subst e2
      exact ⟨t', rfl, (evaluatesTo_iff _ _ _ _).mpr h3⟩
    unfold guarded at h
    cases h with
    | op _ _ _ cs' _ _ _ _ hl ho =>
      obtain ⟨t', rfl, ht⟩ := key _ hl
      cases b with
      | true =>
        have := OpResult.det _ _ _ _ ho ((C11_requires env (boolVal true) (boolVal true) t').1 ⟨bool_value _, rfl⟩)
        simp only [Option.some.injEq] at this
        subst this
        exact ⟨rfl, ht⟩
      | false =>
        have := OpResult.det _ _ _ _ ho ((C11_requires env (boolVal false) (boolVal true) t').2 (by simp [boolVal]))
        simp at this
    | opStuck _ _ _ cs' _ _ _ hl ho =>
      obtain ⟨t', rfl, ht⟩ := key _ hl
      exact absurd hv (not_value_node _ _ rfl (by simp))
    | bound _ _ _ hp => simp [IsParam, Term.children] at hp
    | free _ _ hp => simp [IsParam, Term.children] at hp
    | leaf _ _ _ hc => simp [Term.children] at hc
    | progStuck _ _ _ _ _ h => simp at h
    | progConst _ _ _ _ _ _ _ h => simp at h
    | progRun _ _ _ _ _ _ _ _ h => simp at h
    | app _ _ _ _ _ h => simp at h
    | other _ _ _ _ h => simp [isLiteralOp] at h
  · rintro ⟨rfl, ht⟩
    exact (C31_operator env ctx EVAL_REQUIRES [(c, boolVal true), (boolVal true, boolVal true), (t, v)] rfl (by simp) (by simp)
      (by simp only [List.mem_cons, List.not_mem_nil, or_false, forall_eq_or_imp, forall_eq]; exact ⟨hc, value_eval _ _ _ (bool_value _), ht⟩) _).mpr
      (.inl ((C11_requires env _ _ _).1 ⟨bool_value _, rfl⟩))

/-- the sum of two numerals -/
theorem ev_add {ctx : Ctx} {a b : Term} {i j : Int} (ha : EvaluatesTo env ctx a (int i)) (hb : EvaluatesTo env ctx b (int j)) :
    EvaluatesTo env ctx (.node EVAL_ADD [a, b]) (int (i + j)) := by
  refine (C31_operator env ctx EVAL_ADD [(a, int i), (b, int j)] rfl (by simp) (by simp) (by simpa using ⟨ha, hb⟩) _).mpr (.inl ?_)
  exact litop_result env EVAL_ADD [.num i, .num j] (some (.num (i + j))) (fun _ => rfl) (by simp) (by simp) rfl (by rfl)

/-- distinct terms can be given any values -/
theorem exists_sub : ∀ (ks vs : List Term), ks.Nodup → ks.length = vs.length → ∃ σ : Term → Term, ks.map σ = vs
  | [], [], _, _ => ⟨id, rfl⟩
  | [], _ :: _, _, h => by simp at h
  | _ :: _, [], _, h => by simp at h
  | k :: ks, v :: vs, hd, hl => by
    rw [List.nodup_cons] at hd
    obtain ⟨σ, h⟩ := exists_sub ks vs hd.2 (by simpa using hl)
    refine ⟨fun t => if t = k then v else σ t, ?_⟩
    rw [List.map_cons, if_pos rfl, ← h]
    congr 1
    refine List.map_congr_left fun a ha => ?_
    rw [if_neg]
    rintro rfl
    exact hd.1 ha

end

end Ethos.Props
