import Verif.Props.Macro
/-
Evaluation under bindings and evaluation after a substitution (C79).
-/
namespace Ethos.Props
open Ethos Kind Spec

section
variable {O : Kind → List Term → Option Term → Prop} {P : List Term → Option (Term × Ctx) → Prop} {c d : Ctx}

/-- a node other than `eo::ite`: only the values of the children matter -/
theorem eval_node_list {k : Kind} {cs cs' : List Term} {w : Term} (hk : k ≠ EVAL_IF_THEN_ELSE) (hcs : cs ≠ []) (hcs' : cs' ≠ []) (H : ∀ ws, EvalList O P c cs ws → EvalList O P d cs' ws)
    (h : Eval O P c (.node k cs) w) : Eval O P d (.node k cs') w := by
  cases h with
  | bound _ _ _ hp => exact absurd hp.2 hcs
  | free _ _ hp => exact absurd hp.2 hcs
  | leaf _ _ _ hc => exact absurd hc hcs
  | ite => exact absurd rfl hk
  | iteStuck => exact absurd rfl hk
  | iteBad => exact absurd rfl hk
  | op _ _ _ _ _ h1 h2 _ h4 h5 => exact .op _ _ _ _ _ h1 h2 hcs' (H _ h4) h5
  | opStuck _ _ _ _ h1 h2 _ h4 h5 => exact .opStuck _ _ _ _ h1 h2 hcs' (H _ h4) h5
  | progStuck _ _ _ _ _ h1 h2 h3 h4 => exact .progStuck _ _ _ _ _ h1 (H _ h2) h3 h4
  | progConst _ _ _ _ _ _ _ h1 h2 h3 h4 h5 => exact .progConst _ _ _ _ _ _ _ h1 (H _ h2) h3 h4 h5
  | progRun _ _ _ _ _ _ _ _ h1 h2 h3 h4 h5 h6 h7 => exact .progRun _ _ _ _ _ _ _ _ h1 (H _ h2) h3 h4 h5 h6 h7
  | app _ _ _ _ _ h1 h2 h3 => exact .app _ _ _ _ _ h1 (H _ h2) h3
  | other _ _ _ _ h1 h2 h3 _ h5 => exact .other _ _ _ _ h1 h2 h3 hcs' (H _ h5)

/-- `eo::ite` with its three arguments -/
theorem eval_node_ite {a x y a' x' y' w : Term} (ha : ∀ w, Eval O P c a w → Eval O P d a' w) (hx : ∀ w, Eval O P c x w → Eval O P d x' w) (hy : ∀ w, Eval O P c y w → Eval O P d y' w)
    (h : Eval O P c (.node EVAL_IF_THEN_ELSE [a, x, y]) w) : Eval O P d (.node EVAL_IF_THEN_ELSE [a', x', y']) w := by
  cases h with
  | bound _ _ _ hp => exact absurd hp.2 (by simp [Term.children])
  | free _ _ hp => exact absurd hp.2 (by simp [Term.children])
  | leaf _ _ _ hc => exact absurd hc (by simp [Term.children])
  | ite _ _ _ _ b _ h1 h2 => exact .ite _ _ _ _ b _ (ha _ h1) (by cases b <;> simp only [if_true, Bool.false_eq_true, if_false] at h2 ⊢ <;> first | exact hx _ h2 | exact hy _ h2)
  | iteStuck _ _ _ _ _ _ _ h1 h2 h3 h4 => exact .iteStuck _ _ _ _ _ _ _ (ha _ h1) h2 (hx _ h3) (hy _ h4)
  | iteBad _ _ _ h => exact absurd rfl h
  | op _ _ _ _ _ _ h => exact absurd rfl h
  | opStuck _ _ _ _ _ h => exact absurd rfl h
  | progStuck _ _ _ _ _ h => exact absurd h (by decide)
  | progConst _ _ _ _ _ _ _ h => exact absurd h (by decide)
  | progRun _ _ _ _ _ _ _ _ h => exact absurd h (by decide)
  | app _ _ _ _ _ h => exact absurd h (by decide)
  | other _ _ _ _ h => exact absurd h (by decide)

theorem evalList_transfer {f : Term → Term} : ∀ {cs ws : List Term}, (∀ t ∈ cs, ∀ w, Eval O P c t w → Eval O P d (f t) w) → EvalList O P c cs ws → EvalList O P d (cs.map f) ws
  | [], _, _, .nil _ => .nil _
  | t :: _, _, H, .cons _ _ _ _ _ h1 h2 => .cons _ _ _ _ _ (H t (by simp) _ h1) (evalList_transfer (fun t ht => H t (by simp [ht])) h2)

theorem evalList_transfer_back {f : Term → Term} : ∀ {cs ws : List Term}, (∀ t ∈ cs, ∀ w, Eval O P d (f t) w → Eval O P c t w) → EvalList O P d (cs.map f) ws → EvalList O P c cs ws
  | [], _, _, .nil _ => .nil _
  | t :: cs, _, H, .cons _ _ _ _ _ h1 h2 => .cons _ _ _ _ _ (H t (by simp) _ h1) (evalList_transfer_back (fun t ht => H t (by simp [ht])) h2)

/-- an `eo::ite` without three arguments -/
theorem eval_node_bad {cs : List Term} {w : Term} (hcs : cs ≠ []) (hl : cs.length ≠ 3) : Eval O P c (.node EVAL_IF_THEN_ELSE cs) w ↔ w = .node EVAL_IF_THEN_ELSE cs := by
  constructor
  · intro h
    cases h with
    | bound _ _ _ hp => exact absurd hp.2 hcs
    | free _ _ hp => exact absurd hp.2 hcs
    | leaf _ _ _ hc => exact absurd hc hcs
    | ite => exact absurd rfl hl
    | iteStuck => exact absurd rfl hl
    | iteBad => rfl
    | op _ _ _ _ _ _ h => exact absurd rfl h
    | opStuck _ _ _ _ _ h => exact absurd rfl h
    | progStuck _ _ _ _ _ h => exact absurd h (by decide)
    | progConst _ _ _ _ _ _ _ h => exact absurd h (by decide)
    | progRun _ _ _ _ _ _ _ _ h => exact absurd h (by decide)
    | app _ _ _ _ _ h => exact absurd h (by decide)
    | other _ _ _ _ h => exact absurd h (by decide)
  · rintro rfl
    exact .iteBad _ _ hcs hl

/-- replacing each parameter by something that has the same value -/
theorem eval_transfer {σ : Term → Term} : ∀ t : Term, (∀ p, Sub p t → IsParam p → ∀ w, Eval O P c p w ↔ Eval O P d (σ p) w) →
    (∀ s, Sub s t → s.kind = EVAL_IF_THEN_ELSE → s.children ≠ [] → s.children.length ≠ 3 → subst σ s = s) →
    ∀ w, Eval O P c t w ↔ Eval O P d (subst σ t) w := by
  apply Term.induct'
  intro t ih hp hb w
  by_cases hc : t.children = []
  · by_cases hpar : IsParam t
    · rw [leaf_param_eq σ t hpar]; exact hp t (.refl _) hpar w
    · rw [subst_leaf_other σ t hc hpar]
      have : ∀ e : Ctx, Eval O P e t w ↔ w = t := fun e => ⟨fun h => (Eval.leaf_inv hc h).2 hpar, fun h => by rw [h]; exact .leaf _ _ hpar hc⟩
      rw [this, this]
  · obtain ⟨k, cs, rfl, hcs⟩ := node_of_children hc
    have ih' : ∀ t ∈ cs, ∀ w, Eval O P c t w ↔ Eval O P d (subst σ t) w := fun t ht =>
      ih t ht (fun p hs => hp p (.child _ _ _ _ ht hs)) (fun s hs => hb s (.child _ _ _ _ ht hs))
    have he : subst σ (.node k cs) = .node k (cs.map (subst σ)) := by
      simp only [subst]
      rw [if_neg (fun h => hcs h.2), substs_eq_map]
    by_cases hk : k = EVAL_IF_THEN_ELSE
    · subst hk
      by_cases hl : cs.length = 3
      · match cs, hl with
        | [a, x, y], _ =>
          rw [he]
          have ha := ih' a (by simp)
          have hx := ih' x (by simp)
          have hy := ih' y (by simp)
          exact ⟨eval_node_ite (fun w => (ha w).1) (fun w => (hx w).1) (fun w => (hy w).1), eval_node_ite (fun w => (ha w).2) (fun w => (hx w).2) (fun w => (hy w).2)⟩
      · rw [hb _ (.refl _) rfl hcs hl, eval_node_bad hcs hl, eval_node_bad hcs hl]
    · rw [he]
      have hcs' : cs.map (subst σ) ≠ [] := by simpa using hcs
      exact ⟨eval_node_list hk hcs hcs' fun ws => evalList_transfer fun t ht w => (ih' t ht w).1,
        eval_node_list hk hcs' hcs fun ws => evalList_transfer_back fun t ht w => (ih' t ht w).2⟩

end

end Ethos.Props
