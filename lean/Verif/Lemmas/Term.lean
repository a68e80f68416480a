import Verif.Spec.Term
/-
Helper lemmas about terms.
-/
namespace Ethos
open Kind Spec Term

theorem Lit.kind_not_nonground (l : Lit) : leafNonGround l.kind = false := by cases l <;> rfl
theorem Lit.kind_not_eval (l : Lit) : leafEval l.kind = false := by cases l <;> rfl

theorem grounds_iff (cs : List Term) : grounds cs = true ↔ ∀ c ∈ cs, c.ground = true := by
  induction cs with
  | nil => simp [grounds]
  | cons c cs ih => simp [grounds, ih]

theorem grounds_eq_all (cs : List Term) : grounds cs = cs.all Term.ground := by
  induction cs with
  | nil => simp [grounds]
  | cons c cs ih => simp [grounds, ih]

theorem evaluatables_eq_any (cs : List Term) : evaluatables cs = cs.any Term.evaluatable := by
  induction cs with
  | nil => simp [evaluatables]
  | cons c cs ih => simp [evaluatables, ih]

theorem ground_node_cons (k : Kind) (cs : List Term) (h : cs ≠ []) : (Term.node k cs).ground = cs.all Term.ground := by
  cases cs with
  | nil => exact absurd rfl h
  | cons c cs => simp [ground, grounds_eq_all]

theorem evaluatable_node_cons (k : Kind) (cs : List Term) (h : cs ≠ []) :
    (Term.node k cs).evaluatable = (isLiteralOp k || cs.any Term.evaluatable) := by
  cases cs with
  | nil => exact absurd rfl h
  | cons c cs => simp [evaluatable, evaluatables_eq_any, Bool.or_assoc]

theorem ground_leaf (t : Term) (h : t.children = []) : t.ground = !leafNonGround t.kind := by
  cases t with
  | sym k i => rfl
  | lit l => rfl
  | node k cs => simp [children] at h; subst h; rfl

theorem evaluatable_leaf (t : Term) (h : t.children = []) : t.evaluatable = leafEval t.kind := by
  cases t with
  | sym k i => rfl
  | lit l => rfl
  | node k cs => simp [children] at h; subst h; rfl

theorem ground_inner (t : Term) (h : t.children ≠ []) : t.ground = t.children.all Term.ground := by
  cases t with
  | sym k i => simp [children] at h
  | lit l => simp [children] at h
  | node k cs => exact ground_node_cons k cs h

theorem evaluatable_inner (t : Term) (h : t.children ≠ []) :
    t.evaluatable = (isLiteralOp t.kind || t.children.any Term.evaluatable) := by
  cases t with
  | sym k i => simp [children] at h
  | lit l => simp [children] at h
  | node k cs => exact evaluatable_node_cons k cs h

theorem Spec.Sub.of_child {s t c : Term} (hc : c ∈ t.children) (h : Sub s c) : Sub s t := by
  cases t with
  | sym k i => simp [children] at hc
  | lit l => simp [children] at hc
  | node k cs => exact .child _ _ _ _ hc h

theorem Spec.Sub.inv {s t : Term} (h : Sub s t) : s = t ∨ ∃ c ∈ t.children, Sub s c := by
  cases h with
  | refl => exact Or.inl rfl
  | child k cs c hc h => exact Or.inr ⟨c, hc, h⟩

theorem Spec.Sub.trans {a b c : Term} (h1 : Sub a b) (h2 : Sub b c) : Sub a c := by
  induction h2 with
  | refl => exact h1
  | child k cs c hc _ ih => exact .child _ _ _ _ hc ih

theorem sizes_eq_sum (cs : List Term) : sizes cs = (cs.map size).sum := by
  induction cs with
  | nil => simp [sizes]
  | cons c cs ih => simp [sizes, ih]

theorem sizes_append (a b : List Term) : sizes (a ++ b) = sizes a + sizes b := by
  simp [sizes_eq_sum]

theorem sizes_reverse (a : List Term) : sizes a.reverse = sizes a := by
  simp [sizes_eq_sum, List.sum_reverse]

theorem size_children (t : Term) : sizes t.children + 1 = size t := by
  cases t <;> simp [children, sizes, size]; omega

theorem size_pos (t : Term) : 0 < size t := by
  have := size_children t; omega

theorem size_mem {c : Term} {cs : List Term} (h : c ∈ cs) : size c ≤ sizes cs := by
  induction cs with
  | nil => simp at h
  | cons d cs ih =>
    simp only [sizes]
    rcases List.mem_cons.mp h with rfl | h
    · omega
    · have := ih h; omega

theorem size_child_lt {c t : Term} (h : c ∈ t.children) : size c < size t := by
  have := size_mem h
  have := size_children t
  omega

theorem Spec.Sub.size_le {s t : Term} (h : Sub s t) : size s ≤ size t := by
  induction h with
  | refl => omega
  | child k cs c hc _ ih =>
    have : size c < size (node k cs) := size_child_lt (t := node k cs) hc
    omega

/-- induction on terms by children -/
theorem Term.induct' {P : Term → Prop} (h : ∀ t, (∀ c ∈ t.children, P c) → P t) : ∀ t, P t :=
  Term.induct (fun k i => h _ (by simp [children])) (fun l => h _ (by simp [children]))
    (fun k cs ih => h _ ih)

/-- no parameter or unknown occurs in a ground term, and conversely -/
theorem ground_iff (t : Term) : t.ground = true ↔ ∀ s, Sub s t → ¬ IsParam s ∧ ¬ IsAny s := by
  induction t using Term.induct' with
  | h t ih =>
    by_cases hl : t.children = []
    · rw [ground_leaf t hl]
      constructor
      · intro h s hs
        rcases hs.inv with rfl | ⟨c, hc, _⟩
        · simp [leafNonGround] at h
          exact ⟨fun hp => h.1 hp.1, fun hp => h.2 hp.1⟩
        · simp [hl] at hc
      · intro h
        have := h t (.refl t)
        simp [IsParam, IsAny, hl] at this
        simp [leafNonGround, this]
    · rw [ground_inner t hl, List.all_eq_true]
      constructor
      · intro h s hs
        rcases hs.inv with rfl | ⟨c, hc, hs⟩
        · exact ⟨fun hp => hl hp.2, fun hp => hl hp.2⟩
        · exact (ih c hc).mp (h c hc) s hs
      · intro h c hc
        exact (ih c hc).mpr (fun s hs => h s (hs.of_child hc))

theorem evaluatable_iff (t : Term) : t.evaluatable = true ↔ ∃ s, Sub s t ∧ (IsComputation s ∨ IsAny s) := by
  induction t using Term.induct' with
  | h t ih =>
    by_cases hl : t.children = []
    · rw [evaluatable_leaf t hl]
      constructor
      · intro h
        refine ⟨t, .refl t, ?_⟩
        simp [leafEval] at h
        rcases h with h | h
        · exact Or.inl (Or.inl ⟨h, hl⟩)
        · exact Or.inr ⟨h, hl⟩
      · rintro ⟨s, hs, h⟩
        rcases hs.inv with rfl | ⟨c, hc, _⟩
        · rcases h with (h | h) | h
          · simp [leafEval, h.1]
          · exact absurd hl h.2
          · simp [leafEval, h.1]
        · simp [hl] at hc
    · rw [evaluatable_inner t hl, Bool.or_eq_true, List.any_eq_true]
      constructor
      · rintro (h | ⟨c, hc, h⟩)
        · exact ⟨t, .refl t, Or.inl (Or.inr ⟨h, hl⟩)⟩
        · obtain ⟨s, hs, h⟩ := (ih c hc).mp h
          exact ⟨s, hs.of_child hc, h⟩
      · rintro ⟨s, hs, h⟩
        rcases hs.inv with rfl | ⟨c, hc, hs⟩
        · rcases h with (h | h) | h
          · exact absurd h.2 hl
          · exact Or.inl h.1
          · exact absurd h.2 hl
        · exact Or.inr ⟨c, hc, (ih c hc).mpr ⟨s, hs, h⟩⟩

theorem substs_eq_map (σ : Term → Term) (cs : List Term) : substs σ cs = cs.map (subst σ) := by
  induction cs with
  | nil => simp [substs]
  | cons c cs ih => simp [substs, ih]

/-- substitution does not change ground terms -/
theorem subst_ground (σ : Term → Term) (t : Term) (h : t.ground = true) : subst σ t = t := by
  induction t using Term.induct with
  | hsym k i =>
    simp [ground, leafNonGround] at h
    simp [subst, h]
  | hlit l => simp [subst]
  | hnode k cs ih =>
    rw [subst]
    split
    · rename_i hk
      rw [hk.1, hk.2] at h
      simp [ground, leafNonGround] at h
    · congr 1
      rw [substs_eq_map]
      have : cs.map (subst σ) = cs.map id := by
        apply List.map_congr_left
        intro c hc
        apply ih c hc
        have hne : cs ≠ [] := by intro h0; subst h0; simp at hc
        rw [ground_node_cons k cs hne, List.all_eq_true] at h
        exact h c hc
      simpa using this

theorem Lit.kind_ne_param (l : Lit) : l.kind ≠ PARAM := by cases l <;> simp [Lit.kind]

theorem subst_congr {σ τ : Term → Term} {t : Term} (h : ∀ p, Sub p t → IsParam p → σ p = τ p) :
    subst σ t = subst τ t := by
  induction t using Term.induct with
  | hsym k i =>
    simp only [subst]
    split
    · rename_i hk; exact h _ (.refl _) ⟨hk, rfl⟩
    · rfl
  | hlit l => simp [subst]
  | hnode k cs ih =>
    simp only [subst]
    split
    · rename_i hk; exact h _ (.refl _) ⟨hk.1, hk.2⟩
    · congr 1
      rw [substs_eq_map, substs_eq_map]
      apply List.map_congr_left
      intro c hc
      exact ih c hc (fun p hp => h p (.child _ _ _ _ hc hp))

end Ethos
