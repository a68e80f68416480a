import Verif.Lemmas.Flags
/-
Helper lemmas for C22: the loops of getVariables and hasVariable.
-/
namespace Ethos.Props
open Kind Spec Term

theorem ground_child {t c : Term} (ht : t.ground = true) (hc : c ∈ t.children) : c.ground = true := by
  rw [ground_iff] at ht ⊢
  exact fun s hs => ht s (Sub.of_child hc hs)

theorem ground_sub {t c : Term} (ht : t.ground = true) (hc : Sub c t) : c.ground = true := by
  rw [ground_iff] at ht ⊢
  exact fun s hs => ht s (hs.trans hc)

theorem param_not_ground {t : Term} (h : IsParam t) : t.ground = false := by
  rw [ground_leaf t h.2, h.1]; rfl

/-- loop invariant of `getVariables` -/
structure VarInv (es st visited ret : List Term) : Prop where
  wf : ∀ u, u ∈ st ∨ u ∈ visited → ∃ e ∈ es, Sub u e
  roots : ∀ e ∈ es, e.ground = true ∨ e ∈ visited ∨ e ∈ st
  closed : ∀ u ∈ visited, u.kind ≠ PARAM → ∀ c ∈ u.children, c.ground = true ∨ c ∈ visited ∨ c ∈ st
  rt : ∀ u, u ∈ ret ↔ u ∈ visited ∧ u.kind = PARAM
  nodup : ret.Nodup

theorem getVariablesLoop_correct (es : List Term) (hl : ∀ e ∈ es, ParamsAreLeaves e) :
    ∀ (n : Nat) (st visited ret : List Term), VarInv es st visited ret → sizes st ≤ n →
    ∃ r, getVariablesLoop n st visited ret = some r ∧ r.Nodup ∧ ∀ p, p ∈ r ↔ IsParam p ∧ ∃ e ∈ es, Sub p e := by
  intro n
  induction n with
  | zero =>
    intro st visited ret hi hn
    cases st with
    | cons c st =>
      have := size_pos c
      simp only [sizes] at hn; omega
    | nil => ?_
    exact getVars_done es hl hi 0
  | succ n ih =>
    intro st visited ret hi hn
    cases st with
    | nil => exact getVars_done es hl hi (n+1)
    | cons cur st =>
      have hp := size_pos cur
      simp only [sizes] at hn
      rw [getVariablesLoop]
      split
      · rename_i hg
        refine ih st visited ret ⟨?_, ?_, ?_, hi.rt, hi.nodup⟩ (by omega)
        · intro u hu; exact hi.wf u (by rcases hu with h | h <;> simp [h])
        · intro e he
          rcases hi.roots e he with h | h | h
          · exact Or.inl h
          · exact Or.inr (Or.inl h)
          · rcases List.mem_cons.mp h with rfl | h
            · exact Or.inl hg
            · exact Or.inr (Or.inr h)
        · intro u hu hk c hc
          rcases hi.closed u hu hk c hc with h | h | h
          · exact Or.inl h
          · exact Or.inr (Or.inl h)
          · rcases List.mem_cons.mp h with rfl | h
            · exact Or.inl hg
            · exact Or.inr (Or.inr h)
      · split
        · rename_i hv
          refine ih st visited ret ⟨?_, ?_, ?_, hi.rt, hi.nodup⟩ (by omega)
          · intro u hu; exact hi.wf u (by rcases hu with h | h <;> simp [h])
          · intro e he
            rcases hi.roots e he with h | h | h
            · exact Or.inl h
            · exact Or.inr (Or.inl h)
            · rcases List.mem_cons.mp h with rfl | h
              · exact Or.inr (Or.inl hv)
              · exact Or.inr (Or.inr h)
          · intro u hu hk c hc
            rcases hi.closed u hu hk c hc with h | h | h
            · exact Or.inl h
            · exact Or.inr (Or.inl h)
            · rcases List.mem_cons.mp h with rfl | h
              · exact Or.inr (Or.inl hv)
              · exact Or.inr (Or.inr h)
        · rename_i hv
          split
          · rename_i hk
            refine ih st (cur :: visited) (ret ++ [cur]) ⟨?_, ?_, ?_, ?_, ?_⟩ (by omega)
            · intro u hu
              exact hi.wf u (by
                rcases hu with h | h
                · simp [h]
                · rcases List.mem_cons.mp h with rfl | h <;> simp_all)
            · intro e he
              rcases hi.roots e he with h | h | h
              · exact Or.inl h
              · simp [h]
              · rcases List.mem_cons.mp h with rfl | h <;> simp [*]
            · intro u hu hku c hc
              rcases List.mem_cons.mp hu with rfl | hu
              · exact absurd hk hku
              · rcases hi.closed u hu hku c hc with h | h | h
                · exact Or.inl h
                · simp [h]
                · rcases List.mem_cons.mp h with rfl | h <;> simp [*]
            · intro u
              simp only [List.mem_append, List.mem_cons, List.not_mem_nil, or_false, hi.rt]
              constructor
              · rintro (⟨h1, h2⟩ | rfl)
                · exact ⟨Or.inr h1, h2⟩
                · exact ⟨Or.inl rfl, hk⟩
              · rintro ⟨rfl | h1, h2⟩
                · exact Or.inr rfl
                · exact Or.inl ⟨h1, h2⟩
            · rw [List.nodup_append]
              refine ⟨hi.nodup, by simp, ?_⟩
              intro a ha b hb
              simp at hb
              subst hb
              rintro rfl
              exact hv ((hi.rt a).mp ha).1
          · rename_i hk
            refine ih (cur.children.reverse ++ st) (cur :: visited) ret ⟨?_, ?_, ?_, ?_, hi.nodup⟩ ?_
            · intro u hu
              rcases hu with h | h
              · rcases List.mem_append.mp h with h | h
                · obtain ⟨e, he, hs⟩ := hi.wf cur (Or.inl (by simp))
                  exact ⟨e, he, (Sub.of_child (List.mem_reverse.mp h) (.refl u)).trans hs⟩
                · exact hi.wf u (by simp [h])
              · rcases List.mem_cons.mp h with rfl | h
                · exact hi.wf _ (by simp)
                · exact hi.wf u (by simp [h])
            · intro e he
              rcases hi.roots e he with h | h | h
              · exact Or.inl h
              · simp [h]
              · rcases List.mem_cons.mp h with rfl | h <;> simp [*]
            · intro u hu hku c hc
              rcases List.mem_cons.mp hu with rfl | hu
              · simp [hc]
              · rcases hi.closed u hu hku c hc with h | h | h
                · exact Or.inl h
                · simp [h]
                · rcases List.mem_cons.mp h with rfl | h <;> simp [*]
            · intro u
              rw [hi.rt]
              constructor
              · rintro ⟨h1, h2⟩; exact ⟨by simp [h1], h2⟩
              · rintro ⟨h1, h2⟩
                rcases List.mem_cons.mp h1 with rfl | h1
                · exact absurd h2 hk
                · exact ⟨h1, h2⟩
            · have := size_children cur
              rw [sizes_append, sizes_reverse]; omega
where
  getVars_done (es : List Term) (hl : ∀ e ∈ es, ParamsAreLeaves e) {visited ret : List Term}
      (hi : VarInv es [] visited ret) (n : Nat) :
      ∃ r, getVariablesLoop n [] visited ret = some r ∧ r.Nodup ∧ ∀ p, p ∈ r ↔ IsParam p ∧ ∃ e ∈ es, Sub p e := by
    refine ⟨ret, by cases n <;> rfl, hi.nodup, ?_⟩
    intro p
    rw [hi.rt]
    constructor
    · rintro ⟨hv, hk⟩
      obtain ⟨e, he, hs⟩ := hi.wf p (Or.inr hv)
      exact ⟨⟨hk, hl e he p hs hk⟩, e, he, hs⟩
    · rintro ⟨hp, e, he, hs⟩
      refine ⟨?_, hp.1⟩
      have hng : p.ground = false := param_not_ground hp
      have key : ∀ u, (∀ s, Sub s u → s.kind = PARAM → s.children = []) → Sub p u → (u.ground = true ∨ u ∈ visited) → p ∈ visited := by
        intro u hlu hsu hu
        induction hsu with
        | refl =>
          rcases hu with h | h
          · rw [hng] at h; cases h
          · exact h
        | child k cs c hc hsc ihs =>
          apply ihs
          · exact fun s hs' => hlu s (Sub.of_child (t := .node k cs) hc hs')
          · rcases hu with h | h
            · exact Or.inl (ground_child h (by simpa [children] using hc))
            · have hk' : (Term.node k cs).kind ≠ PARAM := by
                intro hk'
                have := hlu _ (.refl _) hk'
                simp [children] at this
                subst this
                simp at hc
              rcases hi.closed _ h hk' c (by simpa [children] using hc) with h | h | h
              · exact Or.inl h
              · exact Or.inr h
              · simp at h
      have hr := hi.roots e he
      simp at hr
      exact key e (hl e he) hs hr

/-- loop invariant of `hasVariable` -/
structure HasInv (e : Term) (vars st visited : List Term) : Prop where
  wf : ∀ u, u ∈ st ∨ u ∈ visited → Sub u e
  root : e ∈ visited ∨ e ∈ st
  closed : ∀ u ∈ visited, ∀ c ∈ u.children, c ∈ visited ∨ c ∈ st
  none : ∀ u ∈ visited, u.kind = PARAM → u ∉ vars

theorem hasVariableLoop_correct (e : Term) (vars : List Term) (hl : ParamsAreLeaves e) (hng : e.ground = false) :
    ∀ (n : Nat) (st visited : List Term), HasInv e vars st visited → sizes st ≤ n →
    ∃ b, hasVariableLoop e vars n st visited = some b ∧ (b = true ↔ ∃ p ∈ vars, IsParam p ∧ Sub p e) := by
  have hdone : ∀ n visited, HasInv e vars [] visited →
      ∃ b, hasVariableLoop e vars n [] visited = some b ∧ (b = true ↔ ∃ p ∈ vars, IsParam p ∧ Sub p e) := by
    intro n visited hi
    refine ⟨false, by cases n <;> rfl, ?_⟩
    simp only [Bool.false_eq_true, false_iff]
    rintro ⟨p, hp, hpp, hs⟩
    have key : ∀ u, Sub p u → u ∈ visited → p ∈ visited := by
      intro u hsu hu
      induction hsu with
      | refl => exact hu
      | child k cs c hc _ ihs =>
        apply ihs
        have := hi.closed _ hu c (by simpa [children] using hc)
        simpa using this
    have hr := hi.root
    simp at hr
    exact hi.none p (key e hs hr) hpp.1 hp
  intro n
  induction n with
  | zero =>
    intro st visited hi hn
    cases st with
    | cons c st =>
      have := size_pos c
      simp only [sizes] at hn; omega
    | nil => exact hdone 0 visited hi
  | succ n ih =>
    intro st visited hi hn
    cases st with
    | nil => exact hdone (n+1) visited hi
    | cons cur st =>
      have hp := size_pos cur
      simp only [sizes] at hn
      rw [hasVariableLoop]
      rw [if_neg (by simp [hng])]
      split
      · rename_i hv
        refine ih st visited ⟨?_, ?_, ?_, hi.none⟩ (by omega)
        · intro u hu; exact hi.wf u (by rcases hu with h | h <;> simp [h])
        · rcases hi.root with h | h
          · exact Or.inl h
          · rcases List.mem_cons.mp h with h | h
            · exact Or.inl (h ▸ hv)
            · exact Or.inr h
        · intro u hu c hc
          rcases hi.closed u hu c hc with h | h
          · exact Or.inl h
          · rcases List.mem_cons.mp h with rfl | h
            · exact Or.inl hv
            · exact Or.inr h
      · split
        · rename_i hk
          refine ⟨true, rfl, ?_⟩
          simp only [true_iff]
          have hs := hi.wf cur (by simp)
          exact ⟨cur, hk.2, ⟨hk.1, hl cur hs hk.1⟩, hs⟩
        · rename_i hk
          refine ih (cur.children.reverse ++ st) (cur :: visited) ⟨?_, ?_, ?_, ?_⟩ ?_
          · intro u hu
            rcases hu with h | h
            · rcases List.mem_append.mp h with h | h
              · exact (Sub.of_child (List.mem_reverse.mp h) (.refl u)).trans (hi.wf cur (by simp))
              · exact hi.wf u (by simp [h])
            · rcases List.mem_cons.mp h with rfl | h
              · exact hi.wf _ (by simp)
              · exact hi.wf u (by simp [h])
          · rcases hi.root with h | h
            · simp [h]
            · rcases List.mem_cons.mp h with h | h <;> simp [h]
          · intro u hu c hc
            rcases List.mem_cons.mp hu with rfl | hu
            · simp [hc]
            · rcases hi.closed u hu c hc with h | h
              · simp [h]
              · rcases List.mem_cons.mp h with rfl | h <;> simp [*]
          · intro u hu hku
            rcases List.mem_cons.mp hu with rfl | hu
            · exact fun hm => hk ⟨hku, hm⟩
            · exact hi.none u hu hku
          · have := size_children cur
            rw [sizes_append, sizes_reverse]; omega

theorem hasVariableLoop_ground (e : Term) (vars : List Term) (hg : e.ground = true) :
    ∀ (n : Nat) (st visited : List Term), sizes st ≤ n → hasVariableLoop e vars n st visited = some false := by
  intro n
  induction n with
  | zero =>
    intro st visited hn
    cases st with
    | nil => rfl
    | cons c st => have := size_pos c; simp only [sizes] at hn; omega
  | succ n ih =>
    intro st visited hn
    cases st with
    | nil => rfl
    | cons c st =>
      have := size_pos c
      simp only [sizes] at hn
      rw [hasVariableLoop, if_pos hg]
      exact ih st visited (by omega)

end Ethos.Props
