import Verif.Lemmas.Fresh
/-
What scopes opened by the parser leave in the symbol table.
-/
namespace Ethos.Props
open Ethos Kind Spec

/-- The table `s` has the declarations `nd` above `D0`, newest first; the flag says whether the name was bound before.  What
remains once they are undone has `P`. -/
structure Zone (P : Term → Prop) (D0 : List Name) (nd : List (Name × Bool)) (s : Scope) : Prop where
  decls : s.decls = nd.map Prod.fst ++ D0
  over : ∃ O, s.oDecls = (nd.filter (·.2)).map Prod.fst ++ O
  first : nd.Pairwise fun a c => a.2 = false → a.1 ≠ c.1
  bound : ∀ x, x ∈ nd.map Prod.fst → s.sym x ≠ none
  low : ∀ x t, x ∉ nd.map Prod.fst → s.sym x = some t → P t
  ov : ∀ x, ∃ pre post, s.ov x = pre ++ post ∧ post.length = nd.count (x, true) ∧ (0 < nd.count (x, true) → pre ≠ []) ∧
    ((∀ t ∈ pre, P t) ∨ 0 < nd.count (x, true) ∧ pre.length ≤ 1 ∧ (x, false) ∈ nd)

variable {P : Term → Prop} {D0 : List Name} {nd : List (Name × Bool)} {s s' : Scope}

theorem not_named {x : Name} (h : x ∉ nd.map Prod.fst) (f : Bool) : (x, f) ∉ nd := fun hm => h (List.mem_map.2 ⟨(x, f), hm, rfl⟩)

theorem named_of {x : Name} {f : Bool} (h : (x, f) ∈ nd) : x ∈ nd.map Prod.fst := List.mem_map.2 ⟨(x, f), h, rfl⟩

theorem Zone.start (H : ScopeIn P s) : Zone P s.decls [] s where
  decls := rfl
  over := ⟨s.oDecls, rfl⟩
  first := .nil
  bound := by simp
  low x t _ h := H.sym x t h
  ov x := ⟨s.ov x, [], by simp, rfl, by simp, .inl (H.ov x)⟩

theorem Zone.stop (H : Zone P D0 [] s) : ScopeIn P s := by
  refine ⟨fun x t h => H.low x t (by simp) h, ?_⟩
  intro x t ht
  obtain ⟨pre, post, h1, h2, _, h4⟩ := H.ov x
  simp only [List.count_nil, List.length_eq_zero_iff] at h2
  rcases h4 with h4 | h4
  · rw [h1, h2, List.append_nil] at ht; exact h4 t ht
  · simp at h4

theorem Zone.bind (H : Zone P D0 nd s) (hc : s.ctx ≠ []) (x : Name) (t : Term) :
    ∃ f, Zone P D0 ((x, f) :: nd) (s.bind x t) ∧ (s.bind x t).ctx = s.ctx := by
  cases ho : s.sym x with
  | none =>
    have hx : x ∉ nd.map Prod.fst := fun hx => H.bound x hx ho
    refine ⟨false, ⟨?_, ?_, ?_, ?_, ?_, ?_⟩, by simp [Scope.bind, ho]⟩
    · simp [Scope.bind, ho, hc, H.decls]
    · obtain ⟨O, h⟩ := H.over
      exact ⟨O, by simp [Scope.bind, ho, h]⟩
    · refine List.pairwise_cons.2 ⟨?_, H.first⟩
      rintro ⟨y, f⟩ hy _ rfl
      exact hx (named_of hy)
    · intro y hy
      simp only [Scope.bind, ho]
      split
      · simp
      · rename_i hne
        refine H.bound y ?_
        simpa [hne] using hy
    · intro y u hy h
      simp only [List.map_cons, List.mem_cons, not_or] at hy
      simp only [Scope.bind, ho, if_neg hy.1] at h
      exact H.low y u hy.2 h
    · intro y
      obtain ⟨pre, post, h1, h2, h3, h4⟩ := H.ov y
      refine ⟨pre, post, ?_, ?_, ?_, ?_⟩
      · simpa [Scope.bind, ho] using h1
      · simpa [List.count_cons] using h2
      · simpa [List.count_cons] using h3
      · simp only [List.count_cons]
        rcases h4 with h4 | ⟨a, c, d⟩
        · exact .inl h4
        · exact .inr ⟨by simpa using a, c, by simp [d]⟩
  | some old =>
    refine ⟨true, ⟨?_, ?_, ?_, ?_, ?_, ?_⟩, by simp [Scope.bind, ho]⟩
    · simp [Scope.bind, ho, hc, H.decls]
    · obtain ⟨O, h⟩ := H.over
      exact ⟨O, by simp [Scope.bind, ho, h, hc]⟩
    · exact List.pairwise_cons.2 ⟨by simp, H.first⟩
    · intro y hy
      simp only [Scope.bind, ho]
      split
      · simp
      · rename_i hne
        refine H.bound y ?_
        simpa [hne] using hy
    · intro y u hy h
      simp only [List.map_cons, List.mem_cons, not_or] at hy
      simp only [Scope.bind, ho, if_neg hy.1] at h
      exact H.low y u hy.2 h
    · intro y
      obtain ⟨pre, post, h1, h2, h3, h4⟩ := H.ov y
      by_cases hy : y = x
      · subst hy
        have hcnt : ((y, true) :: nd).count (y, true) = nd.count (y, true) + 1 := by simp
        rw [hcnt]
        by_cases he : s.ov y = []
        · have hpre : pre = [] := by rw [he] at h1; exact (List.append_eq_nil_iff.1 h1.symm).1
          have hz : nd.count (y, true) = 0 := by
            rcases Nat.eq_zero_or_pos (nd.count (y, true)) with hz | hz
            · exact hz
            · exact absurd hpre (h3 hz)
          refine ⟨[old], [t], by simp [Scope.bind, ho, he], by simp [hz], by simp, ?_⟩
          by_cases hn : y ∈ nd.map Prod.fst
          · refine .inr ⟨by omega, by simp, ?_⟩
            obtain ⟨⟨z, f⟩, hm, hzf⟩ := List.mem_map.1 hn
            simp only at hzf
            subst hzf
            cases f with
            | false => exact List.mem_cons_of_mem _ hm
            | true => exact absurd hm (List.count_eq_zero.1 hz)
          · exact .inl (by simpa using H.low y old hn ho)
        · refine ⟨pre, post ++ [t], by simp only [Scope.bind, ho, if_pos, if_neg he]; rw [h1, List.append_assoc], by simp [h2], ?_, ?_⟩
          · intro _ hp
            subst hp
            rcases Nat.eq_zero_or_pos (nd.count (y, true)) with hz | hz
            · rw [hz, List.length_eq_zero_iff] at h2
              subst h2
              exact he h1
            · exact absurd rfl (h3 hz)
          · rcases h4 with h4 | ⟨a, c, d⟩
            · exact .inl h4
            · exact .inr ⟨by omega, c, List.mem_cons_of_mem _ d⟩
      · have hcnt : ((x, true) :: nd).count (y, true) = nd.count (y, true) := by simp [Ne.symm hy]
        rw [hcnt]
        refine ⟨pre, post, by simpa [Scope.bind, ho, hy] using h1, h2, h3, h4.imp id fun ⟨a, c, d⟩ => ⟨a, c, List.mem_cons_of_mem _ d⟩⟩

theorem Zone.undo {e : Name × Bool} (H : Zone P D0 (e :: nd) s) (h : s.undo = .ok s') : Zone P D0 nd s' := by
  obtain ⟨x, f⟩ := e
  obtain ⟨O, hO⟩ := H.over
  have hfirst := List.pairwise_cons.1 H.first
  simp only [Scope.undo, H.decls, List.map_cons, List.cons_append] at h
  obtain ⟨pre, post, h1, h2, h3, h4⟩ := H.ov x
  have hother : ∀ y, y ≠ x → ((x, f) :: nd).count (y, true) = nd.count (y, true) := by
    intro y hy
    simp [Ne.symm hy]
  have hov : ∀ y, y ≠ x → ∃ pre post, s.ov y = pre ++ post ∧ post.length = nd.count (y, true) ∧ (0 < nd.count (y, true) → pre ≠ []) ∧
      ((∀ t ∈ pre, P t) ∨ 0 < nd.count (y, true) ∧ pre.length ≤ 1 ∧ (y, false) ∈ nd) := by
    intro y hy
    obtain ⟨p, q, a, c, d, e⟩ := H.ov y
    rw [hother y hy] at c d e
    refine ⟨p, q, a, c, d, e.imp id fun ⟨u, v, w⟩ => ⟨u, v, ?_⟩⟩
    rcases List.mem_cons.1 w with w | w
    · cases w; exact absurd rfl hy
    · exact w
  have hbound : ∀ y, y ≠ x → y ∈ nd.map Prod.fst → s.sym y ≠ none := fun y _ hm => H.bound y (by simp [hm])
  have hlow : ∀ y u, y ≠ x → y ∉ nd.map Prod.fst → s.sym y = some u → P u := fun y u hy hm hs =>
    H.low y u (by simp [hy, hm]) hs
  split at h
  · rename_i hd
    split at h
    · rename_i old t g1 g2
      cases h
      cases f with
      | true =>
        have hcnt : ((x, true) :: nd).count (x, true) = nd.count (x, true) + 1 := by simp
        rw [hcnt] at h2 h3 h4
        obtain ⟨post', last, rfl⟩ : ∃ post' last, post = post' ++ [last] := by
          refine ⟨post.dropLast, post.getLast (by intro h0; rw [h0] at h2; cases h2), (List.dropLast_concat_getLast _).symm⟩
        have hdrop : (s.ov x).dropLast = pre ++ post' := by rw [h1, ← List.append_assoc, List.dropLast_concat]
        rw [hdrop] at g2
        have hl : post'.length = nd.count (x, true) := by simpa using h2
        have hpre := h3 (by omega)
        have hpl : 0 < pre.length := List.length_pos_iff.2 hpre
        refine ⟨rfl, ⟨O, ?_⟩, hfirst.2, ?_, ?_, ?_⟩
        · simp [hO]
        · intro y hm
          dsimp only
          split
          · simp
          · rename_i hy; exact hbound y hy hm
        · intro y u hm hs
          dsimp only at hs
          split at hs
          · rename_i hy
            subst hy
            cases hs
            have hz : nd.count (y, true) = 0 := List.count_eq_zero.2 (not_named hm true)
            rw [hz, List.length_eq_zero_iff] at hl
            subst hl
            rw [List.append_nil] at g2
            rcases h4 with h4 | ⟨_, _, h4⟩
            · exact h4 _ (List.mem_of_getLast? g2)
            · rcases List.mem_cons.1 h4 with h4 | h4
              · cases h4
              · exact absurd h4 (not_named hm false)
          · rename_i hy; exact hlow y u hy hm hs
        · intro y
          dsimp only
          split
          · rename_i hy
            subst hy
            rw [hdrop]
            split
            · rename_i h5
              have hz : nd.count (y, true) = 0 := by simp at h5; omega
              exact ⟨[], [], rfl, by simp [hz], by simp [hz], .inl (by simp)⟩
            · rename_i h5
              refine ⟨pre, post', rfl, hl, fun _ => hpre, ?_⟩
              rcases h4 with h4 | ⟨_, h6, h7⟩
              · exact .inl h4
              · rcases List.mem_cons.1 h7 with h7 | h7
                · cases h7
                · refine .inr ⟨?_, h6, h7⟩
                  simp at h5
                  omega
          · rename_i hy; exact hov y hy
      | false =>
        have hx : x ∉ nd.map Prod.fst := by
          intro hm
          obtain ⟨q, hq, hqx⟩ := List.mem_map.1 hm
          exact hfirst.1 q hq rfl hqx.symm
        have hz : nd.count (x, true) = 0 := List.count_eq_zero.2 (not_named hx true)
        have hcnt : ((x, false) :: nd).count (x, true) = 0 := by simp [hz]
        rw [hcnt] at h2 h3 h4
        rw [List.length_eq_zero_iff] at h2
        subst h2
        rw [List.append_nil] at h1
        have hp : ∀ t ∈ pre, P t := h4.resolve_right (by simp)
        have hf0 : (nd.filter (·.2)).map Prod.fst = [] := by
          cases hfl : (nd.filter (·.2)).map Prod.fst with
          | nil => rfl
          | cons y r =>
            rw [hO] at hd
            simp [hfl] at hd
            subst hd
            have : y ∈ (nd.filter (·.2)).map Prod.fst := by rw [hfl]; simp
            obtain ⟨q, hq, rfl⟩ := List.mem_map.1 this
            exact absurd (List.mem_map.2 ⟨q, (List.mem_filter.1 hq).1, rfl⟩) hx
        rw [h1] at g2
        refine ⟨rfl, ⟨O.tail, ?_⟩, hfirst.2, ?_, ?_, ?_⟩
        · simp [hO, hf0]
        · intro y hm
          dsimp only
          split
          · simp
          · rename_i hy; exact hbound y hy hm
        · intro y u hm hs
          dsimp only at hs
          split at hs
          · cases hs; exact hp _ (List.dropLast_subset _ (List.mem_of_getLast? g2))
          · rename_i hy; exact hlow y u hy hm hs
        · intro y
          dsimp only
          split
          · rename_i hy
            subst hy
            rw [hz]
            split
            · exact ⟨[], [], rfl, rfl, by simp, .inl (by simp)⟩
            · rw [h1]
              exact ⟨pre.dropLast, [], by simp, rfl, by simp, .inl fun t ht => hp t (List.dropLast_subset _ ht)⟩
          · rename_i hy; exact hov y hy
    · cases h
  · rename_i hd
    cases h
    cases f with
    | true => rw [hO] at hd; simp at hd
    | false =>
      have hx : x ∉ nd.map Prod.fst := by
        intro hm
        obtain ⟨q, hq, hqx⟩ := List.mem_map.1 hm
        exact hfirst.1 q hq rfl hqx.symm
      refine ⟨rfl, ⟨O, by simpa using hO⟩, hfirst.2, ?_, ?_, ?_⟩
      · intro y hm
        dsimp only
        split
        · rename_i hy; subst hy; exact absurd hm hx
        · rename_i hy; exact hbound y hy hm
      · intro y u hm hs
        dsimp only at hs
        split at hs
        · cases hs
        · rename_i hy; exact hlow y u hy hm hs
      · intro y
        by_cases hy : y = x
        · subst hy
          have hz : nd.count (y, true) = 0 := List.count_eq_zero.2 (not_named hx true)
          have hcnt : ((y, false) :: nd).count (y, true) = 0 := by simp [hz]
          rw [hcnt] at h2 h3 h4
          rw [hz]
          exact ⟨pre, post, h1, h2, by simp, .inl (h4.resolve_right (by simp))⟩
        · exact hov y hy

theorem Zone.undoN : ∀ (l : List (Name × Bool)) {s s' : Scope}, Zone P D0 (l ++ nd) s → Scope.undoN l.length s = .ok s' → Zone P D0 nd s'
  | [], s, s', H, h => by simp only [List.length_nil, Scope.undoN] at h; cases h; exact H
  | e :: l, s, s', H, h => by
    simp only [List.length_cons, Scope.undoN, Run.bind_ok] at h
    obtain ⟨s1, h1, h2⟩ := h
    exact Zone.undoN l (H.undo h1) h2

/-- the scopes opened since: `d` of them above the one that began with `D0` -/
structure Opened (P : Term → Prop) (D0 : List Name) (C0 : List Nat) (d : Nat) (s : Scope) : Prop where
  zone : ∃ nd, Zone P D0 nd s
  marks : ∃ ms : List Nat, s.ctx = ms ++ D0.length :: C0 ∧ ms.length = d ∧ (s.decls.length :: (ms ++ [D0.length])).Pairwise (· ≥ ·)

variable {C0 : List Nat} {d : Nat}

theorem Opened.start (H : ScopeIn P s) : Opened P s.decls s.ctx 0 s.push where
  zone := ⟨[], ⟨rfl, ⟨s.oDecls, rfl⟩, .nil, by simp, fun x t _ h => H.sym x t h, fun x => ⟨s.ov x, [], by simp [Scope.push], rfl, by simp, .inl (H.ov x)⟩⟩⟩
  marks := ⟨[], rfl, rfl, by simp [Scope.push]⟩

theorem Opened.push (H : Opened P D0 C0 d s) : Opened P D0 C0 (d+1) s.push := by
  obtain ⟨nd, H1⟩ := H.zone
  obtain ⟨ms, h1, h2, h3⟩ := H.marks
  refine ⟨⟨nd, ⟨H1.decls, H1.over, H1.first, H1.bound, H1.low, H1.ov⟩⟩, ⟨s.decls.length :: ms, by simp [Scope.push, h1], by simp [h2], ?_⟩⟩
  show (s.decls.length :: s.decls.length :: (ms ++ [D0.length])).Pairwise (· ≥ ·)
  refine List.pairwise_cons.2 ⟨?_, h3⟩
  intro a ha
  rcases List.mem_cons.1 ha with rfl | ha
  · exact Nat.le_refl _
  · exact (List.pairwise_cons.1 h3).1 a ha

theorem Opened.bind (H : Opened P D0 C0 d s) (x : Name) (t : Term) : Opened P D0 C0 d (s.bind x t) := by
  obtain ⟨nd, H1⟩ := H.zone
  obtain ⟨ms, h1, h2, h3⟩ := H.marks
  obtain ⟨f, H2, hc⟩ := H1.bind (by rw [h1]; simp) x t
  refine ⟨⟨_, H2⟩, ⟨ms, hc.trans h1, h2, ?_⟩⟩
  refine List.pairwise_cons.2 ⟨?_, (List.pairwise_cons.1 h3).2⟩
  intro a ha
  have := (List.pairwise_cons.1 h3).1 a ha
  have e1 : (s.bind x t).decls.length = s.decls.length + 1 := by rw [H2.decls, H1.decls]; simp
  omega

theorem resize_same (l : List Name) : Scope.resize l l.length = l := by simp [Scope.resize]

theorem Opened.popTo (H : Zone P D0 nd s) {last : Nat} {r : List Nat} (h1 : s.ctx = last :: r) (h2 : D0.length ≤ last) (h3 : last ≤ s.decls.length)
    (h : s.pop = .ok s') : ∃ nd', Zone P D0 nd' s' ∧ s'.ctx = r ∧ s'.decls.length = last := by
  simp only [Scope.pop, h1, Run.map_ok] at h
  obtain ⟨s1, h4, rfl⟩ := h
  have hlen : s.decls.length = nd.length + D0.length := by rw [H.decls]; simp
  have H0 : Zone P D0 (nd.take (s.decls.length - last) ++ nd.drop (s.decls.length - last)) { s with ctx := r } := by
    rw [List.take_append_drop]
    exact ⟨H.decls, H.over, H.first, H.bound, H.low, H.ov⟩
  have hl : (nd.take (s.decls.length - last)).length = s.decls.length - last := by simp; omega
  have H1 := Zone.undoN _ H0 (by rw [hl]; exact h4)
  have hd : s1.decls.length = last := by rw [H1.decls]; simp; omega
  refine ⟨_, ⟨?_, H1.over, H1.first, H1.bound, H1.low, H1.ov⟩, ?_, ?_⟩
  · show Scope.resize s1.decls last = _
    have e : Scope.resize s1.decls last = s1.decls := by rw [← hd]; exact resize_same _
    rw [e]; exact H1.decls
  · exact (undoN_only _ h4).2
  · show (Scope.resize s1.decls last).length = last
    have e : Scope.resize s1.decls last = s1.decls := by rw [← hd]; exact resize_same _
    rw [e, hd]

theorem Opened.pop (H : Opened P D0 C0 (d+1) s) (h : s.pop = .ok s') : Opened P D0 C0 d s' := by
  obtain ⟨nd, H1⟩ := H.zone
  obtain ⟨ms, h1, h2, h3⟩ := H.marks
  cases ms with
  | nil => cases h2
  | cons last ms =>
    have h4 := List.pairwise_cons.1 h3
    have h5 := List.pairwise_cons.1 h4.2
    obtain ⟨nd', H2, hc, hd⟩ := Opened.popTo H1 h1 (h5.1 _ (by simp)) (h4.1 _ (by simp)) h
    refine ⟨⟨nd', H2⟩, ⟨ms, hc, by simpa using h2, ?_⟩⟩
    rw [hd]
    exact h4.2

theorem Opened.stop (H : Opened P D0 C0 0 s) (h : s.pop = .ok s') : ScopeIn P s' := by
  obtain ⟨nd, H1⟩ := H.zone
  obtain ⟨ms, h1, h2, h3⟩ := H.marks
  rw [List.length_eq_zero_iff] at h2
  subst h2
  obtain ⟨nd', H2, hc, hd⟩ := Opened.popTo H1 h1 (Nat.le_refl _) ((List.pairwise_cons.1 h3).1 _ (by simp)) h
  have : nd' = [] := by
    have := H2.decls
    have e : s'.decls.length = nd'.length + D0.length := by rw [this]; simp
    exact List.length_eq_zero_iff.1 (by omega)
  subst this
  exact H2.stop

end Ethos.Props
