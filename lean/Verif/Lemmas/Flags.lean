import Verif.Model.Flags
import Verif.Lemmas.Term
/-
Correctness of the stack-based flag computation: helper lemmas for C21.
-/
namespace Ethos.Flags
open Kind Spec Term

def exact (s : Flags) (u : Term) : Prop :=
  s.isEval u = u.evaluatable ∧ s.nonGround u = !u.ground

/-- heap invariant; `P` are the terms whose processing has started but not finished -/
structure Good (s : Flags) (P : List Term) : Prop where
  done : ∀ u, u ∉ P → s.computed u = true → exact s u
  closed : ∀ u, u ∉ P → s.computed u = true → ∀ c ∈ u.children, s.computed c = true
  fresh : ∀ u, s.computed u = false → s.isEval u = false ∧ s.nonGround u = false
  prog : ∀ u, u ∈ P → (s.isEval u = true → u.evaluatable = true) ∧ (s.nonGround u = true → u.ground = false)

theorem Good.start {s : Flags} {P : List Term} (h : Good s P) (cur : Term) (hc : cur ∉ P) :
    Good (s.setComputed cur) (cur :: P) := by
  constructor
  · intro u hu hcomp
    simp at hu
    simp [setComputed, hu.1] at hcomp
    exact h.done u hu.2 hcomp
  · intro u hu hcomp c hcc
    simp at hu
    simp [setComputed, hu.1] at hcomp
    have := h.closed u hu.2 hcomp c hcc
    simp [setComputed, this]
  · intro u hu
    simp [setComputed] at hu
    exact h.fresh u hu.2
  · intro u hu
    rcases List.mem_cons.mp hu with rfl | hu
    · cases hcomp : s.computed u
      · have := h.fresh u hcomp
        simp [setComputed, this]
      · have := h.done u hc hcomp
        simp [setComputed, this.1, this.2]
    · exact h.prog u hu

theorem foldl_orWith (cur : Term) : ∀ (cs : List Term) (s : Flags), cur ∉ cs →
    cs.foldl (fun s c => s.orWith cur c) s =
      { computed := fun u => if u = cur then s.computed cur || cs.any s.computed else s.computed u
        isEval := fun u => if u = cur then s.isEval cur || cs.any s.isEval else s.isEval u
        nonGround := fun u => if u = cur then s.nonGround cur || cs.any s.nonGround else s.nonGround u } := by
  intro cs
  induction cs with
  | nil =>
    intro s _
    cases s
    simp only [List.foldl_nil, List.any_nil, Bool.or_false, Flags.mk.injEq]
    refine ⟨?_, ?_, ?_⟩ <;> · funext u; split <;> simp_all
  | cons c cs ih =>
    intro s h
    simp at h
    have hne : ∀ d ∈ cs, d ≠ cur := fun d hd hh => h.2 (hh ▸ hd)
    have hany : ∀ (f g : Term → Bool), (∀ d, d ≠ cur → g d = f d) → cs.any g = cs.any f := by
      intro f g hfg
      have : ∀ d ∈ cs, g d = f d := fun d hd => hfg d (hne d hd)
      rw [Bool.eq_iff_iff]
      simp only [List.any_eq_true]
      constructor
      · rintro ⟨x, hx, hg⟩; exact ⟨x, hx, by rw [← this x hx]; exact hg⟩
      · rintro ⟨x, hx, hg⟩; exact ⟨x, hx, by rw [this x hx]; exact hg⟩
    rw [List.foldl_cons, ih _ h.2]
    simp only [orWith, List.any_cons, Flags.mk.injEq]
    refine ⟨?_, ?_, ?_⟩ <;> funext u <;> by_cases hu : u = cur
    · simp only [hu, if_true]
      rw [hany s.computed _ (fun d hd => by simp [hd]), Bool.or_assoc]
    · simp [hu]
    · simp only [hu, if_true]
      rw [hany s.isEval _ (fun d hd => by simp [hd]), Bool.or_assoc]
    · simp [hu]
    · simp only [hu, if_true]
      rw [hany s.nonGround _ (fun d hd => by simp [hd]), Bool.or_assoc]
    · simp [hu]

/-- the finishing step of an inner node -/
theorem post {s : Flags} {P visited rest : List Term} {cur : Term} (h : Good s (cur :: P)) (hP : ∀ p ∈ P, ¬ Sub p cur)
    (hv : cur ∈ visited) (hne : cur.children ≠ []) (hcomp : s.computed cur = true)
    (hch : ∀ c ∈ cur.children, s.computed c = true) :
    ∃ s', step ⟨cur :: rest, visited, s⟩ = ⟨rest, visited, s'⟩ ∧ Good s' P ∧
      (∀ u, s'.computed u = s.computed u) := by
  have hcP : ∀ c ∈ cur.children, c ∉ cur :: P := by
    intro c hc hm
    rcases List.mem_cons.mp hm with h1 | h1
    · have := size_child_lt hc; rw [h1] at this; omega
    · exact hP c h1 (Sub.of_child hc (.refl c))
  have hself : cur ∉ cur.children := fun hm => by have := size_child_lt hm; omega
  have hP' : cur ∉ P := fun hm => hP cur hm (.refl cur)
  refine ⟨cur.children.foldl (fun s c => s.orWith cur c)
    (if isLiteralOp cur.kind = true then (s.setComputed cur).setEval cur true else s.setComputed cur), ?_, ?_, ?_⟩
  · rw [step]
    simp only [hv, not_true_eq_false, if_false, List.isEmpty_iff, hne]
  all_goals
    have hs : s.setComputed cur = s := by
      cases s
      simp only [setComputed, Flags.mk.injEq, and_true] at hcomp ⊢
      funext u
      split
      · subst_vars; exact hcomp.symm
      · rfl
    rw [hs, foldl_orWith cur _ _ hself]
  · -- Good s' P
    have hex : ∀ c ∈ cur.children, exact s c := fun c hc => h.done c (hcP c hc) (hch c hc)
    have hself' : ∀ c ∈ cur.children, c ≠ cur := fun c hc e => hself (e ▸ hc)
    constructor
    · intro u hu hcu
      by_cases huc : u = cur
      · subst huc
        have hpr := h.prog u (by simp)
        constructor
        · rw [evaluatable_inner u hne]
          have : u.children.any (if isLiteralOp u.kind then s.setEval u true else s).isEval
              = u.children.any Term.evaluatable := by
            rw [Bool.eq_iff_iff]
            simp only [List.any_eq_true]
            constructor
            all_goals
              rintro ⟨x, hx, hg⟩
              refine ⟨x, hx, ?_⟩
              have h1 := (hex x hx).1
              have h2 := hself' x hx
              have h3 : (if isLiteralOp u.kind = true then s.setEval u true else s).isEval x = s.isEval x := by
                split <;> simp [setEval, h2]
              simp_all
          simp only [if_true]
          rw [this]
          split
          · rename_i hl; simp [hl, setEval]
          · rename_i hl
            have hp := hpr.1
            rw [evaluatable_inner u hne] at hp
            cases hb : s.isEval u <;> simp_all
        · have : u.children.any (if isLiteralOp u.kind then s.setEval u true else s).nonGround
              = !u.children.all Term.ground := by
            rw [Bool.eq_iff_iff]
            simp only [List.any_eq_true, Bool.not_eq_true', List.all_eq_false]
            constructor
            all_goals
              rintro ⟨x, hx, hg⟩
              refine ⟨x, hx, ?_⟩
              have h1 := (hex x hx).2
              have h3 : (if isLiteralOp u.kind = true then s.setEval u true else s).nonGround x = s.nonGround x := by
                split <;> simp [setEval]
              simp_all
          simp only [if_true]
          rw [this, ground_inner u hne]
          have hp := hpr.2
          rw [ground_inner u hne] at hp
          have h2 : (if isLiteralOp u.kind = true then s.setEval u true else s).nonGround u = s.nonGround u := by
            split <;> rfl
          rw [h2]
          cases hb : s.nonGround u
          · simp
          · simp [hp hb]
      · have hd := h.done u (by simp [huc, hu]) (by
          simp only [huc, if_false] at hcu
          split at hcu <;> simpa [setEval] using hcu)
        unfold exact
        simp only [huc, if_false]
        split
        · simp only [setEval, huc, if_false]; exact hd
        · exact hd
    · intro u hu hcu c hc
      have hcompEq : ∀ v, (if isLiteralOp cur.kind = true then s.setEval cur true else s).computed v = s.computed v := by
        intro v; split <;> rfl
      simp only [hcompEq] at hcu ⊢
      by_cases hccur : c = cur
      · subst hccur; simp [hcomp]
      · simp only [hccur, if_false]
        by_cases huc : u = cur
        · subst huc; exact hch c hc
        · simp only [huc, if_false] at hcu
          exact h.closed u (by simp [huc, hu]) hcu c hc
    · intro u hu
      have hcompEq : ∀ v, (if isLiteralOp cur.kind = true then s.setEval cur true else s).computed v = s.computed v := by
        intro v; split <;> rfl
      simp only [hcompEq] at hu
      by_cases huc : u = cur
      · subst huc; simp [hcomp] at hu
      · simp only [huc, if_false] at hu ⊢
        have := h.fresh u hu
        split
        · simp only [setEval, huc, if_false]; exact this
        · exact this
    · intro u hu
      have huc : u ≠ cur := fun e => hP' (e ▸ hu)
      have := h.prog u (by simp [hu])
      simp only [huc, if_false]
      split
      · simp only [setEval, huc, if_false]; exact this
      · exact this
  · intro u
    have hcompEq : ∀ v, (if isLiteralOp cur.kind = true then s.setEval cur true else s).computed v = s.computed v := by
      intro v; split <;> rfl
    simp only [hcompEq]
    split
    · subst_vars; simp [hcomp]
    · rfl

theorem steps_add (a b : Nat) (m : Machine) : steps (a + b) m = steps b (steps a m) := by
  induction a generalizing m with
  | zero => simp [steps]
  | succ a ih => rw [Nat.succ_add]; simp only [steps]; exact ih _

structure Visits (cost : Nat) (done : List Term) (top rest visited : List Term) (s : Flags) (P : List Term) : Prop where
  intro ::
  res : ∃ n ≤ cost, ∃ visited' s', steps n ⟨top ++ rest, visited, s⟩ = ⟨rest, visited', s'⟩ ∧ Good s' P ∧
    (∀ c ∈ done, s'.computed c = true) ∧ (∀ u, s.computed u = true → s'.computed u = true) ∧
    (∀ v ∈ visited, v ∈ visited') ∧ (∀ v ∈ visited', v ∈ P ∨ s'.computed v = true)

theorem visitList (L : List Term)
    (ih : ∀ c ∈ L, ∀ rest visited s P, Good s P → (∀ p ∈ P, ¬ Sub p c) →
      (∀ v ∈ visited, v ∈ P ∨ s.computed v = true) → Visits (2 * size c) [c] [c] rest visited s P) :
    ∀ rest visited s P, Good s P → (∀ p ∈ P, ∀ c ∈ L, ¬ Sub p c) →
      (∀ v ∈ visited, v ∈ P ∨ s.computed v = true) → Visits (2 * sizes L) L L rest visited s P := by
  induction L with
  | nil =>
    intro rest visited s P hg _ hv
    exact ⟨0, by omega, visited, s, rfl, hg, by simp, fun _ h => h, fun _ h => h, hv⟩
  | cons c L ihL =>
    intro rest visited s P hg hP hv
    obtain ⟨n1, hn1, v1, s1, hs1, hg1, hd1, hm1, hvv1, hv1⟩ :=
      (ih c (by simp) (L ++ rest) visited s P hg (fun p hp => hP p hp c (by simp)) hv).res
    obtain ⟨n2, hn2, v2, s2, hs2, hg2, hd2, hm2, hvv2, hv2⟩ :=
      (ihL (fun c hc => ih c (by simp [hc])) rest v1 s1 P hg1 (fun p hp c hc => hP p hp c (by simp [hc])) hv1).res
    refine ⟨n1 + n2, by simp only [sizes]; omega, v2, s2, ?_, hg2, ?_, ?_, ?_, hv2⟩
    · rw [steps_add]
      simp only [List.cons_append, List.nil_append] at hs1 ⊢
      rw [hs1, hs2]
    · intro x hx
      rcases List.mem_cons.mp hx with rfl | hx
      · exact hm2 _ (hd1 _ (by simp))
      · exact hd2 x hx
    · intro u hu; exact hm2 u (hm1 u hu)
    · intro u hu; exact hvv2 u (hvv1 u hu)

theorem sizes_filter_le (p : Term → Bool) (cs : List Term) : sizes (cs.filter p) ≤ sizes cs := by
  induction cs with
  | nil => simp
  | cons c cs ih =>
    rw [List.filter_cons]
    split
    · simp only [sizes]; omega
    · simp only [sizes]; omega

theorem visitOne (cur : Term) : ∀ rest visited s P, Good s P → (∀ p ∈ P, ¬ Sub p cur) →
      (∀ v ∈ visited, v ∈ P ∨ s.computed v = true) → Visits (2 * size cur) [cur] [cur] rest visited s P := by
  induction cur using Term.induct' with
  | h cur ih =>
    intro rest visited s P hg hP hv
    have hcP : cur ∉ P := fun hm => hP cur hm (.refl cur)
    have hsz := size_pos cur
    by_cases hl : cur.children = []
    · -- leaf
      refine ⟨1, by omega, visited,
        ((s.setComputed cur).setEval cur (cur.kind == PROGRAM_CONST || cur.kind == ANY)).setNonGround cur
          (cur.kind == PARAM || cur.kind == ANY), ?_, ?_, ?_, ?_, fun _ h => h, ?_⟩
      · simp [steps, step, hl]
      · constructor
        · intro u hu hcu
          by_cases huc : u = cur
          · subst huc
            simp [exact, setNonGround, setEval, evaluatable_leaf u hl, ground_leaf u hl, leafEval, leafNonGround]
          · simp only [setNonGround, setEval, setComputed, huc, if_false] at hcu
            simp only [exact, setNonGround, setEval, huc, if_false]
            exact hg.done u hu hcu
        · intro u hu hcu c hc
          by_cases huc : u = cur
          · subst huc; simp [hl] at hc
          · simp only [setNonGround, setEval, setComputed, huc, if_false] at hcu ⊢
            have := hg.closed u hu hcu c hc
            simp [this]
        · intro u hu
          simp only [setNonGround, setEval, setComputed] at hu ⊢
          by_cases huc : u = cur
          · simp [huc] at hu
          · simp only [huc, if_false] at hu ⊢
            exact hg.fresh u hu
        · intro u hu
          have huc : u ≠ cur := fun e => hcP (e ▸ hu)
          simp only [setNonGround, setEval, setComputed, huc, if_false]
          exact hg.prog u hu
      · simp [setNonGround, setEval, setComputed]
      · intro u hu; simp [setNonGround, setEval, setComputed, hu]
      · intro v hv'
        rcases hv v hv' with h | h
        · exact Or.inl h
        · exact Or.inr (by simp [setNonGround, setEval, setComputed, h])
    · have hst := hg.start cur hcP
      by_cases hvis : cur ∈ visited
      · -- already processed: the flags are recomputed from finished children
        have hcc : s.computed cur = true := (hv cur hvis).resolve_left hcP
        have hch := hg.closed cur hcP hcc
        have hs : s.setComputed cur = s := by
          cases s
          simp only [setComputed, Flags.mk.injEq, and_true] at hcc ⊢
          funext u
          split
          · subst_vars; exact hcc.symm
          · rfl
        rw [hs] at hst
        obtain ⟨s', h1, h2, h3⟩ := post (rest := rest) hst hP hvis hl hcc hch
        refine ⟨1, by omega, visited, s', ?_, h2, ?_, ?_, fun _ h => h, ?_⟩
        · simpa [steps] using h1
        · simp [h3, hcc]
        · intro u hu; rw [h3]; exact hu
        · intro v hv'; rw [h3]; exact hv v hv'
      · -- first visit
        have hstep : step ⟨[cur] ++ rest, visited, s⟩ =
            ⟨pushUncomputed (s.setComputed cur) cur.children (cur :: rest), cur :: visited, s.setComputed cur⟩ := by
          simp [step, hl, hvis]
        let L := (cur.children.filter (fun c => !(s.setComputed cur).computed c)).reverse
        have hLmem : ∀ c ∈ L, c ∈ cur.children := by
          intro c hc
          simp only [L, List.mem_reverse, List.mem_filter] at hc
          exact hc.1
        obtain ⟨n, hn, v', s', h1, h2, h3, h4, h5, h6⟩ := (visitList L
          (fun c hc => ih c (hLmem c hc)) (cur :: rest) (cur :: visited) (s.setComputed cur) (cur :: P) hst
          (by
            intro p hp c hc hsub
            have hcm := hLmem c hc
            rcases List.mem_cons.mp hp with rfl | hp
            · have := hsub.size_le
              have := size_child_lt hcm
              omega
            · exact hP p hp (Sub.of_child hcm hsub))
          (by
            intro v hv'
            rcases List.mem_cons.mp hv' with rfl | hv'
            · exact Or.inl (by simp)
            · rcases hv v hv' with h | h
              · exact Or.inl (by simp [h])
              · exact Or.inr (by simp [setComputed, h]))).res
        have hccur : s'.computed cur = true := h4 cur (by simp [setComputed])
        have hchall : ∀ c ∈ cur.children, s'.computed c = true := by
          intro c hc
          by_cases hcc : (s.setComputed cur).computed c = true
          · exact h4 c hcc
          · exact h3 c (by simp only [L, List.mem_reverse, List.mem_filter]; exact ⟨hc, by simpa using hcc⟩)
        obtain ⟨s'', g1, g2, g3⟩ := post (rest := rest) h2 hP (h5 cur (by simp)) hl hccur hchall
        refine ⟨1 + (n + 1), ?_, v', s'', ?_, g2, ?_, ?_, ?_, ?_⟩
        · have := sizes_filter_le (fun c => !(s.setComputed cur).computed c) cur.children
          have h7 := size_children cur
          have h8 : sizes L ≤ sizes cur.children := by simp only [L, sizes_reverse]; exact this
          omega
        · rw [steps_add, steps_add]
          have : steps 1 ⟨[cur] ++ rest, visited, s⟩ = step ⟨[cur] ++ rest, visited, s⟩ := rfl
          rw [this, hstep]
          show steps 1 (steps n ⟨L ++ (cur :: rest), cur :: visited, s.setComputed cur⟩) = _
          rw [h1]
          exact g1
        · simp [g3, hccur]
        · intro u hu; rw [g3]; exact h4 u (by simp [setComputed, hu])
        · intro v hv'; exact h5 v (by simp [hv'])
        · intro v hv'
          rw [g3]
          rcases h6 v hv' with h | h
          · rcases List.mem_cons.mp h with rfl | h
            · exact Or.inr hccur
            · exact Or.inl h
          · exact Or.inr h

theorem loop_of_steps (n : Nat) : ∀ (m : Machine) (fuel : Nat), (steps n m).stack = [] → n ≤ fuel →
    ∃ k ≤ n, (steps k m).stack = [] ∧ loop fuel m = some (steps k m).flags := by
  induction n with
  | zero =>
    intro m fuel h _
    refine ⟨0, by omega, h, ?_⟩
    simp only [steps] at h
    cases fuel <;> simp [loop, h, steps]
  | succ n ih =>
    intro m fuel h hf
    by_cases h0 : m.stack = []
    · refine ⟨0, by omega, h0, ?_⟩
      cases fuel <;> simp [loop, h0, steps]
    · obtain ⟨fuel, rfl⟩ : ∃ f, fuel = f + 1 := ⟨fuel - 1, by omega⟩
      obtain ⟨k, hk, h1, h2⟩ := ih (step m) fuel h (by omega)
      refine ⟨k + 1, by omega, h1, ?_⟩
      simp [loop, h0, h2, steps]

theorem step_nil (m : Machine) (h : m.stack = []) : step m = m := by
  unfold step; rw [h]

theorem steps_nil (n : Nat) (m : Machine) (h : m.stack = []) : steps n m = m := by
  induction n with
  | zero => rfl
  | succ n ih => rw [steps, step_nil m h, ih]

/-- between calls, no term is in progress -/
theorem computeFlags_correct (s : Flags) (t : Term) (h : Good s []) (fuel : Nat) (hf : 2 * size t ≤ fuel) :
    ∃ s', computeFlags fuel s t = some s' ∧ Good s' [] ∧ s'.computed t = true := by
  unfold computeFlags
  split
  · rename_i hc; exact ⟨s, rfl, h, hc⟩
  · obtain ⟨n, hn, v', s', h1, h2, h3, _⟩ := (visitOne t [] [] s [] h (by simp) (by simp)).res
    have h1' : steps n ⟨[t], [], s⟩ = ⟨[], v', s'⟩ := by simpa using h1
    obtain ⟨k, hk, hk1, hk2⟩ := loop_of_steps n ⟨[t], [], s⟩ fuel (by rw [h1']) (by omega)
    have : steps n ⟨[t], [], s⟩ = steps k ⟨[t], [], s⟩ := by
      obtain ⟨d, rfl⟩ : ∃ d, n = k + d := ⟨n - k, by omega⟩
      rw [steps_add, steps_nil d _ hk1]
    rw [← this, h1'] at hk2
    exact ⟨s', hk2, h2, h3 t (by simp)⟩

theorem good_init : Good init [] := by
  constructor <;> simp [init]

end Ethos.Flags
