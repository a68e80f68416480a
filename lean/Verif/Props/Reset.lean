import Verif.Spec.Reset
import Verif.Props.Elab
import Verif.Props.Files
import Verif.Lemmas.CmdExample
/-
C80: what `reset` forgets and what it keeps.
-/
namespace Ethos.Props
open Ethos Kind Ethos.Spec

theorem ovNames_none : ∀ {l g : List Binding}, (∀ x, (candsOf (l ++ g) x).length < 2) → ovNames l g = []
  | [], _, _ => rfl
  | p :: l, g, h => by
    have h1 : ∀ x, (candsOf (l ++ g) x).length < 2 := fun x => by
      have := h x
      rw [List.cons_append, candsOf_cons] at this
      split at this
      · rw [List.length_append] at this; omega
      · exact this
    have h2 : candsOf (l ++ g) p.1 = [] := by
      have := h p.1
      rw [List.cons_append, candsOf_cons, if_pos rfl, List.length_append, List.length_singleton] at this
      exact List.length_eq_zero_iff.1 (by omega)
    rw [ovNames, lookupIn_none.2 h2]
    simpa using ovNames_none h1

theorem refines_reset {s : Scope} {a : Stack} (h : Refines s a) (ho : ∀ x, s.ov x = []) : Refines s.reset Stack.empty := by
  have hc : ∀ x, (candsOf (a.scopes.flatten ++ a.globals) x).length < 2 := fun x => by
    have := h.holds.ov x
    rw [ho x] at this
    split at this
    · rename_i h2
      rw [← this] at h2
      simp at h2
    · omega
  refine ⟨⟨fun x => rfl, fun x => ?_, rfl, ?_⟩, rfl⟩
  · exact ho x
  · exact h.holds.oDecls.trans (ovNames_none hc)

theorem replay_refines {b : Env} {n : Nat} : ∀ (es : List Event) {st st' : State} {a : Stack}, Refines st.scope a → PlainResets b n es st →
    replay b n es st = .ok st' → ∃ a', Refines st'.scope a'
  | [], st, st', a, h, _, hp => by simp only [replay] at hp; cases hp; exact ⟨a, h⟩
  | e :: es, st, st', a, h, hr, hp => by
    simp only [replay, Run.bind_ok] at hp
    obtain ⟨s1, h1, h2⟩ := hp
    by_cases he : ∃ c, e = .cmd c
    · obtain ⟨c, rfl⟩ := he
      by_cases hc : c = .reset
      · subst hc
        have hs : s1 = st.reset := by simp only [replayEvent, exec] at h1; cases h1; rfl
        have : Refines s1.scope Stack.empty := by rw [hs]; exact refines_reset h (hr.1 rfl)
        exact replay_refines es this (hr.2 _ h1) h2
      · obtain ⟨a1, _, h4⟩ := exec_effect hc h h1
        exact replay_refines es h4 (hr.2 _ h1) h2
    · exact replay_refines es (event_table (fun c hc => he ⟨c, hc⟩) h h1) (hr.2 _ h1) h2

section
variable {b : Env} {n n0 m : Nat} {es es' : List Event} {st st' : State}

/-- **C80**, what is forgotten: after `reset` no name denotes anything, not even a builtin one, there are no assumptions, and
no scope is open. -/
theorem C80_forgets (h : exec b n st .reset = .ok st') :
    (∀ x, st'.scope.get x = none) ∧ (∀ x, parseExpr b m (.sym x) st' = .err) ∧ st'.asms = [] ∧ st'.asmCtx = [] ∧ exec b n st' (.pop 1) = .err := by
  simp only [exec] at h
  cases h
  exact ⟨fun x => rfl, fun x => rfl, rfl, rfl, rfl⟩

/-- what is kept: the rules, the types, the names and the attributes of all terms, the literal types, the assertions and the
files that were read; so terms that were built before, and the rules that contain them, mean what they meant. -/
theorem C80_keeps (h : exec b n st .reset = .ok st') :
    st'.decls = st.decls ∧ st'.symType = st.symType ∧ st'.symName = st.symName ∧ st'.next = st.next ∧ st'.env b = st.env b ∧
    st'.refAsserts = st.refAsserts ∧ st'.hasRef = st.hasRef ∧ st'.included = st.included := by
  simp only [exec] at h
  cases h
  exact ⟨rfl, rfl, rfl, rfl, rfl, rfl, rfl, rfl⟩

/-- a file that was read before `reset` is not read again -/
theorem C80_files {fs : Name → Option (List Cmd)} {d : Nat} {f : Name} {isRef : Bool} {nf : Option Term} (h : exec b n st .reset = .ok st')
    (hf : f ∈ st.included) (he : (fs f).isSome) : includeFile b n fs (d + 1) f isRef nf st' = .ok st' := by
  simp only [exec] at h
  cases h
  obtain ⟨cmds, hc⟩ := Option.isSome_iff_exists.1 he
  simp only [includeFile, hc]
  exact if_pos hf

/-- the verdict is kept: once a rule marked `:sorry` was used, no command makes the answer `correct` again -/
theorem C80_verdict (h : replay b n es (State.init b n0) = .ok st) (hi : st.response = .incomplete) (h' : replay b n es' st = .ok st') :
    st'.response = .incomplete := by
  have h0 : SorryInv [] (State.init b n0) := ⟨fun x y r h => (by cases h), fun x r h => (by cases h), fun s h => (by cases h),
    fun s h => (by cases h), fun r => (by simp [State.init]), fun r => (by simp [State.init])⟩
  have h1 : SorryInv es st := by simpa using h0.replay es h
  have h2 : SorryInv (es ++ es') st' := h1.replay es' h'
  have h3 : ∃ x ∈ st.used, x ∈ st.pfrSorry := by
    rw [State.response] at hi
    split at hi
    · rename_i hx
      simpa [List.any_eq_true] using hx
    · cases hi
  obtain ⟨x, hu, hs⟩ := h3
  obtain ⟨s, a1, a2⟩ := (h1.used x).1 hu
  obtain ⟨R, b1, b2, b3⟩ := (h1.sry x).1 hs
  have hn := h1.inj _ _ _ b3 a2
  obtain ⟨y, hy⟩ := h2.steps s (by simp [a1])
  have h4 : st'.used.any (fun r => decide (r ∈ st'.pfrSorry)) = true := by
    rw [List.any_eq_true]
    exact ⟨y, (h2.used y).2 ⟨s, by simp [a1], hy⟩, decide_eq_true ((h2.sry y).2 ⟨R, by simp [b1], b2, by rw [hn]; exact hy⟩)⟩
  rw [State.response, if_pos h4]

/-- **C80**, afterwards (partial: names must not be overloaded when `reset` is executed, see `C80_overloads_refuted`): names
resolve and have overloads as the bindings made by the commands after `reset` say, starting from nothing. -/
theorem C80_bindings_partial (h : replay b n es (State.init b n0) = .ok st) (hp : PlainResets b n (es ++ [.cmd .reset]) (State.init b n0))
    (hr : .cmd .reset ∉ es') (h' : replay b n (.cmd .reset :: es') st = .ok st') :
    ∃ a, Bindings b n es' st.reset Stack.empty st' a ∧ Shows st' a ∧ ∀ e t, (∃ m s, parseExpr b m e st' = .ok (s, t)) ↔ Means b st' a e t := by
  have split : ∀ (es : List Event) (s : State), replay b n es s = .ok st → PlainResets b n (es ++ [.cmd .reset]) s →
      PlainResets b n es s ∧ ∀ x, st.scope.ov x = [] := by
    intro es
    induction es with
    | nil =>
      intro s h1 h2
      simp only [replay] at h1
      cases h1
      exact ⟨trivial, h2.1 rfl⟩
    | cons e es ih =>
      intro s h1 h2
      simp only [replay, Run.bind_ok] at h1
      obtain ⟨s1, h3, h4⟩ := h1
      have h5 := ih s1 h4 (h2.2 s1 h3)
      refine ⟨⟨h2.1, fun s1' h6 => ?_⟩, h5.2⟩
      rw [h3] at h6
      cases h6
      exact h5.1
  obtain ⟨h1, h2⟩ := split es _ h hp
  obtain ⟨a0, h3⟩ := replay_refines es (init_table b n0) h1 h
  simp only [replay, replayEvent, exec, Run.bind] at h'
  obtain ⟨a, h4, h5⟩ := replay_table es' hr (refines_reset h3 h2) h'
  refine ⟨a, h4, shows_of h5, fun e t => ⟨?_, ?_⟩⟩
  · rintro ⟨m, s, hp⟩
    exact parseExpr_means h5 hp
  · rintro ⟨v', he⟩
    obtain ⟨m, s, _, _, hp⟩ := elab_parseExpr e (On.refl h5) rfl he
    exact ⟨m, s, hp m (Nat.le_refl m)⟩

end

/-! ### Examples and refutations -/

/-- no name has several meanings at the start -/
theorem init_plain (b : Env) (n0 : Nat) (x : Name) : (State.init b n0).scope.ov x = [] := by
  have hn : ∀ {l : List Binding}, (l.map (·.1)).Nodup → (candsOf l x).length < 2 := by
    intro l
    induction l with
    | nil => intro _; simp [candsOf]
    | cons p l ih =>
      intro h
      rw [List.map_cons, List.nodup_cons] at h
      rw [candsOf_cons]
      split
      · rename_i hp
        have : candsOf l x = [] := by
          simp only [candsOf, List.reverse_eq_nil_iff, List.map_eq_nil_iff, List.filter_eq_nil_iff, decide_eq_true_eq]
          intro q hq he
          exact h.1 (List.mem_map.2 ⟨q, hq, he.trans hp.symm⟩)
        rw [this]
        simp
      · exact ih h.2
  have hi := (init_table b n0).holds.ov x
  rw [hi, if_neg]
  have hm : ((builtinNames b).scopes.flatten ++ (builtinNames b).globals).map (·.1) = ((builtinNames exB).globals).map (·.1) := by rfl
  have := hn (l := (builtinNames b).scopes.flatten ++ (builtinNames b).globals) (by rw [hm]; decide +kernel)
  omega

/-- the conditions of `C80_bindings_partial` are met: `a` is declared twice after a `reset` -/
example : ∃ st', replay exB 10 [.cmd .reset, .cmd (.declareConst (nm "a") .bool []), .cmd (.declareConst (nm "a") .bool [])] (State.init exB 10) = .ok st' ∧
    st'.scope.get (nm "a") = some (.sym CONST 11) ∧ st'.scope.get (nm "->") = none ∧ PlainResets exB 10 ([] ++ [.cmd .reset]) (State.init exB 10) :=
  ⟨_, rfl, by decide +kernel, by decide +kernel, fun _ => init_plain exB 10, fun _ _ => trivial⟩

/-- `C80_verdict`: a rule marked `:sorry` is used, and then everything is reset -/
example : ∃ st st', replay exB 10 ((sorryCmds true).map .cmd) (State.init exB 10) = .ok st ∧ st.response = .incomplete ∧
    replay exB 10 [.cmd .reset] st = .ok st' ∧ st'.scope.get (nm "p") = none := by
  have h : ((replay exB 10 ((sorryCmds true).map .cmd) (State.init exB 10)).map State.response) = .ok .incomplete := by decide +kernel
  rw [Run.map_ok] at h
  obtain ⟨st, h1, h2⟩ := h
  exact ⟨st, st.reset, h1, h2, rfl, rfl⟩

/-- **C80**: commands that are accepted at the start may be rejected after `reset`, the builtin operators being unknown -/
theorem C80_fresh_refuted : ¬ ∀ (b : Env) (n n0 : Nat) (c : Cmd) (st : State), BaseOk b n0 → exec b n (State.init b n0) c = .ok st →
    ∃ st', replay b n [.cmd .reset, .cmd c] (State.init b n0) = .ok st' := by
  intro hall
  have h : ((exec exB 10 (State.init exB 10) (.define (nm "z") [] (ap "->" [.bool, .bool]) [])).map fun _ => ()) = .ok () := by decide +kernel
  rw [Run.map_ok] at h
  obtain ⟨st, h1, _⟩ := h
  obtain ⟨st', h2⟩ := hall exB 10 10 _ st exB_ok h1
  have h3 : ((replay exB 10 [.cmd .reset, .cmd (.define (nm "z") [] (ap "->" [.bool, .bool]) [])] (State.init exB 10)).map fun _ => ()) = .err := by
    decide +kernel
  rw [h2] at h3
  cases h3

/-- **C80** is false of names that are overloaded when `reset` is executed: when such a name is overloaded again, the meanings it
had before `reset` are back. -/
theorem C80_overloads_refuted : ¬ ∀ (b : Env) (n n0 : Nat) (es es' : List Event) (st st' : State), BaseOk b n0 → replay b n es (State.init b n0) = .ok st →
    .cmd .reset ∉ es' → replay b n (.cmd .reset :: es') st = .ok st' → ∃ a, Bindings b n es' st.reset Stack.empty st' a ∧ Shows st' a := by
  intro hall
  have h : ((replay exB 10 [.cmd (.declareConst (nm "a") .type []), .cmd (.declareConst (nm "a") .bool []), .cmd .reset,
      .cmd (.declareConst (nm "a") .bool []), .cmd (.declareConst (nm "a") .bool [])] (State.init exB 10)).map fun s => (s.scope.ov (nm "a")).length) = .ok 3 := by
    decide +kernel
  rw [Run.map_ok] at h
  obtain ⟨st', h1, h2⟩ := h
  have h3 : ∃ st, replay exB 10 [.cmd (.declareConst (nm "a") .type []), .cmd (.declareConst (nm "a") .bool [])] (State.init exB 10) = .ok st ∧
      replay exB 10 [.cmd .reset, .cmd (.declareConst (nm "a") .bool []), .cmd (.declareConst (nm "a") .bool [])] st = .ok st' := by
    rw [← Run.bind_ok, ← replay_append]
    exact h1
  obtain ⟨st, h4, h5⟩ := h3
  obtain ⟨a, hb, hs⟩ := hall exB 10 10 _ _ st st' exB_ok h4 (by simp) h5
  have hl : (a.cands (nm "a")).length ≤ 2 := by
    cases hb with
    | file _ _ _ _ _ _ _ he => exact absurd rfl (he _)
    | cmd _ _ _ _ s1 a1 _ _ _ e1 r1 =>
      cases r1 with
      | file _ _ _ _ _ _ _ he => exact absurd rfl (he _)
      | cmd _ _ _ _ s2 a2 _ _ _ e2 r2 =>
        cases r2
        obtain ⟨i, _, rfl⟩ := e1
        obtain ⟨j, _, rfl⟩ := e2
        simp [Stack.bind, Stack.empty, Stack.cands, Stack.all]
  have h6 := hs.2 (nm "a")
  split at h6
  · rw [← h6] at hl
    omega
  · rw [h6] at h2
    simp at h2

end Ethos.Props
