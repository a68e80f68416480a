import Verif.Spec.Reference
import Verif.Props.Rules
/-
C38: reference files.
-/
namespace Ethos.Props
open Ethos Kind Spec

variable {b : Env} {n n0 : Nat} {es : List Event} {st st' : State}

/-- no command changes whether there is a reference, and its normalisation routine -/
theorem refFrame : FullFrame fun a c : State => c.hasRef = a.hasRef ∧ c.refNf = a.refNf where
  refl _ := ⟨rfl, rfl⟩
  trans h1 h2 := ⟨h2.1.trans h1.1, h2.2.trans h1.2⟩
  bind _ _ _ := ⟨rfl, rfl⟩
  push _ := ⟨rfl, rfl⟩
  pop h := by
    simp only [State.pop, Run.map_ok] at h
    obtain ⟨_, _, rfl⟩ := h
    exact ⟨rfl, rfl⟩
  sym _ _ _ _ := ⟨rfl, rfl⟩
  mark _ _ _ _ := ⟨rfl, rfl⟩
  lit _ := ⟨rfl, rfl⟩
  refAssert _ _ := ⟨rfl, rfl⟩
  asm _ _ _ := ⟨rfl, rfl⟩
  reset _ := ⟨rfl, rfl⟩
  used _ _ := ⟨rfl, rfl⟩
  rule _ := ⟨rfl, rfl⟩
  sry _ _ := ⟨rfl, rfl⟩

/-- only `assert` and `define-fun` add reference assertions -/
theorem sameRefs : SymFrame fun a c : State => c.refAsserts = a.refAsserts where
  refl _ := rfl
  trans h1 h2 := h2.trans h1
  bind _ _ _ := rfl
  push _ := rfl
  pop h := by
    simp only [State.pop, Run.map_ok] at h
    obtain ⟨_, _, rfl⟩ := h
    rfl
  sym _ _ _ _ := rfl
  mark _ _ _ _ := rfl
  lit _ := rfl

theorem normRef_ok {f a : Term} (h : st.normRef b n f = .ok a) : Normal (st.env b) st.refNf f a := by
  simp only [State.normRef] at h
  split at h
  · rename_i hn
    cases h
    rw [hn]; rfl
  · rename_i nf hn
    rw [hn]
    simp only [State.build, Run.lift_ok] at h
    exact ⟨n, h⟩

theorem refAsserts_step {c : Cmd} (h : exec b n st c = .ok st') :
    st'.refAsserts = st.refAsserts ∨ ∃ f s1 a, Asserts b n st (.cmd c) f s1 ∧ s1.refNf = st.refNf ∧ Normal (s1.env b) st.refNf f a ∧ st'.refAsserts = a :: st.refAsserts := by
  by_cases hp : isPlain c = true
  · by_cases ha : ∃ f, c = .assert f
    · obtain ⟨g, rfl⟩ := ha
      right
      simp only [exec, Run.bind_ok, State.addReferenceAssert, Run.map_ok] at h
      obtain ⟨⟨s1, f⟩, h1, a, h2, rfl⟩ := h
      have e1 := sameRefs.toFrame.parseFormula h1
      have e2 := (refFrame.toFrame.parseFormula h1).2
      refine ⟨f, s1, a, .assert _ _ _ _ h1, e2, e2 ▸ normRef_ok h2, ?_⟩
      show a :: s1.refAsserts = _
      rw [e1]
    · by_cases hf : ∃ x ps ty e, c = .defineFun x ps ty e
      · obtain ⟨x, ps, ty, e, rfl⟩ := hf
        right
        simp only [exec, execDefineFun, Run.bind_ok, Run.map_ok, Run.orErr_ok] at h
        obtain ⟨⟨s1, vs⟩, h1, ⟨s2, t⟩, h2, ⟨s3, u⟩, h3, _, _, eq, h4, ⟨rhs, t'⟩, h5, f, h6, s4, h7, s5, h8, rfl⟩ := h
        simp only [State.addReferenceAssert, Run.map_ok] at h7
        obtain ⟨a, h7, rfl⟩ := h7
        have e1 : s3.refAsserts = st.refAsserts := sameRefs.trans (sameRefs.defineParams h1) (sameRefs.trans (sameRefs.parseType h2) (sameRefs.parseExpr b n e h3))
        have e2 : s3.refNf = st.refNf := (refFrame.trans (refFrame.defineParams h1) (refFrame.trans (refFrame.parseType h2) (refFrame.parseExpr b n e h3))).2
        simp only [State.build, Run.lift_ok] at h6
        refine ⟨f, _, a, .defineFun _ _ _ _ _ _ _ _ _ _ _ _ _ _ _ h1 h2 h3 h4 h5 ⟨n, h6⟩, e2, ?_, ?_⟩
        · rw [← e2]; exact normRef_ok h7
        · have := sameRefs.pop h8
          show s5.refAsserts = _
          rw [this]
          show a :: s3.refAsserts = _
          rw [e1]
      · left
        exact sameRefs.exec hp (fun f e => ha ⟨f, e⟩) (fun x ps ty e e' => hf ⟨x, ps, ty, e, e'⟩) h
  · left
    have hA : ∀ {x f p}, execAssume b n st x f p = .ok st' → st'.refAsserts = st.refAsserts := by
      intro x f p h
      obtain ⟨s1, F, h1, h2⟩ := execAssume_ok h
      obtain ⟨rfl, _⟩ := addAssumption_ok h2
      have := sameRefs.toFrame.parseFormula h1
      cases p <;> exact this
    cases c with
    | assume x f => exact hA h
    | assumePush x f => exact hA h
    | declareRule r =>
      obtain ⟨_, s1, s2, asm, s3, prems, pcons, s4, args, s5, reqs, s6, conc, ret, s7, s8, prog, decls, h1, h2, h3, h4, h5, h6, _, h8, h9, h10, rfl⟩ :=
        execDeclareRule_ok h
      have F := sameRefs
      have := F.trans (F.push st) (F.trans (F.bindRuleParams h1) (F.trans (F.parseOpt h2) (F.trans (F.parsePremises h3) (F.trans (F.parseList b n _ h4)
        (F.trans (F.parsePairs _ h5) (F.trans (F.parseExpr b n _ h6) (F.trans (F.pop h8) (F.trans (F.sym s7 PROOF_RULE r.name tBool) (F.ruleProg h9)))))))))
      exact this
    | step s =>
      obtain ⟨s1, proven, rule, s2, prems, s3, args, conc, ty, s4, hpop, h1, h2, h3, h4, h5, h6, h7, h8, h9, rfl⟩ := execStep_ok h
      have a1 := sameRefs.toFrame.parseConc h1
      have a2 := sameRefs.toFrame.parseList b n _ h3
      have a3 := sameRefs.toFrame.parseList b n _ h4
      have ea : s3.refAsserts = st.refAsserts := by rw [a3, a2]; exact a1
      split at h9
      · obtain ⟨k, r, e1, e2⟩ := popAssumption_ok h9
        have := sameRefs.pop e2
        exact this.trans ea
      · cases h9; exact ea
    | reset => simp only [exec] at h; cases h; rfl
    | _ => exact absurd rfl hp

theorem NoEnter.snoc {e : Event} (h : NoEnter es) (he : ∀ f isRef nf, e ≠ .enter f isRef nf) : NoEnter (es ++ [e]) := by
  intro f i nf hm
  simp only [List.mem_append, List.mem_singleton] at hm
  rcases hm with hm | hm
  · exact h f i nf hm
  · exact he f i nf hm.symm

theorem Routine.snoc {e : Event} {st0 : State} {r : Option Term} (h : Routine b n es st0 r) (he : ∀ f isRef nf, e ≠ .enter f isRef nf) :
    Routine b n (es ++ [e]) st0 r := by
  rcases h with ⟨h1, h2⟩ | ⟨es1, f, i, nf, es2, s1, s2, h1, h2, h3, h4⟩
  · exact .inl ⟨NoEnter.snoc h1 he, h2⟩
  · exact .inr ⟨es1, f, i, nf, es2 ++ [e], s1, s2, by rw [h1]; simp, NoEnter.snoc h2 he, h3, h4⟩

theorem Asserted.append {st0 : State} {a : Term} (es' : List Event) (h : Asserted b n es st0 a) : Asserted b n (es ++ es') st0 a := by
  obtain ⟨es1, e, es2, s0, s1, f, r, h1, h2⟩ := h
  exact ⟨es1, e, es2 ++ es', s0, s1, f, r, by rw [h1]; simp, h2⟩

/-- induction over the events of a run from the first to the last -/
theorem replay_induct {st0 : State} {P : List Event → State → Prop} (h0 : P [] st0)
    (hs : ∀ es e st st', replay b n es st0 = .ok st → P es st → replayEvent b n st e = .ok st' → P (es ++ [e]) st') :
    ∀ {es : List Event} {st : State}, replay b n es st0 = .ok st → P es st := by
  have key : ∀ (es2 es1 : List Event) (s1 st : State), replay b n es1 st0 = .ok s1 → P es1 s1 → replay b n es2 s1 = .ok st → P (es1 ++ es2) st := by
    intro es2
    induction es2 with
    | nil => intro es1 s1 st h1 h2 h3; simp only [replay] at h3; cases h3; simpa using h2
    | cons e es2 ih =>
      intro es1 s1 st h1 h2 h3
      simp only [replay, Run.bind_ok] at h3
      obtain ⟨s2, h4, h5⟩ := h3
      have := ih (es1 ++ [e]) s2 st (by rw [replay_append, Run.bind_ok]; exact ⟨s1, h1, by simp [replay, Run.bind, h4]⟩) (hs es1 e s1 s2 h1 h2 h4) h5
      simpa using this
  intro es st h
  simpa using key es [] st0 st rfl h0 h

/-- what the state records of the reference files -/
theorem reference_inv (hr : replay b n es (State.init b n0) = .ok st) :
    Routine b n es (State.init b n0) st.refNf ∧ (∀ a ∈ st.refAsserts, Asserted b n es (State.init b n0) a) := by
  refine replay_induct (P := fun es st => Routine b n es (State.init b n0) st.refNf ∧ (∀ a ∈ st.refAsserts, Asserted b n es (State.init b n0) a)) ?_ ?_ hr
  · exact ⟨.inl ⟨by intro f i nf h; simp at h, rfl⟩, by intro a h; cases h⟩
  · rintro es e st st' hr ⟨h1, h2⟩ he
    cases e with
    | enter f isRef nf =>
      simp only [replayEvent, Run.map_ok] at he
      obtain ⟨⟨s2, r⟩, h3, rfl⟩ := he
      refine ⟨.inr ⟨es, f, isRef, nf, [], st, s2, rfl, by intro f i nf h; simp at h, hr, h3⟩, ?_⟩
      intro a ha
      have : s2.refAsserts = st.refAsserts := sameRefs.toFrame.parseOpt h3
      exact Asserted.append _ (h2 a (this ▸ ha))
    | skip f isRef nf =>
      simp only [replayEvent, Run.map_ok] at he
      obtain ⟨⟨s2, r⟩, h3, rfl⟩ := he
      refine ⟨?_, ?_⟩
      · have : s2.refNf = st.refNf := (refFrame.toFrame.parseOpt h3).2
        rw [this]
        exact Routine.snoc h1 (by simp)
      · intro a ha
        have : s2.refAsserts = st.refAsserts := sameRefs.toFrame.parseOpt h3
        exact Asserted.append _ (h2 a (this ▸ ha))
    | cmd c =>
      simp only [replayEvent] at he
      refine ⟨?_, ?_⟩
      · rw [(refFrame.exec he).2]
        exact Routine.snoc h1 (by simp)
      · intro a ha
        rcases refAsserts_step he with h3 | ⟨f, s1, a', g1, g2, g3, g4⟩
        · exact Asserted.append _ (h2 a (h3 ▸ ha))
        · rw [g4, List.mem_cons] at ha
          rcases ha with rfl | ha
          · exact ⟨es, .cmd c, [], st, s1, f, _, rfl, hr, g1, h1, g3⟩
          · exact Asserted.append _ (h2 a ha)

theorem hasRef_noEnter (hn : NoEnter es) (h : replay b n es st = .ok st') : st'.hasRef = st.hasRef := by
  refine replay_induct (st0 := st) (P := fun es st' => NoEnter es → st'.hasRef = st.hasRef) (fun _ => rfl) ?_ h hn
  intro es e s1 s2 _ ih he hn
  have ih := ih (fun f i nf hm => hn f i nf (List.mem_append_left _ hm))
  cases e with
  | enter f isRef nf => exact absurd (List.mem_append_right _ (List.mem_singleton.2 rfl)) (hn f isRef nf)
  | skip f isRef nf =>
    simp only [replayEvent, Run.map_ok] at he
    obtain ⟨⟨s2, r⟩, h3, rfl⟩ := he
    exact (refFrame.toFrame.parseOpt h3).1.trans ih
  | cmd c => exact (refFrame.exec he).1.trans ih

/-- **C38**.  After a reference file was entered, and as long as no other file is, an `assume` outside of all scopes opened by
`assume-push` is accepted only if its formula is covered by the assertions of the reference. -/
theorem C38_assume_partial {es1 es2 : List Event} {f : Name} {nf : Option SExp} {x : Name} {F : SExp} (hn : NoEnter es2)
    (hr : replay b n (es1 ++ .enter f true nf :: es2) (State.init b n0) = .ok st) (hz : st.asmCtx = []) (ha : exec b n st (.assume x F) = .ok st') :
    Covered b n (es1 ++ .enter f true nf :: es2) (State.init b n0) st x F := by
  obtain ⟨i1, i2⟩ := reference_inv hr
  have hh : st.hasRef = true := by
    rw [replay_append, Run.bind_ok] at hr
    obtain ⟨s1, _, h2⟩ := hr
    simp only [replay, Run.bind_ok] at h2
    obtain ⟨s2, h3, h4⟩ := h2
    rw [hasRef_noEnter hn h4]
    simp only [replayEvent, Run.map_ok] at h3
    obtain ⟨p, _, rfl⟩ := h3
    rfl
  obtain ⟨s1, G, h1, h2⟩ := execAssume_ok ha
  obtain ⟨_, h3⟩ := addAssumption_ok h2
  obtain ⟨e1, e2⟩ := refFrame.toFrame.parseFormula h1
  obtain ⟨e3, e4⟩ := sameAsms.toFrame.parseFormula h1
  have e5 := sameRefs.toFrame.parseFormula h1
  obtain ⟨a, g1, g2⟩ := h3 (by show s1.hasRef = true; rw [e1]; exact hh) (by show s1.asmCtx = []; rw [e4]; exact hz)
  refine ⟨s1, G, a, st.refNf, h1, i1, ?_, i2 a ?_⟩
  · rw [← e2]
    have := normRef_ok g1
    exact this
  · rw [← e5]; exact g2

/-! ### A case that meets the hypotheses -/

/-- a reference that asserts `p` and the definition of `c` -/
def refEvents : List Event := [
  .cmd (.declareConst (nm "=") (ap "->" [.bool, .bool, .bool]) []),
  .enter (nm "R") true none,
  .cmd (.declareConst (nm "p") .bool []),
  .cmd (.assert (sy "p")),
  .cmd (.defineFun (nm "c") [] .bool (sy "p")) ]

example : ∃ es1 es2 st st', refEvents = es1 ++ .enter (nm "R") true none :: es2 ∧ NoEnter es2 ∧ replay exB 10 refEvents (State.init exB 10) = .ok st ∧
    st.asmCtx = [] ∧ exec exB 10 st (.assume (nm "h") (ap "=" [sy "c", sy "p"])) = .ok st' := by
  have h : ((replay exB 10 refEvents (State.init exB 10)).bind fun st => (exec exB 10 st (.assume (nm "h") (ap "=" [sy "c", sy "p"]))).map
      fun st' => (decide (st.asmCtx = []))) = .ok true := by decide +kernel
  simp only [Run.bind_ok, Run.map_ok] at h
  obtain ⟨st, h1, st', h2, h3⟩ := h
  exact ⟨[_], _, st, st', rfl, by intro f i nf h; simp at h, h1, by simpa using h3, h2⟩

/-! ### The unrestricted claims fail -/

theorem not_covered {st0 : State} {x : Name} {F : SExp} (h1 : ∀ f, Event.cmd (.assert f) ∉ es) (h2 : ∀ x ps ty e, Event.cmd (.defineFun x ps ty e) ∉ es) :
    ¬ Covered b n es st0 st x F := by
  rintro ⟨s1, G, a, r, _, _, _, es1, e, es2, s0, s2, f, r', he, _, ha, _⟩
  have hm : e ∈ es := by rw [he]; simp
  cases ha with
  | assert => exact h1 _ hm
  | defineFun => exact h2 _ _ _ _ hm

/-- **C38** for assumptions within the scope of an `assume-push` is false: they are not compared with the reference … -/
theorem C38_nested_refuted : ¬ ∀ (b : Env) (n n0 : Nat) (es1 es2 : List Event) (f : Name) (nf : Option SExp) (x : Name) (F : SExp) (st st' : State),
    NoEnter es2 → replay b n (es1 ++ .enter f true nf :: es2) (State.init b n0) = .ok st → exec b n st (.assume x F) = .ok st' →
    Covered b n (es1 ++ .enter f true nf :: es2) (State.init b n0) st x F := by
  intro hall
  have h : ((replay exB 10 ([.cmd (.declareConst (nm "p") .bool [])] ++ .enter (nm "R") true none :: [.cmd (.assumePush (nm "h") (sy "p"))])
      (State.init exB 10)).bind fun st => (exec exB 10 st (.assume (nm "k") (sy "p"))).map fun _ => true) = .ok true := by decide +kernel
  simp only [Run.bind_ok, Run.map_ok] at h
  obtain ⟨st, h1, st', h2, _⟩ := h
  exact not_covered (by simp) (by simp) (hall _ _ _ _ _ _ _ _ _ _ _ (by intro f i nf h; simp at h) h1 h2)

/-- … and what is proven from them counts outside of it: with a reference that asserts nothing this run proves `(=> p q)` from
the assumption of `q`, and the answer is `correct` -/
theorem C38_nested_proof_refuted :
    (main exB 10 (fun _ => some []) 3 [(nm "R", true)] (.stdin [
      .declareConst (nm "=>") (ap "->" [.bool, .bool, .bool]) [], .declareConst (nm "p") .bool [], .declareConst (nm "q") .bool [],
      .declareRule { name := nm "intro", params := boolParams ["F", "G"], assumption := some (sy "F"), premises := .each [sy "G"], conc := ap "=>" [sy "F", sy "G"] },
      .assumePush (nm "h") (sy "p"), .assume (nm "k") (sy "q"),
      .step { name := nm "s", rule := nm "intro", premises := [sy "k"], isPop := true } ]) (State.init exB 10)).map
      (fun p => (p.1.asmCtx, p.1.scope.get (nm "s"), p.2)) =
    .ok ([], some (.node PROOF [.node APPLY [.node APPLY [.sym CONST 10, .sym CONST 11], .sym CONST 12]]), .correct) := by decide +kernel

/-- **C38** after other files were entered is false: entering a file that is no reference turns the comparison off -/
theorem C38_include_refuted : ¬ ∀ (b : Env) (n n0 : Nat) (es1 es2 : List Event) (f : Name) (nf : Option SExp) (x : Name) (F : SExp) (st st' : State),
    replay b n (es1 ++ .enter f true nf :: es2) (State.init b n0) = .ok st → st.asmCtx = [] → exec b n st (.assume x F) = .ok st' →
    Covered b n (es1 ++ .enter f true nf :: es2) (State.init b n0) st x F := by
  intro hall
  have h : ((replay exB 10 ([.cmd (.declareConst (nm "p") .bool [])] ++ .enter (nm "R") true none :: [.enter (nm "P") false none])
      (State.init exB 10)).bind fun st => (exec exB 10 st (.assume (nm "k") (sy "p"))).map fun _ => decide (st.asmCtx = [])) = .ok true := by decide +kernel
  simp only [Run.bind_ok, Run.map_ok] at h
  obtain ⟨st, h1, st', h2, h3⟩ := h
  exact not_covered (by simp) (by simp) (hall _ _ _ _ _ _ _ _ _ _ _ h1 (by simpa using h3) h2)

/-- in particular the proof given as a file on the command line is not compared with the file of `--reference` -/
theorem C38_file_refuted :
    (main exB 10 (fun f => if f = nm "P" then some [.declareConst (nm "q") .bool [], .assume (nm "h") (sy "q")] else some []) 3 [(nm "R", true)] (.file (nm "P"))
      (State.init exB 10)).map (fun p => (p.1.refAsserts, p.1.scope.get (nm "h"), p.2)) =
    .ok ([], some (.node PROOF [.sym CONST 10]), .correct) := by decide +kernel

end Ethos.Props
