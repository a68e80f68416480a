import Verif.Props.Files
import Verif.Lemmas.Rules
import Verif.Lemmas.BaseExample
/-
C35, C36, C57: proof steps.  Runs are sequences of events (`Spec.replay`), as C44 gives for a run of the checker.
-/
namespace Ethos.Props
open Ethos Kind Spec

variable {b : Env} {n n0 : Nat} {es : List Event} {st st' : State} {s : SStep}

theorem parseList_length : ∀ (xs : List SExp) {st st' : State} {ts : List Term}, parseList b n xs st = .ok (st', ts) → ts.length = xs.length
  | [], st, st', ts, h => by simp only [parseList] at h; cases h; rfl
  | x :: xs, st, st', ts, h => by
    simp only [parseList, Run.bind_ok, Run.map_ok] at h
    obtain ⟨⟨s1, t⟩, h1, ⟨s2, us⟩, h2, h3⟩ := h
    cases h3
    simp [parseList_length xs h2]

/-- the shape of a declared rule is that of the command -/
theorem Declares.shape {r : SRule} {d : RuleDef} (h : Declares b n st r d) :
    d.args.length = r.args.length ∧ d.asm.isSome = r.assumption.isSome ∧ (r.premises = .each [] → d.prems = []) ∧ d.explicit = r.explicit := by
  obtain ⟨s1, s2, s3, s4, s5, s6, _, h2, h3, h4, _, _, h7⟩ := h
  refine ⟨parseList_length _ h4, ?_, ?_, h7⟩
  · cases ha : r.assumption with
    | none => rw [ha] at h2; simp only [parseOpt, Run.ok.injEq, Prod.mk.injEq] at h2; rw [← h2.2]; rfl
    | some e =>
      rw [ha] at h2
      simp only [parseOpt, Run.map_ok] at h2
      obtain ⟨p, _, h2⟩ := h2
      rw [← (Prod.mk.inj h2).2]; rfl
  · intro hp
    rw [hp] at h3
    simp only [parsePremises, parseList, Run.map_ok] at h3
    obtain ⟨p, h8, h9⟩ := h3
    cases h8
    exact (Prod.mk.inj (Prod.mk.inj h9).2).1.symm

theorem Declares.nullary {r : SRule} {d : RuleDef} (h : Declares b n st r d) (hr : Nullary r) : d.pats = [] := by
  obtain ⟨h1, h2, h3, h4⟩ := Declares.shape h
  obtain ⟨r1, r2, r3, r4⟩ := hr
  have e1 : d.args = [] := List.eq_nil_of_length_eq_zero (by rw [h1, r1]; rfl)
  have e2 : d.asm = none := by
    cases ha : d.asm with
    | none => rfl
    | some a => rw [ha, r3] at h2; cases h2
  simp [RuleDef.pats, e1, e2, h3 r4, h4, r2]

theorem Declares.not_nullary {r : SRule} {d : RuleDef} (h : Declares b n st r d) (hp : d.pats = []) : Nullary r := by
  obtain ⟨h1, h2, h3, h4⟩ := Declares.shape h
  simp only [RuleDef.pats, List.append_eq_nil_iff, List.map_eq_nil_iff] at hp
  obtain ⟨⟨⟨p1, p2⟩, p3⟩, p4⟩ := hp
  refine ⟨List.eq_nil_of_length_eq_zero (by rw [← h1, p1]; rfl), ?_, ?_, ?_⟩
  · rw [← h4]
    cases he : d.explicit with
    | false => rfl
    | true => rw [he] at p2; simp at p2
  · cases ha : r.assumption with
    | none => rfl
    | some a =>
      rw [ha] at h2
      cases hd : d.asm with
      | none => rw [hd] at h2; cases h2
      | some a => rw [hd] at p3; cases p3
  · obtain ⟨s1, s2, s3, s4, s5, s6, _, _, h3, _⟩ := h
    cases hpr : r.premises with
    | each es =>
      rw [hpr] at h3
      simp only [parsePremises, Run.map_ok] at h3
      obtain ⟨p, h5, h6⟩ := h3
      have := parseList_length _ h5
      have h7 := (Prod.mk.inj (Prod.mk.inj h6).2).1
      rw [p4] at h7
      rw [h7] at this
      rw [List.eq_nil_of_length_eq_zero this.symm]
    | plist pat cons =>
      rw [hpr] at h3
      simp only [parsePremises, Run.map_ok, Run.bind_ok] at h3
      obtain ⟨p, _, q, _, h6⟩ := h3
      have h7 := (Prod.mk.inj (Prod.mk.inj h6).2).1
      rw [p4] at h7
      cases h7

theorem Inputs.length {d : RuleDef} {proven : Option Term} {prems args inputs : List Term} {p : Bool} (h : Inputs b st d proven prems args p inputs) :
    args.length ≤ inputs.length := by
  obtain ⟨as, ps, h, _⟩ := h.parts
  rw [h]; simp [List.length_append]

theorem at_mem {s0 : State} {e : Event} (h : At b n es st e s0) : e ∈ es := by
  induction h with
  | head => exact List.mem_cons_self ..
  | tail _ _ _ _ _ _ _ _ ih => exact List.mem_cons_of_mem _ ih

/-- the parts of an accepted step in a run: the rule was declared, and the conclusion is an instance of it unless the rule has
nothing to match and the step gives arguments or premises -/
theorem step_justified (hb : BaseOk b n0) (hr : replay b n es (State.init b n0) = .ok st) (hs : exec b n st (.step s) = .ok st') :
    ∃ r s0 d, At b n es (State.init b n0) (.cmd (.declareRule r)) s0 ∧ r.name = s.rule ∧ Declares b n s0 r d ∧
    ∃ s1 s2 s3 rule proven prems args inputs F, parseConc b n s.conc st = .ok (s1, proven) ∧
      parseList b n s.premises { s1 with used := rule :: s1.used } = .ok (s2, prems) ∧ parseList b n s.args s2 = .ok (s3, args) ∧
      Inputs b s3 d proven prems args s.isPop inputs ∧ (d.pats = [] ∧ inputs ≠ [] ∨ Instance (s3.env b) d inputs F) ∧
      (d.pats = [] → ∀ q ∈ d.reqs, ∃ v, IsValue v ∧ EvaluatesTo (s3.env b) [] q.1 v ∧ EvaluatesTo (s3.env b) [] q.2 v) ∧
      (∀ c, proven = some c → c = F) ∧
      (∃ ty, TypeResult (s3.env b) F (some ty) ∧ ty.kind = BOOL_TYPE) ∧ st'.scope.get s.name = some (.node PROOF [F]) ∧
      s3.asms = st.asms ∧ s3.asmCtx = st.asmCtx ∧
      ∃ s4, (if s.isPop then s3.popAssumption else .ok s3) = .ok s4 ∧ st' = s4.bind s.name (mkProof F) := by
  obtain ⟨m, _, H⟩ := (Fresh.init hb).replay hb es hr
  obtain ⟨s1, proven, rule, s2, prems, s3, args, conc, ty, s4, hpop, h1, h2, h3, h4, h5, h6, h7, h8, h9, rfl⟩ := execStep_ok hs
  have k1 := keepsFrame.parseConc h1
  have hfr : Frame fun a c : State => c.decls = a.decls ∧ c.asms = a.asms ∧ c.asmCtx = a.asmCtx :=
    ⟨fun _ => ⟨rfl, rfl, rfl⟩, fun h1 h2 => ⟨h2.1.trans h1.1, h2.2.1.trans h1.2.1, h2.2.2.trans h1.2.2⟩, fun _ _ _ => ⟨rfl, rfl, rfl⟩,
      fun _ => ⟨rfl, rfl, rfl⟩, fun h => by
        simp only [State.pop, Run.map_ok] at h
        obtain ⟨_, _, rfl⟩ := h
        exact ⟨rfl, rfl, rfl⟩⟩
  obtain ⟨d1, a1, c1⟩ := hfr.parseConc h1
  obtain ⟨d2, a2, c2⟩ := hfr.parseList b n _ h3
  obtain ⟨d3, a3, c3⟩ := hfr.parseList b n _ h4
  have hrule : st.decls.rules s.rule = some rule := by rw [← d1]; exact h2
  have hr3 : s3.decls.rules s.rule = some rule := by rw [d3, d2]; exact h2
  have ea : s3.asms = st.asms := by rw [a3, a2]; exact a1
  have ec : s3.asmCtx = st.asmCtx := by rw [c3, c2]; exact c1
  rcases rules_replay hb es (Fresh.init hb) hr hrule with h0 | ⟨r, s0, d, g1, g2, g3, g4⟩
  · cases h0
  · have k3 : Keeps st s3 := k1.trans (Keeps.trans (b := { s1 with used := rule :: s1.used }) (.of rfl rfl rfl) ((keepsFrame.parseList b n _ h3).trans (keepsFrame.parseList b n _ h4)))
    obtain ⟨inputs, i1, i2, i3⟩ := notifyStep_instance (g4.keep H k3) hr3 h5 h6 h7 (fun hp => by rw [ec]; exact hpop hp)
    refine ⟨r, s0, d, g1, g2, g3, s1, s2, s3, rule, proven, prems, args, inputs, conc, h1, h3, h4, i1, i2, i3, ?_, ⟨ty, ?_, h7⟩, ?_, ea, ec, s4, h9, rfl⟩
    · intro c hc
      subst hc
      have := h8 (by simp)
      simpa using this
    · simp only [State.typeCheck, Run.bind_ok, Run.lift_ok, Run.orErr_ok] at h6
      obtain ⟨q, h6, rfl⟩ := h6
      exact ⟨n, h6⟩
    · simp [State.bind, Scope.bind, Scope.get, mkProof]

/-- the parts of an accepted step in a run, provided that a step of a rule without arguments, premises, assumption and
`:conclusion-explicit` gives no arguments and no premises -/
theorem step_instance (hb : BaseOk b n0) (hr : replay b n es (State.init b n0) = .ok st) (hs : exec b n st (.step s) = .ok st')
    (hn : ∀ r, .cmd (.declareRule r) ∈ es → r.name = s.rule → Nullary r → s.args = [] ∧ s.premises = []) :
    ∃ r s0 d, At b n es (State.init b n0) (.cmd (.declareRule r)) s0 ∧ r.name = s.rule ∧ Declares b n s0 r d ∧
    ∃ s1 s2 s3 rule proven prems args inputs F, parseConc b n s.conc st = .ok (s1, proven) ∧
      parseList b n s.premises { s1 with used := rule :: s1.used } = .ok (s2, prems) ∧ parseList b n s.args s2 = .ok (s3, args) ∧
      Inputs b s3 d proven prems args s.isPop inputs ∧ Instance (s3.env b) d inputs F ∧
      (∀ c, proven = some c → c = F) ∧
      (∃ ty, TypeResult (s3.env b) F (some ty) ∧ ty.kind = BOOL_TYPE) ∧ st'.scope.get s.name = some (.node PROOF [F]) ∧
      s3.asms = st.asms ∧ s3.asmCtx = st.asmCtx ∧
      ∃ s4, (if s.isPop then s3.popAssumption else .ok s3) = .ok s4 ∧ st' = s4.bind s.name (mkProof F) := by
  obtain ⟨r, s0, d, g1, g2, g3, s1, s2, s3, rule, proven, prems, args, inputs, F, h1, h3, h4, i1, i2, i3, i4, i5, i6, i7⟩ := step_justified hb hr hs
  refine ⟨r, s0, d, g1, g2, g3, s1, s2, s3, rule, proven, prems, args, inputs, F, h1, h3, h4, i1, ?_, i4, i5, i6, i7⟩
  rcases i2 with ⟨hp, hi⟩ | h
  · exfalso
    have hN := Declares.not_nullary g3 hp
    obtain ⟨e1, e2⟩ := hn r (at_mem g1) g2 hN
    have l1 : args = [] := List.eq_nil_of_length_eq_zero (by rw [parseList_length _ h4, e1]; rfl)
    have l2 : prems = [] := List.eq_nil_of_length_eq_zero (by rw [parseList_length _ h3, e2]; rfl)
    obtain ⟨as, ps, q1, q2, q3⟩ := i1.parts
    apply hi
    obtain ⟨f1, f2, f3, f4⟩ := Declares.shape g3
    have hx : d.explicit = false := by rw [f4]; exact hN.2.1
    have ha : d.asm = none := by
      cases ha : d.asm with
      | none => rfl
      | some a => rw [ha, hN.2.2.1] at f2; cases f2
    have hpop : s.isPop = false := by rw [i1.pop, ha]; rfl
    have hpl : d.plist = none := by
      obtain ⟨_, _, _, _, _, _, _, _, h3, _⟩ := g3
      rw [hN.2.2.2] at h3
      simp only [parsePremises, Run.map_ok] at h3
      obtain ⟨p, _, h6⟩ := h3
      exact (Prod.mk.inj (Prod.mk.inj h6).2).2.symm
    rw [hpop] at q2
    rw [hpl] at q3
    simp only [Bool.false_eq_true, if_false] at q2
    have q3 : ps = prems := q3
    rw [q1, l1, q2, q3, l2, hx]
    rfl
  · exact h

/-- **C35**.  An accepted step of a run is justified by a rule that a command of the run declared, provided that a step of a rule
without arguments, premises, assumption and `:conclusion-explicit` gives no arguments and no premises. -/
theorem C35_step_partial (hb : BaseOk b n0) (hr : replay b n es (State.init b n0) = .ok st) (hs : exec b n st (.step s) = .ok st')
    (hn : ∀ r, .cmd (.declareRule r) ∈ es → r.name = s.rule → Nullary r → s.args = [] ∧ s.premises = []) :
    Justified b n es (State.init b n0) st s st' := by
  obtain ⟨r, s0, d, g1, g2, g3, s1, s2, s3, rule, proven, prems, args, inputs, F, h1, h3, h4, i1, i2, i3, i4, i5, _⟩ := step_instance hb hr hs hn
  exact ⟨r, s0, d, g1, g2, g3, s1, s2, s3, rule, proven, prems, args, inputs, F, h1, h3, h4, i1, i2, i3, i4, i5⟩

/-- **C36**.  An accepted step of a run uses a declared rule, and both sides of each of its requirements evaluate to the same value,
for the assignment of the parameters under which the patterns are the inputs of the step. -/
theorem C36_requires (hb : BaseOk b n0) (hr : replay b n es (State.init b n0) = .ok st) (hs : exec b n st (.step s) = .ok st') :
    ∃ r s0 d s1 s2 s3 rule proven prems args inputs ctx, At b n es (State.init b n0) (.cmd (.declareRule r)) s0 ∧ r.name = s.rule ∧ Declares b n s0 r d ∧
      parseConc b n s.conc st = .ok (s1, proven) ∧ parseList b n s.premises { s1 with used := rule :: s1.used } = .ok (s2, prems) ∧
      parseList b n s.args s2 = .ok (s3, args) ∧ Inputs b s3 d proven prems args s.isPop inputs ∧
      (d.pats ≠ [] → d.pats.map (subst (ctxSub ctx)) = inputs) ∧
      ∀ q ∈ d.reqs, ∃ v, IsValue v ∧ EvaluatesTo (s3.env b) ctx q.1 v ∧ EvaluatesTo (s3.env b) ctx q.2 v := by
  obtain ⟨r, s0, d, g1, g2, g3, s1, s2, s3, rule, proven, prems, args, inputs, F, h1, h3, h4, i1, i2, i3, _⟩ := step_justified hb hr hs
  rcases i2 with ⟨hp, _⟩ | ⟨ctx, j1, _, _, j2, _⟩
  · exact ⟨r, s0, d, s1, s2, s3, rule, proven, prems, args, inputs, [], g1, g2, g3, h1, h3, h4, i1, fun h => absurd hp h, i3 hp⟩
  · exact ⟨r, s0, d, s1, s2, s3, rule, proven, prems, args, inputs, ctx, g1, g2, g3, h1, h3, h4, i1, fun _ => j1, j2⟩

/-- a step with as many arguments as the rule has: every pattern is matched with its own part of the step -/
theorem Instance.aligned {env : Env} {d : RuleDef} {F : Term} {proven : Option Term} {prems args inputs : List Term} {p : Bool}
    (h : Instance env d inputs F) (hi : Inputs b st d proven prems args p inputs) (hl : args.length = d.args.length) :
    ∃ ctx ps, d.args.map (subst (ctxSub ctx)) = args ∧ (d.explicit = true → proven = some (subst (ctxSub ctx) d.conc)) ∧
      (∀ q, d.asm = some q → Discharges st (subst (ctxSub ctx) q)) ∧ Premises (st.env b) d.plist prems ps ∧
      ps = d.prems.map (fun q => .node PROOF [subst (ctxSub ctx) q]) ∧
      (∀ q ∈ d.reqs, ∃ v, IsValue v ∧ EvaluatesTo env ctx q.1 v ∧ EvaluatesTo env ctx q.2 v) ∧ EvaluatesTo env ctx d.conc F := by
  obtain ⟨ctx, h1, _, _, h3, h4, _⟩ := h
  obtain ⟨as, ps, q1, q2, q3⟩ := hi.parts
  rw [q1] at h1
  simp only [RuleDef.pats, List.map_append, List.append_assoc] at h1
  obtain ⟨e1, h1⟩ := List.append_inj h1 (by simp [hl])
  have hlen : (List.map (subst (ctxSub ctx)) (if d.explicit = true then [d.conc] else [])).length = (if d.explicit = true then proven.toList else []).length := by
    split
    · rename_i he
      cases hp : proven with
      | none => exact absurd hp (hi.stated he)
      | some c => rfl
    · rfl
  obtain ⟨e2, h1⟩ := List.append_inj h1 hlen
  have hlen2 : (List.map (subst (ctxSub ctx)) d.asm.toList).length = as.length := by
    have := hi.pop
    cases ha : d.asm with
    | none => rw [ha] at this; rw [this] at q2; simp only [Option.isSome_none, Bool.false_eq_true, if_false] at q2; rw [q2]; rfl
    | some q =>
      rw [ha] at this; rw [this] at q2
      simp only [Option.isSome_some, if_true] at q2
      obtain ⟨a, rfl, _⟩ := q2
      rfl
  obtain ⟨e3, e4⟩ := List.append_inj h1 hlen2
  refine ⟨ctx, ps, e1, ?_, ?_, q3, ?_, h3, h4⟩
  · intro he
    rw [if_pos he, if_pos he] at e2
    cases hp : proven with
    | none => exact absurd hp (hi.stated he)
    | some c => rw [hp] at e2; simp at e2; rw [e2]
  · intro q hq
    have := hi.pop
    rw [hq] at this e3
    rw [this] at q2
    simp only [Option.isSome_some, if_true] at q2
    obtain ⟨a, rfl, hd⟩ := q2
    simp at e3
    rw [e3]; exact hd
  · rw [← e4, List.map_map]
    apply List.map_congr_left
    intro q _
    simp [subst, substs]

/-- **C57**.  An accepted `step-pop` with as many arguments as its rule declares discharges the assumption it removes: the
assumption pattern of the rule, instantiated like the patterns of the arguments and of the premises, is that assumption. -/
theorem C57_pop_partial (hb : BaseOk b n0) (hr : replay b n es (State.init b n0) = .ok st) (hs : exec b n st (.step s) = .ok st') (hp : s.isPop = true)
    (hl : ∀ r, .cmd (.declareRule r) ∈ es → r.name = s.rule → s.args.length = r.args.length) :
    PopDischarges b n es (State.init b n0) st s st' := by
  obtain ⟨r, s0, d, g1, g2, g3, s1, s2, s3, rule, proven, prems, args, inputs, F, h1, h3, h4, i1, i2, i3, i4, i5, i6, i7, i8, _⟩ := step_justified hb hr hs
  have hpop := i1.pop
  rw [hp] at hpop
  cases ha : d.asm with
  | none => rw [ha] at hpop; cases hpop
  | some q =>
    have hI : Instance (s3.env b) d inputs F := by
      rcases i2 with ⟨hn, _⟩ | h
      · simp [RuleDef.pats, ha] at hn
      · exact h
    obtain ⟨ctx, ps, a1, a2, a3, a4, a5, a6, a7⟩ := Instance.aligned hI i1 (by
      rw [parseList_length _ h4, hl r (at_mem g1) g2, (Declares.shape g3).1])
    obtain ⟨k, rr, c1, c2⟩ := a3 q ha
    exact ⟨r, s0, d, q, g1, g2, g3, ha, s1, s2, s3, rule, proven, prems, args, ps, ctx, F, h1, h3, h4,
      ⟨k, rr, by rw [← i8]; exact c1, by rw [← i7]; exact c2⟩, a1, a4, a5, a7, i6⟩

/-! ### Which assumption is discharged -/

theorem sameAsms : DeclFrame fun a c : State => c.asms = a.asms ∧ c.asmCtx = a.asmCtx where
  refl _ := ⟨rfl, rfl⟩
  trans h1 h2 := ⟨h2.1.trans h1.1, h2.2.trans h1.2⟩
  bind _ _ _ := ⟨rfl, rfl⟩
  push _ := ⟨rfl, rfl⟩
  pop h := by
    simp only [State.pop, Run.map_ok] at h
    obtain ⟨_, _, rfl⟩ := h
    exact ⟨rfl, rfl⟩
  sym _ _ _ _ := ⟨rfl, rfl⟩
  mark _ _ _ _ := ⟨rfl, rfl⟩
  lit _ := ⟨rfl, rfl⟩
  refAssert _ _ := ⟨rfl, rfl⟩

/-- the effect of a step on the assumptions -/
theorem step_asms (h : exec b n st (.step s) = .ok st') :
    if s.isPop then ∃ k r, st.asmCtx = k :: r ∧ st'.asms = st.asms.take k ∧ st'.asmCtx = r else st'.asms = st.asms ∧ st'.asmCtx = st.asmCtx := by
  obtain ⟨s1, proven, rule, s2, prems, s3, args, conc, ty, s4, hpop, h1, h2, h3, h4, h5, h6, h7, h8, h9, rfl⟩ := execStep_ok h
  obtain ⟨a1, c1⟩ := sameAsms.toFrame.parseConc h1
  obtain ⟨a2, c2⟩ := sameAsms.toFrame.parseList b n _ h3
  obtain ⟨a3, c3⟩ := sameAsms.toFrame.parseList b n _ h4
  have ea : s3.asms = st.asms := by rw [a3, a2]; exact a1
  have ec : s3.asmCtx = st.asmCtx := by rw [c3, c2]; exact c1
  split
  · rename_i hp
    rw [if_pos hp] at h9
    obtain ⟨k, r, e1, e2⟩ := popAssumption_ok h9
    obtain ⟨f1, f2⟩ := sameAsms.pop e2
    exact ⟨k, r, by rw [← ec]; exact e1, by rw [← ea]; exact f1, f2⟩
  · rename_i hp
    rw [if_neg hp] at h9
    cases h9
    exact ⟨ea, ec⟩

/-- the effect of `assume` and `assume-push` on the assumptions -/
theorem assume_asms {x : Name} {f : SExp} {p : Bool} (h : execAssume b n st x f p = .ok st') :
    ∃ s1 F, parseFormula b n f st = .ok (s1, F) ∧ st'.asms = st.asms ++ [F] ∧ st'.asmCtx = if p then st.asms.length :: st.asmCtx else st.asmCtx := by
  obtain ⟨s1, F, h1, h2⟩ := execAssume_ok h
  obtain ⟨rfl, _⟩ := addAssumption_ok h2
  obtain ⟨a1, c1⟩ := sameAsms.toFrame.parseFormula h1
  refine ⟨s1, F, h1, ?_, ?_⟩
  · cases p <;> simp [State.bind, State.pushAssumption, State.push, a1]
  · cases p <;> simp [State.bind, State.pushAssumption, State.push, a1, c1]

theorem declareRule_asms {r : SRule} (h : execDeclareRule b n st r = .ok st') : st'.asms = st.asms ∧ st'.asmCtx = st.asmCtx := by
  obtain ⟨_, s1, s2, asm, s3, prems, pcons, s4, args, s5, reqs, s6, conc, ret, s7, s8, prog, decls, h1, h2, h3, h4, h5, h6, _, h8, h9, h10, rfl⟩ :=
    execDeclareRule_ok h
  have F := sameAsms
  have h := F.trans (F.push st) (F.trans (F.bindRuleParams h1) (F.trans (F.parseOpt h2) (F.trans (F.parsePremises h3) (F.trans (F.parseList b n _ h4)
    (F.trans (F.parsePairs _ h5) (F.trans (F.parseExpr b n _ h6) (F.trans (F.pop h8) (F.trans (F.sym s7 PROOF_RULE r.name tBool) (F.ruleProg h9)))))))))
  exact h

/-- an event that opens and closes no assumption scope only adds assumptions -/
theorem other_asms {e : Event} (h1 : ∀ x f, e ≠ .cmd (.assumePush x f)) (h2 : ∀ s, e = .cmd (.step s) → s.isPop = false) (h3 : e ≠ .cmd .reset)
    (h : replayEvent b n st e = .ok st') : (∃ l, st'.asms = st.asms ++ l) ∧ st'.asmCtx = st.asmCtx := by
  cases e with
  | enter f isRef nf =>
    simp only [replayEvent, Run.map_ok] at h
    obtain ⟨p, h4, rfl⟩ := h
    obtain ⟨a, c⟩ := sameAsms.toFrame.parseOpt h4
    exact ⟨⟨[], by simpa using a⟩, c⟩
  | skip f isRef nf =>
    simp only [replayEvent, Run.map_ok] at h
    obtain ⟨p, h4, rfl⟩ := h
    obtain ⟨a, c⟩ := sameAsms.toFrame.parseOpt h4
    exact ⟨⟨[], by simpa using a⟩, c⟩
  | cmd c =>
    simp only [replayEvent] at h
    by_cases hc : isPlain c = true
    · obtain ⟨a, c⟩ := sameAsms.exec hc h
      exact ⟨⟨[], by simpa using a⟩, c⟩
    · cases c with
      | assume x f =>
        obtain ⟨_, F, _, a, c⟩ := assume_asms h
        exact ⟨⟨[F], a⟩, by simpa using c⟩
      | assumePush x f => exact absurd rfl (h1 x f)
      | declareRule r =>
        obtain ⟨a, c⟩ := declareRule_asms h
        exact ⟨⟨[], by simpa using a⟩, c⟩
      | step s =>
        have := step_asms h
        rw [h2 s rfl] at this
        exact ⟨⟨[], by simpa using this.1⟩, this.2⟩
      | reset => exact absurd rfl h3
      | _ => exact absurd rfl hc

theorem balanced_asms {es : List Event} (hb : Nested es) : ∀ {st st' : State}, replay b n es st = .ok st' →
    (∃ l, st'.asms = st.asms ++ l) ∧ st'.asmCtx = st.asmCtx := by
  induction hb with
  | nil => intro st st' h; simp only [replay] at h; cases h; exact ⟨⟨[], by simp⟩, rfl⟩
  | other e es h1 h2 h3 _ ih =>
    intro st st' h
    simp only [replay, Run.bind_ok] at h
    obtain ⟨s1, h4, h5⟩ := h
    obtain ⟨⟨l1, a1⟩, c1⟩ := other_asms h1 h2 h3 h4
    obtain ⟨⟨l2, a2⟩, c2⟩ := ih h5
    exact ⟨⟨l1 ++ l2, by rw [a2, a1, List.append_assoc]⟩, c2.trans c1⟩
  | block x f s es es' hp _ _ ih1 ih2 =>
    intro st st' h
    simp only [replay, replay_append, Run.bind_ok] at h
    obtain ⟨s1, h4, s2, h5, s3, h6, h7⟩ := h
    obtain ⟨_, F, _, a1, c1⟩ := assume_asms h4
    obtain ⟨⟨l2, a2⟩, c2⟩ := ih1 h5
    have h6 := step_asms h6
    rw [if_pos hp] at h6
    obtain ⟨k, r, e1, e2, e3⟩ := h6
    obtain ⟨⟨l4, a4⟩, c4⟩ := ih2 h7
    rw [c2, c1] at e1
    simp only [if_true, List.cons.injEq] at e1
    obtain ⟨rfl, rfl⟩ := e1
    refine ⟨⟨l4, ?_⟩, c4.trans e3⟩
    rw [a4, e2, a2, a1, List.append_assoc, List.take_left']
    rfl

/-- **C57**.  The assumption that a `step-pop` discharges is that of the innermost `assume-push` that is still open. -/
theorem C57_innermost {x : Name} {f : SExp} {st1 : State} (hx : exec b n st (.assumePush x f) = .ok st1) (he : Nested es)
    (hr : replay b n es st1 = .ok st') : ∃ s1 F, parseFormula b n f st = .ok (s1, F) ∧ ∀ a, Discharges st' a ↔ a = F := by
  obtain ⟨s1, F, h1, h2, h3⟩ := assume_asms hx
  obtain ⟨⟨l, h4⟩, h5⟩ := balanced_asms he hr
  refine ⟨s1, F, h1, fun a => ?_⟩
  have hk : st'.asms[st.asms.length]? = some F := by rw [h4, h2]; simp
  have hc : st'.asmCtx = st.asms.length :: st.asmCtx := by rw [h5, h3]; rfl
  constructor
  · rintro ⟨k, r, e1, e2⟩
    rw [hc] at e1
    cases e1
    rw [hk] at e2
    cases e2; rfl
  · rintro rfl
    exact ⟨_, _, hc, hk⟩

/-! ### Cases that meet the hypotheses -/

/-- parameters of type Bool -/
def boolParams (xs : List String) : List SParam := xs.map fun x => ⟨nm x, .bool, []⟩

/-- modus ponens with different formulas, the introduction of an implication, and assumptions -/
def mpCmds : List Cmd := [
  .declareConst (nm "=>") (ap "->" [.bool, .bool, .bool]) [],
  .declareConst (nm "p") .bool [],
  .declareConst (nm "q") .bool [],
  .declareRule { name := nm "mp", params := boolParams ["F", "G"], premises := .each [sy "F", ap "=>" [sy "F", sy "G"]], reqs := [(ap "eo::eq" [sy "F", sy "G"], sy "false")], conc := sy "G" },
  .declareRule { name := nm "intro", params := boolParams ["F", "G"], assumption := some (sy "F"), premises := .each [sy "G"], conc := ap "=>" [sy "F", sy "G"] },
  .assume (nm "h2") (ap "=>" [sy "p", sy "q"]),
  .assumePush (nm "h1") (sy "p") ]
def mpStep : SStep := { name := nm "s", rule := nm "mp", premises := [sy "h1", sy "h2"] }
def introStep : SStep := { name := nm "t", rule := nm "intro", premises := [sy "s"], isPop := true }

/-- C35, C36: the hypotheses are met by modus ponens from `p` and `(=> p q)` -/
example : ∃ st st', replay exB 10 (mpCmds.map .cmd) (State.init exB 10) = .ok st ∧ exec exB 10 st (.step mpStep) = .ok st' ∧
    st'.scope.get (nm "s") = some (.node PROOF [.sym CONST 12]) ∧
    ∀ r, .cmd (.declareRule r) ∈ mpCmds.map Event.cmd → r.name = mpStep.rule → Nullary r → mpStep.args = [] ∧ mpStep.premises = [] := by
  obtain ⟨st, st', h1, h2, h3⟩ := exStep (cmds := mpCmds) (s := mpStep) (r := some (.node PROOF [.sym CONST 12])) (by decide +kernel)
  refine ⟨st, st', h1, h2, h3, ?_⟩
  intro r hr hn hN
  simp only [mpCmds, List.map_cons, List.map_nil, List.mem_cons, Event.cmd.injEq, Cmd.declareRule.injEq, reduceCtorEq, false_or, or_false,
    List.not_mem_nil] at hr
  rcases hr with rfl | rfl
  · exact absurd hN.2.2.2 (by simp)
  · exact absurd hN.2.2.1 (by simp)

/-- C57: … and by the introduction of `(=> p q)` after it -/
example : ∃ st st', replay exB 10 ((mpCmds ++ [Cmd.step mpStep]).map .cmd) (State.init exB 10) = .ok st ∧ exec exB 10 st (.step introStep) = .ok st' ∧
    st'.scope.get (nm "t") = some (.node PROOF [.node APPLY [.node APPLY [.sym CONST 10, .sym CONST 11], .sym CONST 12]]) ∧
    ∀ r, .cmd (.declareRule r) ∈ (mpCmds ++ [Cmd.step mpStep]).map Event.cmd → r.name = introStep.rule → introStep.args.length = r.args.length := by
  obtain ⟨st, st', h1, h2, h3⟩ := exStep (cmds := mpCmds ++ [Cmd.step mpStep]) (s := introStep)
    (r := some (.node PROOF [.node APPLY [.node APPLY [.sym CONST 10, .sym CONST 11], .sym CONST 12]])) (by decide +kernel)
  refine ⟨st, st', h1, h2, h3, ?_⟩
  intro r hr hn
  simp only [mpCmds, List.map_cons, List.map_nil, List.mem_cons, Event.cmd.injEq, Cmd.declareRule.injEq, reduceCtorEq, false_or, or_false,
    List.not_mem_nil, List.cons_append, List.nil_append] at hr
  rcases hr with rfl | rfl <;> rfl

/-- C57: a block within the scope of an assumption -/
example (x y : Name) (f g : SExp) (s : SStep) (hp : s.isPop = true) (hq : s.conc = none) :
    Nested [.cmd (.assume x f), .cmd (.assumePush y g), .cmd (.step { s with isPop := false }), .cmd (.step s), .cmd .nop] := by
  have h (e : Event) (es : List Event) (h1 : ∀ x f, e ≠ .cmd (.assumePush x f)) (h2 : ∀ s, e = .cmd (.step s) → s.isPop = false) (h3 : e ≠ .cmd .reset)
    (h4 : Nested es) : Nested (e :: es) := .other e es h1 h2 h3 h4
  refine h _ _ (by simp) (by simp) (by simp) ?_
  refine Nested.block y g s [.cmd (.step { s with isPop := false })] [.cmd .nop] hp ?_ ?_
  · exact h _ _ (by simp) (by rintro t e; cases e; rfl) (by simp) .nil
  · exact h _ _ (by simp) (by simp) (by simp) .nil

/-! ### The unrestricted claims fail -/

/-- a rule with nothing to match whose conclusion is a predicate, used with one argument: its conclusion is the predicate
applied to the argument -/
def predCmds : List Cmd := [
  .declareSort (nm "U") 0,
  .declareConst (nm "P") (ap "->" [sy "U", .bool]) [],
  .declareConst (nm "a") (sy "U") [],
  .declareRule { name := nm "r", conc := sy "P" } ]
def predStep : SStep := { name := nm "s", rule := nm "r", args := [sy "a"] }

/-- **C35** without its condition is false: the step is accepted and proves `(P a)`, of which the rule says nothing. -/
theorem C35_refuted : ¬ ∀ (b : Env) (n n0 : Nat) (es : List Event) (st st' : State) (s : SStep), BaseOk b n0 →
    replay b n es (State.init b n0) = .ok st → exec b n st (.step s) = .ok st' → Justified b n es (State.init b n0) st s st' := by
  intro hall
  obtain ⟨st, st', h1, h2, h3⟩ := exStep (cmds := predCmds) (s := predStep) (r := some (.node PROOF [.node APPLY [.sym CONST 11, .sym CONST 12]]))
    (by decide +kernel)
  obtain ⟨r, s0, d, g1, _, g3, s1, s2, s3, rule, proven, prems, args, inputs, F, _, _, h4, i1, ⟨ctx, i2, _⟩, _⟩ :=
    hall exB 10 10 _ st st' predStep exB_ok h1 h2
  have hr := at_mem g1
  simp only [predCmds, List.map_cons, List.map_nil, List.mem_cons, Event.cmd.injEq, Cmd.declareRule.injEq, reduceCtorEq, false_or, or_false,
    List.not_mem_nil] at hr
  subst hr
  rw [Declares.nullary g3 ⟨rfl, rfl, rfl, rfl⟩] at i2
  have l1 := Inputs.length i1
  rw [← i2, parseList_length _ h4] at l1
  exact absurd l1 (by simp [predStep])

/-- a rule with one argument and an assumption, used without argument and with one premise more: the discharged assumption
is taken for the argument and the first premise, which is no proof, for the assumption -/
def popCmds : List Cmd := [
  .declareConst (nm "=>") (ap "->" [.bool, .bool, .bool]) [],
  .declareConst (nm "p") .bool [],
  .declareRule { name := nm "r", params := boolParams ["x", "F", "G"], assumption := some (sy "F"), premises := .each [sy "G"], args := [sy "x"], conc := ap "=>" [sy "F", sy "G"] },
  .assumePush (nm "h") (sy "p") ]
def popStep : SStep := { name := nm "s", rule := nm "r", premises := [sy "true", sy "h"], isPop := true }

/-- the step proves `(=> true p)`: the assumption `p` is gone without having been discharged, and the answer is `correct` -/
theorem C57_drop_refuted : runEx (popCmds ++ [Cmd.step popStep]) "s" =
    .ok (some (.node PROOF [.node APPLY [.node APPLY [.sym CONST 10, tTrue], .sym CONST 11]]), .correct) := by decide +kernel

/-- **C57** without its condition is false. -/
theorem C57_refuted : ¬ ∀ (b : Env) (n n0 : Nat) (es : List Event) (st st' : State) (s : SStep), BaseOk b n0 →
    replay b n es (State.init b n0) = .ok st → exec b n st (.step s) = .ok st' → s.isPop = true → PopDischarges b n es (State.init b n0) st s st' := by
  intro hall
  obtain ⟨st, st', h1, h2, h3⟩ := exStep (cmds := popCmds) (s := popStep)
    (r := some (.node PROOF [.node APPLY [.node APPLY [.sym CONST 10, tTrue], .sym CONST 11]])) (by decide +kernel)
  obtain ⟨r, s0, d, q, g1, _, g3, _, s1, s2, s3, rule, proven, prems, args, ps, ctx, F, _, _, h4, _, h5, _⟩ :=
    hall exB 10 10 _ st st' popStep exB_ok h1 h2 rfl
  have hr := at_mem g1
  simp only [popCmds, List.map_cons, List.map_nil, List.mem_cons, Event.cmd.injEq, Cmd.declareRule.injEq, reduceCtorEq, false_or, or_false,
    List.not_mem_nil] at hr
  subst hr
  have l1 := (Declares.shape g3).1
  have l2 := parseList_length _ h4
  rw [← h5, List.length_map, l1] at l2
  exact absurd l2 (by decide)

end Ethos.Props
