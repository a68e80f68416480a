import Verif.Spec.Program
import Verif.Props.Rules
import Verif.Props.Flags
import Verif.Lemmas.SelfFree
/-
C34: the right-hand sides of programs and the conclusions of rules are closed by a match.
-/
namespace Ethos.Props
open Ethos Kind Spec

variable {b : Env} {n n0 : Nat} {es : List Event} {st st' : State}

theorem sub_trans' {s t u : Term} (h1 : Sub s t) (h2 : Sub t u) : Sub s u := by
  induction h2 with
  | refl => exact h1
  | child k cs c hc _ ih => exact .child _ _ _ _ hc ih

theorem noParam_subst {σ : Term → Term} {t : Term} (h : ∀ p, Sub p t → IsParam p → NoParam (σ p)) : NoParam (subst σ t) := by
  induction t using Term.induct' with
  | h t ih =>
    cases t with
    | sym k i =>
      simp only [subst]
      split
      · rename_i hk; exact h _ (.refl _) ⟨hk, rfl⟩
      · rename_i hk
        intro s hs
        cases hs
        exact fun hp => hk hp.1
    | lit l =>
      intro s hs
      simp only [subst] at hs
      cases hs
      intro hp
      cases l <;> exact absurd hp.1 (by simp [Term.kind, Lit.kind])
    | node k cs =>
      simp only [subst]
      split
      · rename_i hk; exact h _ (.refl _) ⟨hk.1, hk.2⟩
      · rename_i hk
        intro s hs
        cases hs with
        | refl =>
          rintro ⟨h1, h2⟩
          simp only [Term.children, substs_eq_map, List.map_eq_nil_iff] at h2
          exact hk ⟨h1, h2⟩
        | child _ _ _ hc hs =>
          rw [substs_eq_map] at hc
          obtain ⟨c, hm, rfl⟩ := List.mem_map.1 hc
          exact ih c hm (fun p hp => h p (.child _ _ _ _ hm hp)) s hs

theorem sub_subst {σ : Term → Term} {p t : Term} (hp : IsParam p) (h : Sub p t) : Sub (σ p) (subst σ t) := by
  induction h with
  | refl => rw [leaf_param_eq σ _ hp]; exact .refl _
  | child k cs c hc _ ih =>
    simp only [subst]
    split
    · rename_i hk; rw [hk.2] at hc; cases hc
    · rw [substs_eq_map]
      exact .child _ _ _ _ (List.mem_map_of_mem hc) ih

/-- an accepted pair: every parameter of the right-hand side occurs in the pattern or is `eo::self` -/
theorem pair_params {self pat ret : Term} (h : typeCheckProgramPair self pat ret = true) (hp : ParamsAreLeaves pat) (hr : ParamsAreLeaves ret) {p : Term}
    (hi : IsParam p) (hs : Sub p ret) : p = self ∨ Sub p pat := by
  simp only [typeCheckProgramPair, Bool.and_eq_true] at h
  have h1 := h.1
  obtain ⟨r1, e1, _, m1⟩ := C22_variables [pat] (by simpa using hp)
  obtain ⟨r2, e2, _, m2⟩ := C22_variables [ret] (by simpa using hr)
  simp only [findFreeVar, e1, e2, Option.getD_some, Option.isNone_iff_eq_none, List.find?_eq_none, decide_eq_true_eq, not_and, Decidable.not_not] at h1
  have h2 := h1 p ((m2 p).2 ⟨hi, ret, by simp, hs⟩)
  by_cases hm : p ∈ r1
  · obtain ⟨_, e, he, h3⟩ := (m1 p).1 hm
    rw [List.mem_singleton] at he
    exact .inr (he ▸ h3)
  · exact .inl (h2 hm)

theorem parseTypeList_length {args : List SExp} : ∀ {s1 s2 : State} {ats : List Term}, parseTypeList b n true args s1 = .ok (s2, ats) → ats.length = args.length := by
  induction args with
  | nil => intro s1 s2 ats h; simp only [parseTypeList] at h; cases h; rfl
  | cons a as ih =>
    intro s1 s2 ats h
    simp only [parseTypeList, Run.bind_ok, Run.map_ok] at h
    obtain ⟨⟨s7, u⟩, _, ⟨s8, us⟩, h4, h5⟩ := h
    cases h5
    simp [ih h4]

/-- a program is not a term with parameters -/
theorem program_closed (hb : BaseOk b n0) {m : Nat} {v p : Term} (hk : v.kind = PROGRAM_CONST) (h : Old b m v) (hs : Sub p v) : ¬ IsParam p := by
  intro hi
  cases v with
  | sym k i => cases hs; rw [hi.1] at hk; cases hk
  | lit l => cases hs; rw [hi.1] at hk; cases hk
  | node k cs =>
    have := Built.leaf (BaseOk.ownSym hb) h
    simp only [Term.kind] at hk
    subst hk
    cases this

/-- the instances of right-hand sides that do not mention `eo::self`, which is exempt from the check of the cases -/
theorem program_instances (hb : BaseOk b n0) (hr : replay b n es (State.init b n0) = .ok st) {x : Name} {ps : List SParam} {args : List SExp} {ret : SExp}
    {cs : List (SExp × SExp)} (hs : exec b n st (.program x ps args ret (some cs)) = .ok st') :
    ∃ v pairs, Cases b n st x ps args ret cs v pairs ∧ ∀ c ∈ pairs, ∃ pats, c.1 = .node APPLY (v :: pats) ∧ pats.length = args.length ∧
      ∀ σ, (∀ p ∈ pats, NoParam (subst σ p)) → ¬ Sub b.self c.2 → NoParam (subst σ c.2) := by
  obtain ⟨m, _, H⟩ := (Fresh.init hb).replay hb es hr
  have W := freshWorld hb
  simp only [exec, execProgram, Run.bind_ok, Run.map_ok, Run.ite_err] at hs
  obtain ⟨s1, h1, ⟨s2, ats⟩, h2, ⟨s3, rt⟩, h3, _, ⟨s4, v, isNew⟩, h4, ⟨s5, bd⟩, h5, s6, h6, h7⟩ := hs
  obtain ⟨m1, l1, i1⟩ := W.bindRuleParams (d := 0) (W.push (d := 0) H) h1
  obtain ⟨i2, p2⟩ := W.parseTypeList (d := 0) _ i1 h2
  obtain ⟨i3, p3⟩ := W.parseType (d := 0) i2 h3
  have pt : Old b m1 (.node PROGRAM_TYPE (ats ++ [rt])) := by
    refine ((i3.good hb).node _ _ (by simp)).2 ?_
    intro c hc
    rcases List.mem_append.1 hc with hc | hc
    · exact p2 c hc
    · rw [List.mem_singleton] at hc; rw [hc]; exact p3
  have hv : v.kind = PROGRAM_CONST ∧ ∃ m2, Fresh b n0 m2 s4 := by
    simp only [progVar] at h4
    split at h4
    · simp only [Run.ite_err, Run.map_ok] at h4
      obtain ⟨hk, _, _, h0, h4⟩ := h4
      cases h4
      exact ⟨by simpa using hk, m1, i3⟩
    · cases h4
      obtain ⟨_, m2, l2, i4, p4, c4⟩ := W.sym (d := 0) (k := PROGRAM_CONST) (x := x) i3 (by simp) pt
      exact ⟨rfl, m2, W.bind (d := 0) i4 p4⟩
  obtain ⟨hk, m2, i4⟩ := hv
  simp only [progBody, Run.bind_ok, Run.ite_err, Run.ite_err', Run.map_ok] at h5
  obtain ⟨⟨s, l⟩, g1, _, hcc, t, g2, g3⟩ := h5
  obtain ⟨i5, p5⟩ := W.parsePairs (d := 0) _ i4 g1
  refine ⟨v, l, ⟨s1, s2, ats, s3, rt, s4, isNew, s, h1, h2, h3, h4, g1⟩, ?_⟩
  intro c hcl
  simp only [checkCases, List.all_eq_true] at hcc
  have hcc := hcc c hcl
  simp only [Bool.and_eq_true, decide_eq_true_eq] at hcc
  obtain ⟨⟨⟨c1, c2⟩, c3⟩, c4⟩ := hcc
  have hlen : ats.length = args.length := parseTypeList_length h2
  cases hc1 : c.1 with
  | sym k i => rw [hc1] at c2; simp [Term.children] at c2
  | lit l => rw [hc1] at c2; simp [Term.children] at c2
  | node k ts =>
    rw [hc1] at c1 c2 c3 c4
    simp only [Term.kind, Term.children] at c1 c2 c3
    subst c1
    cases ts with
    | nil => simp at c2
    | cons f pats =>
      simp only [List.head?_cons, Option.some.injEq] at c2
      subst c2
      refine ⟨pats, rfl, by simpa [hlen] using c3, ?_⟩
      intro σ hσ hself
      apply noParam_subst
      intro p hp hi
      have q1 := Built.leaves (BaseOk.ownSym hb) rfl (p5 c hcl).1
      have q2 := Built.leaves (BaseOk.ownSym hb) rfl (p5 c hcl).2
      rw [hc1] at q1
      rcases pair_params c4 q1 q2 hi hp with rfl | hsub
      · exact absurd hp hself
      · cases hsub with
        | refl => cases hi.1
        | child _ _ _ hc hs =>
          rcases List.mem_cons.1 hc with rfl | hc
          · have hold := (p5 c hcl).1
            rw [hc1] at hold
            exact absurd hi (program_closed hb hk (Old.parts hb hold _ (List.mem_cons_self ..)) hs)
          · intro s hs'
            exact hσ _ hc s (sub_trans' hs' (sub_subst hi hs))

/-- the parameters of the requirements and of the conclusion are those of the term built from them -/
theorem requires_params {env0 : Env} {conc p : Term} (hi : IsParam p) : ∀ (reqs : List (Term × Term)) {ret : Term},
    mkRequires (mkExpr env0 (ops env0 n) n) reqs conc = .ok ret → (Sub p conc → Sub p ret) ∧ ∀ q ∈ reqs, (Sub p q.1 → Sub p ret) ∧ (Sub p q.2 → Sub p ret)
  | [], ret, h => by
    simp only [mkRequires, List.foldr, Out.ok.injEq] at h
    subst h
    exact ⟨id, by simp⟩
  | (l, r) :: reqs, ret, h => by
    have h : (mkRequires (mkExpr env0 (ops env0 n) n) reqs conc).bind (fun c => mkExpr env0 (ops env0 n) n EVAL_REQUIRES [l, r, c]) = .ok ret := h
    cases hc : mkRequires (mkExpr env0 (ops env0 n) n) reqs conc with
    | ok c =>
      rw [hc] at h
      obtain ⟨h1, h2⟩ := requires_params hi reqs hc
      rcases requires_built h with ⟨hv, rfl, rfl⟩ | rfl
      · refine ⟨h1, ?_⟩
        intro q hq
        rcases List.mem_cons.1 hq with rfl | hq
        · exact ⟨fun hs => absurd hi (hv _ hs).1, fun hs => absurd hi (hv _ hs).1⟩
        · exact h2 q hq
      · have hs : ∀ {s}, s ∈ [l, r, c] → Sub p s → Sub p (.node EVAL_REQUIRES [l, r, c]) := fun hm hp => .child _ _ _ _ hm hp
        refine ⟨fun hp => hs (by simp) (h1 hp), ?_⟩
        intro q hq
        rcases List.mem_cons.1 hq with rfl | hq
        · exact ⟨hs (by simp), hs (by simp)⟩
        · exact ⟨fun hp => hs (by simp) ((h2 q hq).1 hp), fun hp => hs (by simp) ((h2 q hq).2 hp)⟩
    | _ => rw [hc] at h; cases h

/-- the instances of conclusions and requirements that do not mention `eo::self` -/
theorem rule_instances (hb : BaseOk b n0) (hr : replay b n es (State.init b n0) = .ok st) {r : SRule} (hs : exec b n st (.declareRule r) = .ok st') :
    ∃ d, Declares b n st r d ∧ ∀ σ, (∀ p ∈ d.pats, NoParam (subst σ p)) → ¬ Sub b.self d.conc → (∀ q ∈ d.reqs, ¬ Sub b.self q.1 ∧ ¬ Sub b.self q.2) →
      NoParam (subst σ d.conc) ∧ ∀ q ∈ d.reqs, NoParam (subst σ q.1) ∧ NoParam (subst σ q.2) := by
  obtain ⟨m, _, H⟩ := (Fresh.init hb).replay hb es hr
  have W := freshWorld hb
  obtain ⟨_, s1, s2, asm, s3, prems, pcons, s4, args, s5, reqs, s6, conc, ret, s7, s8, prog, decls, h1, h2, h3, h4, h5, h6, h7, h8, h9, h10, rfl⟩ :=
    execDeclareRule_ok hs
  obtain ⟨m1, l1, i1⟩ := W.bindRuleParams (d := 0) (W.push (d := 0) H) h1
  obtain ⟨i2, p2⟩ := W.parseOpt (d := 0) i1 h2
  obtain ⟨i3, p3, p3'⟩ := W.parsePremises (d := 0) i2 h3
  obtain ⟨i4, p4⟩ := W.parseList (d := 0) _ i3 h4
  obtain ⟨i5, p5⟩ := W.parsePairs (d := 0) _ i4 h5
  obtain ⟨i6, p6⟩ := W.parseExpr (d := 0) _ i5 h6
  have G6 := Fresh.good hb i6
  have pr : Old b m1 ret := mkRequires_good (mkExpr_good G6 (ops_good G6 n) n) _ _ _ p6 p5 h7
  have i7 : Fresh b n0 m1 s7 := W.pop (d := 0) i6 h8
  obtain ⟨e, i8, p8⟩ := i7.sym hb (k := PROOF_RULE) r.name (by simp) (Fresh.good hb i7).boolType
  have pats : ∀ a ∈ args ++ (if r.explicit then [conc] else []) ++ asm.toList ++ prems.map mkProof, Old b m1 a := by
    intro a ha
    simp only [List.mem_append, List.mem_map] at ha
    rcases ha with ((ha | ha) | ha) | ⟨f, ha, rfl⟩
    · exact p4 a ha
    · split at ha
      · rw [List.mem_singleton] at ha; rw [ha]; exact p6
      · cases ha
    · cases asm with
      | none => cases ha
      | some u => simp only [Option.toList, List.mem_singleton] at ha; rw [ha]; exact p2 u rfl
    · exact (p3 f ha).proof hb
  refine ⟨⟨asm, prems, pcons, args, reqs, conc, r.explicit⟩, ⟨s1, s2, s3, s4, s5, s6, h1, h2, h3, h4, h5, h6, rfl⟩, ?_⟩
  intro σ hσ hself hselfs
  have key : ∀ p, IsParam p → Sub p ret → p = b.self ∨ NoParam (σ p) := by
    intro p hi hp
    revert h9 pats
    generalize hq : args ++ (if r.explicit then [conc] else []) ++ asm.toList ++ prems.map mkProof = qs
    intro h9 pats
    cases qs with
    | nil =>
      simp only [ruleProg, Run.ite_err] at h9
      obtain ⟨h0, _⟩ := h9
      simp only [Bool.or_eq_true, Bool.not_eq_true', not_or, Bool.not_eq_false, Bool.not_eq_true] at h0
      exact absurd hi (((ground_iff _).1 h0.1 _ hp).1)
    | cons a as =>
      simp only [ruleProg, Run.bind_ok, Run.ite_err', Run.map_ok] at h9
      obtain ⟨u, g1, g2, _⟩ := h9
      obtain ⟨m2, l2, i9, p9⟩ := Fresh.ruleArgTypes hb (pty := b.proofType) (a :: as) 0 i8 i8.built.proofType
      have G1 := i9.good hb
      obtain ⟨e, i10, p10⟩ := i9.sym hb (k := PROGRAM_CONST) (nm "$eo_prog_" ++ r.name)
        (ty := .node PROGRAM_TYPE ((Ethos.ruleArgTypes b.proofType (a :: as) 0 (s7.mkSymbol PROOF_RULE r.name tBool).1).2 ++ [tBool])) (by simp) (by
          refine (G1.node _ _ (by simp)).2 ?_
          intro c hc
          rcases List.mem_append.1 hc with hc | hc
          · exact p9 c hc
          · rw [List.mem_singleton] at hc; rw [hc]; exact G1.boolType)
      have hu := build_undefined rfl e g1
      subst hu
      have pu : ∀ c ∈ a :: as, Old b (m2+1) c := fun c hc => (pats c hc).mono (by omega)
      have pl : ParamsAreLeaves (.node APPLY (.sym PROGRAM_CONST (Ethos.ruleArgTypes b.proofType (a :: as) 0 (s7.mkSymbol PROOF_RULE r.name tBool).1).1.next :: a :: as)) :=
        Built.leaves (BaseOk.ownSym hb) rfl (((i10.good hb).node _ _ (by simp)).2 (by
          intro c hc
          rcases List.mem_cons.1 hc with rfl | hc
          · exact p10
          · exact pu c hc))
      rcases pair_params g2 pl (Built.leaves (BaseOk.ownSym hb) rfl pr) hi hp with rfl | hsub
      · exact .inl rfl
      · right
        cases hsub with
        | refl => cases hi.1
        | child _ _ _ hc hs =>
          rcases List.mem_cons.1 hc with rfl | hc
          · cases hs; cases hi.1
          · intro s hs'
            refine hσ _ ?_ s (sub_trans' hs' (sub_subst hi hs))
            show _ ∈ args ++ (if r.explicit then [conc] else []) ++ asm.toList ++ prems.map mkProof
            rw [hq]; exact hc
  have close : ∀ t, ¬ Sub b.self t → (∀ p, IsParam p → Sub p t → Sub p ret) → NoParam (subst σ t) := by
    intro t ht h
    apply noParam_subst
    intro p hp hi
    rcases key p hi (h p hi hp) with rfl | h
    · exact absurd hp ht
    · exact h
  refine ⟨close _ hself fun p hi => (requires_params hi reqs h7).1, ?_⟩
  intro q hq
  exact ⟨close _ (hselfs q hq).1 fun p hi => ((requires_params hi reqs h7).2 q hq).1, close _ (hselfs q hq).2 fun p hi => ((requires_params hi reqs h7).2 q hq).2⟩

/-- the cases of a program do not mention `eo::self` -/
theorem Clean.cases (hb : BaseOk b n0) (hq : SelfOk b) {m : Nat} (H : Clean b n0 m st) {x : Name} {ps : List SParam} {args : List SExp} {ret : SExp}
    {cs : List (SExp × SExp)} {v : Term} {pairs : List (Term × Term)} (h : Cases b n st x ps args ret cs v pairs) :
    ∀ c ∈ pairs, ¬ Sub b.self c.1 ∧ ¬ Sub b.self c.2 := by
  have W := cleanWorld hb hq
  obtain ⟨s1, s2, ats, s3, rt, s4, isNew, s5, h1, h2, h3, h4, h5⟩ := h
  obtain ⟨m1, l1, i1⟩ := W.bindRuleParams (d := 0) (W.push (d := 0) H) h1
  obtain ⟨i2, p2⟩ := W.parseTypeList (d := 0) _ i1 h2
  obtain ⟨i3, p3⟩ := W.parseType (d := 0) i2 h3
  have pt : Pure b m1 (.node PROGRAM_TYPE (ats ++ [rt])) := by
    refine ((i3.good hb hq).node _ _ (by simp)).2 ?_
    intro c hc
    rcases List.mem_append.1 hc with hc | hc
    · exact p2 c hc
    · rw [List.mem_singleton] at hc; rw [hc]; exact p3
  have hv : ∃ m2, Clean b n0 m2 s4 := by
    simp only [progVar] at h4
    split at h4
    · simp only [Run.ite_err, Run.map_ok] at h4
      obtain ⟨hk, _, _, h0, h4⟩ := h4
      cases h4
      exact ⟨m1, i3⟩
    · cases h4
      obtain ⟨_, m2, l2, i4, p4, c4⟩ := W.sym (d := 0) (k := PROGRAM_CONST) (x := x) i3 (by simp) pt
      exact ⟨m2, W.bind (d := 0) i4 p4⟩
  obtain ⟨m2, i4⟩ := hv
  obtain ⟨i5, p5⟩ := W.parsePairs (d := 0) _ i4 h5
  exact fun c hc => ⟨(p5 c hc).1.noSelf hb hq, (p5 c hc).2.noSelf hb hq⟩

/-- the requirements and the conclusion of a rule do not mention `eo::self` -/
theorem Clean.declares (hb : BaseOk b n0) (hq : SelfOk b) {m : Nat} (H : Clean b n0 m st) {r : SRule} {d : RuleDef} (h : Declares b n st r d) :
    ¬ Sub b.self d.conc ∧ ∀ q ∈ d.reqs, ¬ Sub b.self q.1 ∧ ¬ Sub b.self q.2 := by
  have W := cleanWorld hb hq
  obtain ⟨s1, s2, s3, s4, s5, s6, h1, h2, h3, h4, h5, h6, _⟩ := h
  obtain ⟨m1, l1, i1⟩ := W.bindRuleParams (d := 0) (W.push (d := 0) H) h1
  obtain ⟨i2, p2⟩ := W.parseOpt (d := 0) i1 h2
  obtain ⟨i3, p3, p3'⟩ := W.parsePremises (d := 0) i2 h3
  obtain ⟨i4, p4⟩ := W.parseList (d := 0) _ i3 h4
  obtain ⟨i5, p5⟩ := W.parsePairs (d := 0) _ i4 h5
  obtain ⟨i6, p6⟩ := W.parseExpr (d := 0) _ i5 h6
  exact ⟨p6.noSelf hb hq, fun q hq' => ⟨(p5 q hq').1.noSelf hb hq, (p5 q hq').2.noSelf hb hq⟩⟩

/-- **C34**.  The command `program` is accepted only if each of its cases is `((f p1 … pk) r)` and every instance of `r` by an assignment
for which the instances of `p1`, …, `pk` have no parameters has none either. -/
theorem C34_program (hb : BaseOk b n0) (hq : SelfOk b) (hr : replay b n es (State.init b n0) = .ok st) {x : Name} {ps : List SParam} {args : List SExp}
    {ret : SExp} {cs : List (SExp × SExp)} (hs : exec b n st (.program x ps args ret (some cs)) = .ok st') :
    ∃ v pairs, Cases b n st x ps args ret cs v pairs ∧ ∀ c ∈ pairs, ∃ pats, c.1 = .node APPLY (v :: pats) ∧ pats.length = args.length ∧
      ∀ σ, (∀ p ∈ pats, NoParam (subst σ p)) → NoParam (subst σ c.2) := by
  obtain ⟨m, H⟩ := Clean.replay hb hq hr
  obtain ⟨v, pairs, h1, h2⟩ := program_instances hb hr hs
  refine ⟨v, pairs, h1, ?_⟩
  intro c hc
  obtain ⟨pats, h3, h4, h5⟩ := h2 c hc
  exact ⟨pats, h3, h4, fun σ hσ => h5 σ hσ (H.cases hb hq h1 c hc).2⟩

/-- **C34**, for rules.  The command `declare-rule` is accepted only if every instance of the conclusion and of the requirements by an
assignment for which the instances of everything that is matched have no parameters has none either. -/
theorem C34_rule (hb : BaseOk b n0) (hq : SelfOk b) (hr : replay b n es (State.init b n0) = .ok st) {r : SRule}
    (hs : exec b n st (.declareRule r) = .ok st') :
    ∃ d, Declares b n st r d ∧ ∀ σ, (∀ p ∈ d.pats, NoParam (subst σ p)) →
      NoParam (subst σ d.conc) ∧ ∀ q ∈ d.reqs, NoParam (subst σ q.1) ∧ NoParam (subst σ q.2) := by
  obtain ⟨m, H⟩ := Clean.replay hb hq hr
  obtain ⟨d, h1, h2⟩ := rule_instances hb hr hs
  have h3 := H.declares hb hq h1
  exact ⟨d, h1, fun σ hσ => h2 σ hσ h3.1 h3.2⟩

/-- **C34**: `eo::self`, which the check of the cases does not count as a parameter, is not accessible where programs and rules are
declared: no visible name stands for a term that mentions it, at any point of any run. -/
theorem C34_self (hb : BaseOk b n0) (hq : SelfOk b) (hr : replay b n es (State.init b n0) = .ok st) {x : Name} {t : Term} (h : st.scope.get x = some t) :
    ¬ Sub b.self t := by
  obtain ⟨m, H⟩ := Clean.replay hb hq hr
  exact (H.scope.sym x t h).noSelf hb hq

/-! ### Examples -/

theorem notSub_node {k k' : Kind} {i : Nat} {cs : List Term} (h : ∀ c ∈ cs, ¬ Sub (.sym k i) c) : ¬ Sub (.sym k i) (.node k' cs) := by
  intro hs
  cases hs with | child _ _ _ hc hs => exact h _ hc hs

/-- the base environment of the examples meets what is assumed of `eo::self` -/
theorem exB_self : SelfOk exB where
  param := ⟨0, rfl⟩
  types v ty _ h := by
    show ¬ Sub (.sym PARAM 0) ty
    have h1 : ¬ Sub (.sym PARAM 0) (.sym CONST 1) := by intro h; cases h
    have h2 : ¬ Sub (.sym PARAM 0) (.sym PARAM 5) := by intro h; cases h
    simp only [exB] at h
    repeat' (split at h)
    all_goals first | (cases h; done) | skip
    all_goals cases h
    · exact notSub_node (by simp)
    · exact h1
    · refine notSub_node ?_
      intro c hc
      simp only [List.mem_cons, List.not_mem_nil, or_false] at hc
      rcases hc with rfl | rfl
      · exact h2
      · exact notSub_node (by simp [h1])
    · exact notSub_node (by simp)
    · exact notSub_node (by simp)
    · exact notSub_node (by simp)
  listCons h := by cases h
  listNil h := by cases h
  listType h := by cases h
  proofType h := by cases h

/-- C34: a type rule of the literals that uses `eo::self` can be declared, and leaves the name without a meaning -/
example : SelfOk exB ∧ ((exRun [.declareConsts NUMERAL (ap "eo::typeof" [.sym (nm "eo::self")])]).map fun st => (st.scope.get (nm "eo::self"), (st.decls.litRule NUMERAL).isSome)) = .ok (none, true) :=
  ⟨exB_self, by decide +kernel⟩


/-- two constants and a program that exchanges them and leaves everything else -/
def swapCmds : List Cmd := [
  .declareSort (nm "U") 0,
  .declareConst (nm "a") (sy "U") [],
  .declareConst (nm "c") (sy "U") [] ]
def swapCmd (rhs : SExp) : Cmd :=
  .program (nm "g") [⟨nm "x", sy "U", []⟩, ⟨nm "y", sy "U", []⟩] [sy "U"] (sy "U") (some [(ap "g" [sy "a"], sy "c"), (ap "g" [sy "c"], sy "a"), (ap "g" [sy "x"], rhs)])

/-- C34: the hypotheses are met by a program with the last case `((g x) x)`; with the last case `((g x) y)` it is rejected -/
example : (∃ st st', exRun swapCmds = .ok st ∧ exec exB 10 st (swapCmd (sy "x")) = .ok st') ∧
    (exRun swapCmds).bind (fun st => (exec exB 10 st (swapCmd (sy "y"))).map fun st => st.next) = .err := by
  constructor
  · have h : ((exRun swapCmds).bind fun st => exec exB 10 st (swapCmd (sy "x"))).map (fun st => st.next) = .ok 16 := by decide +kernel
    simp only [Run.map_ok, Run.bind_ok] at h
    obtain ⟨st', ⟨st, h1, h2⟩, _⟩ := h
    exact ⟨st, st', h1, h2⟩
  · decide +kernel

/-- C34: the hypotheses are met by modus ponens (`mpCmds`); the rule that concludes `G` from `F` alone is rejected -/
example : (∃ st st', exRun (mpCmds.take 3) = .ok st ∧ exec exB 10 st (.declareRule { name := nm "mp", params := boolParams ["F", "G"], premises := .each [sy "F", ap "=>" [sy "F", sy "G"]], reqs := [(ap "eo::eq" [sy "F", sy "G"], sy "false")], conc := sy "G" }) = .ok st') ∧
    (exRun (mpCmds.take 3)).bind (fun st => (exec exB 10 st (.declareRule { name := nm "mp", params := boolParams ["F", "G"], premises := .each [sy "F"], conc := sy "G" })).map fun st => st.next) = .err := by
  constructor
  · have h : ((exRun (mpCmds.take 3)).bind fun st => exec exB 10 st (.declareRule { name := nm "mp", params := boolParams ["F", "G"], premises := .each [sy "F", ap "=>" [sy "F", sy "G"]], reqs := [(ap "eo::eq" [sy "F", sy "G"], sy "false")], conc := sy "G" })).map (fun st => st.next) = .ok 17 := by decide +kernel
    simp only [Run.map_ok, Run.bind_ok] at h
    obtain ⟨st', ⟨st, h1, h2⟩, _⟩ := h
    exact ⟨st, st', h1, h2⟩
  · decide +kernel

end Ethos.Props
