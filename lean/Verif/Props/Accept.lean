import Verif.Props.Rules
import Verif.Lemmas.Typing
import Verif.Lemmas.Desugar
import Verif.Spec.Follows
/-
C84: steps that are instances of a declared rule are accepted.
-/
namespace Ethos.Props
open Ethos Kind Spec

variable {b : Env} {n n0 : Nat} {es : List Event} {st st' : State} {s : SStep}

theorem Declares.det {r : SRule} {d d' : RuleDef} (h : Declares b n st r d) (h' : Declares b n st r d') : d = d' := by
  obtain ⟨s1, s2, s3, s4, s5, s6, h1, h2, h3, h4, h5, h6, h7⟩ := h
  obtain ⟨s1', s2', s3', s4', s5', s6', h1', h2', h3', h4', h5', h6', h7'⟩ := h'
  rw [h1] at h1'; cases h1'
  rw [h2] at h2'; simp only [Run.ok.injEq, Prod.mk.injEq] at h2'; obtain ⟨rfl, e2⟩ := h2'
  rw [h3] at h3'; simp only [Run.ok.injEq, Prod.mk.injEq] at h3'; obtain ⟨rfl, e3, e4⟩ := h3'
  rw [h4] at h4'; simp only [Run.ok.injEq, Prod.mk.injEq] at h4'; obtain ⟨rfl, e5⟩ := h4'
  rw [h5] at h5'; simp only [Run.ok.injEq, Prod.mk.injEq] at h5'; obtain ⟨rfl, e6⟩ := h5'
  rw [h6] at h6'; simp only [Run.ok.injEq, Prod.mk.injEq] at h6'; obtain ⟨rfl, e7⟩ := h6'
  cases d; cases d'
  simp_all

/-- a rule that was declared in a run is kept as it was declared -/
theorem declared_stored (hb : BaseOk b n0) : ∀ (es : List Event) {m : Nat} {st st' : State}, Fresh b n0 m st → replay b n es st = .ok st' →
    ∀ {r : SRule} {s0 : State} {d : RuleDef}, At b n es st (.cmd (.declareRule r)) s0 → Declares b n s0 r d → Stored st' r.name d
  | [], m, st, st', H, h, r, s0, d, ha, hd => by cases ha
  | e :: es, m, st, st', H, h, r, s0, d, ha, hd => by
    simp only [replay, Run.bind_ok] at h
    obtain ⟨s1, h1, h2⟩ := h
    obtain ⟨m1, l1, i1⟩ := H.event hb h1
    cases ha with
    | head =>
      obtain ⟨_, _, _, d', h3, h4⟩ := H.declareRule hb (show execDeclareRule b n st r = .ok s1 from h1)
      rw [Declares.det hd h3]
      exact h4.keep i1 (Keeps.replay es h2)
    | tail _ _ _ s1' _ _ h3 h4 =>
      rw [h1] at h3
      cases h3
      exact declared_stored hb es i1 h2 h4 hd

/-- if the requirements of a rule are met, its body evaluates to what the conclusion evaluates to -/
theorem requires_complete {env0 : Env} {n : Nat} {conc : Term} {env : Env} {ctx : Ctx} {F : Term} :
    ∀ (reqs : List (Term × Term)) {ret : Term}, mkRequires (mkExpr env0 (ops env0 n) n) reqs conc = .ok ret →
    (∀ q ∈ reqs, ∃ v, IsValue v ∧ EvaluatesTo env ctx q.1 v ∧ EvaluatesTo env ctx q.2 v) → EvaluatesTo env ctx conc F → EvaluatesTo env ctx ret F
  | [], ret, h, _, he => by
    simp only [mkRequires, List.foldr, Out.ok.injEq] at h
    subst h
    exact he
  | (l, r) :: reqs, ret, h, hq, he => by
    have h : (mkRequires (mkExpr env0 (ops env0 n) n) reqs conc).bind (fun c => mkExpr env0 (ops env0 n) n EVAL_REQUIRES [l, r, c]) = .ok ret := h
    cases hc : mkRequires (mkExpr env0 (ops env0 n) n) reqs conc with
    | ok c =>
      rw [hc] at h
      have h0 := requires_complete reqs hc (fun q h => hq q (List.mem_cons_of_mem _ h)) he
      rcases requires_built h with ⟨hv, rfl, rfl⟩ | rfl
      · exact h0
      · obtain ⟨v, hv, e1, e2⟩ := hq (l, r) (List.mem_cons_self ..)
        rw [evaluatesTo_iff] at e1 e2 h0 ⊢
        exact .op _ _ _ [v, v, F] _ rfl (by decide) (by simp) (.cons _ _ _ _ _ e1 (.cons _ _ _ _ _ e2 (.cons _ _ _ _ _ h0 (.nil _))))
          ((C11_requires env v v F).1 ⟨hv, rfl⟩)
    | _ => rw [hc] at h; cases h

/-- a result within the limit, or none -/
theorem ops_or_fuel {α : Type} (env : Env) (f : Ops → Out α) (hf : ∀ o o', OpsLe o o' → Le (f o) (f o')) {m : Nat} {a : α}
    (h : f (ops env m) = .ok a) (n : Nat) : f (ops env n) = .fuel ∨ f (ops env n) = .ok a := by
  rcases Nat.le_total n m with hl | hl
  · rcases hf _ _ (ops_mono env hl) with h1 | h1
    · exact .inl h1
    · exact .inr (h1.trans h)
  · rcases hf _ _ (ops_mono env hl) with h1 | h1
    · rw [h] at h1; cases h1
    · exact .inr (h1.symm.trans h)

theorem builds_or_fuel {env : Env} {k : Kind} {cs : List Term} {t : Term} (h : Builds env k cs t) (n : Nat) :
    mkExpr env (ops env n) n k cs = .fuel ∨ mkExpr env (ops env n) n k cs = .ok t := by
  obtain ⟨m, h⟩ := h
  rcases Nat.le_total n m with hl | hl
  · rcases mkExpr_mono (env := env) (ops_mono env hl) n m hl k cs with h1 | h1
    · exact .inl h1
    · exact .inr (h1.trans h)
  · rcases mkExpr_mono (env := env) (ops_mono env hl) m n hl k cs with h1 | h1
    · rw [h] at h1; cases h1
    · exact .inr (h1.symm.trans h)

theorem premiseFormulas_complete : ∀ (ps fs : List Term), fs.length = ps.length → (∀ (i : Nat) p, ps[i]? = some p → ∃ g r, p = .node PROOF (g :: r) ∧ fs[i]? = some g) →
    premiseFormulas ps = .ok fs
  | [], fs, hl, _ => by
    cases fs with
    | nil => rfl
    | cons _ _ => cases hl
  | p :: ps, fs, hl, h => by
    cases fs with
    | nil => cases hl
    | cons f fs =>
      obtain ⟨g, r, rfl, h2⟩ := h 0 p rfl
      simp only [List.getElem?_cons_zero, Option.some.injEq] at h2
      subst h2
      have := premiseFormulas_complete ps fs (by simpa using hl) (fun i p hp => by simpa using h (i+1) p (by simpa using hp))
      simp only [premiseFormulas, this]
      rfl

theorem ruleInputs_complete {d : RuleDef} {proven : Option Term} {prems args cs : List Term} {isPop : Bool}
    (h : Inputs b st d proven prems args isPop cs) :
    ruleInputs b n st (if d.plist.getD tAny = tAny then none else some (d.plist.getD tAny)) (mkBool d.asm.isSome = tTrue) (mkBool d.explicit = tTrue)
      proven prems args isPop = .fuel ∨
    ruleInputs b n st (if d.plist.getD tAny = tAny then none else some (d.plist.getD tAny)) (mkBool d.asm.isSome = tTrue) (mkBool d.explicit = tTrue)
      proven prems args isPop = .ok cs := by
  have hb : ∀ x : Bool, decide (mkBool x = tTrue) = x := by decide
  rw [hb, hb]
  obtain ⟨as, ps, rfl, ha, hp⟩ := h.parts
  have e1 : concInput d.explicit proven = .ok (if d.explicit then proven.toList else []) := by
    simp only [concInput]
    split
    · rename_i he
      cases hpr : proven with
      | none => exact absurd hpr (h.stated he)
      | some p => rfl
    · rfl
  have e2 : asmInput st isPop = .ok as := by
    simp only [asmInput]
    split
    · rename_i hpop
      rw [if_pos hpop] at ha
      obtain ⟨a, rfl, k, r, h1, h2⟩ := ha
      simp only [State.firstAssumption, h1, List.head?_cons, Option.getD_some, h2]
      rfl
    · rename_i hpop
      rw [if_neg hpop] at ha
      rw [ha]
  have e3 : premInput b n st (if d.plist.getD tAny = tAny then none else some (d.plist.getD tAny)) prems = .fuel ∨
      premInput b n st (if d.plist.getD tAny = tAny then none else some (d.plist.getD tAny)) prems = .ok ps := by
    cases hd : d.plist with
    | none =>
      rw [hd] at hp
      have hp : ps = prems := hp
      right
      rw [hp, if_pos (by rfl)]
      rfl
    | some c =>
      rw [hd] at hp
      simp only [Premises] at hp
      simp only [Option.getD_some]
      by_cases hc : c = .node ANY []
      · rw [if_pos hc] at hp
        right
        rw [hp, if_pos (show c = tAny from hc)]
        rfl
      · rw [if_neg hc] at hp
        obtain ⟨fs, f, h1, h2, rfl, h4, h5⟩ := hp
        rw [if_neg (show ¬ c = tAny from hc)]
        simp only [premInput, collectPremises, premiseFormulas_complete _ _ h1 h2, Run.bind]
        by_cases hf : fs = []
        · obtain ⟨ai, q1, q2, q3⟩ := h5 hf
          right
          simp only [hf, List.isEmpty_nil, if_true, emptyPremises, q1, q2, q3]
          rfl
        · have he : fs.isEmpty = false := by cases fs with | nil => exact absurd rfl hf | cons _ _ => rfl
          simp only [he, Bool.false_eq_true, if_false, State.build]
          rcases builds_or_fuel (h4 hf) n with h6 | h6
          · left; rw [h6]; rfl
          · right; rw [h6]; rfl
  simp only [ruleInputs, e1, Run.bind, e2]
  rw [if_neg (by simp [h.pop])]
  rcases e3 with e3 | e3
  · left; rw [e3]; rfl
  · right; rw [e3]; rfl

theorem notifyStep_complete {x : Name} {d : RuleDef} {rule F : Term} {proven : Option Term} {prems args inputs : List Term}
    {isPop : Bool} (hs : Stored st x d) (hx : st.decls.rules x = some rule) (hi : Inputs b st d proven prems args isPop inputs) (hI : Instance (st.env b) d inputs F)
    (hany : ∀ q ∈ d.pats, ∀ t, Sub t q → ¬ IsAny t) :
    notifyStep b n st rule proven prems args isPop = .fuel ∨ notifyStep b n st rule proven prems args isPop = .ok F := by
  obtain ⟨⟨i, prog, h1, h2, env0, n', ret, h3, h4⟩⟩ := hs
  rw [h1] at hx
  cases hx
  obtain ⟨ctx, hm, hdom, hvals, hreq, hconc, hfin⟩ := hI
  have hret := requires_complete _ h3 hreq hconc
  have hF : F.evaluatable = false := by
    cases he : F.evaluatable with
    | false => rfl
    | true =>
      obtain ⟨t, ht, h5⟩ := (evaluatable_iff F).1 he
      rcases h5 with h5 | h5
      · exact absurd h5 (hfin t ht).1
      · exact absurd h5 (hfin t ht).2
  simp only [notifyStep, appInfo_of h2]
  rcases ruleInputs_complete (n := n) hi with h5 | h5
  · left; rw [h5]; rfl
  · rw [h5]
    simp only [Run.bind]
    rcases h4 with ⟨hpats, rfl, hv⟩ | ⟨hpats, j, ts, rfl, h7, h8⟩
    · rw [hpats] at hm
      have hm : [] = inputs := hm
      subst hm
      right
      have h9 := value_eval (st.env b) ctx prog hv
      rw [evaluatesTo_iff] at h9 hret
      rw [Eval.det OpResult.det ProgResult.det h9 hret]
    · cases inputs with
      | nil =>
        exfalso
        apply hpats
        simpa using hm
      | cons t0 ts0 =>
        have hprog : (st.env b).program (.sym PROGRAM_CONST j) = some (.node PROGRAM [.node TUPLE [.node APPLY (.sym PROGRAM_CONST j :: d.pats), ret]]) := by
          simp [Env.program, appInfo_of h8]
        have hd : Defined (st.env b) (.sym PROGRAM_CONST j) ([] ++ (⟨d.pats, ret⟩ : Case) :: []) := ⟨_, hprog, rfl⟩
        obtain ⟨ctx', p1, p2, p3⟩ := C29_first (st.env b) (.sym PROGRAM_CONST j) (t0 :: ts0) [] [] ⟨d.pats, ret⟩ (ctxSub ctx) ⟨rfl, rfl⟩ hd hvals (by simp) hany hm
        have hfind : ∀ p, ctx.find p = ctx'.find p := by
          intro p
          cases hc : ctx.find p with
          | some v =>
            obtain ⟨q1, q, q2, q3⟩ := (hdom p).1 ⟨v, hc⟩
            rw [p2 q q2 p q3 q1]
            simp [ctxSub, hc]
          | none =>
            cases hc' : ctx'.find p with
            | none => rfl
            | some v =>
              obtain ⟨v', hv'⟩ := (hdom p).2 (p3 p v hc')
              rw [hc] at hv'
              cases hv'
        obtain ⟨m, hev⟩ := evaluatesTo_congr hret hfind
        have p1 : evalProgram (st.env b) (.sym PROGRAM_CONST j :: t0 :: ts0) = .ok (some (ret, ctx')) := p1
        simp only [evaluateProgramApp, p1, Out.bind]
        rcases ops_or_fuel (st.env b) (fun o => o.evaluate ret ctx') (fun o o' h => h.evaluate _ _) hev n with h9 | h9
        · left; rw [h9]; rfl
        · right; rw [h9]; simp only [Run.lift, hF]; rfl

/-- the rule is known under its name, and instances of it are accepted -/
theorem accepts (hb : BaseOk b n0) (hr : replay b n es (State.init b n0) = .ok st) {r : SRule} {s0 : State} {d : RuleDef}
    (ha : At b n es (State.init b n0) (.cmd (.declareRule r)) s0) (hn : r.name = s.rule) (hd : Declares b n s0 r d)
    (hany : ∀ q ∈ d.pats, ∀ t, Sub t q → ¬ IsAny t) :
    ∃ i, st.decls.rules s.rule = some (.sym PROOF_RULE i) ∧ ∀ s1 s2 s3 proven prems args inputs F ty, parseConc b n s.conc st = .ok (s1, proven) →
      parseList b n s.premises { s1 with used := .sym PROOF_RULE i :: s1.used } = .ok (s2, prems) → parseList b n s.args s2 = .ok (s3, args) →
      Inputs b s3 d proven prems args s.isPop inputs → Instance (s3.env b) d inputs F → (∀ c, proven = some c → c = F) →
      TypeResult (s3.env b) F (some ty) → ty.kind = BOOL_TYPE → (s.isPop = true → ∃ s4, s3.popAssumption = .ok s4) →
      exec b n st (.step s) = .fuel ∨ ∃ st', exec b n st (.step s) = .ok st' ∧ st'.scope.get s.name = some (.node PROOF [F]) := by
  obtain ⟨m, _, H⟩ := (Fresh.init hb).replay hb es hr
  have hst := declared_stored hb es (Fresh.init hb) hr ha hd
  rw [hn] at hst
  obtain ⟨i, _, hrule, _⟩ := hst.rule
  refine ⟨i, hrule, ?_⟩
  intro s1 s2 s3 proven prems args inputs F ty h1 h3 h4 hi hI hc hty hk hpop
  have k1 := keepsFrame.parseConc h1
  have k3 : Keeps st s3 := k1.trans (Keeps.trans (b := { s1 with used := .sym PROOF_RULE i :: s1.used }) (.of rfl rfl rfl) ((keepsFrame.parseList b n _ h3).trans (keepsFrame.parseList b n _ h4)))
  have hfr : Frame fun a c : State => c.decls = a.decls ∧ c.asms = a.asms ∧ c.asmCtx = a.asmCtx :=
    ⟨fun _ => ⟨rfl, rfl, rfl⟩, fun h1 h2 => ⟨h2.1.trans h1.1, h2.2.1.trans h1.2.1, h2.2.2.trans h1.2.2⟩, fun _ _ _ => ⟨rfl, rfl, rfl⟩,
      fun _ => ⟨rfl, rfl, rfl⟩, fun h => by
        simp only [State.pop, Run.map_ok] at h
        obtain ⟨_, _, rfl⟩ := h
        exact ⟨rfl, rfl, rfl⟩⟩
  obtain ⟨_, _, c1⟩ := hfr.parseConc h1
  obtain ⟨_, _, c2⟩ := hfr.parseList b n _ h3
  obtain ⟨_, _, c3⟩ := hfr.parseList b n _ h4
  have ec : s3.asmCtx = st.asmCtx := by rw [c3, c2]; exact c1
  have hr1 : s1.decls.rules s.rule = some (.sym PROOF_RULE i) := k1.rules _ _ hrule
  have hr3 : s3.decls.rules s.rule = some (.sym PROOF_RULE i) := k3.rules _ _ hrule
  have hopen : ¬ (s.isPop = true ∧ st.asmCtx = []) := by
    rintro ⟨hp, he⟩
    obtain ⟨as, ps, _, ha, _⟩ := hi.parts
    rw [if_pos hp] at ha
    obtain ⟨a, _, k, r, h5, _⟩ := ha
    rw [ec, he] at h5
    cases h5
  show execStep b n st s = .fuel ∨ ∃ st', execStep b n st s = .ok st' ∧ _
  simp only [execStep, if_neg hopen, h1, Run.bind, hr1, h3, h4]
  rcases notifyStep_complete (n := n) (hst.keep H k3) hr3 hi hI hany with h5 | h5
  · left; rw [h5]
  · rw [h5]
    dsimp only
    obtain ⟨m', hty⟩ := hty
    have ht : s3.typeCheck b n F = .fuel ∨ s3.typeCheck b n F = .ok ty := by
      simp only [State.typeCheck]
      rcases ops_or_fuel (s3.env b) (fun o => o.getType F) (fun o o' h => h.getType _) hty n with h6 | h6
      · left; rw [h6]; rfl
      · right; rw [h6]; rfl
    rcases ht with ht | ht
    · left; rw [ht]
    · rw [ht]
      dsimp only
      rw [if_neg (by simp [hk])]
      have hst : ¬ (proven.isSome && proven ≠ some F) = true := by
        cases proven with
        | none => simp
        | some c => simp [hc c rfl]
      rw [if_neg hst]
      right
      cases hp : s.isPop with
      | false =>
        refine ⟨_, rfl, ?_⟩
        simp [State.bind, Scope.bind, Scope.get, mkProof]
      | true =>
        obtain ⟨s4, h7⟩ := hpop hp
        simp only [if_true, h7]
        refine ⟨_, rfl, ?_⟩
        simp [State.bind, Scope.bind, Scope.get, mkProof]

/-- **C84**.  A step that names a rule declared before is accepted if, for its arguments, its premises, the stated conclusion and the assumption it discharges, some `F`
of Boolean type is the conclusion of an instance of the rule, and is the stated conclusion if there is one; then the name of the step proves `F`.  (A
`step-pop` must find the scope of its assumption still open, patterns must not contain the unknown type, and the computation must end within the limit of
the model.) -/
theorem C84_accepted (hb : BaseOk b n0) (hr : replay b n es (State.init b n0) = .ok st) {r : SRule} {s0 : State} {d : RuleDef}
    (ha : At b n es (State.init b n0) (.cmd (.declareRule r)) s0) (hn : r.name = s.rule) (hd : Declares b n s0 r d)
    (hany : ∀ q ∈ d.pats, ∀ t, Sub t q → ¬ IsAny t) :
    ∃ rule, st.decls.rules s.rule = some rule ∧ ∀ s1 s2 s3 proven prems args inputs F ty, parseConc b n s.conc st = .ok (s1, proven) →
      parseList b n s.premises { s1 with used := rule :: s1.used } = .ok (s2, prems) → parseList b n s.args s2 = .ok (s3, args) →
      Inputs b s3 d proven prems args s.isPop inputs → Instance (s3.env b) d inputs F → (∀ c, proven = some c → c = F) →
      TypeResult (s3.env b) F (some ty) → ty.kind = BOOL_TYPE → (s.isPop = true → ∃ s4, s3.popAssumption = .ok s4) →
      exec b n st (.step s) = .fuel ∨ ∃ st', exec b n st (.step s) = .ok st' ∧ st'.scope.get s.name = some (.node PROOF [F]) := by
  obtain ⟨i, h⟩ := accepts hb hr ha hn hd hany
  exact ⟨_, h⟩

/-- **C84**.  So a step of a rule with something to match, whose computation ends within the limit of the model, is accepted with conclusion `F` exactly if `F` follows by the rule it names. -/
theorem C84_exact (hb : BaseOk b n0) (hr : replay b n es (State.init b n0) = .ok st) {r : SRule} {s0 : State} {d : RuleDef}
    (ha : At b n es (State.init b n0) (.cmd (.declareRule r)) s0) (hn : r.name = s.rule) (hd : Declares b n s0 r d)
    (hany : ∀ q ∈ d.pats, ∀ t, Sub t q → ¬ IsAny t) (hne : d.pats ≠ []) (hf : exec b n st (.step s) ≠ .fuel) :
    ∃ rule, st.decls.rules s.rule = some rule ∧ ∀ F, (∃ st', exec b n st (.step s) = .ok st' ∧ st'.scope.get s.name = some (.node PROOF [F])) ↔ Follows b n st rule d s F := by
  obtain ⟨m, _, H⟩ := (Fresh.init hb).replay hb es hr
  have hst := declared_stored hb es (Fresh.init hb) hr ha hd
  rw [hn] at hst
  obtain ⟨i, hrule, hacc⟩ := accepts hb hr ha hn hd hany
  refine ⟨.sym PROOF_RULE i, hrule, fun F => ⟨?_, ?_⟩⟩
  · rintro ⟨st', hs, hg⟩
    obtain ⟨s1, proven, rule, s2, prems, s3, args, conc, ty, s4, hpop, h1, h2, h3, h4, h5, h6, h7, h8, h9, rfl⟩ := execStep_ok hs
    have k1 := keepsFrame.parseConc h1
    have hr1 : s1.decls.rules s.rule = some (.sym PROOF_RULE i) := k1.rules _ _ hrule
    rw [h2] at hr1
    cases hr1
    have k3 : Keeps st s3 := k1.trans (Keeps.trans (b := { s1 with used := .sym PROOF_RULE i :: s1.used }) (.of rfl rfl rfl) ((keepsFrame.parseList b n _ h3).trans (keepsFrame.parseList b n _ h4)))
    obtain ⟨_, c1⟩ := sameAsms.toFrame.parseConc h1
    obtain ⟨_, c2⟩ := sameAsms.toFrame.parseList b n _ h3
    obtain ⟨_, c3⟩ := sameAsms.toFrame.parseList b n _ h4
    have ec : s3.asmCtx = st.asmCtx := by rw [c3, c2]; exact c1
    obtain ⟨inputs, i1, i2, _⟩ := notifyStep_instance (hst.keep H k3) (k3.rules _ _ hrule) h5 h6 h7 (fun hp => by rw [ec]; exact hpop hp)
    have hF : conc = F := by simpa [State.bind, Scope.bind, Scope.get, mkProof] using hg
    subst hF
    have hI : Instance (s3.env b) d inputs conc := by
      rcases i2 with ⟨hp, _⟩ | h
      · exact absurd hp hne
      · exact h
    refine ⟨s1, s2, s3, proven, prems, args, inputs, ty, h1, h3, h4, i1, hI, ?_, ?_, h7, ?_⟩
    · rintro c rfl
      have := h8 rfl
      simpa using this
    · simp only [State.typeCheck, Run.bind_ok, Run.lift_ok, Run.orErr_ok] at h6
      obtain ⟨q, h6, rfl⟩ := h6
      exact ⟨n, h6⟩
    · intro hp
      rw [if_pos hp] at h9
      exact ⟨s4, h9⟩
  · rintro ⟨s1, s2, s3, proven, prems, args, inputs, ty, h1, h3, h4, hi, hI, hc, ht, hk, hp⟩
    rcases hacc s1 s2 s3 proven prems args inputs F ty h1 h3 h4 hi hI hc ht hk hp with h | h
    · exact absurd h hf
    · exact h

/-! ### Example: modus ponens -/

/-- the rule `mp` of `mpCmds` -/
def mpRule : SRule := { name := nm "mp", params := boolParams ["F", "G"], premises := .each [sy "F", ap "=>" [sy "F", sy "G"]], reqs := [(ap "eo::eq" [sy "F", sy "G"], sy "false")], conc := sy "G" }

/-- its parts -/
def mpDef : RuleDef := ⟨none, [.sym PARAM 13, .node APPLY [.node APPLY [.sym CONST 10, .sym PARAM 13], .sym PARAM 14]], none, [],
  [(.node EVAL_EQ [.sym PARAM 13, .sym PARAM 14], tFalse)], .sym PARAM 14, false⟩

theorem mp_declares {s0 : State} (h : exRun (mpCmds.take 3) = .ok s0) : Declares exB 10 s0 mpRule mpDef := by
  have h0 : ((exRun (mpCmds.take 3)).bind fun s0 => (bindRuleParams exB 10 mpRule.params s0.push).bind fun s1 => (parseOpt exB 10 mpRule.assumption s1).bind fun a =>
      (parsePremises exB 10 mpRule.premises a.1).bind fun p => (parseList exB 10 mpRule.args p.1).bind fun l => (parsePairs exB 10 mpRule.reqs l.1).bind fun q =>
      (parseExpr exB 10 mpRule.conc q.1).map fun c => decide (a.2 = mpDef.asm ∧ p.2.1 = mpDef.prems ∧ p.2.2 = mpDef.plist ∧ l.2 = mpDef.args ∧ q.2 = mpDef.reqs ∧ c.2 = mpDef.conc)) =
      .ok true := by decide +kernel
  rw [h] at h0
  simp only [Run.bind_ok, Run.map_ok, Run.ok.injEq, exists_eq_left', decide_eq_true_eq] at h0
  obtain ⟨s1, h1, ⟨s2, _⟩, h2, ⟨s3, _, _⟩, h3, ⟨s4, _⟩, h4, ⟨s5, _⟩, h5, ⟨s6, _⟩, h6, h7⟩ := h0
  obtain ⟨rfl, rfl, rfl, rfl, rfl, rfl⟩ := h7
  exact ⟨s1, s2, s3, s4, s5, s6, h1, h2, h3, h4, h5, h6, rfl⟩

theorem at_reached {e : Event} {post : List Event} : ∀ (pre : List Event) {st st' : State}, replay b n (pre ++ e :: post) st = .ok st' →
    ∃ s0, replay b n pre st = .ok s0 ∧ At b n (pre ++ e :: post) st e s0
  | [], st, st', _ => ⟨st, rfl, .head ..⟩
  | e' :: pre, st, st', h => by
    simp only [List.cons_append, replay, Run.bind_ok] at h ⊢
    obtain ⟨s1, h1, h2⟩ := h
    obtain ⟨s0, h3, h4⟩ := at_reached pre h2
    exact ⟨s0, ⟨s1, h1, h3⟩, .tail _ _ _ _ _ _ h1 h4⟩

theorem mp_plain : ∀ q ∈ mpDef.pats, ∀ t, Sub t q → ¬ IsAny t := by
  intro q hq t ht hA
  have h5 : (mpDef.pats.any Term.evaluatable) = false := by decide +kernel
  rw [List.any_eq_false] at h5
  exact h5 q hq ((evaluatable_iff q).2 ⟨t, ht, .inr hA⟩)

/-- C84: the hypotheses are met by the rule and the step `mpStep`, from which `q` follows -/
example : ∃ st s0 rule, replay exB 10 (mpCmds.map .cmd) (State.init exB 10) = .ok st ∧ At exB 10 (mpCmds.map .cmd) (State.init exB 10) (.cmd (.declareRule mpRule)) s0 ∧
    Declares exB 10 s0 mpRule mpDef ∧ (∀ q ∈ mpDef.pats, ∀ t, Sub t q → ¬ IsAny t) ∧ mpDef.pats ≠ [] ∧ exec exB 10 st (.step mpStep) ≠ .fuel ∧
    Follows exB 10 st rule mpDef mpStep (.sym CONST 12) := by
  obtain ⟨st, st', h1, h2, h3⟩ := exStep (cmds := mpCmds) (s := mpStep) (r := some (.node PROOF [.sym CONST 12])) (by decide +kernel)
  have he : mpCmds.map Event.cmd = (mpCmds.take 3).map Event.cmd ++ Event.cmd (.declareRule mpRule) :: (mpCmds.drop 4).map Event.cmd := rfl
  have h1 : replay exB 10 (mpCmds.map .cmd) (State.init exB 10) = .ok st := h1
  obtain ⟨s0, h4, ha⟩ := at_reached _ (he ▸ h1)
  rw [← he] at ha
  have hd := mp_declares (s0 := s0) h4
  have hne : mpDef.pats ≠ [] := by simp [RuleDef.pats, mpDef]
  have hf : exec exB 10 st (.step mpStep) ≠ .fuel := by rw [h2]; simp
  obtain ⟨rule, _, h⟩ := C84_exact exB_ok h1 ha rfl hd mp_plain hne hf
  exact ⟨st, s0, rule, h1, ha, hd, mp_plain, hne, hf, (h _).1 ⟨st', h2, h3⟩⟩

end Ethos.Props
