import Verif.Lemmas.Fresh
import Verif.Props.Core
import Verif.Props.Eval
/-
Declared rules stay as they are; accepted steps are instances of them.
-/
namespace Ethos.Props
open Ethos Kind Spec

/-! ### Persistence of declarations -/

/-- what no command changes -/
structure Keeps (st st' : State) : Prop where
  next : st.next ≤ st'.next
  symType : ∀ k i ty, st.symType (.sym k i) = some ty → i < st.next → st'.symType (.sym k i) = some ty
  info : ∀ t ai, st.decls.info t = some ai → ai.attr ≠ .NONE → st'.decls.info t = some ai
  rules : ∀ x r, st.decls.rules x = some r → st'.decls.rules x = some r

theorem Keeps.of {st st' : State} (h1 : st'.next = st.next) (h2 : st'.symType = st.symType) (h3 : st'.decls = st.decls) : Keeps st st' :=
  ⟨by omega, by rw [h2]; exact fun _ _ _ h _ => h, by rw [h3]; exact fun _ _ h _ => h, by rw [h3]; exact fun _ _ h => h⟩

theorem Keeps.trans {a b c : State} (h1 : Keeps a b) (h2 : Keeps b c) : Keeps a c :=
  ⟨Nat.le_trans h1.next h2.next, fun k i ty h hi => h2.symType k i ty (h1.symType k i ty h hi) (Nat.lt_of_lt_of_le hi h1.next),
    fun t ai h ha => h2.info t ai (h1.info t ai h ha) ha, fun x r h => h2.rules x r (h1.rules x r h)⟩

theorem keepsFrame : FullFrame Keeps where
  refl _ := .of rfl rfl rfl
  trans := Keeps.trans
  bind _ _ _ := .of rfl rfl rfl
  push _ := .of rfl rfl rfl
  pop h := by
    simp only [State.pop, Run.map_ok] at h
    obtain ⟨_, _, rfl⟩ := h; exact .of rfl rfl rfl
  sym st k x ty := by
    refine ⟨Nat.le_succ _, ?_, fun _ _ h _ => h, fun _ _ h => h⟩
    intro k' i ty' h hi
    simp only [State.mkSymbol]
    rw [if_neg]
    · exact h
    · intro e; cases e; exact Nat.lt_irrefl _ hi
  mark st v a c := by
    refine ⟨Nat.le_refl _, fun _ _ _ h _ => h, ?_, ?_⟩
    · intro t ai h ha
      show (st.decls.markConstructorKind v a c).1.info t = some ai
      simp only [Decls.markConstructorKind]
      split
      · exact h
      · rename_i hn
        by_cases ht : t = v
        · subst ht; rw [h] at hn; exact absurd hn (by simpa using ha)
        · simpa [ht] using h
    · intro x r h
      show (st.decls.markConstructorKind v a c).1.rules x = some r
      rw [mark_rules]; exact h
  lit := by
    intro st k t d h
    simp only [Decls.setLiteralTypeRule] at h
    split at h
    · split at h
      · split at h
        · cases h; exact .of rfl rfl rfl
        · cases h
      · cases h; exact ⟨Nat.le_refl _, fun _ _ _ h _ => h, fun _ _ h _ => h, fun _ _ h => h⟩
    · cases h
  refAssert _ _ := .of rfl rfl rfl
  asm _ _ _ := .of rfl rfl rfl
  reset _ := .of rfl rfl rfl
  used _ _ := .of rfl rfl rfl
  rule := by
    intro st x i d h
    simp only [Decls.bindRule] at h
    split at h
    · cases h
    · rename_i hn
      cases h
      refine ⟨Nat.le_refl _, fun _ _ _ h _ => h, fun _ _ h _ => h, ?_⟩
      intro y r h
      show (if y = x then _ else _) = _
      by_cases hy : y = x
      · subst hy; rw [hn] at h; cases h
      · rw [if_neg hy]; exact h
  sry _ _ := .of rfl rfl rfl

theorem Keeps.event {b : Env} {n : Nat} {e : Event} {st st' : State} (h : replayEvent b n st e = .ok st') : Keeps st st' := by
  cases e with
  | enter f r nf =>
    simp only [replayEvent, Run.map_ok] at h
    obtain ⟨⟨s1, t⟩, h1, rfl⟩ := h
    exact (keepsFrame.parseOpt h1).trans (.of rfl rfl rfl)
  | skip f r nf =>
    simp only [replayEvent, Run.map_ok] at h
    obtain ⟨⟨s1, t⟩, h1, rfl⟩ := h
    exact keepsFrame.parseOpt h1
  | cmd c => exact keepsFrame.exec h

theorem Keeps.replay {b : Env} {n : Nat} : ∀ (es : List Event) {st st' : State}, Spec.replay b n es st = .ok st' → Keeps st st'
  | [], st, st', h => by simp only [Spec.replay] at h; cases h; exact .of rfl rfl rfl
  | e :: es, st, st', h => by
    simp only [Spec.replay, Run.bind_ok] at h
    obtain ⟨s1, h1, h2⟩ := h
    exact (Keeps.event h1).trans (Keeps.replay es h2)

theorem Stored.keep {b : Env} {n0 m : Nat} {st st' : State} {x : Name} {d : RuleDef} (H : Fresh b n0 m st) (hk : Keeps st st') (h : Stored st x d) :
    Stored st' x d := by
  obtain ⟨⟨i, prog, h1, h2, env0, n, ret, h3, h4⟩⟩ := h
  refine ⟨i, prog, hk.rules _ _ h1, hk.info _ _ h2 (by simp), env0, n, ret, h3, ?_⟩
  rcases h4 with h4 | ⟨h4, j, ts, rfl, h5, h6⟩
  · exact .inl h4
  · refine .inr ⟨h4, j, ts, rfl, hk.symType _ _ _ h5 ?_, hk.info _ _ h6 (by simp)⟩
    rcases H.typed _ _ (by rw [h5]; simp) with h7 | h7
    · cases h7
    · rw [H.next]; exact h7

/-- the table of rules changes only when a rule is declared -/
theorem rulesFrame : AsmFrame fun st st' : State => st'.decls.rules = st.decls.rules where
  refl _ := rfl
  trans h1 h2 := h2.trans h1
  bind _ _ _ := rfl
  push _ := rfl
  pop h := by
    simp only [State.pop, Run.map_ok] at h
    obtain ⟨_, _, rfl⟩ := h; rfl
  sym _ _ _ _ := rfl
  mark st v a c := mark_rules
  lit := by
    intro st k t d h
    simp only [Decls.setLiteralTypeRule] at h
    split at h
    · split at h
      · split at h
        · cases h; rfl
        · cases h
      · cases h; rfl
    · cases h
  refAssert _ _ := rfl
  asm _ _ _ := rfl
  reset _ := rfl

theorem rules_event {b : Env} {n n0 m : Nat} {e : Event} {st st' : State} (hb : BaseOk b n0) (H : Fresh b n0 m st)
    (h : replayEvent b n st e = .ok st') {x : Name} {r : Term} (hr : st'.decls.rules x = some r) :
    st.decls.rules x = some r ∨ ∃ rc d, e = .cmd (.declareRule rc) ∧ rc.name = x ∧ Declares b n st rc d ∧ Stored st' x d := by
  cases e with
  | enter f rf nf =>
    simp only [replayEvent, Run.map_ok] at h
    obtain ⟨⟨s1, t⟩, h1, rfl⟩ := h
    rw [show _ = _ from rulesFrame.parseOpt h1] at hr; exact .inl hr
  | skip f rf nf =>
    simp only [replayEvent, Run.map_ok] at h
    obtain ⟨⟨s1, t⟩, h1, rfl⟩ := h
    rw [show _ = _ from rulesFrame.parseOpt h1] at hr; exact .inl hr
  | cmd c =>
    by_cases hs : ∃ s, c = .step s
    · obtain ⟨s, rfl⟩ := hs
      obtain ⟨s1, proven, rule, s2, prems, s3, args, conc, ty, s4, _, h1, _, h2, h3, _, _, _, _, h4, rfl⟩ := execStep_ok h
      have F := rulesFrame
      have e4 : s4.decls.rules = s3.decls.rules := by
        split at h4
        · exact F.popAssumption h4
        · cases h4; rfl
      have e3 : s3.decls.rules = s2.decls.rules := F.parseList b n _ h3
      have e2 : s2.decls.rules = ({ s1 with used := rule :: s1.used } : State).decls.rules := F.parseList b n _ h2
      have e2 : s2.decls.rules = s1.decls.rules := e2
      have e1 : s1.decls.rules = st.decls.rules := F.parseConc h1
      have hr : s4.decls.rules x = some r := hr
      rw [e4, e3, e2, e1] at hr
      exact .inl hr
    · by_cases hd : ∃ rc, c = .declareRule rc
      · obtain ⟨rc, rfl⟩ := hd
        by_cases hx : rc.name = x
        · obtain ⟨_, _, _, d, h1, h2⟩ := H.declareRule hb h
          subst hx
          exact .inr ⟨rc, d, rfl, rfl, h1, h2⟩
        · refine .inl ?_
          have h : execDeclareRule b n st rc = .ok st' := h
          obtain ⟨_, s1, s2, asm, s3, prems, pcons, s4, args, s5, reqs, s6, conc, ret, s7, s8, prog, decls, h1, h2, h3, h4, h5, h6, _, h8, h9, h10, rfl⟩ :=
            execDeclareRule_ok h
          have F := rulesFrame
          have e := F.trans (F.push st) (F.trans (F.bindRuleParams h1) (F.trans (F.parseOpt h2) (F.trans (F.parsePremises h3) (F.trans (F.parseList b n _ h4)
            (F.trans (F.parsePairs _ h5) (F.trans (F.parseExpr b n _ h6) (F.trans (F.pop h8) (F.trans (F.sym s7 PROOF_RULE rc.name tBool) (F.ruleProg h9)))))))))
          rw [← show _ = _ from e]
          have hr : (decls.markConstructorKind (.sym PROOF_RULE s7.next) .PROOF_RULE (some (.node TUPLE [pcons.getD tAny, mkBool asm.isSome,
            mkBool rc.explicit, prog]))).1.rules x = some r := hr
          rw [mark_rules] at hr
          simp only [Decls.bindRule] at h10
          split at h10
          · cases h10
          · cases h10
            dsimp only at hr
            rw [if_neg fun e => hx e.symm] at hr
            exact hr
      · have h : Ethos.exec b n st c = .ok st' := h
        have := rulesFrame.exec h (fun s e => hs ⟨s, e⟩) (fun r e => hd ⟨r, e⟩)
        rw [show _ = _ from this] at hr; exact .inl hr

/-- every rule in the table was declared by a command and is recorded as declared -/
theorem rules_replay {b : Env} {n n0 : Nat} (hb : BaseOk b n0) : ∀ (es : List Event) {m : Nat} {st st' : State}, Fresh b n0 m st → replay b n es st = .ok st' →
    ∀ {x : Name} {r : Term}, st'.decls.rules x = some r →
    st.decls.rules x = some r ∨ ∃ rc s0 d, At b n es st (.cmd (.declareRule rc)) s0 ∧ rc.name = x ∧ Declares b n s0 rc d ∧ Stored st' x d
  | [], m, st, st', H, h, x, r, hr => by simp only [replay] at h; cases h; exact .inl hr
  | e :: es, m, st, st', H, h, x, r, hr => by
    simp only [replay, Run.bind_ok] at h
    obtain ⟨s1, h1, h2⟩ := h
    obtain ⟨m1, l1, i1⟩ := H.event hb h1
    rcases rules_replay hb es i1 h2 hr with h3 | ⟨rc, s0, d, h3, h4⟩
    · rcases rules_event hb H h1 h3 with h4 | ⟨rc, d, rfl, h4, h5, h6⟩
      · exact .inl h4
      · exact .inr ⟨rc, st, d, .head _ _ _, h4, h5, h6.keep i1 (Keeps.replay es h2)⟩
    · exact .inr ⟨rc, s0, d, .tail _ _ _ _ _ _ h1 h3, h4⟩

/-! ### Requirements -/

/-- a `requires` built by the parser: checked at once, or left as it is -/
theorem requires_built {env : Env} {n : Nat} {l r c ret : Term} (h : mkExpr env (ops env n) n EVAL_REQUIRES [l, r, c] = .ok ret) :
    IsValue l ∧ l = r ∧ ret = c ∨ ret = .node EVAL_REQUIRES [l, r, c] := by
  cases n with
  | zero => simp [mkExpr] at h
  | succ n =>
    have h : evaluateLiteralOp (ops env (n+1)) EVAL_REQUIRES [l, r, c] = .ok ret := h
    simp only [evaluateLiteralOp] at h
    cases ho : (ops env (n+1)).evalOp EVAL_REQUIRES [l, r, c] with
    | ok q =>
      rw [ho] at h
      simp only [Out.map, Out.ok.injEq] at h
      subst h
      have hq : OpResult env EVAL_REQUIRES [l, r, c] q := ⟨_, ho⟩
      obtain ⟨h1, h2⟩ := C11_requires env l r c
      by_cases hv : IsValue l ∧ l = r
      · have := OpResult.det _ _ _ _ hq (h1 hv); subst this
        exact .inl ⟨hv.1, hv.2, rfl⟩
      · have := OpResult.det _ _ _ _ hq (h2 hv); subst this
        exact .inr rfl
    | _ => rw [ho] at h; cases h

theorem evaluatable_requires (cs : List Term) (h : cs ≠ []) : (Term.node EVAL_REQUIRES cs).evaluatable = true :=
  (evaluatable_iff _).2 ⟨_, .refl _, .inl (.inr ⟨rfl, by simpa [Term.children] using h⟩)⟩

/-- if the body of a rule evaluates to a term without computation, its requirements are met -/
theorem requires_sound {env0 : Env} {n : Nat} {conc : Term} {env : Env} {ctx : Ctx} {F : Term} (hF : F.evaluatable = false) :
    ∀ (reqs : List (Term × Term)) {ret : Term}, mkRequires (mkExpr env0 (ops env0 n) n) reqs conc = .ok ret → EvaluatesTo env ctx ret F →
    (∀ q ∈ reqs, ∃ v, IsValue v ∧ EvaluatesTo env ctx q.1 v ∧ EvaluatesTo env ctx q.2 v) ∧ EvaluatesTo env ctx conc F
  | [], ret, h, he => by
    simp only [mkRequires, List.foldr, Out.ok.injEq] at h
    subst h
    exact ⟨by simp, he⟩
  | (l, r) :: reqs, ret, h, he => by
    have h : (mkRequires (mkExpr env0 (ops env0 n) n) reqs conc).bind (fun c => mkExpr env0 (ops env0 n) n EVAL_REQUIRES [l, r, c]) = .ok ret := h
    cases hc : mkRequires (mkExpr env0 (ops env0 n) n) reqs conc with
    | ok c =>
      rw [hc] at h
      rcases requires_built h with ⟨hv, rfl, rfl⟩ | rfl
      · obtain ⟨h1, h2⟩ := requires_sound hF reqs hc he
        refine ⟨?_, h2⟩
        intro q hq
        rcases List.mem_cons.1 hq with rfl | hq
        · exact ⟨l, hv, value_eval _ _ _ hv, value_eval _ _ _ hv⟩
        · exact h1 q hq
      · rw [evaluatesTo_iff] at he
        cases he with
        | bound _ _ _ hp => cases hp.1
        | free _ _ hp => cases hp.1
        | leaf _ _ _ hc => cases hc
        | op _ _ _ cs' _ _ _ _ hl ho =>
          cases hl with
          | cons _ _ _ l' _ e1 hl =>
          cases hl with
          | cons _ _ _ r' _ e2 hl =>
          cases hl with
          | cons _ _ _ c' _ e3 hl =>
          cases hl
          obtain ⟨h1, h2⟩ := C11_requires env l' r' c'
          by_cases hv : IsValue l' ∧ l' = r'
          · have := OpResult.det _ _ _ _ ho (h1 hv)
            cases this
            obtain ⟨h3, h4⟩ := requires_sound hF reqs hc ((evaluatesTo_iff _ _ _ _).2 e3)
            refine ⟨?_, h4⟩
            intro q hq
            rcases List.mem_cons.1 hq with rfl | hq
            · exact ⟨l', hv.1, (evaluatesTo_iff _ _ _ _).2 e1, hv.2 ▸ (evaluatesTo_iff _ _ _ _).2 e2⟩
            · exact h3 q hq
          · have := OpResult.det _ _ _ _ ho (h2 hv)
            cases this
        | opStuck _ _ _ cs' _ _ _ hl ho =>
          exfalso
          rw [evaluatable_requires] at hF
          · cases hF
          · intro e; subst e; cases hl
        | progStuck _ _ _ _ _ hk => rcases hk with hk | hk <;> cases hk
        | progConst _ _ _ _ _ _ _ hk => rcases hk with hk | hk <;> cases hk
        | progRun _ _ _ _ _ _ _ _ hk => rcases hk with hk | hk <;> cases hk
        | app _ _ _ _ _ hk => rcases hk with hk | hk <;> cases hk
        | other _ _ _ _ hk => cases hk
    | _ => rw [hc] at h; cases h

/-! ### Accepted steps -/

theorem ruleInputs_ok {b : Env} {n : Nat} {st : State} {d : RuleDef} {proven : Option Term} {prems args cs : List Term} {isPop : Bool}
    (h : ruleInputs b n st (if d.plist.getD tAny = tAny then none else some (d.plist.getD tAny)) (mkBool d.asm.isSome = tTrue) (mkBool d.explicit = tTrue)
      proven prems args isPop = .ok cs) (hc : isPop = true → st.asmCtx ≠ []) : Inputs b st d proven prems args isPop cs := by
  have hb : ∀ x : Bool, decide (mkBool x = tTrue) = x := by decide
  rw [hb, hb] at h
  simp only [ruleInputs, Run.bind_ok, Run.ite_err, Run.map_ok] at h
  obtain ⟨c1, h1, h2, c2, h3, c3, h4, rfl⟩ := h
  have e1 : (d.explicit = true → proven ≠ none) ∧ c1 = if d.explicit then proven.toList else [] := by
    simp only [concInput] at h1
    split at h1
    · rename_i he
      simp only [Run.map_ok, Run.orErr_ok] at h1
      obtain ⟨p, rfl, rfl⟩ := h1
      simp [he]
    · rename_i he
      cases h1
      simp [he]
  refine ⟨by simpa using h2, e1.1, c2, c3, by rw [e1.2], ?_, ?_⟩
  · simp only [asmInput] at h3
    split at h3
    · rename_i hpop
      simp only [State.firstAssumption, Run.map_ok] at h3
      obtain ⟨a, h3, rfl⟩ := h3
      have := hc hpop
      cases ha : st.asmCtx with
      | nil => exact absurd ha this
      | cons k r =>
        rw [ha] at h3
        simp only [List.head?_cons, Option.getD_some] at h3
        simp only [hpop, if_true]
        refine ⟨a, rfl, k, r, ha, ?_⟩
        split at h3
        · cases h3; assumption
        · cases h3
    · rename_i hpop
      cases h3
      simp [hpop]
  · simp only [premInput] at h4
    cases hq : d.plist with
    | none => simp only [hq, Option.getD_none, if_true] at h4; cases h4; exact rfl
    | some c =>
      simp only [hq, Option.getD_some] at h4
      by_cases hany : c = tAny
      · rw [if_pos hany] at h4
        cases h4
        simp only [Premises]
        rw [if_pos (show c = Term.node ANY [] from hany)]
        trivial
      rw [if_neg hany] at h4
      simp only [Premises]
      rw [if_neg (show ¬ c = Term.node ANY [] from hany)]
      simp only [collectPremises, Run.map_ok, Run.bind_ok] at h4
      obtain ⟨_, ⟨fs, h5, f, h6, rfl⟩, rfl⟩ := h4
      have h7 : ∀ (ps fs : List Term), premiseFormulas ps = .ok fs →
          fs.length = ps.length ∧ ∀ (i : Nat) p, ps[i]? = some p → ∃ g r, p = .node PROOF (g :: r) ∧ fs[i]? = some g := by
        intro ps
        induction ps with
        | nil => intro fs h; simp only [premiseFormulas] at h; cases h; simp
        | cons p ps ih =>
          intro fs h
          cases p with
          | sym k i => simp [premiseFormulas] at h
          | lit l => simp [premiseFormulas] at h
          | node k cs =>
            by_cases hk : k = PROOF
            · subst hk
              cases cs with
              | nil => simp [premiseFormulas] at h
              | cons g r =>
                simp only [premiseFormulas, Run.map_ok] at h
                obtain ⟨gs, h8, rfl⟩ := h
                obtain ⟨h9, h10⟩ := ih gs h8
                refine ⟨by simp [h9], ?_⟩
                intro i p hp
                cases i with
                | zero => simp at hp; exact ⟨g, r, hp.symm, by simp⟩
                | succ i => simpa using h10 i p (by simpa using hp)
            · have : premiseFormulas (.node k cs :: ps) = .err := by
                unfold premiseFormulas
                split
                · rename_i h'; cases h'
                · rename_i h'; cases h'; exact absurd rfl hk
                · rename_i h'; cases h'; exact absurd rfl hk
                · rfl
              rw [this] at h; cases h
      obtain ⟨h8, h9⟩ := h7 _ _ h5
      refine ⟨fs, f, h8, h9, rfl, ?_, ?_⟩
      · intro hne
        have : fs.isEmpty = false := by cases fs with | nil => exact absurd rfl hne | cons _ _ => rfl
        rw [this] at h6
        simp only [Bool.false_eq_true, if_false, State.build, Run.lift_ok] at h6
        exact ⟨n, h6⟩
      · rintro rfl
        simp only [List.isEmpty_nil, if_true, emptyPremises] at h6
        split at h6
        · cases h6
        · rename_i ai hai
          split at h6
          · rename_i hl
            split at h6
            · rename_i c' hc'
              cases h6
              exact ⟨ai, hai, hl, hc'⟩
            · cases h6
          · cases h6

theorem appInfo_of {b : Env} {st : State} {t : Term} {a : Attr} {c : Option Term} {k : Kind} {o : Option Name} (h : st.decls.info t = some ⟨a, c, k, o⟩) :
    (st.env b).appInfo t = some ⟨a, c, k, st.scope.mark t⟩ := by
  show st.decls.appInfo st.scope.mark t = _
  simp [Decls.appInfo, h]

/-- the conclusion of an accepted step is an instance of the recorded rule -/
theorem notifyStep_instance {b : Env} {n : Nat} {st : State} {x : Name} {d : RuleDef} {rule conc ty : Term} {proven : Option Term} {prems args : List Term}
    {isPop : Bool} (hs : Stored st x d) (hx : st.decls.rules x = some rule) (h : notifyStep b n st rule proven prems args isPop = .ok conc)
    (ht : st.typeCheck b n conc = .ok ty) (hk : ty.kind = BOOL_TYPE) (hc : isPop = true → st.asmCtx ≠ []) :
    ∃ inputs, Inputs b st d proven prems args isPop inputs ∧ (d.pats = [] ∧ inputs ≠ [] ∨ Instance (st.env b) d inputs conc) ∧
      (d.pats = [] → ∀ q ∈ d.reqs, ∃ v, IsValue v ∧ EvaluatesTo (st.env b) [] q.1 v ∧ EvaluatesTo (st.env b) [] q.2 v) := by
  obtain ⟨⟨i, prog, h1, h2, env0, n', ret, h3, h4⟩⟩ := hs
  rw [h1] at hx
  cases hx
  obtain ⟨ai, k, t0, t1, t2, prog', cs, hai, hcons, h5, h6⟩ := notifyStep_ok h
  rw [appInfo_of h2] at hai
  cases hai
  simp only [Option.some.injEq, Term.node.injEq, List.cons.injEq, and_true] at hcons
  obtain ⟨rfl, rfl, rfl, rfl, rfl⟩ := hcons
  refine ⟨cs, ruleInputs_ok h5 hc, ?_⟩
  rcases h4 with ⟨hpats, rfl, hv⟩ | ⟨hpats, j, ts, rfl, h7, h8⟩
  · -- nothing to match
    obtain ⟨hr, hcn⟩ := requires_sound (env := st.env b) (ctx := []) ((isValue_iff _).1 hv).2 _ h3 (value_eval _ _ _ hv)
    refine ⟨?_, fun _ => hr⟩
    rcases h6 with ⟨rfl, rfl⟩ | ⟨hne, _⟩
    · right
      refine ⟨[], by simp [hpats], ?_, by simp, hr, hcn, fun s hs => ⟨(hv s hs).2.2, (hv s hs).2.1⟩⟩
      intro p
      simp [Ctx.find, hpats]
    · exact .inl ⟨hpats, hne⟩
  · refine ⟨.inr ?_, fun h => absurd h hpats⟩
    rcases h6 with ⟨rfl, rfl⟩ | ⟨hne, h6, he⟩
    · exfalso
      simp only [State.typeCheck, Run.bind_ok, Run.lift_ok, Run.orErr_ok] at ht
      obtain ⟨r, ht, rfl⟩ := ht
      cases n with
      | zero => simp [ops] at ht
      | succ n =>
        simp only [ops, typeStep, Out.ok.injEq] at ht
        have ht : st.symType _ = _ := ht
        rw [h7] at ht
        cases ht
        cases hk
    · have hprog : (st.env b).program (.sym PROGRAM_CONST j) = some (.node PROGRAM [.node TUPLE [.node APPLY (.sym PROGRAM_CONST j :: d.pats), ret]]) := by
        simp [Env.program, appInfo_of h8]
      have hcomp : (Term.node APPLY (.sym PROGRAM_CONST j :: cs)).evaluatable = true :=
        (evaluatable_iff _).2 ⟨_, .child _ _ _ _ (List.mem_cons_self ..) (.refl _), .inl (.inl ⟨rfl, rfl⟩)⟩
      simp only [evaluateProgramApp] at h6
      cases hev : evalProgram (st.env b) (.sym PROGRAM_CONST j :: cs) with
      | ok r =>
        rw [hev] at h6
        cases r with
        | none =>
          simp only [Out.bind, Out.ok.injEq] at h6
          rw [← h6, hcomp] at he
          cases he
        | some p =>
          obtain ⟨body, ctx⟩ := p
          have h6 : (ops (st.env b) n).evaluate body ctx = .ok conc := h6
          have hvals : ∀ t ∈ cs, IsValue t := by
            intro t ht
            simp only [evalProgram] at hev
            split at hev
            · cases hev
            · rename_i hg
              split at hev
              · cases hev
              · rename_i hv
                simp only [List.any_eq_true, not_exists, not_and, List.tail_cons, Bool.not_eq_true, Bool.not_eq_false'] at hg hv
                exact (isValue_iff t).2 ⟨hg t (List.mem_cons_of_mem _ ht), hv t ht⟩
          have hd : Defined (st.env b) (.sym PROGRAM_CONST j) [⟨d.pats, ret⟩] := ⟨_, hprog, rfl⟩
          rw [evalProgram_values ⟨rfl, rfl⟩ hd hvals] at hev
          rw [show List.map _ [(⟨d.pats, ret⟩ : Case)] = [.node TUPLE [.node APPLY (.sym PROGRAM_CONST j :: d.pats), ret]] from rfl, runCases_cons] at hev
          split at hev
          · cases hev
          · rename_i hl
            split at hev
            · rename_i ctx' hm
              cases hev
              obtain ⟨m1, m2, _, m4⟩ := C27_args (by omega) hm
              obtain ⟨hr, hcn⟩ := requires_sound he _ h3 ⟨n, h6⟩
              refine ⟨ctx, m1, ?_, hvals, hr, hcn, ?_⟩
              · intro p
                constructor
                · rintro ⟨v, hv⟩
                  rcases m4 p v hv with h | h
                  · cases h
                  · exact h
                · rintro ⟨hp, q, hq, hpq⟩
                  exact m2 q hq p hpq hp
              · intro s hs
                have := mt (evaluatable_iff conc).2 (by simp [he])
                exact ⟨fun h => this ⟨s, hs, .inl h⟩, fun h => this ⟨s, hs, .inr h⟩⟩
            · simp [runCases] at hev
      | _ => rw [hev] at h6; cases h6

end Ethos.Props
