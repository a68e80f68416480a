import Verif.Lemmas.World
import Verif.Lemmas.EvalOps
import Verif.Spec.Command
import Verif.Spec.Rule
/-
Invariants of the state that speak about every term in it, numbered by the next symbol: what all commands preserve.
-/
namespace Ethos.Props
open Ethos Kind Spec

variable {b : Env} {m : Nat} {st st' : State}

/-- the parts of a successful `notifyStep` -/
theorem notifyStep_ok {n : Nat} {rule conc : Term} {proven : Option Term} {prems args : List Term} {isPop : Bool}
    (h : notifyStep b n st rule proven prems args isPop = .ok conc) :
    ∃ ai k t0 t1 t2 prog cs, (st.env b).appInfo rule = some ai ∧ ai.cons = some (.node k [t0, t1, t2, prog]) ∧
      Ethos.ruleInputs b n st (if t0 = tAny then none else some t0) (t1 = tTrue) (t2 = tTrue) proven prems args isPop = .ok cs ∧
      (cs = [] ∧ conc = prog ∨ cs ≠ [] ∧ evaluateProgramApp (st.env b) (ops (st.env b) n) (prog :: cs) = .ok conc ∧ conc.evaluatable = false) := by
  simp only [notifyStep] at h
  split at h
  · cases h
  · rename_i ai hai
    split at h
    · rename_i k t0 t1 t2 prog hc
      simp only [Run.bind_ok] at h
      obtain ⟨cs, h1, h⟩ := h
      refine ⟨ai, k, t0, t1, t2, prog, cs, hai, hc, h1, ?_⟩
      split at h
      · cases h; exact .inl ⟨rfl, rfl⟩
      · simp only [Run.bind_ok, Run.lift_ok, Run.ite_err] at h
        obtain ⟨r, h2, h3, h4⟩ := h
        cases h4
        exact .inr ⟨by simp, h2, by simpa using h3⟩
    · cases h

theorem mark_other {d : Decls} {v t : Term} {a : Attr} {c : Option Term} (h : t ≠ v) : (d.markConstructorKind v a c).1.info t = d.info t := by
  simp only [Decls.markConstructorKind]
  split
  · rfl
  · simp [h]

theorem mark_rules {d : Decls} {v : Term} {a : Attr} {c : Option Term} : (d.markConstructorKind v a c).1.rules = d.rules := by
  simp only [Decls.markConstructorKind]
  split <;> rfl

/-- the record of a declared rule: its symbol, the rule itself and its program -/
structure Stored (st : State) (x : Name) (d : RuleDef) : Prop where
  rule : ∃ i prog, st.decls.rules x = some (.sym PROOF_RULE i) ∧
    (st.decls.info (.sym PROOF_RULE i)) = some ⟨.PROOF_RULE, some (.node TUPLE [d.plist.getD tAny, mkBool d.asm.isSome, mkBool d.explicit, prog]), NONE, none⟩ ∧
    ∃ (env0 : Env) (n : Nat) (ret : Term), mkRequires (mkExpr env0 (ops env0 n) n) d.reqs d.conc = .ok ret ∧
      (d.pats = [] ∧ prog = ret ∧ IsValue ret ∨ d.pats ≠ [] ∧ ∃ j ts, prog = .sym PROGRAM_CONST j ∧ st.symType prog = some (.node PROGRAM_TYPE ts) ∧
        st.decls.info prog = some ⟨.PROGRAM, some (.node PROGRAM [.node TUPLE [.node APPLY (prog :: d.pats), ret]]), NONE, none⟩)

/-- An invariant `I` that says that every term in the state has `P`, when `m` is the next symbol: what the commands need of it -/
structure StateTerms (b : Env) (I : Nat → State → Prop) (P : Nat → Term → Prop) : Prop where
  world : World b (· ≤ ·) (fun m (_ : Nat) st => I m st) P P
  next : ∀ {m st}, I m st → st.next = m
  asms : ∀ {m st}, I m st → ∀ t ∈ st.asms, P m t
  rules : ∀ {m st}, I m st → ∀ x r, st.decls.rules x = some r → P m r
  congr : ∀ {m} {st st' : State}, I m st → st'.next = st.next → st'.scope = st.scope → st'.decls = st.decls → st'.symType = st.symType →
    (∀ t ∈ st'.asms, P m t) → I m st'
  reset : ∀ {m st}, I m st → I m { st with scope := st.scope.reset }
  new : ∀ {m st k}, I m st → ∀ (x : Name) {ty : Term}, k ≠ VARIABLE ∧ k ≠ BUILTIN_CONST → P m ty →
    ((st.mkSymbol k x ty).1.env b).appInfo (.sym k st.next) = none ∧ I (m+1) (st.mkSymbol k x ty).1 ∧ P (m+1) (.sym k st.next)
  noInfo : ∀ {m st k}, I m st → k ≠ VARIABLE ∧ k ≠ BUILTIN_CONST → st.decls.info (.sym k st.next) = none
  mark : ∀ {m st v a c}, I m st → P m v → (∀ t, c = some t → P m t) → I m { st with decls := (st.decls.markConstructorKind v a c).1 }
  addRule : ∀ {m st r}, I m st → P m r → ∀ x, I m { st with decls := { st.decls with rules := fun y => if y = x then some r else st.decls.rules y } }
  parts : ∀ {m k cs}, P m (.node k cs) → ∀ c ∈ cs, P m c
  proof : ∀ {m t}, P m t → P m (mkProof t)
  consts : ∀ {m n st st' k ty}, I m st → exec b n st (.declareConsts k ty) = .ok st' → I m st'

namespace StateTerms
variable {I : Nat → State → Prop} {P : Nat → Term → Prop} (S : StateTerms b I P)
include S

theorem popN : ∀ (k : Nat) {st st' : State}, I m st → Ethos.popN k st = .ok st' → I m st'
  | 0, st, st', H, h => by simp only [Ethos.popN] at h; cases h; exact H
  | k+1, st, st', H, h => by
    simp only [Ethos.popN, Run.bind_ok] at h
    obtain ⟨s1, h1, h2⟩ := h
    exact popN k (S.world.pop (d := 0) H h1) h2

theorem pushN : ∀ (k : Nat) {st : State}, I m st → I m (Ethos.pushN k st)
  | 0, _, H => H
  | k+1, _, H => pushN k (S.world.push (d := 0) H)

theorem assume {n : Nat} {x : Name} {f : SExp} {p : Bool} (H : I m st) (h : execAssume b n st x f p = .ok st') :
    I m st' := by
  have W := S.world
  obtain ⟨s1, t, h1, h2⟩ := execAssume_ok h
  obtain ⟨i1, p1⟩ := W.parseFormula (d := 0) H h1
  have i2 : I m (if p then s1.pushAssumption else s1) := by
    split
    · exact S.congr (W.push (d := 0) i1) rfl rfl rfl rfl fun t ht => S.asms i1 t ht
    · exact i1
  have i3 := W.bind (d := 0) (x := x) i2 (S.proof p1)
  obtain ⟨rfl, _⟩ := addAssumption_ok h2
  refine S.congr i3 rfl rfl rfl rfl ?_
  intro u hu
  rcases List.mem_append.1 hu with hu | hu
  · exact S.asms i3 u hu
  · rw [List.mem_singleton] at hu; rw [hu]; exact p1

theorem premiseFormulas : ∀ (l fs : List Term), (∀ t ∈ l, P m t) → Ethos.premiseFormulas l = .ok fs → ∀ t ∈ fs, P m t
  | [], fs, _, h => by simp only [Ethos.premiseFormulas] at h; cases h; simp
  | t :: l, fs, hl, h => by
    unfold Ethos.premiseFormulas at h
    split at h
    · cases h; simp
    · rename_i heq
      cases heq
      simp only [Run.map_ok] at h
      obtain ⟨gs, h1, rfl⟩ := h
      have h0 := S.parts (hl _ (List.mem_cons_self ..))
      intro u hu
      rcases List.mem_cons.1 hu with rfl | hu
      · exact h0 u (by simp)
      · exact premiseFormulas l gs (fun t ht => hl t (by simp [ht])) h1 u hu
    · cases h
    · cases h

theorem ruleInputs {n : Nat} {pc : Option Term} {ia ie ip : Bool} {proven : Option Term} {prems args cs : List Term}
    (H : I m st) (hp : ∀ c, pc = some c → P m c) (hv : ∀ c, proven = some c → P m c) (hm : ∀ t ∈ prems, P m t) (ha : ∀ t ∈ args, P m t)
    (h : Ethos.ruleInputs b n st pc ia ie proven prems args ip = .ok cs) : ∀ c ∈ cs, P m c := by
  have W := S.world
  simp only [Ethos.ruleInputs, Run.bind_ok, Run.ite_err, Run.map_ok] at h
  obtain ⟨c1, h1, _, c2, h2, c3, h3, rfl⟩ := h
  have q1 : ∀ c ∈ c1, P m c := by
    simp only [concInput] at h1
    split at h1
    · simp only [Run.map_ok, Run.orErr_ok] at h1
      obtain ⟨p, h1, rfl⟩ := h1
      simpa using hv p h1
    · cases h1; simp
  have q2 : ∀ c ∈ c2, P m c := by
    simp only [asmInput] at h2
    split at h2
    · simp only [Run.map_ok, State.firstAssumption] at h2
      obtain ⟨p, h2, rfl⟩ := h2
      split at h2
      · rename_i a he
        cases h2
        simpa using S.asms H _ (List.mem_of_getElem? he)
      · cases h2
    · cases h2; simp
  have q3 : ∀ c ∈ c3, P m c := by
    simp only [premInput] at h3
    split at h3
    · rename_i c
      simp only [Run.map_ok, collectPremises, Run.bind_ok] at h3
      obtain ⟨t, ⟨fs, h4, u, h5, rfl⟩, rfl⟩ := h3
      have hf := S.premiseFormulas _ _ hm h4
      have hc := hp c rfl
      have hu : P m u := by
        split at h5
        · simp only [emptyPremises] at h5
          split at h5
          · cases h5
          · rename_i ai hai
            simp only [Run.ite_err'] at h5
            obtain ⟨_, h5⟩ := h5
            split at h5
            · rename_i c' hc'
              cases h5
              exact (W.good (d := 0) H).cons _ _ _ hc hai hc'
            · cases h5
        · exact W.apply (d := 0) H hc hf h5
      simpa using S.proof hu
    · cases h3; exact hm
  intro c hc
  simp only [List.mem_append] at hc
  rcases hc with ((hc | hc) | hc) | hc
  · exact ha c hc
  · exact q1 c hc
  · exact q2 c hc
  · exact q3 c hc

theorem notifyStep {n : Nat} {rule conc : Term} {proven : Option Term} {prems args : List Term} {isPop : Bool}
    (H : I m st) (hv : ∀ c, proven = some c → P m c) (hm : ∀ t ∈ prems, P m t) (ha : ∀ t ∈ args, P m t)
    (hr : P m rule) (h : Ethos.notifyStep b n st rule proven prems args isPop = .ok conc) : P m conc := by
  obtain ⟨ai, k, t0, t1, t2, prog, cs, hai, hc, h1, h2⟩ := notifyStep_ok h
  have G := S.world.good (d := 0) H
  have hp := S.parts (G.cons _ _ _ hr hai hc)
  have q := S.ruleInputs H (by
    intro c hc
    split at hc
    · cases hc
    · cases hc; exact hp _ (by simp)) hv hm ha h1
  rcases h2 with ⟨_, rfl⟩ | ⟨_, h2, _⟩
  · exact hp _ (by simp)
  · refine evaluateProgramApp_good G (ops_good G n) ?_ h2
    intro c hc
    rcases List.mem_cons.1 hc with rfl | hc
    · exact hp _ (by simp)
    · exact q c hc

theorem step {n : Nat} {s : SStep} (H : I m st) (h : execStep b n st s = .ok st') :
    I m st' := by
  have W := S.world
  obtain ⟨s1, proven, rule, s2, prems, s3, args, conc, ty, s4, _, h1, h2, h3, h4, h5, _, _, _, h6, rfl⟩ := execStep_ok h
  obtain ⟨i1, p1⟩ := W.parseConc (d := 0) H h1
  obtain ⟨i2, p2⟩ := W.parseList (d := 0) _ (S.congr i1 (st' := { s1 with used := rule :: s1.used }) rfl rfl rfl rfl (fun t ht => S.asms i1 t ht)) h3
  obtain ⟨i3, p3⟩ := W.parseList (d := 0) _ i2 h4
  have hd : s1.decls = st.decls := by
    have : Frame fun st st' : State => st'.decls = st.decls :=
      ⟨fun _ => rfl, fun h1 h2 => h2.trans h1, fun _ _ _ => rfl, fun _ => rfl, fun h => by
        simp only [State.pop, Run.map_ok] at h
        obtain ⟨s, _, rfl⟩ := h
        rfl⟩
    exact this.parseConc h1
  rw [hd] at h2
  have pc := S.notifyStep i3 p1 p2 p3 (S.rules H _ _ h2) h5
  have i4 : I m s4 := by
    split at h6
    · obtain ⟨last, r, _, h7⟩ := popAssumption_ok h6
      exact W.pop (d := 0) (S.congr i3 (st' := { s3 with asmCtx := r, asms := s3.asms.take last }) rfl rfl rfl rfl
        fun t ht => S.asms i3 t (List.mem_of_mem_take ht)) h7
    · cases h6; exact i3
  exact W.bind (d := 0) i4 (S.proof pc)

theorem ruleArgTypes {pty : Term} : ∀ (as : List Term) (i : Nat) {m : Nat} {st : State}, I m st → P m pty →
    ∃ m', m ≤ m' ∧ I m' (Ethos.ruleArgTypes pty as i st).1 ∧ ∀ t ∈ (Ethos.ruleArgTypes pty as i st).2, P m' t
  | [], i, m, st, H, hp => ⟨m, Nat.le_refl _, H, by simp [Ethos.ruleArgTypes]⟩
  | a :: as, i, m, st, H, hp => by
    simp only [Ethos.ruleArgTypes]
    split
    · obtain ⟨m', l, i1, p1⟩ := ruleArgTypes as (i+1) H hp
      exact ⟨m', l, i1, fun t ht => by
        rcases List.mem_cons.1 ht with rfl | ht
        · exact S.world.mono l hp
        · exact p1 t ht⟩
    · obtain ⟨_, i1, p1⟩ := S.new H (k := PARAM) (nm "$eo_arg_" ++ nm (toString i)) (by simp) (S.world.good (d := 0) H).type
      obtain ⟨m', l, i2, p2⟩ := ruleArgTypes as (i+1) i1 (S.world.mono (by omega) hp)
      exact ⟨m', by omega, i2, fun t ht => by
        rcases List.mem_cons.1 ht with rfl | ht
        · exact S.world.mono l p1
        · exact p2 t ht⟩

/-- the program of a rule is a new symbol whose only case has the given arguments -/
theorem ruleProg {n : Nat} {x : Name} {as : List Term} {ret prog : Term} (H : I m st) (ha : ∀ a ∈ as, P m a)
    (hr : P m ret) (h : Ethos.ruleProg b n st x as ret = .ok (st', prog)) :
    ∃ m', m ≤ m' ∧ I m' st' ∧ P m' prog ∧
      (as = [] ∧ prog = ret ∧ st' = st ∧ ret.ground = true ∧ ret.evaluatable = false ∨
        as ≠ [] ∧ ∃ i, m ≤ i ∧ prog = .sym PROGRAM_CONST i ∧
          st'.decls.info prog = some ⟨.PROGRAM, some (.node PROGRAM [.node TUPLE [.node APPLY (prog :: as), ret]]), NONE, none⟩ ∧
          (∀ t, t ≠ prog → st'.decls.info t = st.decls.info t) ∧ (∃ ts, st'.symType prog = some (.node PROGRAM_TYPE ts))) ∧
      st'.decls.rules = st.decls.rules := by
  cases as with
  | nil =>
    simp only [Ethos.ruleProg, Run.ite_err] at h
    obtain ⟨h0, h⟩ := h
    cases h
    exact ⟨m, Nat.le_refl _, H, hr, .inl ⟨rfl, rfl, rfl, by simpa using h0⟩, rfl⟩
  | cons a as =>
    simp only [Ethos.ruleProg, Run.bind_ok, Run.ite_err', Run.map_ok] at h
    obtain ⟨u, h1, _, v, h2, h3⟩ := h
    cases h3
    have W := S.world
    obtain ⟨m1, l1, i1, p1⟩ := S.ruleArgTypes (pty := b.proofType) (a :: as) 0 H (W.good (d := 0) H).proofType
    have G1 := W.good (d := 0) i1
    obtain ⟨e, i2, p2⟩ := S.new i1 (k := PROGRAM_CONST) (nm "$eo_prog_" ++ x)
      (ty := .node PROGRAM_TYPE ((Ethos.ruleArgTypes b.proofType (a :: as) 0 st).2 ++ [tBool])) (by simp) (by
        refine (G1.node _ _ (by simp)).2 ?_
        intro c hc
        rcases List.mem_append.1 hc with hc | hc
        · exact p1 c hc
        · rw [List.mem_singleton] at hc; rw [hc]; exact G1.boolType)
    have hu := build_undefined rfl e h1
    have hv := build_program h2
    subst hu hv
    have hnx := S.next i1
    have hi := S.noInfo i1 (k := PROGRAM_CONST) (by simp)
    have G2 := W.good (d := 0) i2
    have pa : ∀ c ∈ Term.sym PROGRAM_CONST (Ethos.ruleArgTypes b.proofType (a :: as) 0 st).1.next :: a :: as, P (m1+1) c := by
      intro c hc
      rcases List.mem_cons.1 hc with rfl | hc
      · exact p2
      · exact W.mono (by omega) (ha c hc)
    have hfr : (Ethos.ruleArgTypes b.proofType (a :: as) 0 st).1.decls = st.decls := by
      have : ∀ (as : List Term) (i : Nat) (st : State), (Ethos.ruleArgTypes b.proofType as i st).1.decls = st.decls := by
        intro as
        induction as with
        | nil => intro i st; rfl
        | cons a as ih =>
          intro i st
          simp only [Ethos.ruleArgTypes]
          rw [ih]
          split <;> rfl
      exact this _ _ _
    refine ⟨m1+1, by omega, S.mark i2 p2 ?_, p2, .inr ⟨by simp, _, by omega, rfl, ?_, ?_, ?_⟩, ?_⟩
    · intro t ht
      cases ht
      exact G2.node1 (by simp) (G2.node2 (by simp) ((G2.node _ _ (by simp)).2 pa) (W.mono (by omega) hr))
    · simp only [Decls.defineProgram, Decls.markConstructorKind, State.mkSymbol]
      simp [hi]
    · intro t ht
      rw [← hfr]
      exact mark_other ht
    · exact ⟨_, by simp [State.mkSymbol]; rfl⟩
    · rw [← hfr]
      exact mark_rules

theorem declareRule {n : Nat} {r : SRule} (H : I m st) (h : execDeclareRule b n st r = .ok st') :
    ∃ m', m ≤ m' ∧ I m' st' ∧ ∃ d, Declares b n st r d ∧ Stored st' r.name d := by
  have W := S.world
  obtain ⟨_, s1, s2, asm, s3, prems, pcons, s4, args, s5, reqs, s6, conc, ret, s7, s8, prog, decls, h1, h2, h3, h4, h5, h6, h7, h8, h9, h10, rfl⟩ :=
    execDeclareRule_ok h
  obtain ⟨m1, l1, i1⟩ := W.bindRuleParams (d := 0) (W.push (d := 0) H) h1
  obtain ⟨i2, p2⟩ := W.parseOpt (d := 0) i1 h2
  obtain ⟨i3, p3, p3'⟩ := W.parsePremises (d := 0) i2 h3
  obtain ⟨i4, p4⟩ := W.parseList (d := 0) _ i3 h4
  obtain ⟨i5, p5⟩ := W.parsePairs (d := 0) _ i4 h5
  obtain ⟨i6, p6⟩ := W.parseExpr (d := 0) _ i5 h6
  have G6 := W.good (d := 0) i6
  have pr : P m1 ret := mkRequires_good (mkExpr_good G6 (ops_good G6 n) n) _ _ _ p6 p5 h7
  have i7 : I m1 s7 := W.pop (d := 0) i6 h8
  obtain ⟨e, i8, p8⟩ := S.new i7 (k := PROOF_RULE) r.name (by simp) (W.good (d := 0) i7).boolType
  have pats : ∀ a ∈ args ++ (if r.explicit then [conc] else []) ++ asm.toList ++ prems.map mkProof, P (m1+1) a := by
    intro a ha
    refine W.mono (Nat.le_succ m1) ?_
    simp only [List.mem_append, List.mem_map] at ha
    rcases ha with ((ha | ha) | ha) | ⟨f, ha, rfl⟩
    · exact p4 a ha
    · split at ha
      · rw [List.mem_singleton] at ha; rw [ha]; exact p6
      · cases ha
    · cases asm with
      | none => cases ha
      | some u => simp only [Option.toList, List.mem_singleton] at ha; rw [ha]; exact p2 u rfl
    · exact S.proof (p3 f ha)
  obtain ⟨m', l2, i9, p9, hp, hrul⟩ := S.ruleProg i8 pats (W.mono (by omega) pr) h9
  have hdecls : decls = { s8.decls with rules := fun y => if y = r.name then some (.sym PROOF_RULE s7.next) else s8.decls.rules y } := by
    simp only [Decls.bindRule] at h10
    split at h10
    · cases h10
    · cases h10; rfl
  have i10 : I m' { s8 with decls := decls } := by
    rw [hdecls]
    exact S.addRule i9 (W.mono l2 p8) _
  have p8' := W.mono l2 p8
  have G := W.good (d := 0) i10
  have i11 := S.mark i10 (a := .PROOF_RULE) (c := some (.node TUPLE [pcons.getD tAny, mkBool asm.isSome, mkBool r.explicit, prog])) p8' (by
    intro t ht
    cases ht
    refine (G.node _ _ (by simp)).2 ?_
    intro c hc
    simp only [List.mem_cons, List.not_mem_nil, or_false] at hc
    rcases hc with rfl | rfl | rfl | rfl
    · cases pcons with
      | none => exact G.any
      | some u => exact W.mono (by omega) (p3' u rfl)
    · exact G.lit _
    · exact G.lit _
    · exact p9)
  refine ⟨m', by omega, S.congr i11 rfl rfl rfl rfl (fun t ht => S.asms i11 t ht), ⟨asm, prems, pcons, args, reqs, conc, r.explicit⟩,
    ⟨s1, s2, s3, s4, s5, s6, h1, h2, h3, h4, h5, h6, rfl⟩, ⟨s7.next, prog, ?_, ?_, s6.env b, n, ret, h7, ?_⟩⟩
  · show (Decls.markConstructorKind _ _ _ _).1.rules r.name = _
    rw [mark_rules, hdecls]
    simp
  · have hn : s8.decls.info (.sym PROOF_RULE s7.next) = none := by
      have hz := S.noInfo i7 (k := PROOF_RULE) (by simp)
      rcases hp with ⟨_, _, rfl, _⟩ | ⟨_, i, _, rfl, _, hk, _⟩
      · exact hz
      · rw [hk _ (by simp)]; exact hz
    simp only [Decls.markConstructorKind, hdecls, hn]
    simp
  · rcases hp with ⟨ha, hr, _, hv⟩ | ⟨ha, i, _, rfl, hi, _, ts, ht⟩
    · exact .inl ⟨ha, hr, (isValue_iff _).2 hv⟩
    · refine .inr ⟨ha, i, ts, rfl, ht, ?_⟩
      rw [mark_other (by simp), hdecls]
      exact hi

theorem exec {n : Nat} {c : Cmd} (H : I m st) (h : Ethos.exec b n st c = .ok st') : ∃ m', m ≤ m' ∧ I m' st' := by
  have W := S.world
  by_cases hd : World.isDecl c = true
  · exact W.exec (d := 0) H hd (fun _ _ _ _ _ _ => .inl fun _ _ h => h) h
  · cases c with
    | assume x f => exact ⟨m, Nat.le_refl _, S.assume H h⟩
    | assumePush x f => exact ⟨m, Nat.le_refl _, S.assume H h⟩
    | declareRule r =>
      obtain ⟨m', l, i, _⟩ := S.declareRule H h
      exact ⟨m', l, i⟩
    | step s => exact ⟨m, Nat.le_refl _, S.step H h⟩
    | reset =>
      simp only [Ethos.exec] at h
      cases h
      exact ⟨m, Nat.le_refl _, S.congr (S.reset H) rfl rfl rfl rfl (by simp [State.reset])⟩
    | push k =>
      simp only [Ethos.exec] at h
      cases h
      exact ⟨m, Nat.le_refl _, S.pushN k H⟩
    | pop k => exact ⟨m, Nat.le_refl _, S.popN k H h⟩
    | declareConsts k ty => exact ⟨m, Nat.le_refl _, S.consts H h⟩
    | _ => exact absurd rfl hd

theorem event {n : Nat} {e : Event} (H : I m st) (h : replayEvent b n st e = .ok st') : ∃ m', m ≤ m' ∧ I m' st' := by
  have W := S.world
  cases e with
  | enter f r nf =>
    simp only [replayEvent, Run.map_ok] at h
    obtain ⟨⟨s1, t⟩, h1, rfl⟩ := h
    have i1 := (W.parseOpt (d := 0) H h1).1
    exact ⟨m, Nat.le_refl _, S.congr i1 rfl rfl rfl rfl fun t ht => S.asms i1 t ht⟩
  | skip f r nf =>
    simp only [replayEvent, Run.map_ok] at h
    obtain ⟨⟨s1, t⟩, h1, rfl⟩ := h
    exact ⟨m, Nat.le_refl _, (W.parseOpt (d := 0) H h1).1⟩
  | cmd c => exact S.exec H h

theorem replay {n : Nat} : ∀ (es : List Event) {m : Nat} {st st' : State}, I m st →
    Spec.replay b n es st = .ok st' → ∃ m', m ≤ m' ∧ I m' st'
  | [], m, st, st', H, h => by simp only [Spec.replay] at h; cases h; exact ⟨m, Nat.le_refl _, H⟩
  | e :: es, m, st, st', H, h => by
    simp only [Spec.replay, Run.bind_ok] at h
    obtain ⟨s1, h1, h2⟩ := h
    obtain ⟨m1, l1, i1⟩ := S.event H h1
    obtain ⟨m2, l2, i2⟩ := replay es i1 h2
    exact ⟨m2, by omega, i2⟩

end StateTerms
end Ethos.Props
