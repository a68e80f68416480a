import Verif.Props.Programs
import Verif.Props.Substitution
import Verif.Props.History
import Verif.Props.Attributes
/-
C82: programs and macros mean what the commands that define them say.
-/
namespace Ethos.Props
open Ethos Kind Spec

variable {b : Env} {n n0 : Nat} {es es' : List Event} {st st' st'' : State}

theorem unattributed_none {v : Term} (h : Unattributed (st.env b) v) : ((st.decls.info v).map (·.attr)).getD .NONE = .NONE := by
  cases hi : st.decls.info v with
  | none => rfl
  | some ai =>
    have := h { ai with overload := st.scope.mark v } (by simp only [State.env, Decls.appInfo, hi])
    simpa using this.1

theorem defineProgram_get {d : Decls} {v p : Term} (h : ((d.info v).map (·.attr)).getD .NONE = .NONE) :
    (d.defineProgram v (some p)).getProgram v = some p := by
  simp only [Decls.defineProgram, Decls.markConstructorKind, Decls.getProgram]
  cases hi : d.info v with
  | none => simp
  | some ai => simp only [hi, Option.map_some, Option.getD_some] at h; simp [h]

theorem program_env (v : Term) : (st.env b).program v = st.decls.getProgram v := by
  simp only [Env.program, State.env, Decls.appInfo, Decls.getProgram]
  cases st.decls.info v with
  | none => cases st.scope.mark v <;> simp
  | some ai => rfl

/-- the cases as they are kept -/
theorem checked_cases {self v : Term} {k : Nat} : ∀ {pairs : List (Term × Term)}, checkCases self v k pairs = true →
    ∃ cases : List Case, pairs = cases.map fun c => (.node APPLY (v :: c.pats), c.rhs)
  | [], _ => ⟨[], rfl⟩
  | (p, r) :: l, h => by
    simp only [checkCases, List.all_cons, Bool.and_eq_true, decide_eq_true_eq] at h
    obtain ⟨⟨⟨⟨h1, h2⟩, h3⟩, _⟩, h5⟩ := h
    obtain ⟨cs, rfl⟩ := checked_cases (self := self) (v := v) (k := k) (pairs := l) h5
    cases p with
    | sym _ _ => simp [Term.children] at h2
    | lit _ => simp [Term.children] at h2
    | node k' ts =>
      simp only [Term.kind, Term.children] at h1 h2
      subst h1
      cases ts with
      | nil => simp at h2
      | cons f pats =>
        simp only [List.head?_cons, Option.some.injEq] at h2
        subst h2
        exact ⟨⟨pats, r⟩ :: cs, rfl⟩

/-- **C82**.  After an accepted `(program x (…) :signature (…) … ((…) …))` the name `x` stands for a program.  If it did not stand for one before,
or for one without definition, then from then on, whatever happens later, the program is defined by the cases as they are written in the
command, in this order; each of them has as many patterns as the signature has arguments, and the parameters of the right-hand side occur in
them. -/
theorem C82_program (hb : BaseOk b n0) (hq : SelfOk b) (hr : .cmd .reset ∉ es) (h : replay b n es (State.init b n0) = .ok st) {x : Name} {ps : List SParam}
    {args : List SExp} {ret : SExp} {cs : List (SExp × SExp)} (hx : exec b n st (.program x ps args ret (some cs)) = .ok st') :
    ∃ v cases, Cases b n st x ps args ret cs v (cases.map fun c => (.node APPLY (v :: c.pats), c.rhs)) ∧ IsProg v ∧ st'.scope.get x = some v ∧
      (st.scope.get x = none ∨ st.scope.get x = some v) ∧
      (∀ c ∈ cases, c.pats.length = args.length ∧ ∀ p, IsParam p → Sub p c.rhs → ∃ q ∈ c.pats, Sub p q) ∧
      (st.scope.get x = none ∨ Unattributed (st.env b) v → ∀ es' st'', replay b n es' st' = .ok st'' → Defined (st''.env b) v cases) := by
  obtain ⟨a, _, ht⟩ := replay_table es hr (init_table b n0) h
  obtain ⟨m, _, H⟩ := Fresh.replay hb es (Fresh.init hb) h
  obtain ⟨_, CL⟩ := Clean.replay hb hq h
  have W := freshWorld hb
  obtain ⟨s1, s2, ats, s3, rt, s4, v, isNew, s5, body, s6, h1, h2, h3, h4, h5, h6, rfl⟩ := execProgram_ok (x := x) hx
  obtain ⟨z, hz, t1, _⟩ := bindRuleParams_table (a := a) (y := []) (refines_push ht) (by simp [ParamScope]) h1
  have t3 := (parseType_on (parseTypeList_on _ (On.refl t1) h2) h3).table
  obtain ⟨m1, l1, i1⟩ := W.bindRuleParams (d := 0) (W.push (d := 0) H) h1
  obtain ⟨i2, p2⟩ := W.parseTypeList (d := 0) _ i1 h2
  obtain ⟨i3, p3⟩ := W.parseType (d := 0) i2 h3
  have pt : Old b m1 (.node PROGRAM_TYPE (ats ++ [rt])) := by
    refine ((i3.good hb).node _ _ (by simp)).2 ?_
    intro c hc
    rcases List.mem_append.1 hc with hc | hc
    · exact p2 c hc
    · rw [List.mem_singleton] at hc; rw [hc]; exact p3
  have hget : s3.scope.get x = lookupIn (z ++ a.all) x := by
    have := t3.holds.sym x
    rw [← up_all]
    exact this
  have ha : ∀ y, st.scope.get y = a.lookup y := fun y => ht.holds.sym y
  have hlen : ats.length = args.length := parseTypeList_length h2
  have F := World.samePrograms_frame
  have e3 : World.SamePrograms st s3 := by
    have h1' := h1
    simp only [Ethos.bindRuleParams, Run.map_ok] at h1'
    obtain ⟨⟨s0, l0⟩, h1', rfl⟩ := h1'
    exact F.trans (F.push st) (F.trans (World.samePrograms_params _ h1') (F.trans (F.parseTypeList _ h2) (F.parseType h3)))
  -- the cases
  have h5' := h5
  simp only [progBody, Run.bind_ok, Run.ite_err, Run.ite_err', Run.map_ok] at h5'
  obtain ⟨⟨s, pairs⟩, g1, _, hcc, t, g2, g3⟩ := h5'
  cases g3
  have hcases : Cases b n st x ps args ret cs v pairs := ⟨s1, s2, ats, s3, rt, s4, isNew, s, h1, h2, h3, h4, g1⟩
  have hself := CL.cases hb hq hcases
  obtain ⟨cases, rfl⟩ := checked_cases hcc
  have e5 : ∀ i, s6.decls.info (.sym PROGRAM_CONST i) = s4.decls.info (.sym PROGRAM_CONST i) := fun i => ((F.trans (F.parsePairs _ g1) (F.pop h6)) i).2
  have hprog : t = .node PROGRAM ((cases.map fun c => (.node APPLY (v :: c.pats), c.rhs)).map fun c : Term × Term => .node TUPLE [c.1, c.2]) := build_program g2
  -- what the program is
  have hv : (∃ m2, Fresh b n0 m2 s4 ∧ Old b m2 v) ∧ v.kind = PROGRAM_CONST := by
    have h4' := h4
    simp only [progVar] at h4'
    split at h4'
    · rename_i prev hprev
      simp only [Run.ite_err, Run.map_ok] at h4'
      obtain ⟨hk, _, _, h0, h4'⟩ := h4'
      cases h4'
      exact ⟨⟨m1, i3, i3.scope.sym _ _ hprev⟩, by simpa using hk⟩
    · cases h4'
      obtain ⟨_, m2, l2, i4, p4, c4⟩ := W.sym (d := 0) (k := PROGRAM_CONST) (x := x) i3 (by simp) pt
      exact ⟨⟨m2, W.bind (d := 0) i4 p4, p4⟩, rfl⟩
  obtain ⟨⟨m2, i4, pv⟩, hk⟩ := hv
  have hsym : ∃ i, v = .sym PROGRAM_CONST i := by
    cases v with
    | sym k i => simp only [Term.kind] at hk; subst hk; exact ⟨i, rfl⟩
    | lit l => cases l <;> simp [Term.kind, Lit.kind] at hk
    | node k cs =>
      have := Built.leaf (BaseOk.ownSym hb) pv
      simp only [Term.kind] at hk
      subst hk
      cases this
  obtain ⟨i, rfl⟩ := hsym
  obtain ⟨i5, p5⟩ := W.parsePairs (d := 0) _ i4 g1
  have hpar : ∀ c ∈ cases, c.pats.length = args.length ∧ ∀ p, IsParam p → Sub p c.rhs → ∃ q ∈ c.pats, Sub p q := by
    intro c hc
    have hm : ((.node APPLY (.sym PROGRAM_CONST i :: c.pats), c.rhs) : Term × Term) ∈ cases.map fun c => (.node APPLY (.sym PROGRAM_CONST i :: c.pats), c.rhs) :=
      List.mem_map.2 ⟨c, hc, rfl⟩
    simp only [checkCases, List.all_eq_true] at hcc
    have hc1 := hcc _ hm
    simp only [Bool.and_eq_true, decide_eq_true_eq, Term.children, List.length_cons] at hc1
    obtain ⟨⟨⟨_, _⟩, c3⟩, c4⟩ := hc1
    have c3 := of_decide_eq_true c3
    refine ⟨by omega, fun p hi hs => ?_⟩
    have q1 := Built.leaves (BaseOk.ownSym hb) rfl (p5 _ hm).1
    have q2 := Built.leaves (BaseOk.ownSym hb) rfl (p5 _ hm).2
    rcases pair_params c4 q1 q2 hi hs with rfl | hsub
    · exact absurd hs (hself _ hm).2
    · rcases hsub.inv with rfl | ⟨q, hq, hs'⟩
      · cases hi.1
      · simp only [Term.children] at hq
        rcases List.mem_cons.1 hq with rfl | hq
        · cases hs'; cases hi.1
        · exact ⟨q, hq, hs'⟩
  -- the definition, once and for all
  have hdef : ((s6.decls.info (.sym PROGRAM_CONST i)).map (·.attr)).getD .NONE = .NONE →
      ∀ es' st'' s7, s7.decls = s6.decls.defineProgram (.sym PROGRAM_CONST i) (some t) → replay b n es' s7 = .ok st'' → Defined (st''.env b) (.sym PROGRAM_CONST i) cases := by
    intro hn es' st'' s7 hs7 hrep
    have h8 : s7.decls.getProgram (.sym PROGRAM_CONST i) = some t := by rw [hs7]; exact defineProgram_get hn
    refine ⟨t, by rw [program_env]; exact (C42_history hrep).2.2.1 _ _ h8, ?_⟩
    rw [hprog]
    simp [Term.children]
  refine ⟨.sym PROGRAM_CONST i, cases, hcases, ⟨rfl, rfl⟩, ?_⟩
  simp only [progVar] at h4
  split at h4
  · rename_i prev hprev
    simp only [Run.ite_err, Run.map_ok] at h4
    obtain ⟨hk, _, _, _, h4⟩ := h4
    cases h4
    rw [hget] at hprev
    rcases lookup_up hz hprev with ⟨j, hj⟩ | ⟨h7, _⟩
    · cases hj
    · have t5 := (progBody_on (On.refl t3) h5).table
      have t6 := (pop_table t5 h6).1
      have hst : st.scope.get x = some (.sym PROGRAM_CONST i) := (ha x).trans h7
      refine ⟨?_, .inr hst, hpar, ?_⟩
      · exact (t6.holds.sym x).trans h7
      · rintro (h8 | h8)
        · rw [hst] at h8; cases h8
        · intro es' st'' hrep
          refine hdef ?_ es' st'' _ rfl hrep
          rw [e5, (e3 i).2]
          exact unattributed_none h8
  · rename_i hprev
    cases h4
    rw [hget] at hprev
    refine ⟨bind_get _ _ _, .inl ((ha x).trans (lookup_up_none hprev)), hpar, fun _ es' st'' hrep => ?_⟩
    refine hdef ?_ es' st'' _ rfl hrep
    rw [e5]
    show ((s3.decls.info (.sym PROGRAM_CONST s3.next)).map (·.attr)).getD .NONE = .NONE
    rw [(i3.noInfo hb (k := PROGRAM_CONST) (i := s3.next) (by simp) (by rw [i3.next]; exact Nat.le_refl _)).1]
    rfl

/-- So in every later state the program applied to values has the value of the right-hand side of the first case, in the order of the command, whose
patterns have the values as an instance; with the parameters replaced as this instance says.  If the right-hand side has no parameters it is the value,
and if no case matches, the application is. -/
theorem C82_call (hb : BaseOk b n0) (hq : SelfOk b) (hr : .cmd .reset ∉ es) (h : replay b n es (State.init b n0) = .ok st) {x : Name} {ps : List SParam}
    {args : List SExp} {ret : SExp} {cs : List (SExp × SExp)} (hx : exec b n st (.program x ps args ret (some cs)) = .ok st') :
    ∃ v cases, Cases b n st x ps args ret cs v (cases.map fun c => (.node APPLY (v :: c.pats), c.rhs)) ∧ st'.scope.get x = some v ∧
      (st.scope.get x = none ∨ st.scope.get x = some v) ∧
      (st.scope.get x = none ∨ Unattributed (st.env b) v → ∀ es' st'', replay b n es' st' = .ok st'' →
        ∀ (ctx : Ctx) (vals : List Term), vals.length = args.length → (∀ a ∈ vals, IsValue a) →
          (∀ (pre : List Case) (c : Case) (post : List Case) (σ : Term → Term), cases = pre ++ c :: post → (∀ d ∈ pre, ¬ ∃ τ, d.pats.map (subst τ) = vals) → c.pats.map (subst σ) = vals →
            (∀ q ∈ c.pats, ∀ s, Sub s q → ¬ IsAny s) →
            ((∃ p, IsParam p ∧ Sub p c.rhs) → IteComplete c.rhs → ∀ w, EvaluatesTo (st''.env b) ctx (.node APPLY (v :: vals)) w ↔ EvaluatesTo (st''.env b) [] (subst σ c.rhs) w) ∧
            ((∀ s, Sub s c.rhs → ¬ IsParam s ∧ ¬ IsAny s) → ∀ w, EvaluatesTo (st''.env b) ctx (.node APPLY (v :: vals)) w ↔ w = c.rhs)) ∧
          ((∀ d ∈ cases, ¬ ∃ τ, d.pats.map (subst τ) = vals) → ∀ w, EvaluatesTo (st''.env b) ctx (.node APPLY (v :: vals)) w ↔ w = .node APPLY (v :: vals))) := by
  obtain ⟨v, cases, h1, hp, h2, h3, h4, h5⟩ := C82_program hb hq hr h hx
  refine ⟨v, cases, h1, h2, h3, fun hu es' st'' hrep ctx vals hl hv => ?_⟩
  have hd := h5 hu es' st'' hrep
  refine ⟨?_, ?_⟩
  · rintro pre c post σ rfl hpre hm hany
    have hpre' : ∀ d ∈ pre, d.pats.length = vals.length ∧ ¬ ∃ τ, Matches d τ vals :=
      fun d hd => ⟨by rw [hl]; exact (h4 d (by simp [hd])).1, hpre d hd⟩
    have hc := h4 c (by simp)
    refine ⟨fun hsome hi w => ?_, fun hg w => ?_⟩
    · obtain ⟨p, hp1, hp2⟩ := hsome
      exact C79_call (st''.env b) ctx v vals pre post c σ hp hd hv hpre' hany hm (fun x hx hi => hc.2 x hi hx) ⟨p, hp2, hp1⟩ hi w
    · obtain ⟨ctx', _, _, h6⟩ := C29_value (st''.env b) ctx v vals pre post c σ hp hd hv hpre' hany hm
      have hg' : c.rhs.ground = true := (ground_iff _).2 hg
      rw [h6 w]
      simp [hg']
  · intro hno w
    have h6 := C29_none (st''.env b) v vals cases hp hd hv fun d hd => ⟨by rw [hl]; exact (h4 d hd).1, hno d hd⟩
    rw [evaluatesTo_iff]
    exact eval_prog OpResult.det ProgResult.det hp (evalList_values ctx vals hv) h6 w

theorem bindAll_up : ∀ (l : List (Name × Term)) {st : State} {a : Stack} {y : List Binding}, Refines st.scope (up y a) →
    Refines (st.bindAll l).scope (up (l.reverse ++ y) a)
  | [], st, a, y, h => h
  | (x, t) :: l, st, a, y, h => by
    have := bindAll_up l (st := st.bind x t) (a := a) (y := (x, t) :: y) (refines_bind h x t)
    rw [List.reverse_cons, List.append_assoc]
    exact this

/-- what is visible in the body of a macro: its parameters other than the implicit ones -/
theorem defineParams_visible {ps : List SParam} {s1 : State} {vs : List Term} {a : Stack} (h : Refines st.scope a) (hp : defineParams b n ps st = .ok (s1, vs)) :
    ∃ z : List Binding, z.map (·.1) = (ps.filter fun p => !p.implicit).map (·.name) ∧ z.map (·.2) = vs ∧ Refines s1.scope ⟨z.reverse :: a.scopes, a.globals⟩ ∧
      vs.Nodup ∧ ∀ v ∈ vs, ∃ i, v = .sym PARAM i ∧ st.next ≤ i := by
  simp only [defineParams, Run.bind_ok] at hp
  obtain ⟨⟨s0, l⟩, h1, hp⟩ := hp
  obtain ⟨h3, h4, h5⟩ := bindParams_table (a := a) ps (y := []) (refines_push h) h1
  obtain ⟨_, n2, n3⟩ := bindParams_new ps h1
  have hnames : ((l.filter fun v => !v.2.implicit).map fun v => (v.2.name, v.1)).map (·.1) = (ps.filter fun p => !p.implicit).map (·.name) := by
    rw [← h4, List.filter_map, List.map_map, List.map_map]
    rfl
  have hvals : ((l.filter fun v => !v.2.implicit).map fun v => (v.2.name, v.1)).map (·.2) = (l.filter fun v => !v.2.implicit).map (·.1) := by
    rw [List.map_map]; rfl
  have hnd : ((l.filter fun v => !v.2.implicit).map (·.1)).Nodup := n3.sublist (List.Sublist.map _ List.filter_sublist)
  have hnew : ∀ v ∈ (l.filter fun v => !v.2.implicit).map (·.1), ∃ i, v = .sym PARAM i ∧ st.next ≤ i := by
    intro v hv
    obtain ⟨q, hq, rfl⟩ := List.mem_map.1 hv
    exact n2 q (List.mem_filter.1 hq).1
  split at hp
  · simp only [Run.map_ok] at hp
    obtain ⟨s2, h6, h7⟩ := hp
    cases h7
    have := bindAll_up ((l.filter fun v => !v.2.implicit).map fun v => (v.2.name, v.1)) (st := s2.push) (a := a) (y := []) (refines_push (pop_table h3 h6).1)
    exact ⟨_, hnames, hvals, by simpa [up] using this, hnd, hnew⟩
  · rename_i hl
    cases hp
    have he : (l.filter fun v => !v.2.implicit) = l :=
      List.filter_eq_self.2 (List.length_filter_eq_length_iff.1 (Nat.le_antisymm (List.length_filter_le ..) (Nat.le_of_not_lt hl)))
    refine ⟨_, hnames, hvals, ?_, hnd, hnew⟩
    rw [he]
    simpa [up] using h3

/-- **C82**, for macros.  After an accepted `(define x (…) e …)` with parameters other than implicit ones, the name `x` stands for a macro whose body is what
`e` denotes where these are visible, as new parameters, each different from the others.  In every later state its application to as many arguments denotes
the value of the body with the parameters replaced by the arguments, as long as the macro is not one of several meanings of a name.  Without such
parameters `x` stands for what `e` denotes. -/
theorem C82_macro (hr : .cmd .reset ∉ es) (h : replay b n es (State.init b n0) = .ok st) {x : Name} {ps : List SParam} {e : SExp} {tys : List SExp}
    (hx : exec b n st (.define x ps e tys) = .ok st') :
    ∃ s1 vs, ∃ z : List Binding, ∃ a body v', defineParams b n ps st = .ok (s1, vs) ∧ Shows st a ∧
      z.map (·.1) = (ps.filter fun p => !p.implicit).map (·.name) ∧ z.map (·.2) = vs ∧ vs.Nodup ∧ (∀ v ∈ vs, ∃ i, v = .sym PARAM i ∧ st.next ≤ i) ∧
      Shows s1 ⟨z.reverse :: a.scopes, a.globals⟩ ∧ Elab (envAt b s1) (visible ⟨z.reverse :: a.scopes, a.globals⟩ s1) e body v' ∧
      (vs = [] → st'.scope.get x = some body) ∧
      (vs ≠ [] → ∃ f, st'.scope.get x = some f ∧ ∀ es' st'' args ctx, replay b n es' st' = .ok st'' → (st''.env b).appInfo f = none → args.length = vs.length →
        (∀ v a, ctx.find v = some a ↔ (v, a) ∈ vs.zip args) →
        (∀ w, Spec.Denotes (st''.env b) f args w ↔ EvaluatesTo (st''.env b) ctx body w) ∧
        (IteComplete body → (∀ a ∈ args, EvaluatesTo (st''.env b) [] a a) →
          ∀ w, Spec.Denotes (st''.env b) f args w ↔ EvaluatesTo (st''.env b) [] (subst (ctxSub ctx) body) w)) := by
  obtain ⟨a, _, ht⟩ := replay_table es hr (init_table b n0) h
  simp only [exec, execDefine, Run.bind_ok, Run.map_ok] at hx
  obtain ⟨⟨s1, vs⟩, h1, ⟨s2, body⟩, h2, s3, h3, s4, h4, rfl⟩ := hx
  obtain ⟨z, z1, z2, z3, z4, z5⟩ := defineParams_visible ht h1
  obtain ⟨o, he⟩ := parseExpr_elab _ (On.refl z3) h2
  refine ⟨s1, vs, z, a, body, _, h1, shows_of ht, z1, z2, z4, z5, shows_of z3, he, ?_, ?_⟩
  · rintro rfl
    exact bind_get _ _ _
  · intro hne
    refine ⟨_, bind_get _ _ _, ?_⟩
    intro es' st'' args ctx _ hi hl hc
    have hne' : vs.isEmpty = false := by cases vs <;> simp at hne ⊢
    simp only [hne', Bool.false_eq_true, if_false] at hi ⊢
    exact ⟨fun w => C56_macro w hi z4 hl.symm hc, fun hb ha w => C79_macro hi z4 hl.symm hc hb ha w⟩

/-! ### Examples -/

/-- C82: the hypotheses are met by the program that exchanges `a` and `c`, which is new; applied to `c` it gives `a`, with the second case -/
example : SelfOk exB ∧ BaseOk exB 10 ∧ .cmd .reset ∉ swapCmds.map Event.cmd ∧ (∃ st st', exRun swapCmds = .ok st ∧ exec exB 10 st (swapCmd (sy "x")) = .ok st' ∧ st.scope.get (nm "g") = none) ∧
    (exRun (swapCmds ++ [swapCmd (sy "x"), .define (nm "r") [] (ap "g" [sy "c"]) []])).map (fun st => decide (st.scope.get (nm "r") = st.scope.get (nm "a"))) = .ok true := by
  refine ⟨exB_self, exB_ok, by simp [swapCmds], ?_, by decide +kernel⟩
  have h : ((exRun swapCmds).bind fun st => (exec exB 10 st (swapCmd (sy "x"))).map fun _ => st.scope.get (nm "g")) = .ok none := by decide +kernel
  simp only [Run.map_ok, Run.bind_ok] at h
  obtain ⟨st, h1, st', h2, h3⟩ := h
  exact ⟨st, st', h1, h2, h3⟩

/-- and by a program that was declared before without a definition -/
def swapDecl : Cmd := .program (nm "g") [] [sy "U"] (sy "U") none

example : ∃ st st' v, exRun (swapCmds ++ [swapDecl]) = .ok st ∧ exec exB 10 st (swapCmd (sy "x")) = .ok st' ∧ st.scope.get (nm "g") = some v ∧ Unattributed (st.env exB) v := by
  have h : ((exRun (swapCmds ++ [swapDecl])).bind fun st => (exec exB 10 st (swapCmd (sy "x"))).map fun _ =>
      (st.scope.get (nm "g"), (st.decls.info (.sym PROGRAM_CONST 13)).isNone, (st.scope.mark (.sym PROGRAM_CONST 13)).isNone)) = .ok (some (.sym PROGRAM_CONST 13), true, true) := by decide +kernel
  simp only [Run.map_ok, Run.bind_ok] at h
  obtain ⟨st, h1, st', h2, h3⟩ := h
  simp only [Prod.mk.injEq, Option.isNone_iff_eq_none] at h3
  refine ⟨st, st', _, h1, h2, h3.1, ?_⟩
  intro ai ha
  simp only [State.env, Decls.appInfo, h3.2.1, h3.2.2] at ha
  cases ha

/-- C82: a macro with a parameter, applied to `a` -/
example : .cmd .reset ∉ (swapCmds ++ [swapCmd (sy "x")]).map Event.cmd ∧
    (exRun (swapCmds ++ [swapCmd (sy "x"), .define (nm "m") [⟨nm "y", sy "U", []⟩] (ap "eo::is_eq" [sy "y", ap "g" [sy "c"]]) [], .define (nm "r") [] (ap "m" [sy "a"]) []])).map
      (fun st => st.scope.get (nm "r")) = .ok (some (.lit (.bool true))) := ⟨by simp [swapCmds, swapCmd], by decide +kernel⟩

end Ethos.Props
