import Verif.Lemmas.Datatype
import Verif.Props.Typing
/-
The types of the symbols made by commands are reduced.
-/
namespace Ethos.Props
open Ethos Kind Ethos.Spec

/-- a closed type without computation, or one with parameters -/
def Red (t : Term) : Prop := t.ground = true → t.evaluatable = false

/-- every symbol has its first type or a reduced one -/
def RedTypes (b : Env) (st : State) : Prop := ∀ t ty, st.symType t = some ty → b.symType t = some ty ∨ Red ty

theorem Red.type : Red tType := fun _ => rfl
theorem Red.bool : Red tBool := fun _ => rfl

theorem Red.fn {a r : Term} (ha : Red a) (hr : Red r) : Red (.node FUNCTION_TYPE [a, r]) := by
  intro h
  simp only [Term.ground, Term.grounds, Bool.and_true, Bool.and_eq_true] at h
  simp [Term.evaluatable, Term.evaluatables, ha h.1, hr h.2, isLiteralOp]

theorem Red.fns {ts : List Term} {r : Term} (ha : ∀ t ∈ ts, Red t) (hr : Red r) : Red (mkFunctionType ts r) := by
  induction ts with
  | nil => exact hr
  | cons t ts ih => exact Red.fn (ha t (by simp)) (ih fun u hu => ha u (by simp [hu]))

theorem grounds_mem : ∀ {l : List Term}, Term.grounds l = true → ∀ t ∈ l, t.ground = true
  | [], _, t, h => by cases h
  | c :: l, hg, t, h => by
    simp only [Term.grounds, Bool.and_eq_true] at hg
    rcases List.mem_cons.1 h with rfl | h
    · exact hg.1
    · exact grounds_mem hg.2 t h

theorem evaluatables_false : ∀ {l : List Term}, (∀ t ∈ l, t.evaluatable = false) → Term.evaluatables l = false
  | [], _ => rfl
  | c :: l, h => by
    have := evaluatables_false (l := l) fun t ht => h t (by simp [ht])
    simp [Term.evaluatables, h c (by simp), this]

theorem Red.prog {ts : List Term} (ha : ∀ t ∈ ts, Red t) : Red (.node PROGRAM_TYPE ts) := by
  intro h
  cases ts with
  | nil => rfl
  | cons t ts =>
    have hg : Term.grounds (t :: ts) = true := h
    have := evaluatables_false fun u hu => ha u hu (grounds_mem hg u hu)
    simp only [Term.evaluatables] at this
    simpa [Term.evaluatable, isLiteralOp] using this

theorem Red.param {p : Term} (h : p.kind = PARAM) (hc : p.children = []) : Red p := by
  intro hg
  have hp : p.ground = false := by
    cases p with
    | sym k i => simp only [Term.kind] at h; subst h; rfl
    | lit l => cases l <;> cases h
    | node k cs => simp only [Term.kind, Term.children] at h hc; subst h hc; rfl
  rw [hp] at hg; cases hg

theorem Red.arg {p : Term} {r : Term} (h : p.ground = false) : Red (.node FUNCTION_TYPE [.node QUOTE_TYPE [p], r]) := by
  intro hg
  simp [Term.ground, Term.grounds, h] at hg

section
variable {b : Env} {n n0 : Nat}

theorem symTypeFrame : Frame fun st st' : State => st'.symType = st.symType where
  refl _ := rfl
  trans h h' := h'.trans h
  bind _ _ _ := rfl
  push _ := rfl
  pop {st st'} h := by rw [scopeOnly.pop h]

theorem RedTypes.congr {st st' : State} (H : RedTypes b st) (h : st'.symType = st.symType) : RedTypes b st' := fun t ty ht => H t ty (h ▸ ht)

theorem RedTypes.sym {st : State} (H : RedTypes b st) {k : Kind} {x : Name} {ty : Term} (h : Red ty) : RedTypes b (st.mkSymbol k x ty).1 := by
  intro t u ht
  simp only [State.mkSymbol] at ht
  split at ht
  · cases ht; exact .inr h
  · exact H t u ht

theorem RedTypes.pop {st st' : State} (H : RedTypes b st) (h : st.pop = .ok st') : RedTypes b st' := H.congr (symTypeFrame.pop h)

theorem RedTypes.bind {st : State} (H : RedTypes b st) (x : Name) (t : Term) : RedTypes b (st.bind x t) := H

theorem checkType_red {st : State} {a : Bool} {e : Term} {u : Unit} (h : st.checkType b n a e = .ok u) : Red e := by
  intro hg
  simp only [State.checkType, Run.bind_ok, Run.guard_ok] at h
  obtain ⟨_, _, h⟩ := h
  cases he : e.evaluatable with
  | false => rfl
  | true => simp [he, hg] at h

theorem parseType_red {q a : Bool} {e : SExp} {st st' : State} {t : Term} (h : parseType b n q a e st = .ok (st', t)) :
    Red t ∨ ∃ p, t = .node QUOTE_TYPE [p] ∧ p.kind = PARAM := by
  have ord : ((parseExpr b n e st).bind fun p => (p.1.checkType b n a p.2).map fun _ => p) = .ok (st', t) → Red t := by
    intro h
    simp only [Run.bind_ok, Run.map_ok] at h
    obtain ⟨p, _, u, h2, h3⟩ := h
    subst h3
    exact checkType_red h2
  simp only [parseType] at h
  split at h
  · split at h
    · simp only [Run.bind_ok, Run.ite_err'] at h
      obtain ⟨p, _, hk, h2⟩ := h
      cases h2
      exact .inr ⟨_, rfl, hk⟩
    · exact .inl (ord h)
  · exact .inl (ord h)

theorem parseType_red' {a : Bool} {e : SExp} {st st' : State} {t : Term} (h : parseType b n false a e st = .ok (st', t)) : Red t := by
  simp only [parseType, Run.bind_ok, Run.map_ok] at h
  obtain ⟨p, _, u, h2, h3⟩ := h
  subst h3
  exact checkType_red h2

theorem parseTypeList_red : ∀ (es : List SExp) {st st' : State} {ts : List Term}, parseTypeList b n false es st = .ok (st', ts) → ∀ t ∈ ts, Red t
  | [], st, st', ts, h, t, ht => by simp only [parseTypeList] at h; cases h; cases ht
  | e :: es, st, st', ts, h, t, ht => by
    simp only [parseTypeList, Run.bind_ok, Run.map_ok] at h
    obtain ⟨p, h1, q, h2, h3⟩ := h
    cases h3
    rcases List.mem_cons.1 ht with rfl | ht
    · exact parseType_red' h1
    · exact parseTypeList_red es h2 t ht

theorem typeCheck_sym {st : State} {k : Kind} {i : Nat} {ty : Term} (h : st.typeCheck b n (.sym k i) = .ok ty) : st.symType (.sym k i) = some ty := by
  simp only [State.typeCheck, Run.bind_ok, Run.lift_ok, Run.orErr_ok] at h
  obtain ⟨r, h1, rfl⟩ := h
  cases n with
  | zero => simp [ops] at h1
  | succ n => simp only [ops, typeStep, Out.ok.injEq] at h1; exact h1

theorem RedTypes.paramAttrs {rich : Bool} {v : Term} : ∀ (as : List PAttr) {st st' : State},
    paramAttrs b n rich v as st = .ok st' → st'.symType = st.symType
  | [], st, st', h => by simp only [Ethos.paramAttrs] at h; cases h; rfl
  | .list :: as, st, st', h => by
    simp only [Ethos.paramAttrs] at h
    have := RedTypes.paramAttrs as h
    exact this
  | .restrict e :: as, st, st', h => by
    simp only [Ethos.paramAttrs, Run.ite_err', Run.bind_ok] at h
    obtain ⟨_, ⟨s1, t⟩, h1, h2⟩ := h
    exact (RedTypes.paramAttrs as h2).trans (symTypeFrame.parseExpr b n e h1)
  | .implicit :: as, st, st', h => by simp only [Ethos.paramAttrs, Run.ite_err'] at h; exact RedTypes.paramAttrs as h.2
  | .opq :: as, st, st', h => by simp only [Ethos.paramAttrs, Run.ite_err'] at h; exact RedTypes.paramAttrs as h.2
  | .synt :: as, st, st', h => by simp only [Ethos.paramAttrs, Run.ite_err'] at h; exact RedTypes.paramAttrs as h.2

/-- parameters that have reduced types -/
def RedParams (st : State) (ps : List Term) : Prop := ∀ p ∈ ps, ∃ i ty, p = .sym PARAM i ∧ i < st.next ∧ st.symType p = some ty ∧ Red ty

theorem RedParams.mono {st st' : State} {ps : List Term} (H : RedParams st ps) (h : Keeps st st') : RedParams st' ps := by
  intro p hp
  obtain ⟨i, ty, rfl, h1, h2, h3⟩ := H p hp
  exact ⟨i, ty, rfl, Nat.lt_of_lt_of_le h1 h.next, h.symType _ _ _ h2 h1, h3⟩

theorem RedTypes.bindParams {rich : Bool} : ∀ (vs : List SParam) {st st' : State} {t}, RedTypes b st → bindParams b n rich vs st = .ok (st', t) →
    RedTypes b st' ∧ RedParams st' (t.map (·.1))
  | [], st, st', t, H, h => by simp only [Ethos.bindParams] at h; cases h; exact ⟨H, by simp [RedParams]⟩
  | v :: vs, st, st', t, H, h => by
    simp only [Ethos.bindParams, Run.bind_ok, Run.map_ok] at h
    obtain ⟨⟨s1, l⟩, h1, s2, h2, ⟨s3, u⟩, h3, h4⟩ := h
    cases h4
    have hl : Red l := parseType_red' h1
    have H1 : RedTypes b (s1.mkSymbol PARAM v.name l).1 := (H.congr (symTypeFrame.parseType h1)).sym hl
    have e2 : s2.symType = ((s1.mkSymbol PARAM v.name l).1.bind v.name (s1.mkSymbol PARAM v.name l).2).symType := RedTypes.paramAttrs _ h2
    obtain ⟨H3, p3⟩ := RedTypes.bindParams vs (H1.congr e2) h3
    refine ⟨H3, fun p hp => ?_⟩
    simp only [List.map_cons, List.mem_cons] at hp
    rcases hp with rfl | hp
    · have k1 : Keeps (s1.mkSymbol PARAM v.name l).1 s3 :=
        ((keepsFrame.bind _ _ _).trans (keepsFrame.paramAttrs _ h2)).trans (keepsFrame.bindParams vs h3)
      have hlt : s1.next < (s1.mkSymbol PARAM v.name l).1.next := Nat.lt_succ_self _
      exact ⟨s1.next, l, rfl, Nat.lt_of_lt_of_le hlt k1.next, k1.symType _ _ _ (by simp [State.mkSymbol]) hlt, hl⟩
    · exact p3 p hp

theorem RedTypes.bindRuleParams {vs : List SParam} {st st' : State} (H : RedTypes b st) (h : bindRuleParams b n vs st = .ok st') : RedTypes b st' := by
  simp only [Ethos.bindRuleParams, Run.map_ok] at h
  obtain ⟨⟨s1, l⟩, h1, h2⟩ := h
  cases h2
  exact (H.bindParams vs h1).1

theorem defineProgram_symType (st : State) (v : Term) (p : Option Term) : ({ st with decls := st.decls.defineProgram v p } : State).symType = st.symType := rfl

theorem RedTypes.declare {st : State} {x : Name} {ty : Term} {ck : Attr} {c : Option Term} {st' : State} {t : Term} (H : RedTypes b st) (hty : Red ty)
    (h : declare st x ty ck c = .ok (st', t)) : RedTypes b st' := by
  simp only [Ethos.declare] at h
  split at h
  · cases h; exact H.sym hty
  · simp only [Run.ite_err'] at h
    obtain ⟨_, h⟩ := h
    cases h
    exact (H.sym (k := CONST) (x := x) hty).congr rfl

theorem RedTypes.mkDisambiguatedType {st : State} {d r : Term} {x : Name} {st' : State} {t : Term} (H : RedTypes b st)
    (h : mkDisambiguatedType b n st d r x = .ok (st', t)) : RedTypes b st' ∧ Red t := by
  simp only [Ethos.mkDisambiguatedType, Run.bind_ok, Run.map_ok] at h
  obtain ⟨u, h1, v, h2, w, h3, h4⟩ := h
  cases h4
  refine ⟨RedTypes.sym (x := nm "$eo_disamb_type_" ++ x ++ nm "_var") (RedTypes.congr (H.sym (k := PROGRAM_CONST) (x := nm "$eo_disamb_type_" ++ x)
    (Red.prog (ts := [tType, tType]) ?_)) rfl) Red.type, ?_⟩
  · intro t ht
    simp only [List.mem_cons, List.not_mem_nil, or_false, or_self] at ht
    exact ht ▸ Red.type
  · exact Red.arg rfl

theorem RedTypes.disambiguate {st : State} {x : Name} {t : Term} {op : List Term} {ck : Attr} {st' : State} {r} (H : RedTypes b st) (ht : Red t)
    (h : disambiguate b n st x t op ck = .ok (st', r)) : RedTypes b st' ∧ Red r.1 := by
  simp only [Ethos.disambiguate] at h
  split at h
  · cases h; exact ⟨H, ht⟩
  · simp only [Run.ite_err, Run.map_ok] at h
    obtain ⟨_, ⟨s1, l⟩, h1, h2⟩ := h
    cases h2
    exact H.mkDisambiguatedType h1

theorem quoted_red {i : Nat} {pt : Term} (q : Bool) (hp : Red pt) : Red (if q then .node QUOTE_TYPE [.sym PARAM i] else pt) := by
  cases q with
  | false => exact hp
  | true =>
    intro hg
    cases hg

theorem paramTypes_red {st : State} : ∀ (l : List (Term × SParam)) {t : Term} {op : List Term} {r}, RedParams st (l.map (·.1)) → Red t → (∀ o ∈ op, Red o) →
    paramTypes b n st l t op = .ok r → Red r.1 ∧ ∀ o ∈ r.2, Red o
  | [], t, op, r, _, ht, ho, h => by simp only [paramTypes] at h; cases h; exact ⟨ht, ho⟩
  | (p, a) :: l, t, op, r, hl, ht, ho, h => by
    simp only [paramTypes, Run.bind_ok] at h
    obtain ⟨pt, h1, h⟩ := h
    obtain ⟨i, ty, rfl, _, h2, h3⟩ := hl p (by simp)
    have : some pt = some ty := (typeCheck_sym h1).symm.trans h2
    cases this
    have hl' : RedParams st (l.map (·.1)) := fun q hq => hl q (by simp only [List.map_cons, List.mem_cons]; exact .inr hq)
    have hq := quoted_red (i := i) ((hasVariable t [.sym PARAM i]).getD false) h3
    split at h
    · cases h
    · split at h
      · exact paramTypes_red l hl' ht (by
          intro o h
          rcases List.mem_cons.1 h with rfl | h
          · exact hq
          · exact ho o h) h
      · split at h
        · cases h
        · exact paramTypes_red l hl' (Red.fns (ts := [_]) (by simpa using hq) ht) ho h

theorem RedTypes.execDeclareParam {st : State} {x : Name} {ps : List SParam} {ret : SExp} {a : List SAttr} {st' : State} (H : RedTypes b st)
    (h : execDeclareParam b n st x ps ret a = .ok st') : RedTypes b st' := by
  simp only [Ethos.execDeclareParam, Run.bind_ok, Run.map_ok] at h
  obtain ⟨⟨s1, l1⟩, h1, ⟨s2, l2⟩, h2, ⟨s3, l3⟩, h3, tt, h4, ⟨s5, l5⟩, h5, e, h6, ⟨s7, l7⟩, h7, s8, h8, h9⟩ := h
  cases h9
  obtain ⟨H1, p1⟩ := RedTypes.bindParams _ (H.congr (symTypeFrame.push st)) h1
  have e3 := (symTypeFrame.parseAttrs h3).trans (symTypeFrame.parseType h2)
  have p3 : RedParams s3 (l1.map (·.1)) := p1.mono ((keepsFrame.parseType h2).trans (keepsFrame.parseAttrs h3))
  obtain ⟨t4, o4⟩ := paramTypes_red _ (by
    intro p hp
    simp only [List.mem_map, List.mem_reverse, List.mem_filter] at hp
    obtain ⟨q, ⟨h1, _⟩, rfl⟩ := hp
    exact p3 _ (List.mem_map.2 ⟨q, h1, rfl⟩)) (parseType_red' h2) (by simp) h4
  obtain ⟨H5, t5⟩ := (H1.congr e3).disambiguate t4 h5
  have t6 : Red e.1 := by
    simp only [opaqueType] at h6
    split at h6
    · cases h6; exact t5
    · split at h6
      · cases h6
      · cases h6; exact Red.fns o4 t5
  exact ((H5.declare t6 h7).pop h8).bind _ _

theorem ruleArgTypes_red {pty : Term} (hp : Red pty) : ∀ (as : List Term) (i : Nat) {st : State}, RedTypes b st →
    RedTypes b (ruleArgTypes pty as i st).1 ∧ ∀ t ∈ (ruleArgTypes pty as i st).2, Red t
  | [], _, st, H => ⟨H, by simp [Ethos.ruleArgTypes]⟩
  | a :: as, i, st, H => by
    simp only [Ethos.ruleArgTypes]
    by_cases ha : a.kind = PROOF
    · rw [if_pos ha]
      obtain ⟨h1, h2⟩ := ruleArgTypes_red hp as (i+1) H
      exact ⟨h1, by simpa using ⟨hp, h2⟩⟩
    · rw [if_neg ha]
      obtain ⟨h1, h2⟩ := ruleArgTypes_red hp as (i+1) (H.sym (k := PARAM) (x := nm "$eo_arg_" ++ nm (toString i)) Red.type)
      exact ⟨h1, by simpa using ⟨Red.param rfl rfl, h2⟩⟩

theorem RedTypes.ruleProg {st : State} {x : Name} {as : List Term} {ret : Term} {st' : State} {t : Term} (hp : Red b.proofType) (H : RedTypes b st)
    (h : ruleProg b n st x as ret = .ok (st', t)) : RedTypes b st' := by
  cases as with
  | nil =>
    simp only [Ethos.ruleProg, Run.ite_err] at h
    obtain ⟨_, h⟩ := h
    cases h; exact H
  | cons a as =>
    simp only [Ethos.ruleProg, Run.bind_ok, Run.ite_err', Run.map_ok] at h
    obtain ⟨u, h1, _, v, h2, h3⟩ := h
    cases h3
    obtain ⟨H1, t1⟩ := ruleArgTypes_red hp (a :: as) 0 H
    exact RedTypes.congr (H1.sym (k := PROGRAM_CONST) (x := nm "$eo_prog_" ++ x) (Red.prog (by
      intro t ht
      rcases List.mem_append.1 ht with ht | ht
      · exact t1 t ht
      · rw [List.mem_singleton] at ht; exact ht ▸ Red.bool))) rfl

theorem RedTypes.execDeclareRule {st st' : State} {r : SRule} (hp : Red b.proofType) (H : RedTypes b st) (h : execDeclareRule b n st r = .ok st') : RedTypes b st' := by
  obtain ⟨_, s1, s2, asm, s3, prems, pcons, s4, args, s5, reqs, s6, conc, ret, s7, s8, prog, decls, h1, h2, h3, h4, h5, h6, _, h8, h9, h10, rfl⟩ :=
    execDeclareRule_ok h
  have F := symTypeFrame
  have H1 := (H.congr (F.push st)).bindRuleParams h1
  have e7 := F.trans (F.parseOpt h2) (F.trans (F.parsePremises h3) (F.trans (F.parseList b n _ h4)
    (F.trans (F.parsePairs _ h5) (F.trans (F.parseExpr b n _ h6) (F.pop h8)))))
  exact (((H1.congr e7).sym Red.bool).ruleProg hp h9).congr rfl

theorem RedTypes.defineParams {ps : List SParam} {st st' : State} {t} (H : RedTypes b st) (h : defineParams b n ps st = .ok (st', t)) :
    RedTypes b st' ∧ RedParams st' t := by
  simp only [Ethos.defineParams, Run.bind_ok] at h
  obtain ⟨⟨s1, l⟩, h1, h⟩ := h
  obtain ⟨H1, p1⟩ := RedTypes.bindParams _ (H.congr (symTypeFrame.push st)) h1
  have p1' : RedParams s1 ((l.filter fun v => !v.2.implicit).map (·.1)) := by
    intro p hp
    simp only [List.mem_map, List.mem_filter] at hp
    obtain ⟨q, ⟨h1, _⟩, rfl⟩ := hp
    exact p1 _ (List.mem_map.2 ⟨q, h1, rfl⟩)
  split at h
  · simp only [Run.map_ok] at h
    obtain ⟨s2, h2, h3⟩ := h
    cases h3
    exact ⟨(H1.pop h2).congr (symTypeFrame.bindAll _ s2.push), p1'.mono ((keepsFrame.pop h2).trans ((keepsFrame.push _).trans (keepsFrame.bindAll _ _)))⟩
  · cases h
    exact ⟨H1, p1'⟩

theorem checkTypeAttrs_symType {e : Term} : ∀ (tys : List SExp) {st st' : State}, checkTypeAttrs b n e tys st = .ok st' → st'.symType = st.symType
  | [], st, st', h => by simp only [Ethos.checkTypeAttrs] at h; cases h; rfl
  | ty :: tys, st, st', h => by
    simp only [Ethos.checkTypeAttrs, Run.bind_ok] at h
    obtain ⟨⟨s1, l⟩, h1, _, _, h2⟩ := h
    exact (checkTypeAttrs_symType tys h2).trans (symTypeFrame.parseExpr b n ty h1)

theorem RedTypes.execDefine {st : State} {x : Name} {ps : List SParam} {e : SExp} {tys : List SExp} {st' : State} (H : RedTypes b st)
    (h : execDefine b n st x ps e tys = .ok st') : RedTypes b st' := by
  simp only [Ethos.execDefine, Run.bind_ok, Run.map_ok] at h
  obtain ⟨⟨s1, l⟩, h1, ⟨s2, u⟩, h2, s3, h3, s4, h4, h5⟩ := h
  cases h5
  exact (((H.defineParams h1).1.congr (symTypeFrame.trans (symTypeFrame.parseExpr b n e h2) (checkTypeAttrs_symType tys h3))).pop h4).bind _ _

theorem typesOfVars_red {st : State} : ∀ {l ts : List Term}, RedParams st l → typesOfVars b n st l = .ok ts → ∀ t ∈ ts, Red t
  | [], ts, _, h, t, ht => by simp only [typesOfVars] at h; cases h; cases ht
  | v :: vs, ts, hl, h, t, ht => by
    simp only [typesOfVars, Run.bind_ok, Run.map_ok] at h
    obtain ⟨u, h1, us, h2, h3⟩ := h
    cases h3
    obtain ⟨i, ty, rfl, _, h4, h5⟩ := hl v (by simp)
    rcases List.mem_cons.1 ht with rfl | ht
    · have : some t = some ty := (typeCheck_sym h1).symm.trans h4
      cases this; exact h5
    · exact typesOfVars_red (fun q hq => hl q (by simp [hq])) h2 t ht

theorem RedTypes.execDefineFun {st : State} {x : Name} {ps : List SParam} {ty e : SExp} {st' : State} (H : RedTypes b st)
    (h : execDefineFun b n st x ps ty e = .ok st') : RedTypes b st' := by
  simp only [Ethos.execDefineFun, Run.bind_ok, Run.map_ok] at h
  obtain ⟨⟨s1, l⟩, h1, ⟨s2, u⟩, h2, ⟨s3, v⟩, h3, _, _, eq, _, r, hr, a, _, s4, h4, s5, h5, h6⟩ := h
  cases h6
  obtain ⟨H1, p1⟩ := H.defineParams h1
  have p3 : RedParams s3 l := p1.mono ((keepsFrame.parseType h2).trans (keepsFrame.parseExpr b n e h3))
  have hr2 : Red r.2 := by
    simp only [defineFunRhs] at hr
    split at hr
    · cases hr; exact parseType_red' h2
    · simp only [Run.bind_ok, Run.map_ok] at hr
      obtain ⟨_, _, _, _, _, _, ts, h7, h8⟩ := hr
      subst h8
      exact Red.fns (typesOfVars_red p3 h7) (parseType_red' h2)
  simp only [State.addReferenceAssert, Run.map_ok] at h4
  obtain ⟨aa, _, rfl⟩ := h4
  have H3 := (H1.congr (symTypeFrame.trans (symTypeFrame.parseType h2) (symTypeFrame.parseExpr b n e h3))).sym (k := CONST) (x := x) hr2
  have e5 := symTypeFrame.pop h5
  have H4 : RedTypes b s5 := H3.congr e5
  exact H4.bind _ _

theorem RedTypes.sortParams (ps : List Name) : ∀ (p : State × List Term), RedTypes b p.1 → RedTypes b (ps.foldl (fun (p : State × List Term) y =>
    let q := p.1.mkSymbol PARAM y tType
    (q.1.bind y q.2, p.2 ++ [q.2])) p).1 := by
  induction ps with
  | nil => exact fun p H => H
  | cons y ps ih =>
    intro p H
    exact ih ((p.1.mkSymbol PARAM y tType).1.bind y (p.1.mkSymbol PARAM y tType).2, p.2 ++ [(p.1.mkSymbol PARAM y tType).2])
      (RedTypes.congr (H.sym (k := PARAM) (x := y) Red.type) rfl)

theorem RedTypes.typeParams (ps : List Name) {st : State} (H : RedTypes b st) : RedTypes b (typeParams ps st).1 := RedTypes.sortParams ps (st, []) H

theorem pushIf_symType (c : Bool) (st : State) : (if c then st else st.push).symType = st.symType := by cases c <;> rfl

theorem RedTypes.execDefineSort {st : State} {x : Name} {ps : List Name} {ty : SExp} {st' : State} (H : RedTypes b st)
    (h : execDefineSort b n st x ps ty = .ok st') : RedTypes b st' := by
  simp only [Ethos.execDefineSort, Run.bind_ok] at h
  obtain ⟨⟨s1, t⟩, h1, h⟩ := h
  have H1 := ((H.congr (pushIf_symType ps.isEmpty st)).typeParams ps).congr (symTypeFrame.parseType h1)
  split at h
  · cases h; exact H1
  · simp only [Run.map_ok] at h
    obtain ⟨s2, h4, h5⟩ := h
    cases h5
    exact (H1.pop h4).bind _ _

theorem parseTypeList_red' : ∀ (es : List SExp) {st st' : State} {ts : List Term}, parseTypeList b n true es st = .ok (st', ts) →
    ∀ t ∈ ts, Red t ∨ ∃ p, t = .node QUOTE_TYPE [p] ∧ p.kind = PARAM
  | [], st, st', ts, h, t, ht => by simp only [parseTypeList] at h; cases h; cases ht
  | e :: es, st, st', ts, h, t, ht => by
    simp only [parseTypeList, Run.bind_ok, Run.map_ok] at h
    obtain ⟨p, h1, q, h2, h3⟩ := h
    cases h3
    rcases List.mem_cons.1 ht with rfl | ht
    · exact parseType_red h1
    · exact parseTypeList_red' es h2 t ht

/-! ### Datatypes -/

/-- the attributes of constants stay -/
def ConstInfo (st st' : State) : Prop := ∀ i, st'.decls.info (.sym CONST i) = st.decls.info (.sym CONST i)

theorem constInfoFrame : Frame ConstInfo where
  refl _ _ := rfl
  trans h h' i := (h' i).trans (h i)
  bind _ _ _ _ := rfl
  push _ _ := rfl
  pop {st st'} h i := by rw [scopeOnly.pop h]

theorem ConstInfo.disamb {st : State} {d r : Term} {x : Name} {st' : State} {t : Term}
    (h : Ethos.mkDisambiguatedType b n st d r x = .ok (st', t)) : ConstInfo st st' := by
  simp only [Ethos.mkDisambiguatedType, Run.bind_ok, Run.map_ok] at h
  obtain ⟨u, h1, v, h2, w, h3, h4⟩ := h
  cases h4
  intro i
  exact mark_other (by simp [State.mkSymbol])

theorem ConstInfo.sels {dt : Term} : ∀ (l : List (Name × SExp)) {st st' : State} {r}, Ethos.dtSels b n dt l st = .ok (st', r) → ConstInfo st st'
  | [], st, st', r, h => by simp only [Ethos.dtSels] at h; cases h; exact fun _ => rfl
  | (x, e) :: l, st, st', r, h => by
    simp only [Ethos.dtSels, Run.bind_ok, Run.map_ok] at h
    obtain ⟨⟨s1, t⟩, h1, ⟨s2, u⟩, h2, h3⟩ := h
    cases h3
    exact constInfoFrame.trans (constInfoFrame.parseType h1) (fun i => ConstInfo.sels l h2 i)

theorem ConstInfo.consType {st st' : State} {dt : Term} {ps types : List Term} {x : Name} {r}
    (h : Ethos.dtConsType b n st dt ps types x = .ok (st', r)) : ConstInfo st st' := by
  simp only [Ethos.dtConsType] at h
  split at h
  · cases h; exact fun _ => rfl
  · split at h
    · cases h; exact fun _ => rfl
    · simp only [Run.map_ok] at h
      obtain ⟨⟨s1, l⟩, h1, h2⟩ := h
      cases h2
      exact ConstInfo.disamb h1

theorem ConstInfo.ctors {dt : Term} {ps : List Term} : ∀ (l : List SCons) {st st' : State} {r}, Ethos.dtCtors b n dt ps l st = .ok (st', r) → ConstInfo st st'
  | [], st, st', r, h => by simp only [Ethos.dtCtors] at h; cases h; exact fun _ => rfl
  | c :: l, st, st', r, h => by
    simp only [Ethos.dtCtors, Run.bind_ok, Run.map_ok] at h
    obtain ⟨⟨s1, p⟩, h1, ⟨s2, t⟩, h2, ⟨s3, q⟩, h3, h4⟩ := h
    cases h4
    exact constInfoFrame.trans (ConstInfo.sels _ h1) (constInfoFrame.trans (ConstInfo.consType h2) (fun i => ConstInfo.ctors l h3 i))

theorem ConstInfo.sortParams (ps : List Name) : ∀ (p : State × List Term), ConstInfo p.1 (ps.foldl (fun (p : State × List Term) y =>
    let q := p.1.mkSymbol PARAM y tType
    (q.1.bind y q.2, p.2 ++ [q.2])) p).1 := by
  induction ps with
  | nil => exact fun p i => rfl
  | cons y ps ih => exact fun p i => ih ((p.1.mkSymbol PARAM y tType).1.bind y (p.1.mkSymbol PARAM y tType).2, p.2 ++ [(p.1.mkSymbol PARAM y tType).2]) i

theorem ConstInfo.typeParams (ps : List Name) (st : State) : ConstInfo st (Ethos.typeParams ps st).1 := ConstInfo.sortParams ps (st, [])

theorem ConstInfo.body {x : Name} {pre : Option (Term × Nat)} {d : SDt} {st st' : State} {r} (h : Ethos.dtBody b n x pre d st = .ok (st', r)) : ConstInfo st st' := by
  simp only [Ethos.dtBody, Run.bind_ok, Run.map_ok] at h
  obtain ⟨⟨s1, t⟩, h1, dt, h2, ⟨s3, c⟩, h3, s4, h4, h5⟩ := h
  cases h5
  have F := constInfoFrame
  have e0 : ConstInfo st (if d.params.isEmpty then st else st.push) := by split <;> exact fun _ => rfl
  have e1 : ConstInfo (Ethos.typeParams d.params (if d.params.isEmpty then st else st.push)).1 s1 := by
    simp only [Ethos.dtType] at h1
    split at h1
    · cases h1; exact fun _ => rfl
    · simp only [Run.ite_err'] at h1
      obtain ⟨_, h1⟩ := h1
      cases h1; exact fun _ => rfl
  have e4 : ConstInfo s3 s4 := by
    split at h4
    · cases h4; exact fun _ => rfl
    · exact F.pop h4
  exact F.trans e0 (F.trans (ConstInfo.typeParams _ _) (F.trans e1 (F.trans (ConstInfo.ctors _ h3) (F.trans e4 (F.bindAll _ _)))))

theorem RedTypes.dtSels {dt : Term} (hd : Red dt) : ∀ (l : List (Name × SExp)) {st st' : State} {r}, RedTypes b st → Ethos.dtSels b n dt l st = .ok (st', r) →
    RedTypes b st' ∧ ∀ t ∈ r.1, Red t
  | [], st, st', r, H, h => by simp only [Ethos.dtSels] at h; cases h; exact ⟨H, by simp⟩
  | (x, e) :: l, st, st', r, H, h => by
    simp only [Ethos.dtSels, Run.bind_ok, Run.map_ok] at h
    obtain ⟨⟨s1, t⟩, h1, ⟨s2, u⟩, h2, h3⟩ := h
    cases h3
    have ht : Red t := parseType_red' h1
    obtain ⟨H2, t2⟩ := RedTypes.dtSels hd l (((H.congr (symTypeFrame.parseType h1)).sym (Red.fns (ts := [dt]) (by simpa using hd) ht)).sym
      (Red.fns (ts := [dt, t]) (by simpa using ⟨hd, ht⟩) hd)) h2
    exact ⟨H2, by simpa using ⟨ht, t2⟩⟩

theorem RedTypes.dtConsType {st st' : State} {dt : Term} {ps types : List Term} {x : Name} {r} (H : RedTypes b st) (hd : Red dt) (ht : ∀ t ∈ types, Red t)
    (h : Ethos.dtConsType b n st dt ps types x = .ok (st', r)) : RedTypes b st' ∧ Red r.1 := by
  simp only [Ethos.dtConsType] at h
  split at h
  · cases h; exact ⟨H, Red.fns ht hd⟩
  · split at h
    · cases h; exact ⟨H, Red.fns ht hd⟩
    · simp only [Run.map_ok] at h
      obtain ⟨⟨s1, l⟩, h1, h2⟩ := h
      cases h2
      exact H.mkDisambiguatedType h1

theorem RedTypes.dtCtors {dt : Term} {ps : List Term} (hd : Red dt) : ∀ (l : List SCons) {st st' : State} {r}, RedTypes b st →
    Ethos.dtCtors b n dt ps l st = .ok (st', r) → RedTypes b st'
  | [], st, st', r, H, h => by simp only [Ethos.dtCtors] at h; cases h; exact H
  | c :: l, st, st', r, H, h => by
    simp only [Ethos.dtCtors, Run.bind_ok, Run.map_ok] at h
    obtain ⟨⟨s1, p⟩, h1, ⟨s2, t⟩, h2, ⟨s3, q⟩, h3, h4⟩ := h
    cases h4
    obtain ⟨H1, t1⟩ := RedTypes.dtSels hd _ H h1
    obtain ⟨H2, t2⟩ := H1.dtConsType hd t1 h2
    exact RedTypes.dtCtors hd l ((H2.sym t2).sym (Red.fns (ts := [dt]) (by simpa using hd) Red.bool)) h3

theorem RedTypes.mkTypeConst {st : State} (H : RedTypes b st) (x : Name) (k : Nat) : RedTypes b (st.mkTypeConst x k).1 :=
  H.sym (Red.fns (fun t ht => (List.mem_replicate.1 ht).2 ▸ Red.type) Red.type)

theorem curry_red {i : Nat} {ts : List Term} {t : Term} (h : Curry (.sym CONST i) ts t) (hp : ∀ p ∈ ts, p.ground = false) : Red t := by
  cases h with
  | nil => exact fun _ => rfl
  | snoc ts p u _ =>
    intro hg
    simp [Term.ground, Term.grounds, hp p (by simp)] at hg

theorem typeParams_params (ps : List Name) : ∀ (p : State × List Term), (∀ t ∈ p.2, t.ground = false) → ∀ t ∈ (ps.foldl (fun (p : State × List Term) y =>
    let q := p.1.mkSymbol PARAM y tType
    (q.1.bind y q.2, p.2 ++ [q.2])) p).2, t.ground = false := by
  induction ps with
  | nil => exact fun p H => H
  | cons y ps ih =>
    intro p H
    refine ih ((p.1.mkSymbol PARAM y tType).1.bind y (p.1.mkSymbol PARAM y tType).2, p.2 ++ [(p.1.mkSymbol PARAM y tType).2]) ?_
    intro t ht
    rcases List.mem_append.1 ht with ht | ht
    · exact H t ht
    · rw [List.mem_singleton] at ht; subst ht; rfl

theorem typeParams_length (ps : List Name) : ∀ (p : State × List Term), (ps.foldl (fun (p : State × List Term) y =>
    let q := p.1.mkSymbol PARAM y tType
    (q.1.bind y q.2, p.2 ++ [q.2])) p).2.length = p.2.length + ps.length := by
  induction ps with
  | nil => exact fun p => rfl
  | cons y ps ih =>
    intro p
    refine (ih ((p.1.mkSymbol PARAM y tType).1.bind y (p.1.mkSymbol PARAM y tType).2, p.2 ++ [(p.1.mkSymbol PARAM y tType).2])).trans ?_
    simp only [List.length_append, List.length_cons, List.length_nil]
    omega

theorem RedTypes.dtBody (hb : BaseOk b n0) {m : Nat} {x : Name} {pre : Option (Term × Nat)} {d : SDt} {st st' : State} {r} (F : Fresh b n0 m st) (H : RedTypes b st)
    (hpre : ∀ q, pre = some q → ∃ i, q.1 = .sym CONST i ∧ st.decls.info q.1 = none)
    (hov : d.params ≠ [] → st'.scope.mark r.1 = none) (h : Ethos.dtBody b n x pre d st = .ok (st', r)) : RedTypes b st' := by
  have W := freshWorld hb
  simp only [Ethos.dtBody, Run.bind_ok, Run.map_ok] at h
  obtain ⟨⟨s1, t⟩, h1, dt, h2, ⟨s3, c⟩, h3, s4, h4, h5⟩ := h
  cases h5
  dsimp only at hov
  have H0 : RedTypes b (Ethos.typeParams d.params (if d.params.isEmpty then st else st.push)).1 := (H.congr (pushIf_symType _ st)).typeParams _
  have hps : ∀ p ∈ (Ethos.typeParams d.params (if d.params.isEmpty then st else st.push)).2, p.ground = false := typeParams_params _ _ (by simp)
  have hlen : (Ethos.typeParams d.params (if d.params.isEmpty then st else st.push)).2.length = d.params.length := by
    have := typeParams_length d.params ((if d.params.isEmpty then st else st.push), [])
    simpa [Ethos.typeParams] using this
  have F0 : ∃ m', Fresh b n0 m' (Ethos.typeParams d.params (if d.params.isEmpty then st else st.push)).1 := by
    obtain ⟨w, _, i, _⟩ := W.sortParams (d := 0) d.params ((if d.params.isEmpty then st else st.push), []) (w := m) (by
      dsimp only
      split
      · exact F
      · exact W.push (d := 0) F) (by simp)
    exact ⟨w, i⟩
  have C0 : ConstInfo st (Ethos.typeParams d.params (if d.params.isEmpty then st else st.push)).1 := by
    refine constInfoFrame.trans ?_ (ConstInfo.typeParams _ _)
    split <;> exact fun _ => rfl
  obtain ⟨m', F0⟩ := F0
  have ht : ∃ i, t = .sym CONST i ∧ s1.decls.info t = none ∧ RedTypes b s1 := by
    simp only [Ethos.dtType] at h1
    split at h1
    · obtain ⟨h6, h7⟩ := Prod.mk.injEq .. ▸ (Run.ok.injEq .. ▸ h1)
      subst h6 h7
      refine ⟨_, rfl, ?_, (H0.mkTypeConst x d.params.length).bind _ _⟩
      exact (F0.noInfo hb (k := CONST) (by simp) (by rw [F0.next]; exact Nat.le_refl _)).1
    · rename_i t' k hq
      simp only [Run.ite_err'] at h1
      obtain ⟨_, h1⟩ := h1
      obtain ⟨h6, h7⟩ := Prod.mk.injEq .. ▸ (Run.ok.injEq .. ▸ h1)
      subst h6 h7
      obtain ⟨i, hi, h8⟩ := hpre _ rfl
      dsimp only at hi h8
      subst hi
      exact ⟨i, rfl, (C0 i).trans h8, H0⟩
  obtain ⟨i, rfl, ht, H1⟩ := ht
  have hd : Red dt := by
    by_cases hp : d.params = []
    · simp only [hp, List.isEmpty_nil, if_true] at h2
      cases h2
      exact fun _ => rfl
    · have he : d.params.isEmpty = false := by simpa using hp
      have hm : s1.scope.mark (.sym CONST i) = none := by
        simp only [he, Bool.false_eq_true, if_false] at h4
        exact markFrame.dtCtors _ h3 _ (markFrame.pop h4 _ (markFrame.bindAll _ _ _ (hov hp)))
      refine curry_red (build_curry (b := b) (n := n) (ps := (Ethos.typeParams d.params (if d.params.isEmpty then st else st.push)).2) ht hm ?_ ?_) hps
      · intro h0
        rw [h0] at hlen
        exact hp (List.eq_nil_of_length_eq_zero hlen.symm)
      · rw [if_neg (by simp [he])] at h2
        exact h2
  have H3 := RedTypes.dtCtors hd _ H1 h3
  have e4 : s4.symType = s3.symType := by
    split at h4
    · cases h4; rfl
    · exact symTypeFrame.pop h4
  exact (H3.congr e4).congr (symTypeFrame.bindAll _ _)

/-- a type constructor made with the given arity -/
def IsSort (st : State) (t : Term) (k : Nat) : Prop :=
  ∃ i, t = .sym CONST i ∧ i < st.next ∧ st.symType t = some (mkFunctionType (List.replicate k tType) tType)

theorem IsSort.mono {st st' : State} {t : Term} {k : Nat} (H : IsSort st t k) (h : Keeps st st') : IsSort st' t k := by
  obtain ⟨i, rfl, h1, h2⟩ := H
  exact ⟨i, rfl, Nat.lt_of_lt_of_le h1 h.next, h.symType _ _ _ h2 h1⟩

theorem IsSort.new (st : State) (x : Name) (k : Nat) : IsSort (st.mkTypeConst x k).1 (st.mkTypeConst x k).2 k :=
  ⟨st.next, rfl, Nat.lt_succ_self _, by simp [State.mkTypeConst, State.mkSymbol]⟩

theorem dtBody_sort {x : Name} {pre : Option (Term × Nat)} {d : SDt} {st st' : State} {r}
    (hpre : ∀ q, pre = some q → IsSort st q.1 q.2) (h : Ethos.dtBody b n x pre d st = .ok (st', r)) : IsSort st' r.1 d.params.length := by
  simp only [Ethos.dtBody, Run.bind_ok, Run.map_ok] at h
  obtain ⟨⟨s1, t⟩, h1, dt, h2, ⟨s3, c⟩, h3, s4, h4, h5⟩ := h
  cases h5
  have k4 : Keeps s3 s4 := by
    split at h4
    · cases h4; exact .of rfl rfl rfl
    · exact keepsFrame.pop h4
  have k1 := (keepsFrame.dtCtors _ h3).trans (k4.trans (keepsFrame.bindAll c.2 s4))
  refine IsSort.mono ?_ k1
  have k0 : Keeps st (Ethos.typeParams d.params (if d.params.isEmpty then st else st.push)).1 := (keepsFrame.pushIf _ st).trans (keepsFrame.typeParams _ _)
  simp only [Ethos.dtType] at h1
  split at h1
  · cases h1
    exact (IsSort.new _ x d.params.length).mono (keepsFrame.bind _ _ _)
  · simp only [Run.ite_err'] at h1
    obtain ⟨hk, h1⟩ := h1
    cases h1
    rw [← hk]
    exact (hpre _ rfl).mono k0

/-- no type constructor with arguments is overloaded -/
def SortsPlain (st : State) : Prop := ∀ i ty, i < st.next → st.symType (.sym CONST i) = some (.node FUNCTION_TYPE [tType, ty]) → st.scope.mark (.sym CONST i) = none

theorem SortsPlain.sort {st : State} (H : SortsPlain st) {t : Term} {k : Nat} (h : IsSort st t k) (hk : k ≠ 0) : st.scope.mark t = none := by
  obtain ⟨i, rfl, h1, h2⟩ := h
  cases k with
  | zero => exact absurd rfl hk
  | succ k => exact H i _ h1 h2

theorem RedTypes.dtBodies (hb : BaseOk b n0) : ∀ (xs : List (Name × Term × Nat)) (ds : List SDt) {m : Nat} {st st' : State} {r}, Fresh b n0 m st → RedTypes b st →
    (∀ q ∈ xs, IsSort st q.2.1 q.2.2 ∧ st.decls.info q.2.1 = none) → (∀ q ∈ xs, Old b m q.2.1) → (∀ v k, IsSort st' v k → k ≠ 0 → st'.scope.mark v = none) →
    Ethos.dtBodies b n xs ds st = .ok (st', r) → RedTypes b st'
  | [], [], m, st, st', r, F, H, _, _, _, h => by simp only [Ethos.dtBodies] at h; cases h; exact H
  | _ :: _, [], m, st, st', r, F, H, _, _, _, h => by simp only [Ethos.dtBodies] at h; cases h; exact H
  | [], _ :: _, m, st, st', r, F, H, _, _, _, h => by simp only [Ethos.dtBodies] at h; cases h
  | (x, t) :: xs, d :: ds, m, st, st', r, F, H, hx, ho, hov, h => by
    simp only [Ethos.dtBodies, Run.bind_ok, Run.map_ok] at h
    obtain ⟨⟨s1, q⟩, h1, ⟨s2, u⟩, h2, h3⟩ := h
    cases h3
    have W := freshWorld hb
    obtain ⟨m1, l1, F1, _⟩ := W.dtBody (d := 0) F (fun q hq => by cases hq; exact ⟨ho _ (List.mem_cons_self ..), ho _ (List.mem_cons_self ..)⟩) h1
    have s1' : IsSort s1 q.1 d.params.length := dtBody_sort (by
      intro q hq
      cases hq
      exact (hx _ (List.mem_cons_self ..)).1) h1
    have H1 := RedTypes.dtBody hb F H (by
      intro q hq
      cases hq
      obtain ⟨⟨i, hi, _⟩, h4⟩ := hx _ (List.mem_cons_self ..)
      exact ⟨i, hi, h4⟩) (by
      intro hp
      refine markFrame.dtBodies _ _ h2 _ (hov _ _ (s1'.mono (keepsFrame.dtBodies _ _ h2)) ?_)
      intro h0
      exact hp (List.eq_nil_of_length_eq_zero h0)) h1
    refine RedTypes.dtBodies hb xs ds F1 H1 ?_ (fun q hq => (ho q (List.mem_cons_of_mem _ hq)).mono l1) hov h2
    intro q hq
    obtain ⟨h4, h5⟩ := hx q (List.mem_cons_of_mem _ hq)
    refine ⟨h4.mono (keepsFrame.dtBody h1), ?_⟩
    obtain ⟨i, hi, _⟩ := h4
    rw [hi] at h5 ⊢
    exact (ConstInfo.body h1 i).trans h5

theorem RedTypes.dtTypes (hb : BaseOk b n0) : ∀ (xs : List (Name × Nat)) {m : Nat} {st : State}, Fresh b n0 m st → RedTypes b st →
    RedTypes b (Ethos.dtTypes xs st).1 ∧ ConstInfo st (Ethos.dtTypes xs st).1 ∧
    ∀ q ∈ (Ethos.dtTypes xs st).2, IsSort (Ethos.dtTypes xs st).1 q.2.1 q.2.2 ∧ (Ethos.dtTypes xs st).1.decls.info q.2.1 = none
  | [], m, st, F, H => ⟨H, fun _ => rfl, by simp [Ethos.dtTypes]⟩
  | (x, k) :: xs, m, st, F, H => by
    have W := freshWorld hb
    obtain ⟨m1, _, F1, p1, _⟩ := W.mkTypeConst (d := 0) (x := x) (k := k) F
    obtain ⟨h1, h2, h3⟩ := RedTypes.dtTypes hb xs (W.bind (d := 0) (x := x) F1 p1) ((H.mkTypeConst x k).bind x (st.mkTypeConst x k).2)
    refine ⟨h1, fun i => h2 i, ?_⟩
    intro q hq
    rcases List.mem_cons.1 hq with rfl | hq
    · exact ⟨((IsSort.new st x k).mono (keepsFrame.bind _ _ _)).mono (keepsFrame.dtTypes xs _),
        (h2 _).trans (F.noInfo hb (k := CONST) (by simp) (by rw [F.next]; exact Nat.le_refl _)).1⟩
    · exact h3 q hq

theorem dtMarkAll_same {l : List (Term × List (Term × List Term × Bool))} {st st' : State} (h : dtMarkAll b n l st = .ok st') :
    st'.scope = st.scope ∧ st'.symType = st.symType ∧ st'.next = st.next := by
  simp only [Ethos.dtMarkAll, dtMark_eq, Run.bind_ok] at h
  obtain ⟨s2, h3, h4⟩ := h
  rw [dtMarkCons_eq] at h4
  obtain ⟨e1, e2, _, e3, _⟩ := markList_same _ h3
  obtain ⟨f1, f2, _, f3, _⟩ := markList_same _ h4
  exact ⟨f1.trans e1, f2.trans e2, f3.trans e3⟩

theorem SortsPlain.marked {l : List (Term × List (Term × List Term × Bool))} {st st' : State} (H : SortsPlain st') (h : dtMarkAll b n l st = .ok st') :
    SortsPlain st := by
  obtain ⟨h1, h2, h3⟩ := dtMarkAll_same h
  intro i ty hi ht
  rw [← h1]
  exact H i ty (h3 ▸ hi) (h2 ▸ ht)

theorem RedTypes.execDatatype (hb : BaseOk b n0) {m : Nat} {st st' : State} {x : Name} {d : SDt} (F : Fresh b n0 m st) (H : RedTypes b st) (hov : SortsPlain st')
    (h : execDatatype b n st x d = .ok st') : RedTypes b st' := by
  simp only [Ethos.execDatatype, Run.bind_ok] at h
  obtain ⟨⟨s1, p⟩, h1, h2⟩ := h
  refine (RedTypes.dtBody hb F H (by intro q hq; cases hq) (fun hp => (hov.marked h2).sort (dtBody_sort (by intro q hq; cases hq) h1) ?_) h1).congr (dtMarkAll_same h2).2.1
  intro h0
  exact hp (List.eq_nil_of_length_eq_zero h0)

theorem RedTypes.execDatatypes (hb : BaseOk b n0) {m : Nat} {st st' : State} {xs : List (Name × Nat)} {ds : List SDt} (F : Fresh b n0 m st) (H : RedTypes b st)
    (hov : SortsPlain st') (h : execDatatypes b n st xs ds = .ok st') : RedTypes b st' := by
  simp only [Ethos.execDatatypes, Run.ite_err, Run.bind_ok] at h
  obtain ⟨_, ⟨s1, p⟩, h1, h2⟩ := h
  obtain ⟨m1, _, F1, o1⟩ := (freshWorld hb).dtTypes (d := 0) xs F
  obtain ⟨H1, _, q1⟩ := RedTypes.dtTypes hb xs F H
  exact (RedTypes.dtBodies hb _ _ F1 H1 q1 (fun q hq => (o1 q hq).1) (fun v k hv hk => (hov.marked h2).sort hv hk) h1).congr (dtMarkAll_same h2).2.1

/-! ### Programs and the other commands -/

theorem Old.param {m : Nat} {p : Term} (ho : OwnSym b) (h : Old b m p) (hk : p.kind = PARAM) : p.ground = false := by
  cases p with
  | sym k i => simp only [Term.kind] at hk; subst hk; rfl
  | lit l => cases l <;> cases hk
  | node k cs =>
    simp only [Term.kind] at hk
    subst hk
    cases h with
    | own _ ty h1 _ => obtain ⟨k, i, h⟩ := ho _ _ h1; cases h
    | node _ _ h1 _ => exact absurd h1.2.2 (by decide)

theorem RedTypes.execProgram (hb : BaseOk b n0) {m : Nat} {st : State} {x : Name} {ps : List SParam} {args : List SExp} {ret : SExp}
    {cases : Option (List (SExp × SExp))} {st' : State} (F : Fresh b n0 m st) (H : RedTypes b st) (h : execProgram b n st x ps args ret cases = .ok st') : RedTypes b st' := by
  simp only [Ethos.execProgram, Run.bind_ok, Run.map_ok, Run.ite_err] at h
  obtain ⟨s1, h1, ⟨s2, l2⟩, h2, ⟨s3, t3⟩, h3, _, ⟨s4, v, w⟩, h4, ⟨s5, bd⟩, h5, s6, h6, h7⟩ := h
  have W := freshWorld hb
  obtain ⟨m1, _, F1⟩ := W.bindRuleParams (d := 0) (W.push (d := 0) F) h1
  obtain ⟨F2, o2⟩ := W.parseTypeList (d := 0) _ F1 h2
  have H1 := (H.congr (symTypeFrame.push st)).bindRuleParams h1
  have H3 := H1.congr (symTypeFrame.trans (symTypeFrame.parseTypeList _ h2) (symTypeFrame.parseType h3))
  have hty : Red (.node PROGRAM_TYPE (l2 ++ [t3])) := by
    refine Red.prog fun t ht => ?_
    rcases List.mem_append.1 ht with ht | ht
    · rcases parseTypeList_red' _ h2 t ht with h | ⟨p, rfl, hp⟩
      · exact h
      · intro hg
        have hq := o2 _ ht
        have ho : Old b m1 p := by
          cases hq with
          | own _ ty h1 _ => obtain ⟨k, i, h⟩ := BaseOk.ownSym hb _ _ h1; cases h
          | node _ _ _ h1 => exact h1 p (by simp)
        simp [Term.ground, Term.grounds, Old.param (BaseOk.ownSym hb) ho hp] at hg
    · rw [List.mem_singleton] at ht; subst ht; exact parseType_red' h3
  have H4 : RedTypes b s4 := by
    simp only [Ethos.progVar] at h4
    split at h4
    · simp only [Run.ite_err, Run.map_ok] at h4
      obtain ⟨_, _, _, _, h4⟩ := h4
      cases h4; exact H3
    · cases h4
      exact (H3.sym hty).bind _ _
  have e5 : s5.symType = s4.symType := by
    cases cases with
    | none => simp only [Ethos.progBody] at h5; cases h5; rfl
    | some cs =>
      simp only [Ethos.progBody, Run.bind_ok, Run.ite_err, Run.ite_err', Run.map_ok] at h5
      obtain ⟨⟨s, l⟩, h1, _, _, t, _, h2⟩ := h5
      cases h2
      exact symTypeFrame.parsePairs _ h1
  have H6 := (H4.congr e5).pop h6
  rw [← h7]
  split
  · exact H6
  · exact H6

theorem pushN_symType : ∀ (k : Nat) (st : State), (Ethos.pushN k st).symType = st.symType
  | 0, _ => rfl
  | k+1, st => pushN_symType k st.push

theorem popN_symType : ∀ (k : Nat) {st st' : State}, Ethos.popN k st = .ok st' → st'.symType = st.symType
  | 0, st, st', h => by simp only [Ethos.popN] at h; cases h; rfl
  | k+1, st, st', h => by
    simp only [Ethos.popN, Run.bind_ok] at h
    obtain ⟨s1, h1, h2⟩ := h
    exact (popN_symType k h2).trans (symTypeFrame.pop h1)

theorem RedTypes.execStep {st st' : State} {s : SStep} (H : RedTypes b st) (h : execStep b n st s = .ok st') : RedTypes b st' := by
  obtain ⟨s1, proven, rule, s2, prems, s3, args, conc, ty, s4, _, h1, _, h2, h3, _, _, _, _, h4, rfl⟩ := execStep_ok h
  have F := symTypeFrame
  have e1 : s1.symType = st.symType := F.parseConc h1
  have e2 : s2.symType = ({ s1 with used := rule :: s1.used } : State).symType := F.parseList b n _ h2
  have e3 : s3.symType = s2.symType := F.parseList b n _ h3
  have e4 : s4.symType = s3.symType := by
    split at h4
    · obtain ⟨last, r, _, h5⟩ := popAssumption_ok h4
      have := F.pop h5
      exact this
    · cases h4; rfl
  exact RedTypes.bind (H.congr (e4.trans (e3.trans (e2.trans e1)))) _ _

theorem RedTypes.execAssume {st st' : State} {x : Name} {f : SExp} {isPush : Bool} (H : RedTypes b st) (h : execAssume b n st x f isPush = .ok st') : RedTypes b st' := by
  obtain ⟨s1, A, h1, h2⟩ := execAssume_ok h
  obtain ⟨rfl, _⟩ := addAssumption_ok h2
  have H1 := H.congr (symTypeFrame.parseFormula h1)
  split
  · exact H1
  · exact H1

theorem RedTypes.exec (hb : BaseOk b n0) {m : Nat} {st st' : State} {c : Cmd} (hp : Red b.proofType) (F : Fresh b n0 m st) (H : RedTypes b st) (hov : SortsPlain st')
    (h : exec b n st c = .ok st') : RedTypes b st' := by
  have S := symTypeFrame
  cases c with
  | assume x f => exact H.execAssume h
  | assumePush x f => exact H.execAssume h
  | declareRule r => exact H.execDeclareRule hp h
  | step s => exact H.execStep h
  | reset => simp only [Ethos.exec] at h; cases h; exact H
  | declareConst x ty a =>
    simp only [Ethos.exec, Run.bind_ok, Run.map_ok] at h
    obtain ⟨⟨s1, t⟩, h1, ⟨s2, r⟩, h2, ⟨s3, v⟩, h3, h4⟩ := h
    cases h4
    exact ((H.congr (S.trans (S.parseType h1) (S.parseAttrs h2))).declare (parseType_red' h1) h3).bind _ _
  | declareFun x sorts ret =>
    simp only [Ethos.exec, Run.bind_ok, Run.map_ok] at h
    obtain ⟨⟨s1, t⟩, h1, ⟨s2, r⟩, h2, ⟨s3, v⟩, h3, h4⟩ := h
    cases h4
    exact ((H.congr (S.trans (S.parseTypeList _ h1) (S.parseType h2))).declare (Red.fns (parseTypeList_red _ h1) (parseType_red' h2)) h3).bind _ _
  | declareParam x ps ret a => exact H.execDeclareParam h
  | declareDatatype x d => exact RedTypes.execDatatype hb F H hov h
  | declareDatatypes xs ds => exact RedTypes.execDatatypes hb F H hov h
  | checkSatAssuming fs =>
    simp only [Ethos.exec, Run.map_ok] at h
    obtain ⟨⟨s1, t⟩, h1, h2⟩ := h
    cases h2
    exact H.congr (S.parseList b n fs h1)
  | declareConsts k ty =>
    simp only [Ethos.exec, Run.bind_ok] at h
    obtain ⟨⟨s1, t⟩, h1, d, h2, h3⟩ := h
    have e1 : s1.symType = (st.push.bind (nm "eo::self") b.self).symType := S.parseType h1
    have e3 := S.pop h3
    exact H.congr (e3.trans e1)
  | declareSort x k =>
    simp only [Ethos.exec] at h
    cases h
    exact (H.mkTypeConst x k).bind _ _
  | defineConst x ty e =>
    simp only [Ethos.exec, Run.bind_ok, Run.map_ok] at h
    obtain ⟨⟨s1, t⟩, h1, ⟨s2, r⟩, h2, _, _, h4⟩ := h
    cases h4
    exact (H.congr (S.trans (S.parseType h1) (S.parseExpr b n e h2))).bind _ _
  | define x ps e ty => exact H.execDefine h
  | defineFun x ps ty e => exact H.execDefineFun h
  | defineSort x ps ty => exact H.execDefineSort h
  | program x ps args ret cases => exact RedTypes.execProgram hb F H h
  | assert f =>
    simp only [Ethos.exec, Run.bind_ok] at h
    obtain ⟨⟨s1, t⟩, h1, h2⟩ := h
    simp only [State.addReferenceAssert, Run.map_ok] at h2
    obtain ⟨aa, _, rfl⟩ := h2
    have H1 := H.congr (S.parseFormula h1)
    exact H1
  | push k => simp only [Ethos.exec] at h; cases h; exact H.congr (pushN_symType k st)
  | pop k => exact H.congr (popN_symType k h)
  | nop => simp only [Ethos.exec] at h; cases h; exact H
  | exit => simp only [Ethos.exec] at h; cases h; exact H
  | incl f => simp only [Ethos.exec] at h; cases h; exact H
  | reference f nf => simp only [Ethos.exec] at h; cases h; exact H

/-- the mark of an overloaded symbol stays throughout a run -/
theorem markFull : FullFrame fun st st' : State => ∀ v, st'.scope.mark v = none → st.scope.mark v = none where
  toDeclFrame := markFrame
  asm _ _ _ _ h := h
  reset _ _ h := h
  used _ _ _ h := h
  rule _ _ h := h
  sry _ _ _ h := h

theorem mark_event {e : Event} {st st' : State} (h : replayEvent b n st e = .ok st') : ∀ v, st'.scope.mark v = none → st.scope.mark v = none := by
  cases e with
  | enter f r nf =>
    simp only [replayEvent, Run.map_ok] at h
    obtain ⟨⟨s1, t⟩, h1, rfl⟩ := h
    have := markFull.parseOpt h1
    exact this
  | skip f r nf =>
    simp only [replayEvent, Run.map_ok] at h
    obtain ⟨⟨s1, t⟩, h1, rfl⟩ := h
    exact markFull.parseOpt h1
  | cmd c => exact markFull.exec h

theorem mark_replay : ∀ (es : List Event) {st st' : State}, replay b n es st = .ok st' → ∀ v, st'.scope.mark v = none → st.scope.mark v = none
  | [], st, st', h => by simp only [replay] at h; cases h; exact fun _ h => h
  | e :: es, st, st', h => by
    simp only [replay, Run.bind_ok] at h
    obtain ⟨s1, h1, h2⟩ := h
    exact fun v hv => mark_event h1 v (mark_replay es h2 v hv)

theorem SortsPlain.back {st st' : State} (H : SortsPlain st') (k : Keeps st st') (hm : ∀ v, st'.scope.mark v = none → st.scope.mark v = none) : SortsPlain st :=
  fun i ty hi ht => hm _ (H i ty (Nat.lt_of_lt_of_le hi k.next) (k.symType _ _ _ ht hi))

theorem RedTypes.replay (hb : BaseOk b n0) (hp : Red b.proofType) : ∀ (es : List Event) {m : Nat} {st st' : State}, Fresh b n0 m st → RedTypes b st → SortsPlain st' →
    Spec.replay b n es st = .ok st' → RedTypes b st'
  | [], m, st, st', F, H, hov, h => by simp only [Spec.replay] at h; cases h; exact H
  | e :: es, m, st, st', F, H, hov, h => by
    simp only [Spec.replay, Run.bind_ok] at h
    obtain ⟨s1, h1, h2⟩ := h
    obtain ⟨m1, _, F1⟩ := F.event hb h1
    refine RedTypes.replay hb hp es F1 ?_ hov h2
    cases e with
    | enter f r nf =>
      simp only [replayEvent, Run.map_ok] at h1
      obtain ⟨⟨s1, t⟩, h1, rfl⟩ := h1
      have := symTypeFrame.parseOpt h1
      exact H.congr this
    | skip f r nf =>
      simp only [replayEvent, Run.map_ok] at h1
      obtain ⟨⟨s1, t⟩, h1, rfl⟩ := h1
      exact H.congr (symTypeFrame.parseOpt h1)
    | cmd c => exact H.exec hb hp F (hov.back (Keeps.replay es h2) (mark_replay es h2)) h1

end
end Ethos.Props
