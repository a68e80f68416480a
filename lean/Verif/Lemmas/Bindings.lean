import Verif.Spec.Bindings
import Verif.Lemmas.Elab
/-
The commands make the bindings they are said to make.
-/
namespace Ethos.Props
open Ethos Kind Ethos.Spec

section
variable {b : Env} {n : Nat} {st0 : State} {a : Stack} {st st' : State}

theorem On.refl (h : Refines st.scope a) : On st a st := ⟨rfl, h⟩
theorem On.reset (h : On st0 a st) : On st a st := ⟨rfl, h.table⟩

/-- the table is still `a` -/
theorem parseExpr_on {e : SExp} {t : Term} (h : On st0 a st) (hp : parseExpr b n e st = .ok (st', t)) : On st0 a st' := (parseExpr_elab e h hp).1
theorem parseList_on {e : List SExp} {t : List Term} (h : On st0 a st) (hp : parseList b n e st = .ok (st', t)) : On st0 a st' := (parseList_elab e h hp).1

theorem parseExpr_means {e : SExp} {t : Term} (h : Refines st.scope a) (hp : parseExpr b n e st = .ok (st', t)) : Means b st a e t :=
  ⟨_, (parseExpr_elab e (.refl h) hp).2⟩

theorem parseType_cases {aq ae : Bool} {e : SExp} {t : Term} (hp : parseType b n aq ae e st = .ok (st', t)) :
    ∃ e' t', parseExpr b n e' st = .ok (st', t') ∧ (aq = false → e' = e ∧ t' = t) := by
  have ho : ∀ {st'' : State} {u : Term}, ((Ethos.parseExpr b n e st).bind fun p => (p.1.checkType b n ae p.2).map fun _ => p) = .ok (st'', u) →
      parseExpr b n e st = .ok (st'', u) := by
    intro st'' u h
    simp only [Run.bind_ok, Run.map_ok] at h
    obtain ⟨⟨s1, l⟩, h1, _, _, h3⟩ := h
    cases h3
    exact h1
  simp only [Ethos.parseType] at hp
  split at hp
  · split at hp
    · simp only [Run.bind_ok, Run.ite_err'] at hp
      obtain ⟨⟨s1, l⟩, h1, _, h2⟩ := hp
      cases h2
      exact ⟨_, _, h1, by simp⟩
    · exact ⟨_, _, ho hp, fun _ => ⟨rfl, rfl⟩⟩
  · exact ⟨_, _, ho hp, fun _ => ⟨rfl, rfl⟩⟩

theorem parseType_on {aq ae : Bool} {e : SExp} {t : Term} (h : On st0 a st) (hp : parseType b n aq ae e st = .ok (st', t)) : On st0 a st' := by
  obtain ⟨_, _, h1, _⟩ := parseType_cases hp
  exact parseExpr_on h h1

theorem parseTypeList_on {aq : Bool} : ∀ (es : List SExp) {st st' : State} {ts : List Term}, On st0 a st →
    parseTypeList b n aq es st = .ok (st', ts) → On st0 a st'
  | [], st, st', t, h, hp => by simp only [Ethos.parseTypeList] at hp; cases hp; exact h
  | e :: es, st, st', t, h, hp => by
    simp only [Ethos.parseTypeList, Run.bind_ok, Run.map_ok] at hp
    obtain ⟨⟨s1, l⟩, h1, ⟨s2, u⟩, h2, h3⟩ := hp
    cases h3
    exact parseTypeList_on es (parseType_on h h1) h2

theorem parseFormula_elab {e : SExp} {t : Term} (hp : parseFormula b n e st = .ok (st', t)) : parseExpr b n e st = .ok (st', t) := by
  simp only [Ethos.parseFormula, Run.bind_ok, Run.map_ok] at hp
  obtain ⟨⟨s1, l⟩, h1, _, _, h3⟩ := hp
  cases h3
  exact h1

theorem parsePairs_on : ∀ (es : List (SExp × SExp)) {st st' : State} {ts : List (Term × Term)}, On st0 a st →
    parsePairs b n es st = .ok (st', ts) → On st0 a st'
  | [], st, st', t, h, hp => by simp only [Ethos.parsePairs] at hp; cases hp; exact h
  | (x, y) :: es, st, st', t, h, hp => by
    simp only [Ethos.parsePairs, Run.bind_ok, Run.map_ok] at hp
    obtain ⟨⟨s1, l⟩, h1, ⟨s2, u⟩, h2, ⟨s3, w⟩, h3, h4⟩ := hp
    cases h4
    exact parsePairs_on es (parseExpr_on (parseExpr_on h h1) h2) h3

theorem parseOpt_on {e : Option SExp} {t : Option Term} (h : On st0 a st) (hp : parseOpt b n e st = .ok (st', t)) : On st0 a st' := by
  cases e with
  | none => simp only [Ethos.parseOpt] at hp; cases hp; exact h
  | some e =>
    simp only [Ethos.parseOpt, Run.map_ok] at hp
    obtain ⟨⟨s1, l⟩, h1, h3⟩ := hp
    cases h3
    exact parseExpr_on h h1

theorem parsePremises_on {p : SPremises} {t} (h : On st0 a st) (hp : parsePremises b n p st = .ok (st', t)) : On st0 a st' := by
  cases p with
  | each es =>
    simp only [Ethos.parsePremises, Run.map_ok] at hp
    obtain ⟨⟨s1, l⟩, h1, h3⟩ := hp
    cases h3
    exact parseList_on h h1
  | plist x y =>
    simp only [Ethos.parsePremises, Run.map_ok, Run.bind_ok] at hp
    obtain ⟨⟨s1, l⟩, h1, ⟨s2, u⟩, h2, h3⟩ := hp
    cases h3
    exact parseExpr_on (parseExpr_on h h1) h2

theorem parseConc_on {e : Option SExp} {t : Option Term} (h : On st0 a st) (hp : parseConc b n e st = .ok (st', t)) : On st0 a st' := by
  cases e with
  | none => simp only [Ethos.parseConc] at hp; cases hp; exact h
  | some e =>
    simp only [Ethos.parseConc, Run.map_ok] at hp
    obtain ⟨⟨s1, l⟩, h1, h3⟩ := hp
    cases h3
    exact parseExpr_on h (parseFormula_elab h1)

theorem parseAttr_on {x : SAttr} {t} (h : On st0 a st) (hp : parseAttr b n x st = .ok (st', t)) : On st0 a st' := by
  simp only [Ethos.parseAttr] at hp
  split at hp
  · cases hp; exact h
  · cases hp; exact h
  · simp only [Run.map_ok, Run.bind_ok] at hp
    obtain ⟨⟨s1, l⟩, h1, ⟨s2, u⟩, h2, h3⟩ := hp
    cases h3
    exact parseExpr_on (parseExpr_on h h1) h2
  · simp only [Run.ite_err', Run.map_ok] at hp
    obtain ⟨_, ⟨s1, l⟩, h1, h3⟩ := hp
    cases h3
    exact parseExpr_on h h1
  · cases hp

theorem parseAttrList_on : ∀ (as : List SAttr) {st st' : State} {t}, On st0 a st → parseAttrList b n as st = .ok (st', t) → On st0 a st'
  | [], st, st', t, h, hp => by simp only [Ethos.parseAttrList] at hp; cases hp; exact h
  | x :: as, st, st', t, h, hp => by
    simp only [Ethos.parseAttrList, Run.bind_ok, Run.map_ok] at hp
    obtain ⟨⟨s1, l⟩, h1, ⟨s2, u⟩, h2, h3⟩ := hp
    cases h3
    exact parseAttrList_on as (parseAttr_on h h1) h2

theorem parseAttrs_on {x : List SAttr} {t} (h : On st0 a st) (hp : parseAttrs b n x st = .ok (st', t)) : On st0 a st' := by
  simp only [Ethos.parseAttrs, Run.map_ok] at hp
  obtain ⟨⟨s1, l⟩, h1, h3⟩ := hp
  cases h3
  exact parseAttrList_on x h h1

end

section
variable {b : Env} {n : Nat} {a : Stack}

/-- bindings of parameters -/
def ParamScope (y : List Binding) : Prop := ∀ p ∈ y, ∃ i, p.2 = .sym PARAM i

theorem paramAttrs_table {rich : Bool} {v : Term} : ∀ (as : List PAttr) {a : Stack} {st st' : State}, Refines st.scope a →
    paramAttrs b n rich v as st = .ok st' → Refines st'.scope a
  | [], a, st, st', h, hp => by simp only [Ethos.paramAttrs] at hp; cases hp; exact h
  | .list :: as, a, st, st', h, hp => by
    simp only [Ethos.paramAttrs] at hp
    exact paramAttrs_table as (st := { st with decls := (st.decls.markConstructorKind v .LIST none).1 }) h hp
  | .restrict e :: as, a, st, st', h, hp => by
    simp only [Ethos.paramAttrs, Run.ite_err', Run.bind_ok] at hp
    obtain ⟨_, ⟨s1, t⟩, h1, h2⟩ := hp
    exact paramAttrs_table as (parseExpr_on (On.refl h) h1).table h2
  | .implicit :: as, a, st, st', h, hp => by simp only [Ethos.paramAttrs, Run.ite_err'] at hp; exact paramAttrs_table as h hp.2
  | .opq :: as, a, st, st', h, hp => by simp only [Ethos.paramAttrs, Run.ite_err'] at hp; exact paramAttrs_table as h hp.2
  | .synt :: as, a, st, st', h, hp => by simp only [Ethos.paramAttrs, Run.ite_err'] at hp; exact paramAttrs_table as h hp.2

/-- parameters are bound in the innermost scope -/
theorem bindParams_table {rich : Bool} : ∀ (vs : List SParam) {y : List Binding} {st st' : State} {t}, Refines st.scope (up y a) →
    bindParams b n rich vs st = .ok (st', t) →
    Refines st'.scope (up ((t.map fun q => (q.2.name, q.1)).reverse ++ y) a) ∧ (t.map (·.2) = vs) ∧ ∀ q ∈ t, ∃ i, q.1 = .sym PARAM i
  | [], y, st, st', t, h, hp => by simp only [Ethos.bindParams] at hp; cases hp; exact ⟨by simpa using h, rfl, by simp⟩
  | v :: vs, y, st, st', t, h, hp => by
    simp only [Ethos.bindParams, Run.bind_ok, Run.map_ok] at hp
    obtain ⟨⟨s1, l⟩, h1, s0, h0, ⟨s2, u⟩, h2, h3⟩ := hp
    cases h3
    have h4 := (parseType_on (On.refl h) h1).table
    have h5 : Refines ((s1.mkSymbol PARAM v.name l).1.bind v.name (s1.mkSymbol PARAM v.name l).2).scope (up ((v.name, .sym PARAM s1.next) :: y) a) :=
      refines_bind h4 _ _
    have h6 := bindParams_table vs (y := (v.name, .sym PARAM s1.next) :: y) (paramAttrs_table _ h5 h0) h2
    obtain ⟨h6, h7, h8⟩ := h6
    refine ⟨?_, ?_, ?_⟩
    · simpa [State.mkSymbol] using h6
    · simp [h7]
    · intro q hq
      rcases List.mem_cons.1 hq with rfl | hq
      · exact ⟨_, rfl⟩
      · exact h8 q hq

theorem bindRuleParams_table {vs : List SParam} {y : List Binding} {st st' : State} (h : Refines st.scope (up y a)) (hy : ParamScope y)
    (hp : bindRuleParams b n vs st = .ok st') : ∃ z, ParamScope z ∧ Refines st'.scope (up z a) ∧ ∀ x, (∃ v ∈ vs, v.name = x) → ∃ t, (x, t) ∈ z := by
  simp only [Ethos.bindRuleParams, Run.map_ok] at hp
  obtain ⟨⟨s1, l⟩, h1, h2⟩ := hp
  cases h2
  obtain ⟨h3, h4, h5⟩ := bindParams_table vs h h1
  refine ⟨_, ?_, h3, ?_⟩
  · intro p hp
    rcases List.mem_append.1 hp with hp | hp
    · simp only [List.mem_reverse, List.mem_map] at hp
      obtain ⟨q, hq, rfl⟩ := hp
      exact h5 q hq
    · exact hy p hp
  · rintro x ⟨v, hv, rfl⟩
    rw [← h4, List.mem_map] at hv
    obtain ⟨q, hq, rfl⟩ := hv
    exact ⟨q.1, by simp only [List.mem_append, List.mem_reverse, List.mem_map]; exact .inl ⟨q, hq, rfl⟩⟩

theorem pop_table {x : List Binding} {st st' : State} (h : Refines st.scope (up x a)) (hp : st.pop = .ok st') :
    Refines st'.scope a ∧ st' = { st with scope := st'.scope } := by
  have := (On.popped (st0 := st) ⟨rfl, h⟩ hp).1
  exact ⟨this.table, this.same⟩

theorem bindAll_table {st : State} (l : List (Name × Term)) {y : List Binding} (h : Refines st.scope (up y a)) :
    ∃ z, Refines (st.bindAll l).scope (up z a) := by
  obtain ⟨z, h, _⟩ := (On.refl h).bindAll l
  exact ⟨z, h.table⟩

theorem defineParams_table {ps : List SParam} {st st' : State} {t} (h : Refines st.scope a) (hp : defineParams b n ps st = .ok (st', t)) :
    (∃ y, Refines st'.scope (up y a)) ∧ (ps = [] → st' = st.push ∧ t = []) := by
  simp only [Ethos.defineParams, Run.bind_ok] at hp
  obtain ⟨⟨s1, l⟩, h1, hp⟩ := hp
  obtain ⟨h3, h4, h5⟩ := bindParams_table (a := a) ps (y := []) (refines_push h) h1
  constructor
  · split at hp
    · simp only [Run.map_ok] at hp
      obtain ⟨s2, h6, h7⟩ := hp
      cases h7
      exact bindAll_table _ (refines_push (pop_table h3 h6).1)
    · cases hp; exact ⟨_, h3⟩
  · intro he
    subst he
    simp only [Ethos.bindParams] at h1
    cases h1
    simp at hp
    cases hp
    rename_i e1 e2
    exact ⟨e1.symm, e2⟩

theorem declare_ok {st st' : State} {x : Name} {ty : Term} {ck : Attr} {c : Option Term} {t : Term} (h : declare st x ty ck c = .ok (st', t)) :
    st'.scope = st.scope ∧ t = .sym CONST st.next := by
  simp only [Ethos.declare] at h
  split at h
  · cases h; exact ⟨rfl, rfl⟩
  · simp only [Run.ite_err'] at h
    obtain ⟨_, h⟩ := h
    cases h
    exact ⟨rfl, rfl⟩

theorem disambiguate_scope {st st' : State} {x : Name} {t : Term} {op : List Term} {ck : Attr} {r} (h : disambiguate b n st x t op ck = .ok (st', r)) :
    st'.scope = st.scope := by
  simp only [Ethos.disambiguate] at h
  split at h
  · cases h; rfl
  · simp only [Run.ite_err, Run.map_ok] at h
    obtain ⟨_, ⟨s1, l⟩, h1, h2⟩ := h
    cases h2
    simp only [Ethos.mkDisambiguatedType, Run.bind_ok, Run.map_ok] at h1
    obtain ⟨u, h1, v, h2, w, h3, h4⟩ := h1
    cases h4
    rfl

theorem ruleArgTypes_scope (pty : Term) : ∀ (as : List Term) (i : Nat) (st : State), (ruleArgTypes pty as i st).1.scope = st.scope
  | [], _, st => rfl
  | a :: as, i, st => by
    simp only [Ethos.ruleArgTypes]
    rw [ruleArgTypes_scope pty as]
    split <;> rfl

theorem ruleProg_scope {st st' : State} {x : Name} {as : List Term} {ret : Term} {t : Term} (h : ruleProg b n st x as ret = .ok (st', t)) :
    st'.scope = st.scope := by
  cases as with
  | nil =>
    simp only [Ethos.ruleProg, Run.ite_err] at h
    obtain ⟨_, h⟩ := h
    cases h; rfl
  | cons a as =>
    simp only [Ethos.ruleProg, Run.bind_ok, Run.ite_err', Run.map_ok] at h
    obtain ⟨u, h1, _, v, h2, h3⟩ := h
    cases h3
    exact ruleArgTypes_scope _ _ _ _

/-- new symbols have larger numbers -/
theorem nextFrame : DeclFrame fun st st' : State => st.next ≤ st'.next where
  refl _ := Nat.le_refl _
  trans := Nat.le_trans
  bind _ _ _ := Nat.le_refl _
  push _ := Nat.le_refl _
  pop h := by
    simp only [State.pop, Run.map_ok] at h
    obtain ⟨_, _, rfl⟩ := h
    exact Nat.le_refl _
  sym _ _ _ _ := Nat.le_succ _
  mark _ _ _ _ := Nat.le_refl _
  lit _ := Nat.le_refl _
  refAssert _ _ := Nat.le_refl _

theorem pushN_table : ∀ (k : Nat) {a : Stack} {st : State}, Refines st.scope a → Refines (pushN k st).scope (a.openedN k)
  | 0, a, st, h => by simpa [Ethos.pushN, Stack.openedN] using h
  | k+1, a, st, h => by
    have := pushN_table k (a := ⟨[] :: a.scopes, a.globals⟩) (st := st.push) (refines_push h)
    simp only [Ethos.pushN]
    have e : Stack.openedN k ⟨[] :: a.scopes, a.globals⟩ = a.openedN (k+1) := by
      simp only [Stack.openedN, List.replicate_succ, Stack.mk.injEq, and_true]
      rw [← List.singleton_append (l := a.scopes), ← List.append_assoc, ← List.replicate_succ', List.replicate_succ]
    rwa [e] at this

theorem popN_table : ∀ (k : Nat) {a : Stack} {st st' : State}, Refines st.scope a → popN k st = .ok st' →
    k ≤ a.scopes.length ∧ Refines st'.scope ⟨a.scopes.drop k, a.globals⟩
  | 0, a, st, st', h, hp => by simp only [Ethos.popN] at hp; cases hp; exact ⟨Nat.zero_le _, by simpa using h⟩
  | k+1, a, st, st', h, hp => by
    simp only [Ethos.popN, Run.bind_ok] at hp
    obtain ⟨s1, h1, h2⟩ := hp
    obtain ⟨sc, g⟩ := a
    cases sc with
    | nil =>
      simp only [State.pop, refines_pop_none h, Run.map] at h1
      cases h1
    | cons x r =>
      obtain ⟨h3, _⟩ := pop_table (a := ⟨r, g⟩) (x := x) h h1
      obtain ⟨h4, h5⟩ := popN_table k h3 h2
      exact ⟨by simpa using h4, by simpa using h5⟩

theorem lookup_up {a : Stack} {z : List Binding} (hz : ParamScope z) {x : Name} {t : Term} (h : lookupIn (z ++ a.all) x = some t) :
    (∃ i, t = .sym PARAM i) ∨ (a.lookup x = some t ∧ ∀ u, (x, u) ∉ z) := by
  induction z with
  | nil => exact .inr ⟨h, by simp⟩
  | cons p z ih =>
    rw [List.cons_append, lookupIn_cons] at h
    split at h
    · cases h; exact .inl (hz p (by simp))
    · rename_i hn
      rcases ih (fun q hq => hz q (by simp [hq])) h with h | ⟨h1, h2⟩
      · exact .inl h
      · refine .inr ⟨h1, fun u hu => ?_⟩
        rcases List.mem_cons.1 hu with e | hu
        · rw [← e] at hn; exact hn rfl
        · exact h2 u hu

theorem lookup_up_none {a : Stack} {z : List Binding} {x : Name} (h : lookupIn (z ++ a.all) x = none) : a.lookup x = none := by
  induction z with
  | nil => exact h
  | cons p z ih =>
    rw [List.cons_append, lookupIn_cons] at h
    split at h
    · cases h
    · exact ih h

theorem up_all (z : List Binding) (a : Stack) : (up z a).all = z ++ a.all := by simp [up, Stack.all]

/-- the parts of an accepted `program` -/
theorem execProgram_ok {st st' : State} {x : Name} {ps : List SParam} {args : List SExp} {ret : SExp} {cases : Option (List (SExp × SExp))}
    (h : execProgram b n st x ps args ret cases = .ok st') :
    ∃ s1 s2 ats s3 rt s4 pv new s5 body s6, bindRuleParams b n ps st.push = .ok s1 ∧ parseTypeList b n true args s1 = .ok (s2, ats) ∧
      parseType b n false true ret s2 = .ok (s3, rt) ∧ progVar b n s3 x (.node PROGRAM_TYPE (ats ++ [rt])) = .ok (s4, pv, new) ∧
      progBody b n pv ats.length cases s4 = .ok (s5, body) ∧ s5.pop = .ok s6 ∧
      st' = if new then ({ s6 with decls := s6.decls.defineProgram pv body } : State).bind x pv
        else { s6 with decls := s6.decls.defineProgram pv body } := by
  simp only [Ethos.execProgram, Run.bind_ok, Run.map_ok, Run.ite_err] at h
  obtain ⟨s1, h1, ⟨s2, l2⟩, h2, ⟨s3, t3⟩, h3, _, ⟨s4, v, w⟩, h4, ⟨s5, bd⟩, h5, s6, h6, h7⟩ := h
  exact ⟨s1, s2, l2, s3, t3, s4, v, w, s5, bd, s6, h1, h2, h3, h4, h5, h6, h7.symm⟩

theorem progBody_on {st0 st st' : State} {a : Stack} {pv : Term} {k : Nat} {cases : Option (List (SExp × SExp))} {t} (h : On st0 a st)
    (hp : progBody b n pv k cases st = .ok (st', t)) : On st0 a st' := by
  cases cases with
  | none => simp only [Ethos.progBody] at hp; cases hp; exact h
  | some cs =>
    simp only [Ethos.progBody, Run.bind_ok, Run.ite_err, Run.ite_err', Run.map_ok] at hp
    obtain ⟨⟨s, l⟩, h1, _, _, t, _, h2⟩ := hp
    cases h2
    exact parsePairs_on _ h h1

theorem program_effect {st st' : State} {x : Name} {ps : List SParam} {args : List SExp} {ret : SExp} {cases : Option (List (SExp × SExp))}
    (ht : Refines st.scope a) (h : execProgram b n st x ps args ret cases = .ok st') :
    ∃ a', Effect b st a (.program x ps args ret cases) a' ∧ Refines st'.scope a' := by
  obtain ⟨s1, s2, ats, s3, rt, s4, pv, new, s5, body, s6, h1, h2, h3, h4, h5, h6, rfl⟩ := execProgram_ok h
  obtain ⟨z, hz, t1, _⟩ := bindRuleParams_table (a := a) (y := []) (refines_push ht) (by simp [ParamScope]) h1
  have t3 := (parseType_on (parseTypeList_on _ (On.refl t1) h2) h3).table
  have hn : st.next ≤ s3.next := nextFrame.trans (nextFrame.push st) (nextFrame.trans (nextFrame.bindRuleParams h1)
    (nextFrame.trans (nextFrame.parseTypeList _ h2) (nextFrame.parseType h3)))
  have hget : s3.scope.get x = lookupIn (z ++ a.all) x := by
    have := t3.holds.sym x
    rw [← up_all]
    exact this
  simp only [Ethos.progVar] at h4
  split at h4
  · rename_i prev hprev
    simp only [Run.ite_err, Run.map_ok] at h4
    obtain ⟨hk, _, _, _, h4⟩ := h4
    cases h4
    rw [hget] at hprev
    rcases lookup_up hz hprev with ⟨i, rfl⟩ | ⟨h7, _⟩
    · exact absurd (by simp [Term.kind]) hk
    · have t5 := (progBody_on (On.refl t3) h5).table
      have t6 := (pop_table t5 h6).1
      exact ⟨a, .inl ⟨_, h7, by simpa using hk, rfl⟩, t6⟩
  · rename_i hprev
    cases h4
    rw [hget] at hprev
    have t4 : Refines ((s3.mkSymbol PROGRAM_CONST x (.node PROGRAM_TYPE (ats ++ [rt]))).1.bind x (.sym PROGRAM_CONST s3.next)).scope
        (up ((x, .sym PROGRAM_CONST s3.next) :: z) a) := refines_bind t3 _ _
    have t5 := (progBody_on (On.refl t4) h5).table
    have t6 := (pop_table t5 h6).1
    exact ⟨_, .inr ⟨lookup_up_none hprev, s3.next, hn, rfl⟩, refines_bind t6 _ _⟩

theorem sortParams_table (ps : List Name) : ∀ {y : List Binding} (p : State × List Term), Refines p.1.scope (up y a) → ∃ z,
    Refines (ps.foldl (fun (p : State × List Term) y => let q := p.1.mkSymbol PARAM y tType; (q.1.bind y q.2, p.2 ++ [q.2])) p).1.scope (up z a) := by
  induction ps with
  | nil => exact fun p h => ⟨_, h⟩
  | cons x ps ih =>
    intro y p h
    exact ih (y := (x, .sym PARAM p.1.next) :: y) ((p.1.mkSymbol PARAM x tType).1.bind x (p.1.mkSymbol PARAM x tType).2, p.2 ++ [(p.1.mkSymbol PARAM x tType).2])
      (refines_bind h x (.sym PARAM p.1.next))

theorem defineSort_effect {st st' : State} {x : Name} {ps : List Name} {ty : SExp} (ht : Refines st.scope a)
    (h : execDefineSort b n st x ps ty = .ok st') : ∃ a', Effect b st a (.defineSort x ps ty) a' ∧ Refines st'.scope a' := by
  simp only [Ethos.execDefineSort, Run.bind_ok] at h
  obtain ⟨⟨s1, t⟩, h1, h⟩ := h
  cases ps with
  | nil =>
    simp [Ethos.typeParams] at h1 h
    subst h
    obtain ⟨_, _, h2, h3⟩ := parseType_cases h1
    obtain ⟨rfl, rfl⟩ := h3 rfl
    exact ⟨_, ⟨_, fun _ => parseExpr_means ht h2, rfl⟩, refines_bind (parseType_on (On.refl ht) h1).table _ _⟩
  | cons y ps =>
    rw [if_neg (by simp)] at h h1
    simp only [Run.map_ok] at h
    obtain ⟨s2, h4, h5⟩ := h
    subst h5
    obtain ⟨z, h6⟩ := sortParams_table (a := a) (y := []) (y :: ps) (st.push, []) (refines_push ht)
    have h7 := (parseType_on (On.refl h6) h1).table
    exact ⟨_, ⟨_, by simp, rfl⟩, refines_bind (pop_table h7 h4).1 _ _⟩

theorem checkTypeAttrs_table {e : Term} : ∀ (tys : List SExp) {a : Stack} {st st' : State}, Refines st.scope a →
    checkTypeAttrs b n e tys st = .ok st' → Refines st'.scope a
  | [], a, st, st', h, hp => by simp only [Ethos.checkTypeAttrs] at hp; cases hp; exact h
  | ty :: tys, a, st, st', h, hp => by
    simp only [Ethos.checkTypeAttrs, Run.bind_ok] at hp
    obtain ⟨⟨s1, l⟩, h1, _, _, h2⟩ := hp
    exact checkTypeAttrs_table tys (parseExpr_on (On.refl h) h1).table h2

theorem define_effect {st st' : State} {x : Name} {ps : List SParam} {e : SExp} {ty : List SExp} (ht : Refines st.scope a)
    (h : execDefine b n st x ps e ty = .ok st') : ∃ a', Effect b st a (.define x ps e ty) a' ∧ Refines st'.scope a' := by
  simp only [Ethos.execDefine, Run.bind_ok, Run.map_ok] at h
  obtain ⟨⟨s1, l⟩, h1, ⟨s2, u⟩, h2, s3, h3, s4, h4, h5⟩ := h
  subst h5
  obtain ⟨⟨y, h6⟩, h7⟩ := defineParams_table ht h1
  have h8 := (parseExpr_on (On.refl h6) h2).table
  have h9 : Refines s3.scope (up y a) := checkTypeAttrs_table ty h8 h3
  refine ⟨_, ⟨_, ?_, rfl⟩, refines_bind (pop_table h9 h4).1 _ _⟩
  intro hp
  obtain ⟨rfl, rfl⟩ := h7 hp
  obtain ⟨g1, g2⟩ := (On.refl ht).push
  have := (parseExpr_elab e g1 h2).2
  rw [g2] at this
  exact ⟨_, this⟩

theorem declareParam_effect {st st' : State} {x : Name} {ps : List SParam} {ret : SExp} {at' : List SAttr} (ht : Refines st.scope a)
    (h : execDeclareParam b n st x ps ret at' = .ok st') : ∃ a', Effect b st a (.declareParam x ps ret at') a' ∧ Refines st'.scope a' := by
  simp only [Ethos.execDeclareParam, Run.bind_ok, Run.map_ok] at h
  obtain ⟨⟨s1, l1⟩, h1, ⟨s2, l2⟩, h2, ⟨s3, l3⟩, h3, tt, h4, ⟨s5, l5⟩, h5, e, h6, ⟨s7, l7⟩, h7, s8, h8, h9⟩ := h
  subst h9
  obtain ⟨t1, _, _⟩ := bindParams_table (a := a) ps (y := []) (refines_push ht) h1
  have t3 := (parseAttrs_on (parseType_on (On.refl t1) h2) h3).table
  obtain ⟨e1, rfl⟩ := declare_ok h7
  have e2 := disambiguate_scope h5
  rw [← e2, ← e1] at t3
  have F := nextFrame
  exact ⟨_, ⟨_, F.trans (F.push st) (F.trans (F.bindParams _ h1) (F.trans (F.parseType h2) (F.trans (F.parseAttrs h3) (F.disambiguate h5)))), rfl⟩,
    refines_bind (pop_table t3 h8).1 _ _⟩

theorem addReferenceAssert_scope {st st' : State} {t : Term} (h : st.addReferenceAssert b n t = .ok st') : st'.scope = st.scope := by
  simp only [State.addReferenceAssert, Run.map_ok] at h
  obtain ⟨aa, _, h⟩ := h
  subst h
  rfl

theorem defineFun_effect {st st' : State} {x : Name} {ps : List SParam} {ty e : SExp} (ht : Refines st.scope a)
    (h : execDefineFun b n st x ps ty e = .ok st') : ∃ a', Effect b st a (.defineFun x ps ty e) a' ∧ Refines st'.scope a' := by
  simp only [Ethos.execDefineFun, Run.bind_ok, Run.map_ok] at h
  obtain ⟨⟨s1, l⟩, h1, ⟨s2, u⟩, h2, ⟨s3, v⟩, h3, _, _, eq, _, r, _, t, _, s4, h4, s5, h5, h6⟩ := h
  subst h6
  obtain ⟨⟨y, t1⟩, _⟩ := defineParams_table ht h1
  have t3 := (parseExpr_on (parseType_on (On.refl t1) h2) h3).table
  have t4 : Refines s4.scope (up y a) := by rw [addReferenceAssert_scope h4]; exact t3
  have F := nextFrame
  exact ⟨_, ⟨s3.next, F.trans (F.defineParams h1) (F.trans (F.parseType h2) (F.parseExpr b n e h3)), rfl⟩, refines_bind (pop_table t4 h5).1 _ _⟩

theorem assume_effect {st st' : State} {x : Name} {f : SExp} {isPush : Bool} (ht : Refines st.scope a) (h : execAssume b n st x f isPush = .ok st') :
    ∃ F, Means b st a f F ∧ Refines st'.scope ((if isPush then a.opened else a).bind x (.node PROOF [F])) := by
  obtain ⟨s1, F, h1, h2⟩ := execAssume_ok h
  obtain ⟨rfl, _⟩ := addAssumption_ok h2
  have t1 := (parseExpr_on (On.refl ht) (parseFormula_elab h1)).table
  refine ⟨F, parseExpr_means ht (parseFormula_elab h1), ?_⟩
  cases isPush with
  | true => exact refines_bind (refines_push t1) _ _
  | false => exact refines_bind t1 _ _

theorem step_effect {st st' : State} {s : SStep} (ht : Refines st.scope a) (h : execStep b n st s = .ok st') :
    ∃ a', Effect b st a (.step s) a' ∧ Refines st'.scope a' := by
  obtain ⟨s1, proven, rule, s2, prems, s3, args, conc, ty, s4, _, h1, _, h2, h3, _, _, _, _, h4, rfl⟩ := execStep_ok h
  have t1 := (parseConc_on (On.refl ht) h1).table
  have t2 := (parseList_on (On.refl (st := { s1 with used := rule :: s1.used }) t1) h2).table
  have t3 := (parseList_on (On.refl t2) h3).table
  simp only [Effect]
  split
  · rename_i hp
    rw [if_pos hp] at h4
    obtain ⟨last, r, _, h5⟩ := popAssumption_ok h4
    obtain ⟨sc, g⟩ := a
    cases sc with
    | nil =>
      simp only [State.pop, refines_pop_none t3, Run.map] at h5
      cases h5
    | cons l r' =>
      have := (pop_table (a := ⟨r', g⟩) (x := l) (st := { s3 with asmCtx := r, asms := s3.asms.take last }) t3 h5).1
      exact ⟨_, ⟨conc, l, r', rfl, rfl⟩, refines_bind this _ _⟩
  · rename_i hp
    rw [if_neg hp] at h4
    cases h4
    exact ⟨_, ⟨conc, rfl⟩, refines_bind t3 _ _⟩

theorem declareRule_table {st st' : State} {r : SRule} (ht : Refines st.scope a) (h : execDeclareRule b n st r = .ok st') : Refines st'.scope a := by
  obtain ⟨_, s1, s2, asm, s3, prems, pcons, s4, args, s5, reqs, s6, conc, ret, s7, s8, prog, decls, h1, h2, h3, h4, h5, h6, _, h8, h9, h10, rfl⟩ :=
    execDeclareRule_ok h
  obtain ⟨z, _, t1, _⟩ := bindRuleParams_table (a := a) (y := []) (refines_push ht) (by simp [ParamScope]) h1
  have t6 := (parseExpr_on (parsePairs_on _ (parseList_on (parsePremises_on (parseOpt_on (On.refl t1) h2) h3) h4) h5) h6).table
  have t7 := (pop_table t6 h8).1
  have e := ruleProg_scope h9
  show Refines s8.scope a
  rw [e]
  exact t7

/-! ### Datatypes -/

/-- new constants with increasing numbers from `lo` below `hi` -/
def Rising : Nat → List (Name × Term) → Nat → Prop
  | lo, [], hi => lo ≤ hi
  | lo, (_, t) :: l, hi => ∃ i, lo ≤ i ∧ t = .sym CONST i ∧ Rising (i+1) l hi

theorem Rising.le : ∀ {l : List (Name × Term)} {lo hi : Nat}, Rising lo l hi → lo ≤ hi
  | [], _, _, h => h
  | (_, _) :: l, _, _, ⟨i, h1, _, h2⟩ => by have := Rising.le h2; omega

theorem Rising.mono : ∀ {l : List (Name × Term)} {lo lo' hi : Nat}, lo' ≤ lo → Rising lo l hi → Rising lo' l hi
  | [], _, _, _, h, h' => Nat.le_trans h h'
  | (_, _) :: l, _, _, _, h, ⟨i, h1, h2, h3⟩ => ⟨i, Nat.le_trans h h1, h2, h3⟩

theorem Rising.append : ∀ {l l' : List (Name × Term)} {lo m hi : Nat}, Rising lo l m → Rising m l' hi → Rising lo (l ++ l') hi
  | [], _, _, _, _, h, h' => h'.mono h
  | (_, _) :: l, _, _, _, _, ⟨i, h1, h2, h3⟩, h' => ⟨i, h1, h2, h3.append h'⟩

theorem Rising.one {x : Name} {i hi : Nat} (h : i < hi) : Rising i [(x, .sym CONST i)] hi := ⟨i, Nat.le_refl _, rfl, h⟩

theorem _root_.Ethos.Spec.BindNew.mono {lo lo' : Nat} {a a' : Stack} {xs : List Name} (h : lo' ≤ lo) (hb : BindNew lo a xs a') : BindNew lo' a xs a' := by
  cases hb with
  | nil => exact .nil _ _
  | cons _ i _ x xs _ h1 h2 => exact .cons _ _ _ _ _ _ (Nat.le_trans h h1) h2

theorem bindAll_new : ∀ (l : List (Name × Term)) {a : Stack} {lo m : Nat} {st : State}, Refines st.scope a → Rising lo l m →
    ∃ a', Refines (st.bindAll l).scope a' ∧
      ∀ {ys : List Name} {a'' : Stack}, BindNew m a' ys a'' → BindNew lo a (l.map (·.1) ++ ys) a''
  | [], a, lo, m, st, ht, h => ⟨a, ht, fun hb => hb.mono h⟩
  | (x, t) :: l, a, lo, m, st, ht, ⟨i, h1, h2, h3⟩ => by
    subst h2
    obtain ⟨a', h4, h5⟩ := bindAll_new l (st := st.bind x (.sym CONST i)) (refines_bind ht x _) h3
    exact ⟨a', h4, fun hb => .cons _ _ _ _ _ _ h1 (h5 hb)⟩

theorem dtSels_table {dt : Term} : ∀ (l : List (Name × SExp)) {a : Stack} {st st' : State} {r}, Refines st.scope a → dtSels b n dt l st = .ok (st', r) →
    Refines st'.scope a ∧ Rising st.next r.2.2 st'.next ∧ r.2.2.map (·.1) = l.flatMap fun s => [s.1, nm "update-" ++ s.1]
  | [], a, st, st', r, ht, h => by simp only [Ethos.dtSels] at h; cases h; exact ⟨ht, Nat.le_refl _, rfl⟩
  | (x, e) :: l, a, st, st', r, ht, h => by
    simp only [Ethos.dtSels, Run.bind_ok, Run.map_ok] at h
    obtain ⟨⟨s1, t⟩, h1, ⟨s2, u⟩, h2, h3⟩ := h
    cases h3
    have t1 := (parseType_on (On.refl ht) h1).table
    obtain ⟨t2, r2, n2⟩ := dtSels_table l (st := ((s1.mkSymbol CONST x (mkFunctionType [dt] t)).1.mkSymbol CONST (nm "update-" ++ x) (mkFunctionType [dt, t] dt)).1)
      t1 h2
    exact ⟨t2, ⟨s1.next, nextFrame.parseType h1, rfl, _, Nat.le_refl _, rfl, r2⟩, by simp [n2]⟩

theorem dtConsType_scope {st st' : State} {dt : Term} {ps types : List Term} {x : Name} {r}
    (h : dtConsType b n st dt ps types x = .ok (st', r)) : st'.scope = st.scope := by
  simp only [Ethos.dtConsType] at h
  split at h
  · cases h; rfl
  · split at h
    · cases h; rfl
    · simp only [Run.map_ok] at h
      obtain ⟨⟨s1, l⟩, h1, h2⟩ := h
      cases h2
      simp only [Ethos.mkDisambiguatedType, Run.bind_ok, Run.map_ok] at h1
      obtain ⟨u, h1, v, h2, w, h3, h4⟩ := h1
      cases h4
      rfl

theorem dtCtors_table {dt : Term} {ps : List Term} : ∀ (l : List SCons) {a : Stack} {st st' : State} {r}, Refines st.scope a →
    dtCtors b n dt ps l st = .ok (st', r) →
    Refines st'.scope a ∧ Rising st.next r.2 st'.next ∧ r.2.map (·.1) = l.flatMap consNames
  | [], a, st, st', r, ht, h => by simp only [Ethos.dtCtors] at h; cases h; exact ⟨ht, Nat.le_refl _, rfl⟩
  | c :: l, a, st, st', r, ht, h => by
    simp only [Ethos.dtCtors, Run.bind_ok, Run.map_ok] at h
    obtain ⟨⟨s1, p⟩, h1, ⟨s2, t⟩, h2, ⟨s3, q⟩, h3, h4⟩ := h
    cases h4
    obtain ⟨t1, r1, n1⟩ := dtSels_table _ ht h1
    rw [← dtConsType_scope h2] at t1
    obtain ⟨t3, r3, n3⟩ := dtCtors_table l (st := ((s2.mkSymbol CONST c.name t.1).1.mkSymbol CONST (nm "is-" ++ c.name) (mkFunctionType [dt] tBool)).1) t1 h3
    refine ⟨t3, r1.append ⟨s2.next, nextFrame.dtConsType h2, rfl, _, Nat.le_refl _, rfl, r3⟩, ?_⟩
    simp [n1, n3, consNames]

theorem typeParams_table {ps : List Name} {y : List Binding} {st : State} (h : Refines st.scope (up y a)) :
    ∃ z, Refines (typeParams ps st).1.scope (up z a) := sortParams_table ps (st, []) h

/-- the bindings of a definition of a datatype, whose type may have been made before -/
theorem dtBody_table {x : Name} {pre : Option (Term × Nat)} {d : SDt} {st st' : State} {r} (ht : Refines st.scope a)
    (h : dtBody b n x pre d st = .ok (st', r)) :
    ∃ a', Refines st'.scope a' ∧ ∀ {ys : List Name} {a'' : Stack}, BindNew st'.next a' ys a'' →
      BindNew st.next a ((if pre = none ∧ d.params = [] then [x] else []) ++ dtNames d ++ ys) a'' := by
  simp only [Ethos.dtBody, Run.bind_ok, Run.map_ok] at h
  obtain ⟨⟨s1, t⟩, h1, dt, h2, ⟨s3, c⟩, h3, s4, h4, h5⟩ := h
  cases h5
  by_cases hp : d.params = []
  · simp only [hp, List.isEmpty_nil, if_true, Ethos.typeParams, List.foldl_nil, List.length_nil] at h1 h2 h3 h4
    cases h4
    have h6 : ∃ a1, Refines s1.scope a1 ∧ ∀ {ys : List Name} {a'' : Stack}, BindNew s1.next a1 ys a'' →
        BindNew st.next a ((if pre = none then [x] else []) ++ ys) a'' := by
      cases pre with
      | none =>
        simp only [Ethos.dtType] at h1
        cases h1
        exact ⟨_, refines_bind ht x (.sym CONST st.next), fun hb => .cons _ _ _ _ _ _ (Nat.le_refl _) hb⟩
      | some q =>
        simp only [Ethos.dtType, Run.ite_err'] at h1
        obtain ⟨_, h1⟩ := h1
        cases h1
        exact ⟨a, ht, fun hb => by simpa using hb⟩
    obtain ⟨a1, t1, b1⟩ := h6
    obtain ⟨t3, r3, n3⟩ := dtCtors_table _ t1 h3
    obtain ⟨a2, t4, b4⟩ := bindAll_new c.2 t3 r3
    refine ⟨a2, t4, fun {ys a''} hb => ?_⟩
    have hb : BindNew s3.next a2 ys a'' := by
      have e : (s3.bindAll c.2).next = s3.next := by
        have : ∀ (l : List (Name × Term)) (s : State), (s.bindAll l).next = s.next := by
          intro l
          induction l with
          | nil => exact fun _ => rfl
          | cons p l ih => exact fun s => ih _
        exact this _ _
      rwa [e] at hb
    have := b1 (b4 hb)
    rw [n3] at this
    simpa [hp, dtNames] using this
  · have he : d.params.isEmpty = false := by simpa using hp
    simp only [he, Bool.false_eq_true, if_false] at h1 h2 h3 h4
    obtain ⟨z, t0⟩ := typeParams_table (a := a) (ps := d.params) (y := []) (st := st.push) (refines_push ht)
    have h6 : ∃ z, Refines s1.scope (up z a) := by
      cases pre with
      | none =>
        simp only [Ethos.dtType] at h1
        cases h1
        exact ⟨_, refines_bind t0 x _⟩
      | some q =>
        simp only [Ethos.dtType, Run.ite_err'] at h1
        obtain ⟨_, h1⟩ := h1
        cases h1
        exact ⟨_, t0⟩
    obtain ⟨z1, t1⟩ := h6
    obtain ⟨t3, r3, n3⟩ := dtCtors_table _ t1 h3
    obtain ⟨t4, e4⟩ := pop_table t3 h4
    obtain ⟨a2, t5, b5⟩ := bindAll_new c.2 t4 r3
    refine ⟨a2, t5, fun {ys a''} hb => ?_⟩
    have hb : BindNew s3.next a2 ys a'' := by
      have e : (s4.bindAll c.2).next = s3.next := by
        have : ∀ (l : List (Name × Term)) (s : State), (s.bindAll l).next = s.next := by
          intro l
          induction l with
          | nil => exact fun _ => rfl
          | cons p l ih => exact fun s => ih _
        rw [this, e4]
      rwa [e] at hb
    have := (b5 hb).mono (lo' := st.next) (nextFrame.trans (nextFrame.push st) (nextFrame.trans (nextFrame.typeParams d.params st.push) (nextFrame.dtType h1)))
    rw [n3] at this
    simpa [hp, dtNames] using this

theorem dtBodies_table : ∀ (xs : List (Name × Term × Nat)) (ds : List SDt) {a : Stack} {st st' : State} {r}, Refines st.scope a →
    dtBodies b n xs ds st = .ok (st', r) →
    ds.length ≤ xs.length ∧ ∃ a', Refines st'.scope a' ∧ BindNew st.next a (ds.flatMap dtNames) a'
  | [], [], a, st, st', r, ht, h => by simp only [Ethos.dtBodies] at h; cases h; exact ⟨Nat.le_refl _, a, ht, .nil _ _⟩
  | _ :: _, [], a, st, st', r, ht, h => by simp only [Ethos.dtBodies] at h; cases h; exact ⟨Nat.zero_le _, a, ht, .nil _ _⟩
  | [], _ :: _, a, st, st', r, ht, h => by simp only [Ethos.dtBodies] at h; cases h
  | (x, t) :: xs, d :: ds, a, st, st', r, ht, h => by
    simp only [Ethos.dtBodies, Run.bind_ok, Run.map_ok] at h
    obtain ⟨⟨s1, t⟩, h1, ⟨s2, u⟩, h2, h3⟩ := h
    cases h3
    obtain ⟨a1, t1, b1⟩ := dtBody_table ht h1
    obtain ⟨l2, a2, t2, b2⟩ := dtBodies_table xs ds t1 h2
    exact ⟨by simpa using l2, a2, t2, by simpa using b1 b2⟩

theorem dtTypes_table : ∀ (xs : List (Name × Nat)) {a : Stack} {st : State}, Refines st.scope a →
    (dtTypes xs st).2.length = xs.length ∧ ∃ a', Refines (dtTypes xs st).1.scope a' ∧ ∀ {ys : List Name} {a'' : Stack},
      BindNew (dtTypes xs st).1.next a' ys a'' → BindNew st.next a (xs.map (·.1) ++ ys) a''
  | [], a, st, ht => ⟨rfl, a, ht, fun hb => hb⟩
  | (x, k) :: xs, a, st, ht => by
    obtain ⟨l1, a1, t1, b1⟩ := dtTypes_table xs (st := (st.mkTypeConst x k).1.bind x (st.mkTypeConst x k).2) (refines_bind ht x _)
    exact ⟨by simp [Ethos.dtTypes, l1], a1, t1, fun hb => .cons _ _ _ _ _ _ (Nat.le_refl _) (b1 hb)⟩

theorem dtMarkCons_scope : ∀ (l : List (Term × List Term × Bool)) {st st' : State}, dtMarkCons b n l st = .ok st' → st'.scope = st.scope
  | [], st, st', h => by simp only [Ethos.dtMarkCons] at h; cases h; rfl
  | (c, sels, amb) :: l, st, st', h => by
    simp only [Ethos.dtMarkCons, Run.bind_ok] at h
    obtain ⟨t, _, h2⟩ := h
    exact (dtMarkCons_scope l h2).trans rfl

theorem dtMark_scope : ∀ (l : List (Term × List (Term × List Term × Bool))) {st st' : State}, dtMark b n l st = .ok st' → st'.scope = st.scope
  | [], st, st', h => by simp only [Ethos.dtMark] at h; cases h; rfl
  | (c, cs) :: l, st, st', h => by
    simp only [Ethos.dtMark, Run.bind_ok] at h
    obtain ⟨t, _, h2⟩ := h
    exact (dtMark_scope l h2).trans rfl

theorem dtMarkAll_scope {l : List (Term × List (Term × List Term × Bool))} {st st' : State} (h : dtMarkAll b n l st = .ok st') : st'.scope = st.scope := by
  simp only [Ethos.dtMarkAll, Run.bind_ok] at h
  obtain ⟨s1, h1, h2⟩ := h
  rw [dtMarkCons_scope _ h2, dtMark_scope _ h1]

theorem datatype_effect {st st' : State} {x : Name} {d : SDt} (ht : Refines st.scope a) (h : execDatatype b n st x d = .ok st') :
    ∃ a', Effect b st a (.declareDatatype x d) a' ∧ Refines st'.scope a' := by
  simp only [Ethos.execDatatype, Run.bind_ok] at h
  obtain ⟨⟨s1, p⟩, h1, h2⟩ := h
  obtain ⟨a', t1, b1⟩ := dtBody_table ht h1
  refine ⟨a', ?_, by rw [dtMarkAll_scope h2]; exact t1⟩
  have := b1 (.nil _ _)
  simpa [Effect] using this

theorem datatypes_effect {st st' : State} {xs : List (Name × Nat)} {ds : List SDt} (ht : Refines st.scope a) (h : execDatatypes b n st xs ds = .ok st') :
    ∃ a', Effect b st a (.declareDatatypes xs ds) a' ∧ Refines st'.scope a' := by
  simp only [Ethos.execDatatypes, Run.ite_err, Run.bind_ok] at h
  obtain ⟨_, ⟨s1, p⟩, h1, h2⟩ := h
  obtain ⟨l0, a0, t0, b0⟩ := dtTypes_table xs ht
  obtain ⟨l1, a', t1, b1⟩ := dtBodies_table _ _ t0 h1
  exact ⟨a', ⟨by rw [l0] at l1; exact l1, b0 b1⟩, by rw [dtMarkAll_scope h2]; exact t1⟩

/-- every command other than `reset` has its effect on the bindings -/
theorem exec_effect {st st' : State} {c : Cmd} (hc : c ≠ .reset) (ht : Refines st.scope a) (h : exec b n st c = .ok st') :
    ∃ a', Effect b st a c a' ∧ Refines st'.scope a' := by
  have F := nextFrame
  cases c with
  | assume x f =>
    obtain ⟨G, h1, h2⟩ := assume_effect ht h
    exact ⟨_, ⟨G, h1, rfl⟩, h2⟩
  | assumePush x f =>
    obtain ⟨G, h1, h2⟩ := assume_effect ht h
    exact ⟨_, ⟨G, h1, rfl⟩, h2⟩
  | declareRule r => exact ⟨a, rfl, declareRule_table ht h⟩
  | step s => exact step_effect ht h
  | reset => exact absurd rfl hc
  | declareConst x ty at' =>
    simp only [Ethos.exec, Run.bind_ok, Run.map_ok] at h
    obtain ⟨⟨s1, t⟩, h1, ⟨s2, r⟩, h2, ⟨s3, v⟩, h3, h4⟩ := h
    subst h4
    obtain ⟨e1, rfl⟩ := declare_ok h3
    have t2 := (parseAttrs_on (parseType_on (On.refl ht) h1) h2).table
    exact ⟨_, ⟨_, F.trans (F.parseType h1) (F.parseAttrs h2), rfl⟩, refines_bind (by rw [e1]; exact t2) _ _⟩
  | declareFun x sorts ret =>
    simp only [Ethos.exec, Run.bind_ok, Run.map_ok] at h
    obtain ⟨⟨s1, t⟩, h1, ⟨s2, r⟩, h2, ⟨s3, v⟩, h3, h4⟩ := h
    subst h4
    obtain ⟨e1, rfl⟩ := declare_ok h3
    have t2 := (parseType_on (parseTypeList_on _ (On.refl ht) h1) h2).table
    exact ⟨_, ⟨_, F.trans (F.parseTypeList _ h1) (F.parseType h2), rfl⟩, refines_bind (by rw [e1]; exact t2) _ _⟩
  | declareParam x ps ret at' => exact declareParam_effect ht h
  | declareDatatype x d => exact datatype_effect ht h
  | declareDatatypes xs ds => exact datatypes_effect ht h
  | checkSatAssuming fs =>
    simp only [Ethos.exec, Run.map_ok] at h
    obtain ⟨⟨s1, t⟩, h1, h2⟩ := h
    cases h2
    exact ⟨a, rfl, (parseList_on (On.refl ht) h1).table⟩
  | declareConsts k ty =>
    simp only [Ethos.exec, Run.bind_ok] at h
    obtain ⟨⟨s1, t⟩, h1, d, h2, h3⟩ := h
    have t0 : Refines (st.push.bind (nm "eo::self") b.self).scope (up [(nm "eo::self", b.self)] a) := refines_bind (refines_push ht) _ _
    have t1 := (parseType_on (On.refl t0) h1).table
    exact ⟨a, rfl, (pop_table (st := { s1 with decls := d }) t1 h3).1⟩
  | declareSort x k =>
    simp only [Ethos.exec] at h
    cases h
    exact ⟨_, ⟨st.next, Nat.le_refl _, rfl⟩, refines_bind ht _ _⟩
  | defineConst x ty e =>
    simp only [Ethos.exec, Run.bind_ok, Run.map_ok] at h
    obtain ⟨⟨s1, t⟩, h1, ⟨s2, r⟩, h2, _, _, h4⟩ := h
    subst h4
    obtain ⟨_, _, h3, h4⟩ := parseType_cases h1
    obtain ⟨rfl, rfl⟩ := h4 rfl
    obtain ⟨g1, g2⟩ := parseExpr_elab _ (On.refl ht) h3
    obtain ⟨g3, g4⟩ := parseExpr_elab _ g1 h2
    exact ⟨_, ⟨_, _, _, _, g2, g4, rfl⟩, refines_bind g3.table _ _⟩
  | define x ps e ty => exact define_effect ht h
  | defineFun x ps ty e => exact defineFun_effect ht h
  | defineSort x ps ty => exact defineSort_effect ht h
  | program x ps args ret cases => exact program_effect ht h
  | assert f =>
    simp only [Ethos.exec, Run.bind_ok] at h
    obtain ⟨⟨s1, t⟩, h1, h2⟩ := h
    refine ⟨a, rfl, ?_⟩
    rw [addReferenceAssert_scope h2]
    exact (parseExpr_on (On.refl ht) (parseFormula_elab h1)).table
  | push k => simp only [Ethos.exec] at h; cases h; exact ⟨_, rfl, pushN_table k ht⟩
  | pop k =>
    obtain ⟨h1, h2⟩ := popN_table k ht h
    exact ⟨_, ⟨h1, rfl⟩, h2⟩
  | nop => simp only [Ethos.exec] at h; cases h; exact ⟨a, rfl, ht⟩
  | exit => simp only [Ethos.exec] at h; cases h; exact ⟨a, rfl, ht⟩
  | incl f => simp only [Ethos.exec] at h; cases h; exact ⟨a, rfl, ht⟩
  | reference f nf => simp only [Ethos.exec] at h; cases h; exact ⟨a, rfl, ht⟩

end
end Ethos.Props
