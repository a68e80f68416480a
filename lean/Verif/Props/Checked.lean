import Verif.Spec.Checked
import Verif.Props.Sound
/-
C62: assumed, asserted and concluded formulas are Boolean.  C63: declared types are types.
-/
namespace Ethos.Props
open Ethos Kind Spec

section
variable {b : Env} {n n0 : Nat} {es : List Event} {st0 st st' : State}

/-- only the table of names is changed -/
def ScopeOnly (st st' : State) : Prop := st' = { st with scope := st'.scope }

theorem scopeOnly : Frame ScopeOnly where
  refl _ := rfl
  trans {a b c} h1 h2 := by
    show c = { a with scope := c.scope }
    rw [h2, h1]
  bind _ _ _ := rfl
  push _ := rfl
  pop h := by
    simp only [State.pop, Run.map_ok] at h
    obtain ⟨_, _, rfl⟩ := h
    rfl

theorem typed_of {s : State} {t ty : Term} (h : ScopeOnly st s) (ht : s.typeCheck b n t = .ok ty) : Typed b st t ty := by
  simp only [State.typeCheck, Run.bind_ok, Run.lift_ok, Run.orErr_ok] at ht
  obtain ⟨q, ht, rfl⟩ := ht
  refine ⟨s.env b, ⟨s.scope, by rw [← h]⟩, n, ht⟩

theorem typeCheckAs_ok {s : State} {t ty : Term} {u : Unit} (h : s.typeCheckAs b n t ty = .ok u) : s.typeCheck b n t = .ok ty := by
  simp only [State.typeCheckAs, Run.bind_ok, Run.guard_ok] at h
  obtain ⟨t', h, e⟩ := h
  rw [h, of_decide_eq_true e]

theorem formula_bool {f : SExp} {s1 : State} {F : Term} (h : parseFormula b n f st = .ok (s1, F)) : Typed b st F tBool := by
  have hs := scopeOnly.parseFormula h
  simp only [parseFormula, Run.bind_ok, Run.map_ok] at h
  obtain ⟨⟨s2, t⟩, h1, u, h2, h3⟩ := h
  cases h3
  exact typed_of hs (typeCheckAs_ok h2)

/-- **C62** the formulas written in an accepted command are Boolean. -/
theorem C62_formulas {e : Event} (h : replayEvent b n st e = .ok st') {f : SExp} (hf : f ∈ formulas e) :
    ∃ s1 F, parseExpr b n f st = .ok (s1, F) ∧ Typed b st F tBool := by
  have key : ∀ {s1 F}, parseFormula b n f st = .ok (s1, F) → ∃ s1 F, parseExpr b n f st = .ok (s1, F) ∧ Typed b st F tBool :=
    fun h => ⟨_, _, parseFormula_elab h, formula_bool h⟩
  cases e with
  | enter g r nf => cases hf
  | skip g r nf => cases hf
  | cmd c =>
    have h : exec b n st c = .ok st' := h
    cases c with
    | assume x g =>
      simp only [formulas, List.mem_singleton] at hf
      subst hf
      obtain ⟨s1, F, h1, _⟩ := execAssume_ok h
      exact key h1
    | assumePush x g =>
      simp only [formulas, List.mem_singleton] at hf
      subst hf
      obtain ⟨s1, F, h1, _⟩ := execAssume_ok h
      exact key h1
    | assert g =>
      simp only [formulas, List.mem_singleton] at hf
      subst hf
      simp only [exec, Run.bind_ok] at h
      obtain ⟨p, h1, _⟩ := h
      exact key h1
    | step s =>
      simp only [formulas] at hf
      cases hc : s.conc with
      | none => rw [hc] at hf; cases hf
      | some g =>
        rw [hc] at hf
        simp only [Option.toList, List.mem_singleton] at hf
        subst hf
        obtain ⟨s1, proven, rule, s2, prems, s3, args, conc, ty, s4, _, h1, _⟩ := execStep_ok h
        rw [hc] at h1
        simp only [parseConc, Run.map_ok] at h1
        obtain ⟨p, h1, _⟩ := h1
        exact key h1
    | _ => cases hf

/-- **C62** a name that an accepted command binds to a proof proves a Boolean formula. -/
theorem C62_proofs {e : Event} (h : replayEvent b n st e = .ok st') {x : Name} (hx : Concludes e x) :
    ∃ F ty, st'.scope.get x = some (.node PROOF [F]) ∧ Typed b st F ty ∧ ty.kind = BOOL_TYPE := by
  have hget : ∀ (s : State) (F : Term), (s.bind x (mkProof F)).scope.get x = some (.node PROOF [F]) := by
    intro s F
    simp [State.bind, Scope.bind, Scope.get, mkProof]
  have key : ∀ {p f}, execAssume b n st x f p = .ok st' → ∃ F ty, st'.scope.get x = some (.node PROOF [F]) ∧ Typed b st F ty ∧ ty.kind = BOOL_TYPE := by
    intro p f h
    obtain ⟨s1, F, h1, h2⟩ := execAssume_ok h
    obtain ⟨rfl, _⟩ := addAssumption_ok h2
    exact ⟨F, tBool, hget _ _, formula_bool h1, rfl⟩
  rcases hx with ⟨f, rfl⟩ | ⟨f, rfl⟩ | ⟨s, rfl, rfl⟩
  · exact key h
  · exact key h
  · obtain ⟨s1, proven, rule, s2, prems, s3, args, conc, ty, s4, _, h1, _, h3, h4, _, h6, h7, _, h9, rfl⟩ := execStep_ok h
    refine ⟨conc, ty, hget _ _, ?_, h7⟩
    have e1 : ScopeOnly st s1 := scopeOnly.parseConc h1
    have e3 : ScopeOnly { s1 with used := rule :: s1.used } s3 := scopeOnly.trans (scopeOnly.parseList b n _ h3) (scopeOnly.parseList b n _ h4)
    simp only [State.typeCheck, Run.bind_ok, Run.lift_ok, Run.orErr_ok] at h6
    obtain ⟨q, h6, rfl⟩ := h6
    exact ⟨s3.env b, ⟨s3.scope, by rw [e3, e1]; rfl⟩, n, h6⟩

/-! ### C63 -/

theorem no_computation {t : Term} (h : t.evaluatable = false) : ∀ s, Sub s t → ¬ IsComputation s := by
  intro s hs hc
  have := (evaluatable_iff t).2 ⟨s, hs, .inl hc⟩
  rw [h] at this
  cases this

theorem checkType_ok {ae : Bool} {s : State} {t : Term} {u : Unit} (hs : ScopeOnly st s) (h : s.checkType b n ae t = .ok u) :
    ProperType b st t ∧ (ae = false → PlainType b st t) := by
  simp only [State.checkType, Run.bind_ok, Run.guard_ok] at h
  obtain ⟨_, h1, h2⟩ := h
  have ht := typed_of hs (typeCheckAs_ok h1)
  refine ⟨⟨ht, fun hc => no_computation ?_⟩, fun ha => ⟨ht, no_computation ?_⟩⟩
  · have := (closed_iff t).1 hc
    simpa [this] using h2
  · subst ha
    simpa using h2

theorem parseType_proper {ae : Bool} {e : SExp} {s1 : State} {t : Term} (h : parseType b n false ae e st = .ok (s1, t)) :
    ScopeOnly st s1 ∧ ProperType b st t ∧ (ae = false → PlainType b st t) := by
  have hs := scopeOnly.parseType h
  simp only [parseType, Run.bind_ok, Run.map_ok] at h
  obtain ⟨⟨s2, t'⟩, h1, u, h2, h3⟩ := h
  cases h3
  exact ⟨hs, checkType_ok hs h2⟩

theorem Typed.of {s : State} {t ty : Term} (hs : ScopeOnly st s) (h : Typed b s t ty) : Typed b st t ty := by
  obtain ⟨env, ⟨sc, rfl⟩, h⟩ := h
  exact ⟨_, ⟨sc, by rw [hs]⟩, h⟩

theorem parseTypeList_plain : ∀ (es : List SExp) {st s1 : State} {ts : List Term}, parseTypeList b n false es st = .ok (s1, ts) →
    ScopeOnly st s1 ∧ ts.length = es.length ∧ ∀ t ∈ ts, PlainType b st t
  | [], st, s1, ts, h => by simp only [parseTypeList] at h; cases h; exact ⟨rfl, rfl, by simp⟩
  | e :: es, st, s1, ts, h => by
    simp only [parseTypeList, Run.bind_ok, Run.map_ok] at h
    obtain ⟨⟨s2, t⟩, h1, ⟨s3, r⟩, h2, h3⟩ := h
    cases h3
    obtain ⟨e1, _, e2⟩ := parseType_proper h1
    obtain ⟨e3, e4, e5⟩ := parseTypeList_plain es h2
    refine ⟨scopeOnly.trans e1 e3, by simp [e4], ?_⟩
    intro u hu
    rcases List.mem_cons.1 hu with rfl | hu
    · exact e2 rfl
    · exact ⟨Typed.of e1 (e5 u hu).1, (e5 u hu).2⟩

theorem declare_type {x : Name} {ty : Term} {ck : Attr} {c : Option Term} {v : State × Term} (h : declare st x ty ck c = .ok v) :
    v.2 = .sym CONST st.next ∧ v.1.symType v.2 = some ty ∧ v.1.symName v.2 = x := by
  simp only [declare] at h
  split at h
  · cases h; exact ⟨rfl, by simp [State.mkSymbol], by simp [State.mkSymbol]⟩
  · split at h
    · cases h; exact ⟨rfl, by simp [State.mkSymbol], by simp [State.mkSymbol]⟩
    · cases h

theorem bind_get (s : State) (x : Name) (t : Term) : (s.bind x t).scope.get x = some t := by
  simp [State.bind, Scope.bind, Scope.get]

/-- **C63** `declare-const` binds its name to a symbol with a proper type, the one that is written. -/
theorem C63_const {x : Name} {ty : SExp} {a : List SAttr} (h : exec b n st (.declareConst x ty a) = .ok st') :
    ∃ t s1, st'.scope.get x = some (.sym CONST st.next) ∧ st'.symType (.sym CONST st.next) = some t ∧ parseExpr b n ty st = .ok (s1, t) ∧
      ProperType b st t := by
  simp only [exec, Run.bind_ok, Run.map_ok] at h
  obtain ⟨⟨s1, t⟩, h1, ⟨s2, ck, c⟩, h2, v, h3, rfl⟩ := h
  obtain ⟨e1, e2, _⟩ := parseType_proper h1
  have e3 : ScopeOnly s1 s2 := scopeOnly.parseAttrs h2
  have hn : s2.next = st.next := by rw [e3, e1]
  obtain ⟨e4, e5, _⟩ := declare_type h3
  rw [hn] at e4
  refine ⟨t, s1, ?_, ?_, ?_, e2⟩
  · rw [bind_get, e4]
  · show v.1.symType _ = _
    rw [← e4]; exact e5
  · simp only [parseType, Run.bind_ok, Run.map_ok] at h1
    obtain ⟨⟨s3, t'⟩, h1, u, _, h4⟩ := h1
    cases h4
    exact h1

/-- **C63** `declare-fun` binds its name to a symbol whose type is the function type of the types that are written: those of the
arguments contain no computation. -/
theorem C63_fun {x : Name} {sorts : List SExp} {ret : SExp} (h : exec b n st (.declareFun x sorts ret) = .ok st') :
    ∃ ts t, st'.scope.get x = some (.sym CONST st.next) ∧ st'.symType (.sym CONST st.next) = some (mkFunctionType ts t) ∧
      ts.length = sorts.length ∧ (∀ u ∈ ts, PlainType b st u) ∧ ProperType b st t := by
  simp only [exec, Run.bind_ok, Run.map_ok] at h
  obtain ⟨⟨s1, ts⟩, h1, ⟨s2, t⟩, h2, v, h3, rfl⟩ := h
  obtain ⟨e1, e2, e3⟩ := parseTypeList_plain _ h1
  obtain ⟨k1, k2, _⟩ := parseType_proper h2
  have hn : s2.next = st.next := by rw [k1, e1]
  obtain ⟨e4, e5, _⟩ := declare_type h3
  rw [hn] at e4
  refine ⟨ts, t, ?_, ?_, e2, e3, Typed.of e1 k2.1, k2.2⟩
  · rw [bind_get, e4]
  · show v.1.symType _ = _
    rw [← e4]; exact e5

/-- **C63** `define-const` binds its name to a term of the type that is written, which is proper. -/
theorem C63_define_const {x : Name} {ty e : SExp} (h : exec b n st (.defineConst x ty e) = .ok st') :
    ∃ t v, st'.scope.get x = some v ∧ ProperType b st t ∧ Typed b st v t := by
  simp only [exec, Run.bind_ok, Run.map_ok] at h
  obtain ⟨⟨s1, t⟩, h1, ⟨s2, v⟩, h2, u, h3, rfl⟩ := h
  obtain ⟨e1, e2, _⟩ := parseType_proper h1
  exact ⟨t, v, bind_get _ _ _, e2, typed_of (scopeOnly.trans e1 (scopeOnly.parseExpr b n _ h2)) (typeCheckAs_ok h3)⟩

end
/-- C62: an assumption of `(=> p q)`, and of the type `Bool`, which is not accepted -/
example : ((exRun (mpCmds.take 5)).bind fun st => replayEvent exB 10 st (.cmd (.assume (nm "h2") (ap "=>" [sy "p", sy "q"])))).map
      (fun st => st.scope.get (nm "h2")) = .ok (some (.node PROOF [.node APPLY [.node APPLY [.sym CONST 10, .sym CONST 11], .sym CONST 12]])) ∧
    ((exRun (mpCmds.take 5)).bind fun st => replayEvent exB 10 st (.cmd (.assume (nm "h2") .bool))).map (fun st => st.scope.get (nm "h2")) = .err := by
  decide +kernel

/-- C63: a constant of type `Bool`, one whose type is a formula, and one whose type is the application of a program that does not
evaluate: only the first declaration is accepted -/
example : ((exRun mpCmds).bind fun st => exec exB 10 st (.declareConst (nm "c") .bool [])).map (fun st => st.scope.get (nm "c")) =
      .ok (some (.sym CONST 22)) ∧
    ((exRun mpCmds).bind fun st => exec exB 10 st (.declareConst (nm "c") (sy "p") [])).map (fun st => st.scope.get (nm "c")) = .err ∧
    ((exRun (mpCmds ++ [.program (nm "f") [] [.bool] .type none])).bind fun st => exec exB 10 st (.declareConst (nm "c") (ap "f" [sy "p"]) [])).map
      (fun st => st.scope.get (nm "c")) = .err := by
  decide +kernel

/-- C63: a function and a constant that is defined -/
example : ((exRun mpCmds).bind fun st => exec exB 10 st (.declareFun (nm "c") [.bool, .bool] .bool)).map (fun st => st.symType (.sym CONST 22)) =
      .ok (some (mkFunctionType [tBool, tBool] tBool)) ∧
    ((exRun mpCmds).bind fun st => exec exB 10 st (.defineConst (nm "c") .bool (sy "p"))).map (fun st => st.scope.get (nm "c")) =
      .ok (some (.sym CONST 11)) := by
  decide +kernel

end Ethos.Props
