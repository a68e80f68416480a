import Verif.Model.Command
/-
Which parts of the state the parser and the commands change.
-/
namespace Ethos.Props
open Ethos Kind

/-! ### Outcomes -/

theorem Run.bind_ok {α β : Type} {r : Run α} {f : α → Run β} {y : β} :
    r.bind f = .ok y ↔ ∃ x, r = .ok x ∧ f x = .ok y := by
  cases r <;> simp [Run.bind]

theorem Run.map_ok {α β : Type} {r : Run α} {f : α → β} {y : β} :
    r.map f = .ok y ↔ ∃ x, r = .ok x ∧ f x = y := by
  cases r <;> simp [Run.map]

theorem Run.lift_ok {α : Type} {r : Out α} {y : α} : Run.lift r = .ok y ↔ r = .ok y := by
  cases r <;> simp [Run.lift]

theorem Run.orErr_ok {α : Type} {r : Option α} {y : α} : Run.orErr r = .ok y ↔ r = some y := by
  cases r <;> simp [Run.orErr]

theorem Run.guard_ok {b : Bool} {y : Unit} : Run.guard b = .ok y ↔ b = true := by
  cases b <;> simp [Run.guard]

theorem Run.ite_err {α : Type} {p : Prop} [Decidable p] {r : Run α} {y : α} :
    (if p then Run.err else r) = .ok y ↔ ¬ p ∧ r = .ok y := by
  by_cases h : p <;> simp [h]

theorem Run.ite_err' {α : Type} {p : Prop} [Decidable p] {r : Run α} {y : α} :
    (if p then r else Run.err) = .ok y ↔ p ∧ r = .ok y := by
  by_cases h : p <;> simp [h]

/-! ### Changes of the state -/

/-- A reflexive and transitive relation that holds between a state and the one after an update the parser and most commands
are made of. -/
structure Frame (R : State → State → Prop) : Prop where
  refl : ∀ st, R st st
  trans : ∀ {a b c}, R a b → R b c → R a c
  bind : ∀ (st : State) x t, R st (st.bind x t)
  push : ∀ st : State, R st st.push
  pop : ∀ {st st' : State}, st.pop = .ok st' → R st st'

namespace Frame
variable {R : State → State → Prop} (F : Frame R)
include F

theorem bindAll (l : List (Name × Term)) : ∀ st : State, R st (st.bindAll l) := by
  induction l with
  | nil => exact F.refl
  | cons p l ih => exact fun st => F.trans (F.bind st p.1 p.2) (ih _)

mutual
theorem parseExpr (b : Env) (n : Nat) : ∀ (e : SExp) {st st' : State} {t : Term}, parseExpr b n e st = .ok (st', t) → R st st'
  | .sym x, st, st', t, h => by
    simp only [Ethos.parseExpr] at h
    split at h
    · cases h
    · split at h
      · cases h
      · cases h; exact F.refl _
  | .lit l, st, st', t, h => by simp only [Ethos.parseExpr] at h; cases h; exact F.refl _
  | .type, st, st', t, h => by simp only [Ethos.parseExpr] at h; cases h; exact F.refl _
  | .bool, st, st', t, h => by simp only [Ethos.parseExpr] at h; cases h; exact F.refl _
  | .app x args, st, st', t, h => by
    simp only [Ethos.parseExpr] at h
    split at h
    · cases h
    · simp only [Run.ite_err', Run.bind_ok, Run.map_ok] at h
      obtain ⟨_, ⟨s1, l⟩, h1, u, h2, h3⟩ := h
      cases h3
      exact parseList b n args h1
  | .appq e args, st, st', t, h => by
    simp only [Ethos.parseExpr, Run.ite_err', Run.bind_ok, Run.map_ok] at h
    obtain ⟨_, ⟨s1, u⟩, h1, ⟨s2, l2⟩, h3, w, h4, h5⟩ := h
    cases h5
    exact F.trans (parseExpr b n e h1) (parseList b n args h3)
  | .binder x xs es args, st, st', t, h => by
    simp only [Ethos.parseExpr] at h
    split at h
    · cases h
    · simp only [Run.ite_err] at h
      obtain ⟨_, h⟩ := h
      split at h
      · simp only [Run.bind_ok, Run.map_ok] at h
        obtain ⟨⟨s1, l⟩, h1, u, h2, ⟨s2, l2⟩, h3, w, h4, s3, h5, h6⟩ := h
        cases h6
        exact F.trans (F.push _) (F.trans (parseVars b n xs es h1) (F.trans (parseList b n args h3) (F.pop h5)))
      · simp only [Run.ite_err', Run.bind_ok, Run.map_ok] at h
        obtain ⟨_, ⟨s1, l⟩, h1, v, h3, ⟨s2, l2⟩, h4, w, h5, s3, h6, h7⟩ := h
        cases h7
        exact F.trans (F.push _) (F.trans (parseLets b n xs es h1) (F.trans (F.bindAll _ _) (F.trans (parseList b n args h4) (F.pop h6))))
  | .letE xs es body, st, st', t, h => by
    simp only [Ethos.parseExpr, Run.bind_ok, Run.map_ok] at h
    obtain ⟨⟨s1, l⟩, h1, ⟨s2, u⟩, h2, s3, h3, h4⟩ := h
    cases h4
    exact F.trans (parseList b n es h1) (F.trans (F.push _) (F.trans (F.bindAll _ _) (F.trans (parseExpr b n body h2) (F.pop h3))))
  | .annot e, st, st', t, h => by
    simp only [Ethos.parseExpr] at h
    exact parseExpr b n e h
theorem parseList (b : Env) (n : Nat) : ∀ (es : List SExp) {st st' : State} {ts : List Term}, parseList b n es st = .ok (st', ts) → R st st'
  | [], st, st', t, h => by simp only [Ethos.parseList] at h; cases h; exact F.refl _
  | e :: es, st, st', t, h => by
    simp only [Ethos.parseList, Run.bind_ok, Run.map_ok] at h
    obtain ⟨⟨s1, l⟩, h1, ⟨s2, u⟩, h2, h3⟩ := h
    cases h3
    exact F.trans (parseExpr b n e h1) (parseList b n es h2)
theorem parseVars (b : Env) (n : Nat) : ∀ (xs : List Name) (es : List SExp) {st st' : State} {ts : List Term}, parseVars b n xs es st = .ok (st', ts) → R st st'
  | [], es, st, st', ts, h => by simp only [Ethos.parseVars] at h; cases h; exact F.refl _
  | x :: xs, [], st, st', ts, h => by simp only [Ethos.parseVars] at h; cases h; exact F.refl _
  | x :: xs, e :: es, st, st', ts, h => by
    simp only [Ethos.parseVars, Run.bind_ok, Run.map_ok] at h
    obtain ⟨⟨s1, l⟩, h1, _, _, v, h2, ⟨s2, u⟩, h3, h4⟩ := h
    cases h4
    exact F.trans (parseExpr b n e h1) (F.trans (F.bind _ _ _) (parseVars b n xs es h3))
theorem parseLets (b : Env) (n : Nat) : ∀ (xs : List Name) (es : List SExp) {st st' : State} {ls : List (Name × Term × Term)},
    parseLets b n xs es st = .ok (st', ls) → R st st'
  | [], es, st, st', ts, h => by simp only [Ethos.parseLets] at h; cases h; exact F.refl _
  | x :: xs, [], st, st', ts, h => by simp only [Ethos.parseLets] at h; cases h; exact F.refl _
  | x :: xs, e :: es, st, st', ts, h => by
    simp only [Ethos.parseLets, Run.bind_ok, Run.map_ok] at h
    obtain ⟨⟨s1, l⟩, h1, tt, h2, v, h3, ⟨s2, u⟩, h4, h5⟩ := h
    cases h5
    exact F.trans (parseExpr b n e h1) (parseLets b n xs es h4)
end

theorem parseType {b : Env} {n : Nat} {aq ae : Bool} {e : SExp} {st st' : State} {t : Term}
    (h : parseType b n aq ae e st = .ok (st', t)) : R st st' := by
  have ho : ∀ {st'' : State} {u : Term}, ((Ethos.parseExpr b n e st).bind fun p => (p.1.checkType b n ae p.2).map fun _ => p) = .ok (st'', u) → R st st'' := by
    intro st'' u h
    simp only [Run.bind_ok, Run.map_ok] at h
    obtain ⟨⟨s1, l⟩, h1, _, _, h3⟩ := h
    cases h3
    exact F.parseExpr b n e h1
  simp only [Ethos.parseType] at h
  split at h
  · split at h
    · simp only [Run.bind_ok, Run.ite_err'] at h
      obtain ⟨⟨s1, l⟩, h1, _, h2⟩ := h
      cases h2
      exact F.parseExpr b n _ h1
    · exact ho h
  · exact ho h

theorem parseTypeList {b : Env} {n : Nat} {aq : Bool} : ∀ (es : List SExp) {st st' : State} {ts : List Term},
    parseTypeList b n aq es st = .ok (st', ts) → R st st'
  | [], st, st', t, h => by simp only [Ethos.parseTypeList] at h; cases h; exact F.refl _
  | e :: es, st, st', t, h => by
    simp only [Ethos.parseTypeList, Run.bind_ok, Run.map_ok] at h
    obtain ⟨⟨s1, l⟩, h1, ⟨s2, u⟩, h2, h3⟩ := h
    cases h3
    exact F.trans (F.parseType h1) (parseTypeList es h2)

theorem parseFormula {b : Env} {n : Nat} {e : SExp} {st st' : State} {t : Term}
    (h : parseFormula b n e st = .ok (st', t)) : R st st' := by
  simp only [Ethos.parseFormula, Run.bind_ok, Run.map_ok] at h
  obtain ⟨⟨s1, l⟩, h1, _, _, h3⟩ := h
  cases h3
  exact F.parseExpr b n e h1

theorem parsePairs {b : Env} {n : Nat} : ∀ (es : List (SExp × SExp)) {st st' : State} {ts : List (Term × Term)},
    parsePairs b n es st = .ok (st', ts) → R st st'
  | [], st, st', t, h => by simp only [Ethos.parsePairs] at h; cases h; exact F.refl _
  | (x, y) :: es, st, st', t, h => by
    simp only [Ethos.parsePairs, Run.bind_ok, Run.map_ok] at h
    obtain ⟨⟨s1, l⟩, h1, ⟨s2, u⟩, h2, ⟨s3, w⟩, h3, h4⟩ := h
    cases h4
    exact F.trans (F.parseExpr b n x h1) (F.trans (F.parseExpr b n y h2) (parsePairs es h3))

theorem parseOpt {b : Env} {n : Nat} {e : Option SExp} {st st' : State} {t : Option Term}
    (h : parseOpt b n e st = .ok (st', t)) : R st st' := by
  cases e with
  | none => simp only [Ethos.parseOpt] at h; cases h; exact F.refl _
  | some e =>
    simp only [Ethos.parseOpt, Run.map_ok] at h
    obtain ⟨⟨s1, l⟩, h1, h3⟩ := h
    cases h3
    exact F.parseExpr b n e h1

theorem parsePremises {b : Env} {n : Nat} {p : SPremises} {st st' : State} {t}
    (h : parsePremises b n p st = .ok (st', t)) : R st st' := by
  cases p with
  | each es =>
    simp only [Ethos.parsePremises, Run.map_ok] at h
    obtain ⟨⟨s1, l⟩, h1, h3⟩ := h
    cases h3
    exact F.parseList b n es h1
  | plist x y =>
    simp only [Ethos.parsePremises, Run.map_ok, Run.bind_ok] at h
    obtain ⟨⟨s1, l⟩, h1, ⟨s2, u⟩, h2, h3⟩ := h
    cases h3
    exact F.trans (F.parseExpr b n x h1) (F.parseExpr b n y h2)

theorem parseConc {b : Env} {n : Nat} {e : Option SExp} {st st' : State} {t : Option Term}
    (h : parseConc b n e st = .ok (st', t)) : R st st' := by
  cases e with
  | none => simp only [Ethos.parseConc] at h; cases h; exact F.refl _
  | some e =>
    simp only [Ethos.parseConc, Run.map_ok] at h
    obtain ⟨⟨s1, l⟩, h1, h3⟩ := h
    cases h3
    exact F.parseFormula h1

theorem parseAttr {b : Env} {n : Nat} {a : SAttr} {st st' : State} {t}
    (h : parseAttr b n a st = .ok (st', t)) : R st st' := by
  simp only [Ethos.parseAttr] at h
  split at h
  · cases h; exact F.refl _
  · cases h; exact F.refl _
  · simp only [Run.map_ok, Run.bind_ok] at h
    obtain ⟨⟨s1, l⟩, h1, ⟨s2, u⟩, h2, h3⟩ := h
    cases h3
    exact F.trans (F.parseExpr b n _ h1) (F.parseExpr b n _ h2)
  · simp only [Run.ite_err', Run.map_ok] at h
    obtain ⟨_, ⟨s1, l⟩, h1, h3⟩ := h
    cases h3
    exact F.parseExpr b n _ h1
  · cases h

theorem parseAttrList {b : Env} {n : Nat} : ∀ (as : List SAttr) {st st' : State} {t}, parseAttrList b n as st = .ok (st', t) → R st st'
  | [], st, st', t, h => by simp only [Ethos.parseAttrList] at h; cases h; exact F.refl _
  | a :: as, st, st', t, h => by
    simp only [Ethos.parseAttrList, Run.bind_ok, Run.map_ok] at h
    obtain ⟨⟨s1, l⟩, h1, ⟨s2, u⟩, h2, h3⟩ := h
    cases h3
    exact F.trans (F.parseAttr h1) (parseAttrList as h2)

theorem parseAttrs {b : Env} {n : Nat} {as : List SAttr} {st st' : State} {t}
    (h : parseAttrs b n as st = .ok (st', t)) : R st st' := by
  simp only [Ethos.parseAttrs, Run.map_ok] at h
  obtain ⟨⟨s1, l⟩, h1, h3⟩ := h
  cases h3
  exact F.parseAttrList as h1

end Frame

/-- further updates: new symbols, attributes and type rules of literals -/
structure SymFrame (R : State → State → Prop) : Prop extends Frame R where
  sym : ∀ (st : State) k x ty, R st (st.mkSymbol k x ty).1
  mark : ∀ (st : State) v a c, R st { st with decls := (st.decls.markConstructorKind v a c).1 }
  lit : ∀ {st : State} {k t d}, st.decls.setLiteralTypeRule k t = .ok d → R st { st with decls := d }

namespace SymFrame
variable {R : State → State → Prop} (F : SymFrame R)
include F

theorem paramAttrs {b : Env} {n : Nat} {rich : Bool} {v : Term} : ∀ (as : List PAttr) {st st' : State},
    paramAttrs b n rich v as st = .ok st' → R st st'
  | [], st, st', h => by simp only [Ethos.paramAttrs] at h; cases h; exact F.refl _
  | .list :: as, st, st', h => by
    simp only [Ethos.paramAttrs] at h
    exact F.trans (F.mark _ _ _ _) (paramAttrs as h)
  | .restrict e :: as, st, st', h => by
    simp only [Ethos.paramAttrs, Run.ite_err', Run.bind_ok] at h
    obtain ⟨_, ⟨s1, t⟩, h1, h2⟩ := h
    exact F.trans (F.parseExpr b n e h1) (paramAttrs as h2)
  | .implicit :: as, st, st', h => by simp only [Ethos.paramAttrs, Run.ite_err'] at h; exact paramAttrs as h.2
  | .opq :: as, st, st', h => by simp only [Ethos.paramAttrs, Run.ite_err'] at h; exact paramAttrs as h.2
  | .synt :: as, st, st', h => by simp only [Ethos.paramAttrs, Run.ite_err'] at h; exact paramAttrs as h.2

theorem bindParams {b : Env} {n : Nat} {rich : Bool} : ∀ (vs : List SParam) {st st' : State} {t}, bindParams b n rich vs st = .ok (st', t) → R st st'
  | [], st, st', t, h => by simp only [Ethos.bindParams] at h; cases h; exact F.refl _
  | v :: vs, st, st', t, h => by
    simp only [Ethos.bindParams, Run.bind_ok, Run.map_ok] at h
    obtain ⟨⟨s1, l⟩, h1, s2, h2, ⟨s3, u⟩, h3, h4⟩ := h
    cases h4
    exact F.trans (F.parseType h1) (F.trans (F.sym s1 PARAM v.name l) (F.trans (F.bind _ v.name (s1.mkSymbol PARAM v.name l).2)
      (F.trans (F.paramAttrs _ h2) (bindParams vs h3))))

theorem bindRuleParams {b : Env} {n : Nat} {vs : List SParam} {st st' : State} (h : bindRuleParams b n vs st = .ok st') : R st st' := by
  simp only [Ethos.bindRuleParams, Run.map_ok] at h
  obtain ⟨⟨s1, l⟩, h1, h2⟩ := h
  cases h2
  exact F.bindParams vs h1

theorem defineProgram (st : State) (v : Term) (p : Option Term) : R st { st with decls := st.decls.defineProgram v p } := by
  cases p with
  | none => exact F.refl _
  | some p => exact F.mark _ _ _ _

theorem declare {st : State} {x : Name} {ty : Term} {ck : Attr} {c : Option Term} {st' : State} {t : Term}
    (h : declare st x ty ck c = .ok (st', t)) : R st st' := by
  simp only [Ethos.declare] at h
  split at h
  · cases h; exact F.sym _ _ _ _
  · simp only [Run.ite_err'] at h
    obtain ⟨_, h⟩ := h
    cases h
    exact F.trans (F.sym st CONST x ty) (F.mark _ _ _ _)

theorem mkDisambiguatedType {b : Env} {n : Nat} {st : State} {d r : Term} {x : Name} {st' : State} {t : Term}
    (h : mkDisambiguatedType b n st d r x = .ok (st', t)) : R st st' := by
  simp only [Ethos.mkDisambiguatedType, Run.bind_ok, Run.map_ok] at h
  obtain ⟨u, h1, v, h2, w, h3, h4⟩ := h
  cases h4
  exact F.trans (F.sym st _ _ _) (F.trans (F.defineProgram _ _ _) (F.sym _ _ _ _))

theorem disambiguate {b : Env} {n : Nat} {st : State} {x : Name} {t : Term} {op : List Term} {ck : Attr} {st' : State} {r}
    (h : disambiguate b n st x t op ck = .ok (st', r)) : R st st' := by
  simp only [Ethos.disambiguate] at h
  split at h
  · cases h; exact F.refl _
  · simp only [Run.ite_err, Run.map_ok] at h
    obtain ⟨_, ⟨s1, l⟩, h1, h2⟩ := h
    cases h2
    exact F.mkDisambiguatedType h1

theorem execDeclareParam {b : Env} {n : Nat} {st : State} {x : Name} {ps : List SParam} {ret : SExp} {a : List SAttr} {st' : State}
    (h : execDeclareParam b n st x ps ret a = .ok st') : R st st' := by
  simp only [Ethos.execDeclareParam, Run.bind_ok, Run.map_ok] at h
  obtain ⟨⟨s1, l1⟩, h1, ⟨s2, l2⟩, h2, ⟨s3, l3⟩, h3, tt, h4, ⟨s5, l5⟩, h5, e, h6, ⟨s7, l7⟩, h7, s8, h8, h9⟩ := h
  cases h9
  exact F.trans (F.push _) (F.trans (F.bindParams _ h1) (F.trans (F.parseType h2) (F.trans (F.parseAttrs h3)
    (F.trans (F.disambiguate h5) (F.trans (F.declare h7) (F.trans (F.pop h8) (F.bind _ _ _)))))))

theorem ruleArgTypes (pty : Term) : ∀ (as : List Term) (i : Nat) (st : State), R st (ruleArgTypes pty as i st).1
  | [], _, st => F.refl _
  | a :: as, i, st => by
    simp only [Ethos.ruleArgTypes]
    refine F.trans ?_ (ruleArgTypes pty as _ _)
    split
    · exact F.refl _
    · exact F.sym _ _ _ _

theorem ruleProg {b : Env} {n : Nat} {st : State} {x : Name} {as : List Term} {ret : Term} {st' : State} {t : Term}
    (h : ruleProg b n st x as ret = .ok (st', t)) : R st st' := by
  cases as with
  | nil =>
    simp only [Ethos.ruleProg, Run.ite_err] at h
    obtain ⟨_, h⟩ := h
    cases h; exact F.refl _
  | cons a as =>
    simp only [Ethos.ruleProg, Run.bind_ok, Run.ite_err', Run.map_ok] at h
    obtain ⟨u, h1, _, v, h2, h3⟩ := h
    cases h3
    exact F.trans (F.ruleArgTypes _ _ _ _) (F.trans (F.sym _ PROGRAM_CONST _ _) (F.defineProgram _ _ _))

theorem defineParams {b : Env} {n : Nat} {ps : List SParam} {st st' : State} {t} (h : defineParams b n ps st = .ok (st', t)) : R st st' := by
  simp only [Ethos.defineParams, Run.bind_ok] at h
  obtain ⟨⟨s1, l⟩, h1, h⟩ := h
  split at h
  · simp only [Run.map_ok] at h
    obtain ⟨s2, h2, h3⟩ := h
    cases h3
    exact F.trans (F.push _) (F.trans (F.bindParams _ h1) (F.trans (F.pop h2) (F.trans (F.push _) (F.bindAll _ _))))
  · cases h
    exact F.trans (F.push _) (F.bindParams _ h1)

theorem checkTypeAttrs {b : Env} {n : Nat} {e : Term} : ∀ (tys : List SExp) {st st' : State}, checkTypeAttrs b n e tys st = .ok st' → R st st'
  | [], st, st', h => by simp only [Ethos.checkTypeAttrs] at h; cases h; exact F.refl _
  | ty :: tys, st, st', h => by
    simp only [Ethos.checkTypeAttrs, Run.bind_ok] at h
    obtain ⟨⟨s1, l⟩, h1, _, _, h2⟩ := h
    exact F.trans (F.parseExpr b n ty h1) (checkTypeAttrs tys h2)

theorem execDefine {b : Env} {n : Nat} {st : State} {x : Name} {ps : List SParam} {e : SExp} {tys : List SExp} {st' : State}
    (h : execDefine b n st x ps e tys = .ok st') : R st st' := by
  simp only [Ethos.execDefine, Run.bind_ok, Run.map_ok] at h
  obtain ⟨⟨s1, l⟩, h1, ⟨s2, u⟩, h2, s3, h3, s4, h4, h5⟩ := h
  cases h5
  exact F.trans (F.defineParams h1) (F.trans (F.parseExpr b n e h2) (F.trans (F.checkTypeAttrs tys h3) (F.trans (F.pop h4) (F.bind _ _ _))))

theorem sortParams (ps : List Name) : ∀ (p : State × List Term), R p.1 (ps.foldl (fun (p : State × List Term) y =>
    let q := p.1.mkSymbol PARAM y tType
    (q.1.bind y q.2, p.2 ++ [q.2])) p).1 := by
  induction ps with
  | nil => exact fun p => F.refl _
  | cons y ps ih =>
    intro p
    exact F.trans (F.trans (F.sym p.1 PARAM y tType) (F.bind _ y (p.1.mkSymbol PARAM y tType).2))
      (ih ((p.1.mkSymbol PARAM y tType).1.bind y (p.1.mkSymbol PARAM y tType).2, p.2 ++ [(p.1.mkSymbol PARAM y tType).2]))

theorem typeParams (ps : List Name) (st : State) : R st (typeParams ps st).1 := F.sortParams ps (st, [])

theorem pushIf (c : Bool) (st : State) : R st (if c then st else st.push) := by
  split
  · exact F.refl _
  · exact F.push _

theorem dtSels {b : Env} {n : Nat} {dt : Term} : ∀ (l : List (Name × SExp)) {st st' : State} {r}, dtSels b n dt l st = .ok (st', r) → R st st'
  | [], st, st', r, h => by simp only [Ethos.dtSels] at h; cases h; exact F.refl _
  | (x, e) :: l, st, st', r, h => by
    simp only [Ethos.dtSels, Run.bind_ok, Run.map_ok] at h
    obtain ⟨⟨s1, t⟩, h1, ⟨s2, u⟩, h2, h3⟩ := h
    cases h3
    exact F.trans (F.parseType h1) (F.trans (F.sym s1 CONST x _) (F.trans (F.sym _ CONST (nm "update-" ++ x) _) (dtSels l h2)))

theorem dtConsType {b : Env} {n : Nat} {st st' : State} {dt : Term} {ps types : List Term} {x : Name} {r}
    (h : dtConsType b n st dt ps types x = .ok (st', r)) : R st st' := by
  simp only [Ethos.dtConsType] at h
  split at h
  · cases h; exact F.refl _
  · split at h
    · cases h; exact F.refl _
    · simp only [Run.map_ok] at h
      obtain ⟨⟨s1, l⟩, h1, h2⟩ := h
      cases h2
      exact F.mkDisambiguatedType h1

theorem dtCtors {b : Env} {n : Nat} {dt : Term} {ps : List Term} : ∀ (l : List SCons) {st st' : State} {r}, dtCtors b n dt ps l st = .ok (st', r) → R st st'
  | [], st, st', r, h => by simp only [Ethos.dtCtors] at h; cases h; exact F.refl _
  | c :: l, st, st', r, h => by
    simp only [Ethos.dtCtors, Run.bind_ok, Run.map_ok] at h
    obtain ⟨⟨s1, p⟩, h1, ⟨s2, t⟩, h2, ⟨s3, q⟩, h3, h4⟩ := h
    cases h4
    exact F.trans (F.dtSels _ h1) (F.trans (F.dtConsType h2) (F.trans (F.sym s2 CONST c.name _)
      (F.trans (F.sym _ CONST (nm "is-" ++ c.name) _) (dtCtors l h3))))

theorem dtType {x : Name} {pre : Option (Term × Nat)} {k : Nat} {st st' : State} {t : Term} (h : dtType x pre k st = .ok (st', t)) : R st st' := by
  simp only [Ethos.dtType] at h
  split at h
  · cases h
    exact F.trans (F.sym st CONST x _) (F.bind _ _ _)
  · simp only [Run.ite_err'] at h
    obtain ⟨_, h⟩ := h
    cases h; exact F.refl _

theorem dtBody {b : Env} {n : Nat} {x : Name} {pre : Option (Term × Nat)} {d : SDt} {st st' : State} {r}
    (h : dtBody b n x pre d st = .ok (st', r)) : R st st' := by
  simp only [Ethos.dtBody, Run.bind_ok, Run.map_ok] at h
  obtain ⟨⟨s1, t⟩, h1, dt, h2, ⟨s3, c⟩, h3, s4, h4, h5⟩ := h
  cases h5
  have h6 : R s3 s4 := by
    split at h4
    · cases h4; exact F.refl _
    · exact F.pop h4
  exact F.trans (F.pushIf _ st) (F.trans (F.typeParams d.params _) (F.trans (F.dtType h1) (F.trans (F.dtCtors _ h3) (F.trans h6 (F.bindAll _ _)))))

theorem dtBodies {b : Env} {n : Nat} : ∀ (xs : List (Name × Term × Nat)) (ds : List SDt) {st st' : State} {r}, dtBodies b n xs ds st = .ok (st', r) → R st st'
  | [], [], st, st', r, h => by simp only [Ethos.dtBodies] at h; cases h; exact F.refl _
  | _ :: _, [], st, st', r, h => by simp only [Ethos.dtBodies] at h; cases h; exact F.refl _
  | [], _ :: _, st, st', r, h => by simp only [Ethos.dtBodies] at h; cases h
  | (x, t) :: xs, d :: ds, st, st', r, h => by
    simp only [Ethos.dtBodies, Run.bind_ok, Run.map_ok] at h
    obtain ⟨⟨s1, t⟩, h1, ⟨s2, u⟩, h2, h3⟩ := h
    cases h3
    exact F.trans (F.dtBody h1) (dtBodies xs ds h2)

theorem dtTypes : ∀ (xs : List (Name × Nat)) (st : State), R st (dtTypes xs st).1
  | [], st => F.refl _
  | (x, k) :: xs, st => F.trans (F.sym st CONST x _) (F.trans (F.bind _ _ _) (dtTypes xs _))

theorem dtMarkCons {b : Env} {n : Nat} : ∀ (l : List (Term × List Term × Bool)) {st st' : State}, dtMarkCons b n l st = .ok st' → R st st'
  | [], st, st', h => by simp only [Ethos.dtMarkCons] at h; cases h; exact F.refl _
  | (c, sels, amb) :: l, st, st', h => by
    simp only [Ethos.dtMarkCons, Run.bind_ok] at h
    obtain ⟨t, _, h2⟩ := h
    exact F.trans (F.mark _ _ _ _) (dtMarkCons l h2)

theorem dtMark {b : Env} {n : Nat} : ∀ (l : List (Term × List (Term × List Term × Bool))) {st st' : State}, dtMark b n l st = .ok st' → R st st'
  | [], st, st', h => by simp only [Ethos.dtMark] at h; cases h; exact F.refl _
  | (c, cs) :: l, st, st', h => by
    simp only [Ethos.dtMark, Run.bind_ok] at h
    obtain ⟨t, _, h2⟩ := h
    exact F.trans (F.mark _ _ _ _) (dtMark l h2)

theorem dtMarkAll {b : Env} {n : Nat} {l : List (Term × List (Term × List Term × Bool))} {st st' : State} (h : dtMarkAll b n l st = .ok st') : R st st' := by
  simp only [Ethos.dtMarkAll, Run.bind_ok] at h
  obtain ⟨s1, h1, h2⟩ := h
  exact F.trans (F.dtMark l h1) (F.dtMarkCons _ h2)

theorem execDatatype {b : Env} {n : Nat} {st st' : State} {x : Name} {d : SDt} (h : execDatatype b n st x d = .ok st') : R st st' := by
  simp only [Ethos.execDatatype, Run.bind_ok] at h
  obtain ⟨⟨s1, p⟩, h1, h2⟩ := h
  exact F.trans (F.dtBody h1) (F.dtMarkAll h2)

theorem execDatatypes {b : Env} {n : Nat} {st st' : State} {xs : List (Name × Nat)} {ds : List SDt} (h : execDatatypes b n st xs ds = .ok st') : R st st' := by
  simp only [Ethos.execDatatypes, Run.ite_err, Run.bind_ok] at h
  obtain ⟨_, ⟨s1, p⟩, h1, h2⟩ := h
  exact F.trans (F.dtTypes xs st) (F.trans (F.dtBodies _ _ h1) (F.dtMarkAll h2))

theorem execDefineSort {b : Env} {n : Nat} {st : State} {x : Name} {ps : List Name} {ty : SExp} {st' : State}
    (h : execDefineSort b n st x ps ty = .ok st') : R st st' := by
  simp only [Ethos.execDefineSort, Run.bind_ok] at h
  obtain ⟨⟨s1, t⟩, h1, h⟩ := h
  have h0 := F.trans (F.typeParams ps (if ps.isEmpty then st else st.push)) (F.parseType h1)
  have h3 := F.trans (F.pushIf _ st) h0
  split at h
  · cases h; exact F.trans h3 (F.bind _ _ _)
  · simp only [Run.map_ok] at h
    obtain ⟨s2, h4, h5⟩ := h
    cases h5
    exact F.trans h3 (F.trans (F.pop h4) (F.bind _ _ _))

theorem execProgram {b : Env} {n : Nat} {st : State} {x : Name} {ps : List SParam} {args : List SExp} {ret : SExp}
    {cases : Option (List (SExp × SExp))} {st' : State} (h : execProgram b n st x ps args ret cases = .ok st') : R st st' := by
  simp only [Ethos.execProgram, Run.bind_ok, Run.map_ok, Run.ite_err] at h
  obtain ⟨s1, h1, ⟨s2, l2⟩, h2, ⟨s3, t3⟩, h3, _, ⟨s4, v, w⟩, h4, ⟨s5, bd⟩, h5, s6, h6, h7⟩ := h
  subst h7
  have hv : R s3 s4 := by
    simp only [Ethos.progVar] at h4
    split at h4
    · simp only [Run.ite_err, Run.map_ok] at h4
      obtain ⟨_, _, _, _, h4⟩ := h4
      cases h4; exact F.refl _
    · cases h4
      exact F.trans (F.sym s3 PROGRAM_CONST x _) (F.bind _ _ _)
  have hb : R s4 s5 := by
    cases cases with
    | none => simp only [Ethos.progBody] at h5; cases h5; exact F.refl _
    | some cs =>
      simp only [Ethos.progBody, Run.bind_ok, Run.ite_err, Run.ite_err', Run.map_ok] at h5
      obtain ⟨⟨s, l⟩, h1, _, _, t, _, h2⟩ := h5
      cases h2
      exact F.parsePairs _ h1
  refine F.trans (F.push _) (F.trans (F.bindRuleParams h1) (F.trans (F.parseTypeList _ h2) (F.trans (F.parseType h3) (F.trans hv
    (F.trans hb (F.trans (F.pop h6) (F.trans (F.defineProgram s6 v bd) ?_)))))))
  split
  · exact F.bind _ _ _
  · exact F.refl _

theorem popN : ∀ (k : Nat) {st st' : State}, popN k st = .ok st' → R st st'
  | 0, st, st', h => by simp only [Ethos.popN] at h; cases h; exact F.refl _
  | k+1, st, st', h => by
    simp only [Ethos.popN, Run.bind_ok] at h
    obtain ⟨s1, h1, h2⟩ := h
    exact F.trans (F.pop h1) (popN k h2)

theorem pushN : ∀ (k : Nat) (st : State), R st (pushN k st)
  | 0, st => F.refl _
  | k+1, st => F.trans (F.push _) (pushN k _)

end SymFrame

/-- the commands that only read expressions, make symbols, bind names and set attributes -/
def isPlain : Cmd → Bool
  | .assume .. | .assumePush .. | .declareRule _ | .step _ | .reset => false
  | _ => true

theorem SymFrame.exec {R : State → State → Prop} (F : SymFrame R) {b : Env} {n : Nat} {st st' : State} {c : Cmd}
    (hc : isPlain c = true) (ha : ∀ f, c ≠ .assert f) (hf : ∀ x ps ty e, c ≠ .defineFun x ps ty e) (h : exec b n st c = .ok st') : R st st' := by
  cases c with
  | assume x f => cases hc
  | assumePush x f => cases hc
  | declareRule r => cases hc
  | step s => cases hc
  | reset => cases hc
  | declareConst x ty a =>
    simp only [Ethos.exec, Run.bind_ok, Run.map_ok] at h
    obtain ⟨⟨s1, t⟩, h1, ⟨s2, r⟩, h2, ⟨s3, v⟩, h3, h4⟩ := h
    cases h4
    exact F.trans (F.parseType h1) (F.trans (F.parseAttrs h2) (F.trans (F.declare h3) (F.bind _ _ _)))
  | declareFun x sorts ret =>
    simp only [Ethos.exec, Run.bind_ok, Run.map_ok] at h
    obtain ⟨⟨s1, t⟩, h1, ⟨s2, r⟩, h2, ⟨s3, v⟩, h3, h4⟩ := h
    cases h4
    exact F.trans (F.parseTypeList _ h1) (F.trans (F.parseType h2) (F.trans (F.declare h3) (F.bind _ _ _)))
  | declareParam x ps ret a => exact F.execDeclareParam h
  | declareDatatype x d => exact F.execDatatype h
  | declareDatatypes xs ds => exact F.execDatatypes h
  | checkSatAssuming fs =>
    simp only [Ethos.exec, Run.map_ok] at h
    obtain ⟨⟨s1, t⟩, h1, h2⟩ := h
    cases h2
    exact F.parseList b n fs h1
  | declareConsts k ty =>
    simp only [Ethos.exec, Run.bind_ok] at h
    obtain ⟨⟨s1, t⟩, h1, d, h2, h3⟩ := h
    exact F.trans (F.push _) (F.trans (F.bind _ _ _) (F.trans (F.parseType h1) (F.trans (F.lit h2) (F.pop h3))))
  | declareSort x k =>
    simp only [Ethos.exec] at h
    cases h
    exact F.trans (F.sym st CONST x _) (F.bind _ _ _)
  | defineConst x ty e =>
    simp only [Ethos.exec, Run.bind_ok, Run.map_ok] at h
    obtain ⟨⟨s1, t⟩, h1, ⟨s2, r⟩, h2, _, _, h4⟩ := h
    cases h4
    exact F.trans (F.parseType h1) (F.trans (F.parseExpr b n e h2) (F.bind _ _ _))
  | define x ps e ty => exact F.execDefine h
  | defineFun x ps ty e => exact absurd rfl (hf x ps ty e)
  | defineSort x ps ty => exact F.execDefineSort h
  | program x ps args ret cases => exact F.execProgram h
  | assert f => exact absurd rfl (ha f)
  | push k => simp only [Ethos.exec] at h; cases h; exact F.pushN k st
  | pop k => exact F.popN k h
  | nop => simp only [Ethos.exec] at h; cases h; exact F.refl _
  | exit => simp only [Ethos.exec] at h; cases h; exact F.refl _
  | incl f => simp only [Ethos.exec] at h; cases h; exact F.refl _
  | reference f nf => simp only [Ethos.exec] at h; cases h; exact F.refl _

/-- reference assertions as well -/
structure DeclFrame (R : State → State → Prop) : Prop extends SymFrame R where
  refAssert : ∀ (st : State) a, R st { st with refAsserts := a :: st.refAsserts }

namespace DeclFrame
variable {R : State → State → Prop} (F : DeclFrame R)
include F

theorem addReferenceAssert {b : Env} {n : Nat} {st st' : State} {a : Term} (h : st.addReferenceAssert b n a = .ok st') : R st st' := by
  simp only [State.addReferenceAssert, Run.map_ok] at h
  obtain ⟨aa, _, h⟩ := h
  subst h
  exact F.refAssert _ _

theorem execDefineFun {b : Env} {n : Nat} {st : State} {x : Name} {ps : List SParam} {ty e : SExp} {st' : State}
    (h : execDefineFun b n st x ps ty e = .ok st') : R st st' := by
  simp only [Ethos.execDefineFun, Run.bind_ok, Run.map_ok] at h
  obtain ⟨⟨s1, l⟩, h1, ⟨s2, u⟩, h2, ⟨s3, v⟩, h3, _, _, eq, _, r, _, a, _, s4, h4, s5, h5, h6⟩ := h
  cases h6
  exact F.trans (F.defineParams h1) (F.trans (F.parseType h2) (F.trans (F.parseExpr b n e h3) (F.trans (F.sym s3 CONST x r.2)
    (F.trans (F.addReferenceAssert h4) (F.trans (F.pop h5) (F.bind _ _ _))))))

theorem exec {b : Env} {n : Nat} {st st' : State} {c : Cmd}
    (hc : isPlain c = true) (h : exec b n st c = .ok st') : R st st' := by
  by_cases ha : ∃ f, c = .assert f
  · obtain ⟨f, rfl⟩ := ha
    simp only [Ethos.exec, Run.bind_ok] at h
    obtain ⟨⟨s1, t⟩, h1, h2⟩ := h
    exact F.trans (F.parseFormula h1) (F.addReferenceAssert h2)
  · by_cases hf : ∃ x ps ty e, c = .defineFun x ps ty e
    · obtain ⟨x, ps, ty, e, rfl⟩ := hf
      exact F.execDefineFun h
    · exact F.toSymFrame.exec hc (fun f e => ha ⟨f, e⟩) (fun x ps ty e e' => hf ⟨x, ps, ty, e, e'⟩) h

end DeclFrame

/-! ### Decomposition of the other commands -/

/-- the parts of an accepted `step` or `step-pop` -/
theorem execStep_ok {b : Env} {n : Nat} {st st' : State} {s : SStep} (h : execStep b n st s = .ok st') :
    ∃ s1 proven rule s2 prems s3 args conc ty s4, (s.isPop = true → st.asmCtx ≠ []) ∧
      parseConc b n s.conc st = .ok (s1, proven) ∧ s1.decls.rules s.rule = some rule ∧
      parseList b n s.premises { s1 with used := rule :: s1.used } = .ok (s2, prems) ∧
      parseList b n s.args s2 = .ok (s3, args) ∧ notifyStep b n s3 rule proven prems args s.isPop = .ok conc ∧
      s3.typeCheck b n conc = .ok ty ∧ ty.kind = BOOL_TYPE ∧ (proven.isSome = true → proven = some conc) ∧
      (if s.isPop then s3.popAssumption else .ok s3) = .ok s4 ∧ st' = s4.bind s.name (mkProof conc) := by
  simp only [execStep, Run.ite_err, Run.bind_ok] at h
  obtain ⟨h0, ⟨s1, proven⟩, h1, h⟩ := h
  split at h
  · cases h
  · rename_i rule hr
    simp only [Run.ite_err, Run.bind_ok, Run.map_ok] at h
    obtain ⟨⟨s2, prems⟩, h2, ⟨s3, args⟩, h3, conc, h4, ty, h5, h6, h7, s4, h8, h9⟩ := h
    refine ⟨s1, proven, rule, s2, prems, s3, args, conc, ty, s4, ?_, h1, hr, h2, h3, h4, h5, ?_, ?_, h8, h9.symm⟩
    · intro hp hc; exact h0 ⟨hp, hc⟩
    · simpa using h6
    · intro hp; simpa [hp] using h7

/-- the parts of an accepted `declare-rule` -/
theorem execDeclareRule_ok {b : Env} {n : Nat} {st st' : State} {r : SRule} (h : execDeclareRule b n st r = .ok st') :
    st.asmCtx = [] ∧ ∃ s1 s2 asm s3 prems pcons s4 args s5 reqs s6 conc ret s7 s8 prog decls,
      bindRuleParams b n r.params st.push = .ok s1 ∧ parseOpt b n r.assumption s1 = .ok (s2, asm) ∧
      parsePremises b n r.premises s2 = .ok (s3, prems, pcons) ∧ parseList b n r.args s3 = .ok (s4, args) ∧
      parsePairs b n r.reqs s4 = .ok (s5, reqs) ∧ parseExpr b n r.conc s5 = .ok (s6, conc) ∧
      mkRequires (mkExpr (s6.env b) (ops (s6.env b) n) n) reqs conc = .ok ret ∧ s6.pop = .ok s7 ∧
      ruleProg b n (s7.mkSymbol PROOF_RULE r.name tBool).1 r.name
        (args ++ (if r.explicit then [conc] else []) ++ asm.toList ++ prems.map mkProof) ret = .ok (s8, prog) ∧
      s8.decls.bindRule r.name (.sym PROOF_RULE s7.next) = .ok decls ∧
      st' = { s8 with
        decls := (decls.markConstructorKind (.sym PROOF_RULE s7.next) .PROOF_RULE
          (some (.node TUPLE [pcons.getD tAny, mkBool asm.isSome, mkBool r.explicit, prog]))).1
        pfrSorry := if r.sry then .sym PROOF_RULE s7.next :: s8.pfrSorry else s8.pfrSorry } := by
  simp only [execDeclareRule, Run.ite_err, Run.bind_ok, Run.map_ok, Run.lift_ok] at h
  obtain ⟨h0, s1, h1, ⟨s2, asm⟩, h2, ⟨s3, prems, pcons⟩, h3, ⟨s4, args⟩, h4, ⟨s5, reqs⟩, h5, ⟨s6, conc⟩, h6, ret, h7, s7, h8,
    ⟨s8, prog⟩, h9, decls, h10, h11⟩ := h
  exact ⟨by simpa using h0, s1, s2, asm, s3, prems, pcons, s4, args, s5, reqs, s6, conc, ret, s7, s8, prog, decls, h1, h2, h3, h4, h5, h6, h7,
    h8, h9, h10, h11.symm⟩

/-- the parts of an accepted `assume` or `assume-push` -/
theorem execAssume_ok {b : Env} {n : Nat} {st st' : State} {x : Name} {f : SExp} {isPush : Bool} (h : execAssume b n st x f isPush = .ok st') :
    ∃ s1 F, parseFormula b n f st = .ok (s1, F) ∧
      ((if isPush then s1.pushAssumption else s1).bind x (mkProof F)).addAssumption b n F = .ok st' := by
  simp only [execAssume, Run.bind_ok] at h
  obtain ⟨⟨s1, F⟩, h1, h2⟩ := h
  exact ⟨s1, F, h1, h2⟩

theorem popAssumption_ok {st st' : State} (h : st.popAssumption = .ok st') :
    ∃ last r, st.asmCtx = last :: r ∧ ({ st with asmCtx := r, asms := st.asms.take last }).pop = .ok st' := by
  simp only [State.popAssumption] at h
  split at h
  · cases h
  · rename_i last r hc
    exact ⟨last, r, hc, h⟩

theorem addAssumption_ok {b : Env} {n : Nat} {st st' : State} {a : Term} (h : st.addAssumption b n a = .ok st') :
    st' = { st with asms := st.asms ++ [a] } ∧ (st.hasRef = true → st.asmCtx = [] →
      ∃ aa, ({ st with asms := st.asms ++ [a] } : State).normRef b n a = .ok aa ∧ aa ∈ st.refAsserts) := by
  simp only [State.addAssumption] at h
  split at h
  · simp only [Run.bind_ok, Run.ite_err'] at h
    obtain ⟨aa, h1, h2, h3⟩ := h
    cases h3
    exact ⟨rfl, fun _ _ => ⟨aa, h1, h2⟩⟩
  · rename_i hn
    cases h
    exact ⟨rfl, fun h1 h2 => absurd ⟨h1, h2⟩ hn⟩

/-- a relation that also holds if the open assumptions are changed or the symbol table is reset -/
structure AsmFrame (R : State → State → Prop) : Prop extends DeclFrame R where
  asm : ∀ (st : State) as ctx, R st { st with asms := as, asmCtx := ctx }
  reset : ∀ st : State, R st { st with scope := st.scope.reset }

namespace AsmFrame
variable {R : State → State → Prop} (F : AsmFrame R)
include F

theorem popAssumption {st st' : State} (h : st.popAssumption = .ok st') : R st st' := by
  obtain ⟨last, r, _, h2⟩ := popAssumption_ok h
  exact F.trans (F.asm st (st.asms.take last) r) (F.pop h2)

theorem execAssume {b : Env} {n : Nat} {st st' : State} {x : Name} {f : SExp} {isPush : Bool} (h : execAssume b n st x f isPush = .ok st') :
    R st st' := by
  obtain ⟨s1, A, h1, h2⟩ := execAssume_ok h
  obtain ⟨rfl, _⟩ := addAssumption_ok h2
  refine F.trans (F.parseFormula h1) ?_
  refine F.trans ?_ (F.trans (F.bind _ x (mkProof A)) (F.asm _ _ _))
  split
  · exact F.trans (F.push s1) (F.asm _ _ _)
  · exact F.refl _

/-- `reset` and `assume` as well -/
theorem exec {b : Env} {n : Nat} {st st' : State} {c : Cmd} (h : exec b n st c = .ok st') (hs : ∀ s, c ≠ .step s)
    (hd : ∀ r, c ≠ .declareRule r) : R st st' := by
  by_cases hc : isPlain c = true
  · exact F.toDeclFrame.exec hc h
  · cases c with
    | assume x f => exact F.execAssume h
    | assumePush x f => exact F.execAssume h
    | declareRule r => exact absurd rfl (hd r)
    | step s => exact absurd rfl (hs s)
    | reset =>
      simp only [Ethos.exec] at h
      cases h
      exact F.trans (F.reset st) (F.asm _ _ _)
    | _ => exact absurd rfl hc

end AsmFrame

/-- a relation that holds for every update made by a command other than `include` and `reference` -/
structure FullFrame (R : State → State → Prop) : Prop extends AsmFrame R where
  used : ∀ (st : State) r, R st { st with used := r :: st.used }
  rule : ∀ {st : State} {x i d}, st.decls.bindRule x (.sym PROOF_RULE i) = .ok d → R st { st with decls := d }
  sry : ∀ (st : State) r, R st { st with pfrSorry := r :: st.pfrSorry }

namespace FullFrame
variable {R : State → State → Prop} (F : FullFrame R)
include F

theorem execStep {b : Env} {n : Nat} {st st' : State} {s : SStep} (h : execStep b n st s = .ok st') : R st st' := by
  obtain ⟨s1, proven, rule, s2, prems, s3, args, conc, ty, s4, _, h1, _, h2, h3, _, _, _, _, h4, rfl⟩ := execStep_ok h
  refine F.trans (F.parseConc h1) (F.trans (F.used s1 rule) (F.trans (F.parseList b n _ h2) (F.trans (F.parseList b n _ h3) (F.trans ?_ (F.bind _ _ _)))))
  split at h4
  · exact F.popAssumption h4
  · cases h4; exact F.refl _

theorem execDeclareRule {b : Env} {n : Nat} {st st' : State} {r : SRule} (h : execDeclareRule b n st r = .ok st') : R st st' := by
  obtain ⟨_, s1, s2, asm, s3, prems, pcons, s4, args, s5, reqs, s6, conc, ret, s7, s8, prog, decls, h1, h2, h3, h4, h5, h6, _, h8, h9, h10, rfl⟩ :=
    execDeclareRule_ok h
  refine F.trans (F.push st) (F.trans (F.bindRuleParams h1) (F.trans (F.parseOpt h2) (F.trans (F.parsePremises h3) (F.trans (F.parseList b n _ h4)
    (F.trans (F.parsePairs _ h5) (F.trans (F.parseExpr b n _ h6) (F.trans (F.pop h8) (F.trans (F.sym s7 PROOF_RULE r.name tBool) (F.trans (F.ruleProg h9)
    (F.trans (F.rule h10) (F.trans (F.mark _ (.sym PROOF_RULE s7.next) .PROOF_RULE (some (.node TUPLE [pcons.getD tAny, mkBool asm.isSome,
      mkBool r.explicit, prog]))) ?_)))))))))))
  split
  · exact F.sry _ _
  · exact F.refl _

theorem exec {b : Env} {n : Nat} {st st' : State} {c : Cmd} (h : exec b n st c = .ok st') : R st st' := by
  by_cases hs : ∃ s, c = .step s
  · obtain ⟨s, rfl⟩ := hs; exact F.execStep h
  · by_cases hd : ∃ r, c = .declareRule r
    · obtain ⟨r, rfl⟩ := hd; exact F.execDeclareRule h
    · exact F.toAsmFrame.exec h (fun s e => hs ⟨s, e⟩) (fun r e => hd ⟨r, e⟩)

end FullFrame

end Ethos.Props
