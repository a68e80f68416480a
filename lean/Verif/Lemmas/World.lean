import Verif.Lemmas.Preserve
import Verif.Lemmas.Command
/-
Invariants of the state that speak about the terms in it: what the parser and the commands preserve.
-/
namespace Ethos.Props
open Ethos Kind

theorem getVariablesLoop_good {env : Env} {P : Term → Prop} (G : Good env P) : ∀ (n : Nat) (st vis ret r : List Term),
    (∀ e ∈ st, P e) → (∀ e ∈ ret, P e) → getVariablesLoop n st vis ret = some r → ∀ v ∈ r, P v
  | _, [], vis, ret, r, _, hr, h => by simp only [getVariablesLoop, Option.some.injEq] at h; rw [← h]; exact hr
  | 0, _ :: _, _, _, _, _, _, h => by simp [getVariablesLoop] at h
  | n+1, cur :: st, vis, ret, r, hs, hr, h => by
    simp only [getVariablesLoop] at h
    have hs' : ∀ e ∈ st, P e := fun e he => hs e (by simp [he])
    split at h
    · exact getVariablesLoop_good G n _ _ _ _ hs' hr h
    · rename_i hg
      split at h
      · exact getVariablesLoop_good G n _ _ _ _ hs' hr h
      · split at h
        · refine getVariablesLoop_good G n _ _ _ _ hs' ?_ h
          intro e he
          rcases List.mem_append.1 he with he | he
          · exact hr e he
          · simp at he; rw [he]; exact hs cur (by simp)
        · refine getVariablesLoop_good G n _ _ _ _ ?_ hr h
          intro e he
          rcases List.mem_append.1 he with he | he
          · have hP := hs cur (by simp)
            have he := List.mem_reverse.1 he
            by_cases hk : cur.kind = PROOF
            · cases cur with
              | sym k i => simp [Term.children] at he
              | lit l => simp [Term.children] at he
              | node k cs =>
                obtain rfl : k = PROOF := hk
                rcases G.proof with h1 | h1
                · exact (h1 cs).1 hP e he
                · exact absurd (h1 cs hP).1 hg
            · exact G.children hk hP e he
          · exact hs' e he

theorem getVariables_good {env : Env} {P : Term → Prop} (G : Good env P) {es : List Term} (h : ∀ e ∈ es, P e) :
    ∀ v ∈ (getVariables es).getD [], P v := by
  intro v hv
  cases hr : getVariables es with
  | none => simp [hr] at hv
  | some r =>
    simp only [hr, Option.getD_some] at hv
    exact getVariablesLoop_good G _ _ _ _ _ (fun e he => h e (List.mem_reverse.1 he)) (by simp) hr v hv

/-- an application of a program without definition is left as it is -/
theorem build_undefined {b : Env} {n : Nat} {st : State} {p : Term} {args : List Term} {t : Term} (hk : p.kind = PROGRAM_CONST)
    (hi : (st.env b).appInfo p = none) (h : st.build b n APPLY (p :: args) = .ok t) : t = .node APPLY (p :: args) := by
  simp only [State.build, Run.lift_ok] at h
  cases n with
  | zero => simp [mkExpr] at h
  | succ n =>
    simp [mkExpr, mkExprStep, mkApp, hi, mkPlainApp, hk, Env.constructorKind] at h
    exact h.symm

theorem build_program {b : Env} {n : Nat} {st : State} {cs : List Term} {t : Term} (h : st.build b n PROGRAM cs = .ok t) : t = .node PROGRAM cs := by
  simp only [State.build, Run.lift_ok] at h
  cases n with
  | zero => simp [mkExpr] at h
  | succ n =>
    simp [mkExpr, mkExprStep, isLiteralOp] at h
    exact h.symm

/-- the shape of the definition of a program -/
def ProgShape (P : Term → Prop) (prog : Term) : Prop :=
  ∀ c ∈ prog.children, (∀ d ∈ c.children, P d) ∧ ∀ pat r, c.children = pat :: r → ∀ e ∈ pat.children, P e

/-- An invariant `I` of the state, in a world `w` and with `d` scopes opened by the parser, that reading terms keeps -/
structure ReadWorld (b : Env) {W : Type} (I : W → Nat → State → Prop) (P : W → Term → Prop) : Prop where
  good : ∀ {w d st}, I w d st → Good (st.env b) (P w)
  get : ∀ {w d st x t}, I w d st → st.scope.get x = some t → P w t
  bind : ∀ {w d st x t}, I w d st → P w t → I w d (st.bind x t)
  push : ∀ {w d st}, I w d st → I w (d+1) st.push
  pop : ∀ {w d st st'}, I w (d+1) st → st.pop = .ok st' → I w d st'
  pair : ∀ {w a c r}, P w (.node PROOF (a :: c :: r)) → P w a ∧ P w c

/-- An invariant `I` of the state, in a world `w` and with `d` scopes opened by the parser, that says at least that every
visible term has `P w`; `can w v` are the symbols that may get an attribute. -/
structure World (b : Env) {W : Type} (le : W → W → Prop) (I : W → Nat → State → Prop) (P : W → Term → Prop)
    (can : W → Term → Prop) : Prop extends ReadWorld b I P where
  refl : ∀ w, le w w
  trans : ∀ {u v w}, le u v → le v w → le u w
  mono : ∀ {w w' t}, le w w' → P w t → P w' t
  canMono : ∀ {w w' t}, le w w' → can w t → can w' t
  typed : ∀ {w d st i}, I w d st → st.symType (.sym PROGRAM_CONST i) ≠ none → i < st.next
  sym : ∀ {w d st k x ty}, I w d st → k = PARAM ∨ k = CONST ∨ k = PROGRAM_CONST → P w ty →
    ((st.mkSymbol k x ty).1.env b).appInfo (.sym k st.next) = none ∧
    ∃ w', le w w' ∧ I w' d (st.mkSymbol k x ty).1 ∧ P w' (.sym k st.next) ∧ can w' (.sym k st.next)
  mark : ∀ {w d st v a c}, I w d st → can w v → a ≠ .PROGRAM ∧ a ≠ .PROOF_RULE → (∀ t, c = some t → P w t) →
    I w d { st with decls := (st.decls.markConstructorKind v a c).1 }
  prog : ∀ {w d st v p}, I w d st → can w v → P w p → ProgShape (P w) p →
    I w d { st with decls := (st.decls.markConstructorKind v .PROGRAM (some p)).1 }
  refAssert : ∀ {w d st a}, I w d st → I w d { st with refAsserts := a :: st.refAsserts }

namespace ReadWorld
variable {b : Env} {W : Type} {I : W → Nat → State → Prop} {P : W → Term → Prop}
variable (H : ReadWorld b I P) {n : Nat} {w : W} {d : Nat}
include H

theorem build {st : State} {k : Kind} {cs : List Term} {t : Term} (hI : I w d st) (hk : k ≠ PROOF ∧ k ≠ LAMBDA ∧ isSymbol k = false) (hc : ∀ c ∈ cs, P w c)
    (h : st.build b n k cs = .ok t) : P w t :=
  mkExpr_good (H.good hI) (ops_good (H.good hI) n) n _ _ _ hk hc (Run.lift_ok.1 h)

theorem apply {st : State} {f : Term} {cs : List Term} {t : Term} (hI : I w d st) (hf : P w f) (hc : ∀ c ∈ cs, P w c)
    (h : st.build b n APPLY (f :: cs) = .ok t) : P w t :=
  H.build hI (by simp) (by simpa using ⟨hf, hc⟩) h

theorem typeCheck {st : State} {e t : Term} (hI : I w d st) (he : P w e) (h : st.typeCheck b n e = .ok t) : P w t := by
  simp only [State.typeCheck, Run.bind_ok, Run.lift_ok, Run.orErr_ok] at h
  obtain ⟨r, h1, rfl⟩ := h
  exact (ops_good (H.good hI) n).getType _ _ he h1

theorem bindAll {l : List (Name × Term)} : ∀ {st : State}, I w d st → (∀ p ∈ l, P w p.2) → I w d (st.bindAll l) := by
  induction l with
  | nil => exact fun h _ => h
  | cons p l ih => exact fun h hl => ih (H.bind h (hl p (by simp))) fun q hq => hl q (by simp [hq])

theorem getBoundVar {st : State} {x : Name} {ty t : Term} (hI : I w d st) (hty : P w ty) (h : st.getBoundVar b n x ty = .ok t) : P w t := by
  simp only [State.getBoundVar] at h
  split at h
  · rename_i hg; cases h; exact (H.good hI).boundVar _ _ hg hty
  · refine H.build hI (by simp) ?_ h
    intro c hc
    simp at hc
    rcases hc with rfl | rfl
    · exact (H.good hI).lit _
    · exact hty

theorem binderCons {st : State} {f c : Term} (hI : I w d st) (hf : P w f) (h : ((st.env b).appInfo f).bind (·.cons) = some c) : P w c := by
  cases ha : (st.env b).appInfo f with
  | none => simp [ha] at h
  | some ai => simp only [ha, Option.bind_some] at h; exact (H.good hI).cons _ _ _ hf ha h

theorem mkBinderList {st : State} {f : Term} {vs : List Term} {t : Term} (hI : I w d st) (hf : P w f) (hv : ∀ v ∈ vs, P w v)
    (h : st.mkBinderList b n f vs = .ok t) : P w t := by
  simp only [State.mkBinderList] at h
  split at h
  · cases h
  · rename_i c hc
    exact H.apply hI (H.binderCons hI hf hc) hv h

theorem mkPairs {st : State} {pc : Term} (hI : I w d st) (hp : P w pc) : ∀ (l : List (Term × Term)) (ts : List Term),
    (∀ p ∈ l, P w p.1 ∧ P w p.2) → st.mkPairs b n pc l = .ok ts → ∀ t ∈ ts, P w t
  | [], ts, _, h => by simp only [State.mkPairs] at h; cases h; simp
  | (v, t) :: r, ts, hl, h => by
    simp only [State.mkPairs, Run.bind_ok, Run.map_ok] at h
    obtain ⟨u, h1, us, h2, rfl⟩ := h
    intro x hx
    rcases List.mem_cons.1 hx with rfl | hx
    · exact H.apply hI hp (by simpa using hl _ (List.mem_cons_self ..)) h1
    · exact mkPairs hI hp r us (fun p hp => hl p (by simp [hp])) h2 x hx

theorem mkLetBinderList {st : State} {f : Term} {ls : List (Term × Term)} {t : Term} (hI : I w d st) (hf : P w f) (hv : ∀ v ∈ ls, P w v.1 ∧ P w v.2)
    (h : st.mkLetBinderList b n f ls = .ok t) : P w t := by
  simp only [State.mkLetBinderList] at h
  split at h
  · rename_i k pc lc r hc
    simp only [Run.bind_ok] at h
    obtain ⟨vs, h1, h2⟩ := h
    have hcp := H.binderCons hI hf hc
    have hboth : P w pc ∧ P w lc := by
      by_cases hk : k = PROOF
      · subst hk; exact H.pair hcp
      · have := (H.good hI).children (t := .node k (pc :: lc :: r)) hk hcp
        exact ⟨this pc (by simp [Term.children]), this lc (by simp [Term.children])⟩
    exact H.apply hI hboth.2 (H.mkPairs hI hboth.1 _ _ hv h1) h2
  · cases h

mutual
theorem parseExpr : ∀ (e : SExp) {d : Nat} {st st' : State} {t : Term}, I w d st → Ethos.parseExpr b n e st = .ok (st', t) → I w d st' ∧ P w t
  | .sym x, d, st, st', t, hI, h => by
    simp only [Ethos.parseExpr] at h
    split at h
    · cases h
    · rename_i u hu
      split at h
      · cases h
      · cases h; exact ⟨hI, H.get hI hu⟩
  | .lit l, d, st, st', t, hI, h => by simp only [Ethos.parseExpr] at h; cases h; exact ⟨hI, (H.good hI).lit _⟩
  | .type, d, st, st', t, hI, h => by simp only [Ethos.parseExpr] at h; cases h; exact ⟨hI, (H.good hI).type⟩
  | .bool, d, st, st', t, hI, h => by simp only [Ethos.parseExpr] at h; cases h; exact ⟨hI, (H.good hI).boolType⟩
  | .app x args, d, st, st', t, hI, h => by
    simp only [Ethos.parseExpr] at h
    split at h
    · cases h
    · rename_i hd hu
      simp only [Run.ite_err', Run.bind_ok, Run.map_ok] at h
      obtain ⟨_, ⟨s1, l⟩, h1, u, h2, h3⟩ := h
      cases h3
      obtain ⟨i1, p1⟩ := parseList args hI h1
      exact ⟨i1, H.apply i1 (H.get hI hu) p1 h2⟩
  | .appq e args, d, st, st', t, hI, h => by
    simp only [Ethos.parseExpr, Run.ite_err', Run.bind_ok, Run.map_ok] at h
    obtain ⟨_, ⟨s1, u⟩, h1, ⟨s2, l2⟩, h3, v, h4, h5⟩ := h
    cases h5
    obtain ⟨i1, p1⟩ := parseExpr e hI h1
    obtain ⟨i2, p2⟩ := parseList args i1 h3
    exact ⟨i2, H.apply i2 p1 p2 h4⟩
  | .binder x xs es args, d, st, st', t, hI, h => by
    simp only [Ethos.parseExpr] at h
    split at h
    · cases h
    · rename_i hd hu
      have hh := H.get hI hu
      simp only [Run.ite_err] at h
      obtain ⟨_, h⟩ := h
      split at h
      · simp only [Run.bind_ok, Run.map_ok] at h
        obtain ⟨⟨s1, l⟩, h1, u, h2, ⟨s2, l2⟩, h3, v, h4, s3, h5, h6⟩ := h
        cases h6
        obtain ⟨i1, p1⟩ := parseVars xs es (H.push hI) h1
        obtain ⟨i2, p2⟩ := parseList args i1 h3
        refine ⟨H.pop i2 h5, H.apply i2 hh ?_ h4⟩
        intro c hc
        rcases List.mem_cons.1 hc with rfl | hc
        · exact H.mkBinderList i1 hh p1 h2
        · exact p2 c hc
      · simp only [Run.ite_err', Run.bind_ok, Run.map_ok] at h
        obtain ⟨_, ⟨s1, ls⟩, h1, v, h3, ⟨s2, l2⟩, h4, u, h5, s3, h6, h7⟩ := h
        cases h7
        obtain ⟨i1, pl⟩ := parseLets xs es (H.push hI) h1
        have i1' := H.bindAll i1 (l := ls.map fun l => (l.1, l.2.1)) (by
          intro p hp
          obtain ⟨q, hq, rfl⟩ := List.mem_map.1 hp
          exact (pl q hq).1)
        obtain ⟨i2, p2⟩ := parseList args i1' h4
        refine ⟨H.pop i2 h6, H.apply i2 hh ?_ h5⟩
        intro c hc
        rcases List.mem_cons.1 hc with rfl | hc
        · refine H.mkLetBinderList i1' hh ?_ h3
          intro p hp
          obtain ⟨q, hq, rfl⟩ := List.mem_map.1 hp
          exact pl q hq
        · exact p2 c hc
  | .letE xs es body, d, st, st', t, hI, h => by
    simp only [Ethos.parseExpr, Run.bind_ok, Run.map_ok] at h
    obtain ⟨⟨s1, l⟩, h1, ⟨s2, u⟩, h2, s3, h3, h4⟩ := h
    cases h4
    obtain ⟨i1, p1⟩ := parseList es hI h1
    obtain ⟨i2, p2⟩ := parseExpr body (H.bindAll (H.push i1) fun p hp => p1 _ (List.of_mem_zip hp).2) h2
    exact ⟨H.pop i2 h3, p2⟩
  | .annot e, d, st, st', t, hI, h => by
    simp only [Ethos.parseExpr] at h
    exact parseExpr e hI h
theorem parseList : ∀ (es : List SExp) {d : Nat} {st st' : State} {ts : List Term}, I w d st → Ethos.parseList b n es st = .ok (st', ts) →
    I w d st' ∧ ∀ t ∈ ts, P w t
  | [], d, st, st', t, hI, h => by simp only [Ethos.parseList] at h; cases h; exact ⟨hI, by simp⟩
  | e :: es, d, st, st', t, hI, h => by
    simp only [Ethos.parseList, Run.bind_ok, Run.map_ok] at h
    obtain ⟨⟨s1, l⟩, h1, ⟨s2, u⟩, h2, h3⟩ := h
    cases h3
    obtain ⟨i1, p1⟩ := parseExpr e hI h1
    obtain ⟨i2, p2⟩ := parseList es i1 h2
    exact ⟨i2, by simpa using ⟨p1, p2⟩⟩
theorem parseVars : ∀ (xs : List Name) (es : List SExp) {d : Nat} {st st' : State} {ts : List Term}, I w d st →
    Ethos.parseVars b n xs es st = .ok (st', ts) → I w d st' ∧ ∀ t ∈ ts, P w t
  | [], es, d, st, st', ts, hI, h => by simp only [Ethos.parseVars] at h; cases h; exact ⟨hI, by simp⟩
  | x :: xs, [], d, st, st', ts, hI, h => by simp only [Ethos.parseVars] at h; cases h; exact ⟨hI, by simp⟩
  | x :: xs, e :: es, d, st, st', ts, hI, h => by
    simp only [Ethos.parseVars, Run.bind_ok, Run.map_ok] at h
    obtain ⟨⟨s1, l⟩, h1, _, _, v, h2, ⟨s2, u⟩, h3, h4⟩ := h
    cases h4
    obtain ⟨i1, p1⟩ := parseExpr e hI h1
    have pv := H.getBoundVar i1 p1 h2
    obtain ⟨i2, p2⟩ := parseVars xs es (H.bind i1 pv) h3
    exact ⟨i2, by simpa using ⟨pv, p2⟩⟩
theorem parseLets : ∀ (xs : List Name) (es : List SExp) {d : Nat} {st st' : State} {ls : List (Name × Term × Term)}, I w d st →
    Ethos.parseLets b n xs es st = .ok (st', ls) → I w d st' ∧ ∀ q ∈ ls, P w q.2.1 ∧ P w q.2.2
  | [], es, d, st, st', ts, hI, h => by simp only [Ethos.parseLets] at h; cases h; exact ⟨hI, by simp⟩
  | x :: xs, [], d, st, st', ts, hI, h => by simp only [Ethos.parseLets] at h; cases h; exact ⟨hI, by simp⟩
  | x :: xs, e :: es, d, st, st', ts, hI, h => by
    simp only [Ethos.parseLets, Run.bind_ok, Run.map_ok] at h
    obtain ⟨⟨s1, t⟩, h1, tt, h2, v, h3, ⟨s2, u⟩, h4, h5⟩ := h
    cases h5
    obtain ⟨i1, p1⟩ := parseExpr e hI h1
    obtain ⟨i2, p2⟩ := parseLets xs es i1 h4
    refine ⟨i2, fun q hq => ?_⟩
    rcases List.mem_cons.1 hq with rfl | hq
    · exact ⟨H.getBoundVar i1 (H.typeCheck i1 p1 h2) h3, p1⟩
    · exact p2 q hq
end

theorem parseType {aq ae : Bool} {e : SExp} {st st' : State} {t : Term} (hI : I w d st)
    (h : Ethos.parseType b n aq ae e st = .ok (st', t)) : I w d st' ∧ P w t := by
  have ho : ∀ {st'' : State} {u : Term}, ((Ethos.parseExpr b n e st).bind fun p => (p.1.checkType b n ae p.2).map fun _ => p) = .ok (st'', u) →
      I w d st'' ∧ P w u := by
    intro st'' u h
    simp only [Run.bind_ok, Run.map_ok] at h
    obtain ⟨⟨s1, l⟩, h1, _, _, h3⟩ := h
    cases h3
    exact H.parseExpr e hI h1
  simp only [Ethos.parseType] at h
  split at h
  · split at h
    · simp only [Run.bind_ok, Run.ite_err'] at h
      obtain ⟨⟨s1, l⟩, h1, _, h2⟩ := h
      cases h2
      obtain ⟨i1, p1⟩ := H.parseExpr _ hI h1
      exact ⟨i1, (H.good i1).node1 (by simp) p1⟩
    · exact ho h
  · exact ho h

theorem parseTypeList {aq : Bool} : ∀ (es : List SExp) {st st' : State} {ts : List Term}, I w d st →
    Ethos.parseTypeList b n aq es st = .ok (st', ts) → I w d st' ∧ ∀ t ∈ ts, P w t
  | [], st, st', t, hI, h => by simp only [Ethos.parseTypeList] at h; cases h; exact ⟨hI, by simp⟩
  | e :: es, st, st', t, hI, h => by
    simp only [Ethos.parseTypeList, Run.bind_ok, Run.map_ok] at h
    obtain ⟨⟨s1, l⟩, h1, ⟨s2, u⟩, h2, h3⟩ := h
    cases h3
    obtain ⟨i1, p1⟩ := H.parseType hI h1
    obtain ⟨i2, p2⟩ := parseTypeList es i1 h2
    exact ⟨i2, by simpa using ⟨p1, p2⟩⟩

theorem parseFormula {e : SExp} {st st' : State} {t : Term} (hI : I w d st) (h : Ethos.parseFormula b n e st = .ok (st', t)) : I w d st' ∧ P w t := by
  simp only [Ethos.parseFormula, Run.bind_ok, Run.map_ok] at h
  obtain ⟨⟨s1, l⟩, h1, _, _, h3⟩ := h
  cases h3
  exact H.parseExpr e hI h1

theorem parsePairs : ∀ (es : List (SExp × SExp)) {st st' : State} {ts : List (Term × Term)}, I w d st →
    Ethos.parsePairs b n es st = .ok (st', ts) → I w d st' ∧ ∀ t ∈ ts, P w t.1 ∧ P w t.2
  | [], st, st', t, hI, h => by simp only [Ethos.parsePairs] at h; cases h; exact ⟨hI, by simp⟩
  | (x, y) :: es, st, st', t, hI, h => by
    simp only [Ethos.parsePairs, Run.bind_ok, Run.map_ok] at h
    obtain ⟨⟨s1, l⟩, h1, ⟨s2, u⟩, h2, ⟨s3, v⟩, h3, h4⟩ := h
    cases h4
    obtain ⟨i1, p1⟩ := H.parseExpr x hI h1
    obtain ⟨i2, p2⟩ := H.parseExpr y i1 h2
    obtain ⟨i3, p3⟩ := parsePairs es i2 h3
    refine ⟨i3, ?_⟩
    intro q hq
    rcases List.mem_cons.1 hq with rfl | hq
    · exact ⟨p1, p2⟩
    · exact p3 q hq

theorem parseOpt {e : Option SExp} {st st' : State} {t : Option Term} (hI : I w d st)
    (h : Ethos.parseOpt b n e st = .ok (st', t)) : I w d st' ∧ ∀ u, t = some u → P w u := by
  cases e with
  | none => simp only [Ethos.parseOpt] at h; cases h; exact ⟨hI, by simp⟩
  | some e =>
    simp only [Ethos.parseOpt, Run.map_ok] at h
    obtain ⟨⟨s1, l⟩, h1, h3⟩ := h
    cases h3
    obtain ⟨i1, p1⟩ := H.parseExpr e hI h1
    exact ⟨i1, fun u hu => by cases hu; exact p1⟩

theorem parsePremises {p : SPremises} {st st' : State} {ts : List Term} {c : Option Term} (hI : I w d st)
    (h : Ethos.parsePremises b n p st = .ok (st', ts, c)) : I w d st' ∧ (∀ t ∈ ts, P w t) ∧ ∀ u, c = some u → P w u := by
  cases p with
  | each es =>
    simp only [Ethos.parsePremises, Run.map_ok] at h
    obtain ⟨⟨s1, l⟩, h1, h3⟩ := h
    cases h3
    obtain ⟨i1, p1⟩ := H.parseList es hI h1
    exact ⟨i1, p1, by simp⟩
  | plist x y =>
    simp only [Ethos.parsePremises, Run.map_ok, Run.bind_ok] at h
    obtain ⟨⟨s1, l⟩, h1, ⟨s2, u⟩, h2, h3⟩ := h
    cases h3
    obtain ⟨i1, p1⟩ := H.parseExpr x hI h1
    obtain ⟨i2, p2⟩ := H.parseExpr y i1 h2
    exact ⟨i2, by simpa using p1, fun v hv => by cases hv; exact p2⟩

theorem parseConc {e : Option SExp} {st st' : State} {t : Option Term} (hI : I w d st)
    (h : Ethos.parseConc b n e st = .ok (st', t)) : I w d st' ∧ ∀ u, t = some u → P w u := by
  cases e with
  | none => simp only [Ethos.parseConc] at h; cases h; exact ⟨hI, by simp⟩
  | some e =>
    simp only [Ethos.parseConc, Run.map_ok] at h
    obtain ⟨⟨s1, l⟩, h1, h3⟩ := h
    cases h3
    obtain ⟨i1, p1⟩ := H.parseFormula hI h1
    exact ⟨i1, fun u hu => by cases hu; exact p1⟩

theorem parseAttr {a : SAttr} {st st' : State} {t : Option Term} (hI : I w d st) (h : Ethos.parseAttr b n a st = .ok (st', t)) :
    I w d st' ∧ (a.attr ≠ .PROGRAM ∧ a.attr ≠ .PROOF_RULE) ∧ ∀ u, t = some u → P w u := by
  simp only [Ethos.parseAttr] at h
  split at h
  · rename_i ha _ _; cases h; exact ⟨hI, by simp [ha], by simp⟩
  · rename_i ha _ _; cases h; exact ⟨hI, by simp [ha], by simp⟩
  · rename_i ha _ _
    simp only [Run.map_ok, Run.bind_ok] at h
    obtain ⟨⟨s1, l⟩, h1, ⟨s2, u⟩, h2, h3⟩ := h
    cases h3
    obtain ⟨i1, p1⟩ := H.parseExpr _ hI h1
    obtain ⟨i2, p2⟩ := H.parseExpr _ i1 h2
    exact ⟨i2, by simp [ha], fun v hv => by cases hv; exact (H.good i2).node2 (by simp) p1 p2⟩
  · simp only [Run.ite_err', Run.map_ok] at h
    obtain ⟨ha, ⟨s1, l⟩, h1, h3⟩ := h
    cases h3
    obtain ⟨i1, p1⟩ := H.parseExpr _ hI h1
    refine ⟨i1, ?_, fun v hv => by cases hv; exact p1⟩
    rcases ha with ha | ha | ha | ha | ha | ha | ha | ha <;> simp [ha]
  · cases h

theorem parseAttrList : ∀ (as : List SAttr) {st st' : State} {l : List (Attr × Option Term)}, I w d st →
    Ethos.parseAttrList b n as st = .ok (st', l) →
    I w d st' ∧ ∀ p ∈ l, (p.1 ≠ .PROGRAM ∧ p.1 ≠ .PROOF_RULE) ∧ ∀ u, p.2 = some u → P w u
  | [], st, st', l, hI, h => by simp only [Ethos.parseAttrList] at h; cases h; exact ⟨hI, by simp⟩
  | a :: as, st, st', l, hI, h => by
    simp only [Ethos.parseAttrList, Run.bind_ok, Run.map_ok] at h
    obtain ⟨⟨s1, t⟩, h1, ⟨s2, r⟩, h2, h3⟩ := h
    cases h3
    obtain ⟨i1, p1⟩ := H.parseAttr hI h1
    obtain ⟨i2, p2⟩ := parseAttrList as i1 h2
    refine ⟨i2, ?_⟩
    intro p hp
    rcases List.mem_cons.1 hp with rfl | hp
    · exact p1
    · exact p2 p hp

omit H in
theorem chooseAttr_cases : ∀ (l : List (Attr × Option Term)), chooseAttr l = (.NONE, none) ∨ chooseAttr l ∈ l
  | [] => .inl rfl
  | p :: l => by
    have : chooseAttr (p :: l) = if (chooseAttr l).1 = .NONE ∨ p.1.ctorIdx ≤ (chooseAttr l).1.ctorIdx then p else chooseAttr l := rfl
    rw [this]
    split
    · exact .inr (List.mem_cons_self ..)
    · rcases chooseAttr_cases l with h | h
      · exact .inl h
      · exact .inr (List.mem_cons_of_mem _ h)

theorem parseAttrs {as : List SAttr} {st st' : State} {ck : Attr} {c : Option Term} (hI : I w d st)
    (h : Ethos.parseAttrs b n as st = .ok (st', ck, c)) : I w d st' ∧ (ck ≠ .PROGRAM ∧ ck ≠ .PROOF_RULE) ∧ ∀ u, c = some u → P w u := by
  simp only [Ethos.parseAttrs, Run.map_ok] at h
  obtain ⟨⟨s1, l⟩, h1, h3⟩ := h
  cases h3
  obtain ⟨i1, p1⟩ := H.parseAttrList as hI h1
  have hc : ((chooseAttr l).1 ≠ .PROGRAM ∧ (chooseAttr l).1 ≠ .PROOF_RULE) ∧ ∀ u, (chooseAttr l).2 = some u → P w u := by
    rcases chooseAttr_cases l with h | h
    · rw [h]; simp
    · exact p1 _ h
  refine ⟨i1, hc.1, ?_⟩
  intro u hu
  cases hl : (chooseAttr l).2 with
  | none => simp [hl, attrCons] at hu
  | some t =>
    simp only [hl, attrCons, Option.map_some, Option.some.injEq] at hu
    subst hu
    have G := H.good i1
    have pl := hc.2 t hl
    split
    · exact pl
    · refine G.node2 (by simp) ((G.node _ _ (by simp)).2 (getVariables_good G ?_)) pl
      simpa using pl

end ReadWorld

/-! ### Commands -/

namespace World
variable {b : Env} {W : Type} {le : W → W → Prop} {I : W → Nat → State → Prop} {P : W → Term → Prop} {can : W → Term → Prop}
variable (H : World b le I P can) {n : Nat} {w : W} {d : Nat}
include H

theorem paramAttrs {rich : Bool} {v : Term} : ∀ (as : List PAttr) {st st' : State}, I w d st → can w v →
    Ethos.paramAttrs b n rich v as st = .ok st' → I w d st'
  | [], st, st', hI, hc, h => by simp only [Ethos.paramAttrs] at h; cases h; exact hI
  | .list :: as, st, st', hI, hc, h => by
    simp only [Ethos.paramAttrs] at h
    exact paramAttrs as (H.mark hI hc (by simp) (by simp)) hc h
  | .restrict e :: as, st, st', hI, hc, h => by
    simp only [Ethos.paramAttrs, Run.ite_err', Run.bind_ok] at h
    obtain ⟨_, ⟨s1, t⟩, h1, h2⟩ := h
    exact paramAttrs as (H.parseExpr e hI h1).1 hc h2
  | .implicit :: as, st, st', hI, hc, h => by simp only [Ethos.paramAttrs, Run.ite_err'] at h; exact paramAttrs as hI hc h.2
  | .opq :: as, st, st', hI, hc, h => by simp only [Ethos.paramAttrs, Run.ite_err'] at h; exact paramAttrs as hI hc h.2
  | .synt :: as, st, st', hI, hc, h => by simp only [Ethos.paramAttrs, Run.ite_err'] at h; exact paramAttrs as hI hc h.2

theorem bindParams {rich : Bool} : ∀ (vs : List SParam) {w : W} {st st' : State} {t : List (Term × SParam)}, I w d st → Ethos.bindParams b n rich vs st = .ok (st', t) →
    ∃ w', le w w' ∧ I w' d st' ∧ ∀ v ∈ t, P w' v.1
  | [], w, st, st', t, hI, h => by simp only [Ethos.bindParams] at h; cases h; exact ⟨w, H.refl _, hI, by simp⟩
  | v :: vs, w, st, st', t, hI, h => by
    simp only [Ethos.bindParams, Run.bind_ok, Run.map_ok] at h
    obtain ⟨⟨s1, l⟩, h1, s0, h0, ⟨s2, u⟩, h2, h3⟩ := h
    cases h3
    obtain ⟨i1, p1⟩ := H.parseType hI h1
    obtain ⟨_, w1, l1, i2, p2, c2⟩ := H.sym (k := PARAM) (x := v.name) i1 (.inl rfl) p1
    have i3 := H.bind (x := v.name) i2 p2
    obtain ⟨w2, l2, i4, p4⟩ := bindParams vs (w := w1) (H.paramAttrs _ i3 c2 h0) h2
    refine ⟨w2, H.trans l1 l2, i4, ?_⟩
    intro q hq
    rcases List.mem_cons.1 hq with rfl | hq
    · exact H.mono l2 p2
    · exact p4 q hq

theorem bindRuleParams {vs : List SParam} {st st' : State} (hI : I w d st) (h : Ethos.bindRuleParams b n vs st = .ok st') :
    ∃ w', le w w' ∧ I w' d st' := by
  simp only [Ethos.bindRuleParams, Run.map_ok] at h
  obtain ⟨⟨s1, l⟩, h1, h2⟩ := h
  cases h2
  obtain ⟨w', l1, i1, _⟩ := H.bindParams vs hI h1
  exact ⟨w', l1, i1⟩

theorem declare {st : State} {x : Name} {ty : Term} {ck : Attr} {c : Option Term} {st' : State} {t : Term} (hI : I w d st) (hty : P w ty)
    (hk : ck ≠ .PROGRAM ∧ ck ≠ .PROOF_RULE) (hc : ∀ u, c = some u → P w u) (h : Ethos.declare st x ty ck c = .ok (st', t)) :
    ∃ w', le w w' ∧ I w' d st' ∧ P w' t := by
  simp only [Ethos.declare] at h
  obtain ⟨_, w1, l1, i1, p1, c1⟩ := H.sym (k := CONST) (x := x) hI (by simp) hty
  split at h
  · cases h; exact ⟨w1, l1, i1, p1⟩
  · simp only [Run.ite_err'] at h
    obtain ⟨_, h⟩ := h
    cases h
    exact ⟨w1, l1, H.mark i1 c1 hk fun t ht => H.mono l1 (hc t ht), p1⟩

theorem paramTypes {st : State} (hI : I w d st) : ∀ (vs : List (Term × SParam)) (t : Term) (op : List Term) (r : Term × List Term),
    (∀ v ∈ vs, P w v.1) → P w t → (∀ o ∈ op, P w o) → Ethos.paramTypes b n st vs t op = .ok r → P w r.1 ∧ ∀ o ∈ r.2, P w o
  | [], t, op, r, _, ht, ho, h => by simp only [Ethos.paramTypes] at h; cases h; exact ⟨ht, ho⟩
  | (p, a) :: vs, t, op, r, hv, ht, ho, h => by
    simp only [Ethos.paramTypes, Run.bind_ok, Run.ite_err] at h
    obtain ⟨pt, h1, _, h⟩ := h
    have hp : P w p := hv _ (List.mem_cons_self ..)
    have hpt := H.typeCheck hI hp h1
    have G := H.good hI
    have hq : P w (if (hasVariable t [p]).getD false = true then Term.node QUOTE_TYPE [p] else pt) := by
      split
      · exact G.node1 (by simp) hp
      · exact hpt
    have hv' : ∀ v ∈ vs, P w v.1 := fun v h => hv v (by simp [h])
    split at h
    · refine paramTypes hI vs t _ r hv' ht ?_ h
      intro o ho'
      rcases List.mem_cons.1 ho' with rfl | ho'
      · exact hq
      · exact ho o ho'
    · simp only [Run.ite_err] at h
      refine paramTypes hI vs _ op r hv' ?_ ho h.2
      exact mkFunctionType_good G (by simpa using hq) ht

theorem mkDisambiguatedType {st : State} {dp r : Term} {x : Name} {st' : State} {t : Term} (hI : I w d st) (hd : P w dp) (hr : P w r)
    (h : Ethos.mkDisambiguatedType b n st dp r x = .ok (st', t)) : ∃ w', le w w' ∧ I w' d st' ∧ P w' t := by
  simp only [Ethos.mkDisambiguatedType, Run.bind_ok, Run.map_ok] at h
  obtain ⟨u, h1, v, h2, y, h3, h4⟩ := h
  cases h4
  have G := H.good hI
  obtain ⟨a1, w1, l1, i1, p1, c1⟩ := H.sym (k := PROGRAM_CONST) (x := nm "$eo_disamb_type_" ++ x) hI (by simp)
    (ty := .node PROGRAM_TYPE [tType, tType]) (G.node2 (by simp) G.type G.type)
  have G1 := H.good i1
  have hu := build_undefined rfl a1 h1
  have hv := build_program h2
  subst hu hv
  have pd := H.mono l1 hd
  have pu : P w1 (.node APPLY [.sym PROGRAM_CONST st.next, dp]) := G1.node2 (by simp) p1 pd
  have pr := H.mono l1 hr
  have ptup := G1.node2 (k := TUPLE) (by simp) pu pr
  have pv := G1.node1 (k := PROGRAM) (by simp) ptup
  have i2 := H.prog i1 c1 pv (by
    intro c hc
    simp only [Term.children, List.mem_singleton] at hc
    subst hc
    refine ⟨by simpa [Term.children] using ⟨pu, pr⟩, ?_⟩
    intro pat r hpr
    simp only [Term.children, List.cons.injEq] at hpr
    obtain ⟨rfl, _⟩ := hpr
    simpa [Term.children] using ⟨p1, pd⟩)
  obtain ⟨_, w2, l2, i3, p3, _⟩ := H.sym (k := PARAM) (x := nm "$eo_disamb_type_" ++ x ++ nm "_var") i2 (by simp) (H.good i2).type
  have G3 := H.good i3
  refine ⟨w2, H.trans l1 l2, i3, mkFunctionType_good G3 ?_ (H.apply i3 (H.mono l2 p1) ?_ h3)⟩
  · intro c hc
    rw [List.mem_singleton] at hc
    subst hc
    exact G3.node1 (by simp) p3
  · intro c hc
    rw [List.mem_singleton] at hc
    subst hc
    exact p3

theorem disambiguate {st : State} {x : Name} {t : Term} {op : List Term} {ck : Attr} {st' : State} {r : Term × Attr} (hI : I w d st) (ht : P w t)
    (hk : ck ≠ .PROGRAM ∧ ck ≠ .PROOF_RULE) (h : Ethos.disambiguate b n st x t op ck = .ok (st', r)) :
    ∃ w', le w w' ∧ I w' d st' ∧ P w' r.1 ∧ r.2 ≠ .PROGRAM ∧ r.2 ≠ .PROOF_RULE := by
  simp only [Ethos.disambiguate] at h
  split at h
  · cases h; exact ⟨w, H.refl _, hI, ht, hk⟩
  · simp only [Run.ite_err, Run.map_ok] at h
    obtain ⟨_, ⟨s1, l⟩, h1, h2⟩ := h
    cases h2
    obtain ⟨w1, l1, i1, p1⟩ := H.mkDisambiguatedType hI (functionTypeLoop_good (H.good hI) _ t ht).2 ht h1
    exact ⟨w1, l1, i1, p1, by simp⟩

theorem execDeclareParam {st : State} {x : Name} {ps : List SParam} {ret : SExp} {a : List SAttr} {st' : State} (hI : I w d st)
    (h : Ethos.execDeclareParam b n st x ps ret a = .ok st') : ∃ w', le w w' ∧ I w' d st' := by
  simp only [Ethos.execDeclareParam, Run.bind_ok, Run.map_ok] at h
  obtain ⟨⟨s1, ps1⟩, h1, ⟨s2, t2⟩, h2, ⟨s3, ck, c⟩, h3, tt, h4, ⟨s5, d5⟩, h5, e, h6, ⟨s7, v⟩, h7, s8, h8, h9⟩ := h
  cases h9
  obtain ⟨w1, l1, i1, p1⟩ := H.bindParams _ (H.push hI) h1
  obtain ⟨i2, p2⟩ := H.parseType i1 h2
  obtain ⟨i3, hk, pc⟩ := H.parseAttrs i2 h3
  obtain ⟨p4, p4'⟩ := H.paramTypes i3 _ _ _ _ (fun v hv => p1 v (List.mem_filter.1 (List.mem_reverse.1 hv)).1) p2 (by simp) h4
  obtain ⟨w2, l2, i5, p5, hk5⟩ := H.disambiguate i3 p4 hk h5
  have G5 := H.good i5
  have he : P w2 e.1 ∧ (e.2.1 ≠ .PROGRAM ∧ e.2.1 ≠ .PROOF_RULE) ∧ ∀ u, e.2.2 = some u → P w2 u := by
    simp only [opaqueType] at h6
    split at h6
    · cases h6; exact ⟨p5, hk5, fun u hu => H.mono l2 (pc u hu)⟩
    · simp only [Run.ite_err] at h6
      obtain ⟨_, h6⟩ := h6
      cases h6
      refine ⟨mkFunctionType_good G5 (fun t ht => H.mono l2 (p4' t ht)) p5, by simp, ?_⟩
      intro u hu
      cases hu
      exact G5.lit _
  obtain ⟨w3, l3, i7, p7⟩ := H.declare i5 he.1 he.2.1 he.2.2 h7
  exact ⟨w3, H.trans l1 (H.trans l2 l3), H.bind (H.pop i7 h8) p7⟩

theorem addReferenceAssert {st st' : State} {a : Term} (hI : I w d st) (h : st.addReferenceAssert b n a = .ok st') : I w d st' := by
  simp only [State.addReferenceAssert, Run.map_ok] at h
  obtain ⟨aa, _, h⟩ := h
  subst h
  exact H.refAssert hI

theorem defineParams {ps : List SParam} {st st' : State} {ts : List Term} (hI : I w d st) (h : Ethos.defineParams b n ps st = .ok (st', ts)) :
    ∃ w', le w w' ∧ I w' (d+1) st' ∧ ∀ t ∈ ts, P w' t := by
  simp only [Ethos.defineParams, Run.bind_ok] at h
  obtain ⟨⟨s1, l⟩, h1, h⟩ := h
  obtain ⟨w1, l1, i1, p1⟩ := H.bindParams _ (H.push hI) h1
  have pl : ∀ t ∈ (l.filter fun v => !v.2.implicit).map (·.1), P w1 t := by
    intro t ht
    obtain ⟨q, hq, rfl⟩ := List.mem_map.1 ht
    exact p1 q (List.mem_filter.1 hq).1
  split at h
  · simp only [Run.map_ok] at h
    obtain ⟨s2, h2, h3⟩ := h
    cases h3
    refine ⟨w1, l1, H.bindAll (H.push (H.pop i1 h2)) ?_, pl⟩
    intro p hp
    obtain ⟨q, hq, rfl⟩ := List.mem_map.1 hp
    exact p1 q (List.mem_filter.1 hq).1
  · cases h
    exact ⟨w1, l1, i1, pl⟩

theorem lambda {st : State} (hI : I w d st) {vs : List Term} {body : Term} (hv : ∀ v ∈ vs, P w v) (hb : P w body) :
    P w (.node LAMBDA [.node TUPLE vs, body]) := by
  have G := H.good hI
  refine (G.lambda _).2 ⟨?_, ?_⟩
  · intro c hc
    simp at hc
    rcases hc with rfl | rfl
    · exact (G.node _ _ (by simp)).2 hv
    · exact hb
  · intro vs hvs
    simp at hvs
    subst hvs
    rfl

theorem checkTypeAttrs {e : Term} : ∀ (tys : List SExp) {st st' : State}, I w d st → Ethos.checkTypeAttrs b n e tys st = .ok st' → I w d st'
  | [], st, st', hI, h => by simp only [Ethos.checkTypeAttrs] at h; cases h; exact hI
  | ty :: tys, st, st', hI, h => by
    simp only [Ethos.checkTypeAttrs, Run.bind_ok] at h
    obtain ⟨⟨s1, l⟩, h1, _, _, h2⟩ := h
    exact checkTypeAttrs tys (H.parseExpr ty hI h1).1 h2

theorem execDefine {st : State} {x : Name} {ps : List SParam} {e : SExp} {ty : List SExp} {st' : State} (hI : I w d st)
    (h : Ethos.execDefine b n st x ps e ty = .ok st') : ∃ w', le w w' ∧ I w' d st' := by
  simp only [Ethos.execDefine, Run.bind_ok, Run.map_ok] at h
  obtain ⟨⟨s1, l⟩, h1, ⟨s2, u⟩, h2, s3, h3, s4, h4, h5⟩ := h
  cases h5
  obtain ⟨w1, l1, i1, p1⟩ := H.defineParams hI h1
  obtain ⟨i2, p2⟩ := H.parseExpr e i1 h2
  have i3 : I w1 (d+1) s3 := H.checkTypeAttrs ty i2 h3
  refine ⟨w1, l1, H.bind (H.pop i3 h4) ?_⟩
  dsimp only
  split
  · exact p2
  · exact H.lambda i2 p1 p2

theorem typesOfVars {st : State} (hI : I w d st) : ∀ (vs ts : List Term), (∀ v ∈ vs, P w v) → Ethos.typesOfVars b n st vs = .ok ts → ∀ t ∈ ts, P w t
  | [], ts, _, h => by simp only [Ethos.typesOfVars] at h; cases h; simp
  | v :: vs, ts, hv, h => by
    simp only [Ethos.typesOfVars, Run.bind_ok, Run.map_ok] at h
    obtain ⟨t, h1, us, h2, rfl⟩ := h
    intro x hx
    rcases List.mem_cons.1 hx with rfl | hx
    · exact H.typeCheck hI (hv v (by simp)) h1
    · exact typesOfVars hI vs us (fun v h => hv v (by simp [h])) h2 x hx

theorem execDefineFun {st : State} {x : Name} {ps : List SParam} {ty e : SExp} {st' : State} (hI : I w d st)
    (h : Ethos.execDefineFun b n st x ps ty e = .ok st') : ∃ w', le w w' ∧ I w' d st' := by
  simp only [Ethos.execDefineFun, Run.bind_ok, Run.map_ok, Run.orErr_ok] at h
  obtain ⟨⟨s1, l⟩, h1, ⟨s2, u⟩, h2, ⟨s3, v⟩, h3, _, _, eq, heq, r, hr, a, _, s4, h4, s5, h5, h6⟩ := h
  cases h6
  obtain ⟨w1, l1, i1, p1⟩ := H.defineParams hI h1
  obtain ⟨i2, p2⟩ := H.parseType i1 h2
  obtain ⟨i3, p3⟩ := H.parseExpr e i2 h3
  have pr : P w1 r.2 := by
    simp only [Ethos.defineFunRhs] at hr
    split at hr
    · cases hr; exact p2
    · simp only [Run.bind_ok, Run.map_ok] at hr
      obtain ⟨_, _, _, _, _, _, ts, h7, rfl⟩ := hr
      exact mkFunctionType_good (H.good i3) (H.typesOfVars i3 _ _ p1 h7) p2
  obtain ⟨_, w2, l2, i4, p4, _⟩ := H.sym (k := CONST) (x := x) i3 (by simp) pr
  exact ⟨w2, H.trans l1 l2, H.bind (H.pop (H.addReferenceAssert i4 h4) h5) p4⟩

theorem sortParams : ∀ (ps : List Name) {w : W} (p : State × List Term), I w d p.1 → (∀ t ∈ p.2, P w t) →
    ∃ w', le w w' ∧ I w' d (ps.foldl (fun (p : State × List Term) y =>
      let q := p.1.mkSymbol PARAM y tType
      (q.1.bind y q.2, p.2 ++ [q.2])) p).1 ∧ ∀ t ∈ (ps.foldl (fun (p : State × List Term) y =>
      let q := p.1.mkSymbol PARAM y tType
      (q.1.bind y q.2, p.2 ++ [q.2])) p).2, P w' t
  | [], w, p, hI, hp => ⟨w, H.refl _, hI, hp⟩
  | y :: ps, w, p, hI, hp => by
    obtain ⟨_, w1, l1, i1, p1, _⟩ := H.sym (k := PARAM) (x := y) hI (by simp) (H.good hI).type
    obtain ⟨w2, l2, i2, p2⟩ := sortParams ps (w := w1) ((p.1.mkSymbol PARAM y tType).1.bind y (.sym PARAM p.1.next), p.2 ++ [.sym PARAM p.1.next])
      (H.bind i1 p1) (by
        intro t ht
        rcases List.mem_append.1 ht with ht | ht
        · exact H.mono l1 (hp t ht)
        · simp at ht; rw [ht]; exact p1)
    exact ⟨w2, H.trans l1 l2, i2, p2⟩

theorem execDefineSort {st : State} {x : Name} {ps : List Name} {ty : SExp} {st' : State} (hI : I w d st)
    (h : Ethos.execDefineSort b n st x ps ty = .ok st') : ∃ w', le w w' ∧ I w' d st' := by
  simp only [Ethos.execDefineSort, Run.bind_ok] at h
  obtain ⟨⟨s1, t⟩, h1, h⟩ := h
  by_cases he : ps.isEmpty = true
  · simp only [he, if_true] at h h1
    cases h
    obtain ⟨w1, l1, i1, _⟩ := H.sortParams ps (st, []) hI (by simp)
    obtain ⟨i2, p2⟩ := H.parseType i1 h1
    exact ⟨w1, l1, H.bind i2 p2⟩
  · simp only [he, Bool.false_eq_true, if_false, Run.map_ok] at h h1
    obtain ⟨s2, h4, h5⟩ := h
    cases h5
    obtain ⟨w1, l1, i1, p1⟩ := H.sortParams ps (st.push, []) (H.push hI) (by simp)
    obtain ⟨i2, p2⟩ := H.parseType i1 h1
    exact ⟨w1, l1, H.bind (H.pop i2 h4) (H.lambda i2 p1 p2)⟩

theorem mkTypeConst {st : State} {x : Name} {k : Nat} (hI : I w d st) : ∃ w', le w w' ∧ I w' d (st.mkTypeConst x k).1 ∧
    P w' (st.mkTypeConst x k).2 ∧ can w' (st.mkTypeConst x k).2 := by
  have G := H.good hI
  obtain ⟨_, w1, l1, i1, p1, c1⟩ := H.sym (k := CONST) (x := x) hI (by simp)
    (mkFunctionType_good G (ts := List.replicate k tType) (fun t ht => (List.mem_replicate.1 ht).2 ▸ G.type) G.type)
  exact ⟨w1, l1, i1, p1, c1⟩

theorem dtSels {dt : Term} : ∀ (l : List (Name × SExp)) {w : W} {st st' : State} {r}, I w d st → P w dt → Ethos.dtSels b n dt l st = .ok (st', r) →
    ∃ w', le w w' ∧ I w' d st' ∧ (∀ t ∈ r.1, P w' t) ∧ (∀ t ∈ r.2.1, P w' t) ∧ ∀ p ∈ r.2.2, P w' p.2
  | [], w, st, st', r, hI, hd, h => by simp only [Ethos.dtSels] at h; cases h; exact ⟨w, H.refl _, hI, by simp, by simp, by simp⟩
  | (x, e) :: l, w, st, st', r, hI, hd, h => by
    simp only [Ethos.dtSels, Run.bind_ok, Run.map_ok] at h
    obtain ⟨⟨s1, t⟩, h1, ⟨s2, u⟩, h2, h3⟩ := h
    cases h3
    obtain ⟨i1, p1⟩ := H.parseType hI h1
    obtain ⟨_, w1, l1, i2, p2, _⟩ := H.sym (k := CONST) (x := x) i1 (by simp) (mkFunctionType_good (H.good i1) (ts := [dt]) (by simpa using hd) p1)
    obtain ⟨_, w2, l2, i3, p3, _⟩ := H.sym (k := CONST) (x := nm "update-" ++ x) i2 (by simp)
      (mkFunctionType_good (H.good i2) (ts := [dt, t]) (by simpa using ⟨H.mono l1 hd, H.mono l1 p1⟩) (H.mono l1 hd))
    obtain ⟨w3, l3, i4, q1, q2, q3⟩ := dtSels l i3 (H.mono l2 (H.mono l1 hd)) h2
    refine ⟨w3, H.trans l1 (H.trans l2 l3), i4, ?_, ?_, ?_⟩
    · intro c hc
      rcases List.mem_cons.1 hc with rfl | hc
      · exact H.mono (H.trans l1 (H.trans l2 l3)) p1
      · exact q1 c hc
    · intro c hc
      rcases List.mem_cons.1 hc with rfl | hc
      · exact H.mono (H.trans l2 l3) p2
      · exact q2 c hc
    · intro c hc
      rcases List.mem_cons.1 hc with rfl | hc
      · exact H.mono (H.trans l2 l3) p2
      rcases List.mem_cons.1 hc with rfl | hc
      · exact H.mono l3 p3
      · exact q3 c hc

theorem dtConsType {st st' : State} {dt : Term} {ps types : List Term} {x : Name} {r} (hI : I w d st) (hd : P w dt) (ht : ∀ t ∈ types, P w t)
    (h : Ethos.dtConsType b n st dt ps types x = .ok (st', r)) : ∃ w', le w w' ∧ I w' d st' ∧ P w' r.1 := by
  have pt := mkFunctionType_good (H.good hI) ht hd
  simp only [Ethos.dtConsType] at h
  split at h
  · cases h; exact ⟨w, H.refl _, hI, pt⟩
  · split at h
    · cases h; exact ⟨w, H.refl _, hI, pt⟩
    · simp only [Run.map_ok] at h
      obtain ⟨⟨s1, l⟩, h1, h2⟩ := h
      cases h2
      exact H.mkDisambiguatedType hI hd pt h1

/-- the constructors of a datatype with their selectors may be marked -/
def Markable (P can : W → Term → Prop) (w : W) (l : List (Term × List Term × Bool)) : Prop :=
  ∀ c ∈ l, P w c.1 ∧ can w c.1 ∧ ∀ t ∈ c.2.1, P w t

theorem markable_mono {w w' : W} {l : List (Term × List Term × Bool)} (h : le w w') (hl : Markable P can w l) : Markable P can w' l :=
  fun c hc => ⟨H.mono h (hl c hc).1, H.canMono h (hl c hc).2.1, fun t ht => H.mono h ((hl c hc).2.2 t ht)⟩

theorem dtCtors {dt : Term} {ps : List Term} : ∀ (l : List SCons) {w : W} {st st' : State} {r}, I w d st → P w dt →
    Ethos.dtCtors b n dt ps l st = .ok (st', r) → ∃ w', le w w' ∧ I w' d st' ∧ Markable P can w' r.1 ∧ ∀ p ∈ r.2, P w' p.2
  | [], w, st, st', r, hI, hd, h => by simp only [Ethos.dtCtors] at h; cases h; exact ⟨w, H.refl _, hI, by simp [Markable], by simp⟩
  | c :: l, w, st, st', r, hI, hd, h => by
    simp only [Ethos.dtCtors, Run.bind_ok, Run.map_ok] at h
    obtain ⟨⟨s1, p⟩, h1, ⟨s2, t⟩, h2, ⟨s3, q⟩, h3, h4⟩ := h
    cases h4
    obtain ⟨w1, l1, i1, p1, p2, p3⟩ := H.dtSels _ hI hd h1
    obtain ⟨w2, l2, i2, pt⟩ := H.dtConsType i1 (H.mono l1 hd) p1 h2
    obtain ⟨_, w3, l3, i3, pk, ck⟩ := H.sym (k := CONST) (x := c.name) i2 (by simp) pt
    have hd3 := H.mono (H.trans l1 (H.trans l2 l3)) hd
    obtain ⟨_, w4, l4, i4, pi, _⟩ := H.sym (k := CONST) (x := nm "is-" ++ c.name) i3 (by simp)
      (mkFunctionType_good (H.good i3) (ts := [dt]) (by simpa using hd3) ((H.good i3).node0 (k := BOOL_TYPE) (by simp)))
    obtain ⟨w5, l5, i5, m5, p5⟩ := dtCtors l i4 (H.mono l4 hd3) h3
    have l35 := H.trans l4 l5
    have l15 := H.trans l2 (H.trans l3 l35)
    refine ⟨w5, H.trans l1 l15, i5, ?_, ?_⟩
    · intro c hc
      rcases List.mem_cons.1 hc with rfl | hc
      · exact ⟨H.mono l35 pk, H.canMono l35 ck, fun t ht => H.mono l15 (p2 t ht)⟩
      · exact m5 c hc
    · intro c hc
      rcases List.mem_append.1 hc with hc | hc
      · exact H.mono l15 (p3 c hc)
      rcases List.mem_cons.1 hc with rfl | hc
      · exact H.mono l35 pk
      rcases List.mem_cons.1 hc with rfl | hc
      · exact H.mono l5 pi
      · exact p5 c hc

theorem dtType {x : Name} {pre : Option (Term × Nat)} {k : Nat} {st st' : State} {t : Term} (hI : I w d st)
    (hp : ∀ q, pre = some q → P w q.1 ∧ can w q.1) (h : Ethos.dtType x pre k st = .ok (st', t)) :
    ∃ w', le w w' ∧ I w' d st' ∧ P w' t ∧ can w' t := by
  cases pre with
  | none =>
    simp only [Ethos.dtType] at h
    cases h
    obtain ⟨w1, l1, i1, p1, c1⟩ := H.mkTypeConst (x := x) (k := k) hI
    exact ⟨w1, l1, H.bind i1 p1, p1, c1⟩
  | some q =>
    simp only [Ethos.dtType, Run.ite_err'] at h
    obtain ⟨_, h⟩ := h
    cases h
    exact ⟨w, H.refl _, hI, hp _ rfl⟩

theorem dtBody {x : Name} {pre : Option (Term × Nat)} {e : SDt} {st st' : State} {r} (hI : I w d st)
    (hp : ∀ q, pre = some q → P w q.1 ∧ can w q.1) (h : Ethos.dtBody b n x pre e st = .ok (st', r)) :
    ∃ w', le w w' ∧ I w' d st' ∧ can w' r.1 ∧ Markable P can w' r.2 := by
  simp only [Ethos.dtBody, Run.bind_ok, Run.map_ok] at h
  obtain ⟨⟨s1, t⟩, h1, dt, h2, ⟨s3, c⟩, h3, s4, h4, h5⟩ := h
  cases h5
  by_cases he : e.params.isEmpty = true
  · simp only [he, if_true] at h1 h2 h3 h4
    cases h2
    cases h4
    obtain ⟨w0, l0, i0, _⟩ := H.sortParams e.params (st, []) hI (by simp)
    obtain ⟨w1, l1, i1, p1, c1⟩ := H.dtType i0 (fun q hq => ⟨H.mono l0 (hp q hq).1, H.canMono l0 (hp q hq).2⟩) h1
    obtain ⟨w2, l2, i2, m2, p2⟩ := H.dtCtors _ i1 p1 h3
    exact ⟨w2, H.trans l0 (H.trans l1 l2), H.bindAll i2 p2, H.canMono l2 c1, m2⟩
  · simp only [he, Bool.false_eq_true, if_false] at h1 h2 h3 h4
    obtain ⟨w0, l0, i0, p0⟩ := H.sortParams e.params (st.push, []) (H.push hI) (by simp)
    obtain ⟨w1, l1, i1, p1, c1⟩ := H.dtType i0 (fun q hq => ⟨H.mono l0 (hp q hq).1, H.canMono l0 (hp q hq).2⟩) h1
    have pd := H.apply i1 p1 (fun c hc => H.mono l1 (p0 c hc)) h2
    obtain ⟨w2, l2, i2, m2, p2⟩ := H.dtCtors _ i1 pd h3
    exact ⟨w2, H.trans l0 (H.trans l1 l2), H.bindAll (H.pop i2 h4) p2, H.canMono l2 c1, m2⟩

theorem dtBodies : ∀ (xs : List (Name × Term × Nat)) (ds : List SDt) {w : W} {st st' : State} {r}, I w d st →
    (∀ q ∈ xs, P w q.2.1 ∧ can w q.2.1) → Ethos.dtBodies b n xs ds st = .ok (st', r) →
    ∃ w', le w w' ∧ I w' d st' ∧ ∀ p ∈ r, can w' p.1 ∧ Markable P can w' p.2
  | [], [], w, st, st', r, hI, hx, h => by simp only [Ethos.dtBodies] at h; cases h; exact ⟨w, H.refl _, hI, by simp⟩
  | _ :: _, [], w, st, st', r, hI, hx, h => by simp only [Ethos.dtBodies] at h; cases h; exact ⟨w, H.refl _, hI, by simp⟩
  | [], _ :: _, w, st, st', r, hI, hx, h => by simp only [Ethos.dtBodies] at h; cases h
  | (x, t) :: xs, d :: ds, w, st, st', r, hI, hx, h => by
    simp only [Ethos.dtBodies, Run.bind_ok, Run.map_ok] at h
    obtain ⟨⟨s1, q⟩, h1, ⟨s2, u⟩, h2, h3⟩ := h
    cases h3
    obtain ⟨w1, l1, i1, c1, m1⟩ := H.dtBody hI (fun q hq => by cases hq; exact hx _ (List.mem_cons_self ..)) h1
    obtain ⟨w2, l2, i2, m2⟩ := dtBodies xs ds i1
      (fun q hq => ⟨H.mono l1 (hx q (List.mem_cons_of_mem _ hq)).1, H.canMono l1 (hx q (List.mem_cons_of_mem _ hq)).2⟩) h2
    refine ⟨w2, H.trans l1 l2, i2, ?_⟩
    intro p hp
    rcases List.mem_cons.1 hp with rfl | hp
    · exact ⟨H.canMono l2 c1, H.markable_mono l2 m1⟩
    · exact m2 p hp

theorem dtTypes : ∀ (xs : List (Name × Nat)) {w : W} {st : State}, I w d st →
    ∃ w', le w w' ∧ I w' d (Ethos.dtTypes xs st).1 ∧ ∀ q ∈ (Ethos.dtTypes xs st).2, P w' q.2.1 ∧ can w' q.2.1
  | [], w, st, hI => ⟨w, H.refl _, hI, by simp [Ethos.dtTypes]⟩
  | (x, k) :: xs, w, st, hI => by
    obtain ⟨w1, l1, i1, p1, c1⟩ := H.mkTypeConst (x := x) (k := k) hI
    obtain ⟨w2, l2, i2, p2⟩ := dtTypes xs (H.bind (x := x) i1 p1)
    refine ⟨w2, H.trans l1 l2, i2, ?_⟩
    intro q hq
    rcases List.mem_cons.1 hq with rfl | hq
    · exact ⟨H.mono l2 p1, H.canMono l2 c1⟩
    · exact p2 q hq

theorem mkList {st : State} {ts : List Term} {t : Term} (hI : I w d st) (ht : ∀ u ∈ ts, P w u) (h : st.mkList b n ts = .ok t) : P w t := by
  simp only [State.mkList] at h
  split at h
  · cases h; exact (H.good hI).listNil
  · exact H.apply hI (H.good hI).listCons ht h

theorem dtMarkCons : ∀ (l : List (Term × List Term × Bool)) {st st' : State}, I w d st → Markable P can w l →
    Ethos.dtMarkCons b n l st = .ok st' → I w d st'
  | [], st, st', hI, hl, h => by simp only [Ethos.dtMarkCons] at h; cases h; exact hI
  | (c, sels, amb) :: l, st, st', hI, hl, h => by
    simp only [Ethos.dtMarkCons, Run.bind_ok] at h
    obtain ⟨t, h1, h2⟩ := h
    obtain ⟨_, c1, p1⟩ := hl _ (List.mem_cons_self ..)
    refine dtMarkCons l (H.mark hI c1 (by split <;> simp) ?_) (fun c hc => hl c (List.mem_cons_of_mem _ hc)) h2
    intro u hu
    cases hu
    exact H.mkList hI p1 h1

theorem dtMark : ∀ (l : List (Term × List (Term × List Term × Bool))) {st st' : State}, I w d st →
    (∀ p ∈ l, can w p.1 ∧ Markable P can w p.2) → Ethos.dtMark b n l st = .ok st' → I w d st'
  | [], st, st', hI, hl, h => by simp only [Ethos.dtMark] at h; cases h; exact hI
  | (c, cs) :: l, st, st', hI, hl, h => by
    simp only [Ethos.dtMark, Run.bind_ok] at h
    obtain ⟨t, h1, h2⟩ := h
    obtain ⟨c1, m1⟩ := hl _ (List.mem_cons_self ..)
    refine dtMark l (H.mark hI c1 (by simp) ?_) (fun c hc => hl c (List.mem_cons_of_mem _ hc)) h2
    intro u hu
    cases hu
    refine H.mkList hI ?_ h1
    intro u hu
    obtain ⟨q, hq, rfl⟩ := List.mem_map.1 hu
    exact (m1 q hq).1

theorem dtMarkAll {l : List (Term × List (Term × List Term × Bool))} {st st' : State} (hI : I w d st)
    (hl : ∀ p ∈ l, can w p.1 ∧ Markable P can w p.2) (h : Ethos.dtMarkAll b n l st = .ok st') : I w d st' := by
  simp only [Ethos.dtMarkAll, Run.bind_ok] at h
  obtain ⟨s1, h1, h2⟩ := h
  refine H.dtMarkCons _ (H.dtMark l hI hl h1) ?_ h2
  intro c hc
  obtain ⟨p, hp, hc⟩ := List.mem_flatMap.1 hc
  exact (hl p hp).2 c hc

theorem execDatatype {st st' : State} {x : Name} {e : SDt} (hI : I w d st) (h : Ethos.execDatatype b n st x e = .ok st') :
    ∃ w', le w w' ∧ I w' d st' := by
  simp only [Ethos.execDatatype, Run.bind_ok] at h
  obtain ⟨⟨s1, p⟩, h1, h2⟩ := h
  obtain ⟨w1, l1, i1, c1, m1⟩ := H.dtBody hI (by simp) h1
  exact ⟨w1, l1, H.dtMarkAll i1 (by simpa using ⟨c1, m1⟩) h2⟩

theorem execDatatypes {st st' : State} {xs : List (Name × Nat)} {ds : List SDt} (hI : I w d st) (h : Ethos.execDatatypes b n st xs ds = .ok st') :
    ∃ w', le w w' ∧ I w' d st' := by
  simp only [Ethos.execDatatypes, Run.ite_err, Run.bind_ok] at h
  obtain ⟨_, ⟨s1, p⟩, h1, h2⟩ := h
  obtain ⟨w0, l0, i0, p0⟩ := H.dtTypes xs hI
  obtain ⟨w1, l1, i1, m1⟩ := H.dtBodies _ _ i0 p0 h1
  exact ⟨w1, H.trans l0 l1, H.dtMarkAll i1 m1 h2⟩

/-- a program command defines no symbol that existed before it -/
def OnlyNew (st st' : State) : Prop := ∀ k i, i < st.next → st'.decls.info (.sym k i) = st.decls.info (.sym k i)


omit H in
theorem mark_same {st : State} {v : Term} {a : Attr} {c : Option Term} (h : ((st.decls.info v).map (·.attr)).getD .NONE ≠ .NONE) :
    (st.decls.markConstructorKind v a c).1 = st.decls := by
  simp only [Decls.markConstructorKind]
  cases hi : st.decls.info v with
  | none => simp [hi] at h
  | some ai => simp only [hi, Option.map_some, Option.getD_some] at h; simp [h]

omit H in
theorem mark_info {st : State} {v : Term} {a : Attr} {c : Option Term} (h : ((st.decls.info v).map (·.attr)).getD .NONE = .NONE) :
    ((st.decls.markConstructorKind v a c).1.info v).map (·.attr) = some a := by
  simp only [Decls.markConstructorKind]
  cases hi : st.decls.info v with
  | none => simp
  | some ai => simp only [hi, Option.map_some, Option.getD_some] at h; simp [h]

/-- the programs and their types are the same -/
def SamePrograms (st st' : State) : Prop :=
  ∀ i, st'.symType (.sym PROGRAM_CONST i) = st.symType (.sym PROGRAM_CONST i) ∧
    st'.decls.info (.sym PROGRAM_CONST i) = st.decls.info (.sym PROGRAM_CONST i)

omit H in
theorem samePrograms_frame : Frame SamePrograms where
  refl _ _ := ⟨rfl, rfl⟩
  trans h1 h2 i := ⟨(h2 i).1.trans (h1 i).1, (h2 i).2.trans (h1 i).2⟩
  bind _ _ _ _ := ⟨rfl, rfl⟩
  push _ _ := ⟨rfl, rfl⟩
  pop := by
    intro st st' h i
    simp only [State.pop, Run.map_ok] at h
    obtain ⟨s, _, rfl⟩ := h
    exact ⟨rfl, rfl⟩

omit H in
theorem samePrograms_attrs {rich : Bool} {j : Nat} : ∀ (as : List PAttr) {st st' : State}, Ethos.paramAttrs b n rich (.sym PARAM j) as st = .ok st' →
    SamePrograms st st'
  | [], st, st', h => by simp only [Ethos.paramAttrs] at h; cases h; exact samePrograms_frame.refl _
  | .list :: as, st, st', h => by
    simp only [Ethos.paramAttrs] at h
    refine samePrograms_frame.trans ?_ (samePrograms_attrs as h)
    intro i
    refine ⟨rfl, ?_⟩
    simp only [Decls.markConstructorKind]
    split <;> simp
  | .restrict e :: as, st, st', h => by
    simp only [Ethos.paramAttrs, Run.ite_err', Run.bind_ok] at h
    obtain ⟨_, ⟨s1, t⟩, h1, h2⟩ := h
    exact samePrograms_frame.trans (samePrograms_frame.parseExpr _ _ _ h1) (samePrograms_attrs as h2)
  | .implicit :: as, st, st', h => by simp only [Ethos.paramAttrs, Run.ite_err'] at h; exact samePrograms_attrs as h.2
  | .opq :: as, st, st', h => by simp only [Ethos.paramAttrs, Run.ite_err'] at h; exact samePrograms_attrs as h.2
  | .synt :: as, st, st', h => by simp only [Ethos.paramAttrs, Run.ite_err'] at h; exact samePrograms_attrs as h.2

omit H in
theorem samePrograms_params {rich : Bool} : ∀ (vs : List SParam) {st st' : State} {t : List (Term × SParam)}, Ethos.bindParams b n rich vs st = .ok (st', t) → SamePrograms st st'
  | [], st, st', t, h => by simp only [Ethos.bindParams] at h; cases h; exact samePrograms_frame.refl _
  | v :: vs, st, st', t, h => by
    simp only [Ethos.bindParams, Run.bind_ok, Run.map_ok] at h
    obtain ⟨⟨s1, l⟩, h1, s0, h0, ⟨s2, u⟩, h2, h3⟩ := h
    cases h3
    refine samePrograms_frame.trans (samePrograms_frame.parseType h1) (samePrograms_frame.trans ?_
      (samePrograms_frame.trans (samePrograms_attrs _ h0) (samePrograms_params vs h2)))
    intro i
    simp [State.mkSymbol, State.bind]

omit H in
theorem typeCheck_program {st : State} {v ty : Term} (hk : v.kind = PROGRAM_CONST) (h : st.typeCheck b n v = .ok ty) :
    ∃ i, v = .sym PROGRAM_CONST i ∧ st.symType v ≠ none := by
  simp only [State.typeCheck, Run.bind_ok, Run.lift_ok, Run.orErr_ok] at h
  obtain ⟨r, h1, rfl⟩ := h
  cases n with
  | zero => simp [ops] at h1
  | succ n =>
    simp only [ops] at h1
    cases v with
    | sym k i =>
      obtain rfl : k = PROGRAM_CONST := hk
      simp only [typeStep, Out.ok.injEq] at h1
      have h1 : st.symType _ = _ := h1
      exact ⟨i, rfl, by simp [h1]⟩
    | lit l => cases l <;> simp [Term.kind, Lit.kind] at hk
    | node k cs =>
      obtain rfl : k = PROGRAM_CONST := hk
      simp only [typeStep, Out.bind_ok] at h1
      obtain ⟨r, h2, h3⟩ := h1
      split at h3
      · simp at h3
      · simp [typeInternal, Term.kind, isLiteralOp, Out.map] at h3

theorem execProgram {st : State} {x : Name} {ps : List SParam} {args : List SExp} {ret : SExp} {cases : Option (List (SExp × SExp))} {st' : State}
    (hI : I w d st) (hc : (∀ w' t, P w' t → can w' t) ∨ OnlyNew st st')
    (h : Ethos.execProgram b n st x ps args ret cases = .ok st') : ∃ w', le w w' ∧ I w' d st' := by
  simp only [Ethos.execProgram, Run.bind_ok, Run.map_ok, Run.ite_err] at h
  obtain ⟨s1, h1, ⟨s2, l2⟩, h2, ⟨s3, t3⟩, h3, _, ⟨s4, v, isNew⟩, h4, ⟨s5, bd⟩, h5, s6, h6, h7⟩ := h
  obtain ⟨w1, l1, i1⟩ := H.bindRuleParams (H.push hI) h1
  obtain ⟨i2, p2⟩ := H.parseTypeList _ i1 h2
  obtain ⟨i3, p3⟩ := H.parseType i2 h3
  have G3 := H.good i3
  have pt : P w1 (.node PROGRAM_TYPE (l2 ++ [t3])) := by
    refine (G3.node _ _ (by simp)).2 ?_
    intro c hc
    rcases List.mem_append.1 hc with hc | hc
    · exact p2 c hc
    · simp at hc; rw [hc]; exact p3
  have hv : ∃ w2, le w1 w2 ∧ I w2 (d+1) s4 ∧ P w2 v ∧ (can w2 v ∨ s4 = s3 ∧ ∃ i, v = .sym PROGRAM_CONST i ∧ s3.symType v ≠ none) := by
    simp only [Ethos.progVar] at h4
    split at h4
    · rename_i prev hp
      simp only [Run.ite_err, Run.map_ok] at h4
      obtain ⟨hk, _, _, h0, h4⟩ := h4
      cases h4
      simp only [State.typeCheckAs, Run.bind_ok] at h0
      obtain ⟨ty, h0, _⟩ := h0
      exact ⟨w1, H.refl _, i3, H.get i3 hp, .inr ⟨rfl, typeCheck_program (by simpa using hk) h0⟩⟩
    · cases h4
      obtain ⟨_, w2, l2, i4, p4, c4⟩ := H.sym (k := PROGRAM_CONST) (x := x) i3 (by simp) pt
      exact ⟨w2, l2, H.bind i4 p4, p4, .inl c4⟩
  obtain ⟨w2, lw, i4, pv, cv⟩ := hv
  have hb : I w2 (d+1) s5 ∧ ∀ p, bd = some p → P w2 p ∧ ProgShape (P w2) p := by
    cases cases with
    | none => simp only [Ethos.progBody] at h5; cases h5; exact ⟨i4, by simp⟩
    | some cs =>
      simp only [Ethos.progBody, Run.bind_ok, Run.ite_err, Run.ite_err', Run.map_ok] at h5
      obtain ⟨⟨s, l⟩, h1, _, hcc, t, h2, h3⟩ := h5
      cases h3
      obtain ⟨i5, p5⟩ := H.parsePairs _ i4 h1
      have G5 := H.good i5
      refine ⟨i5, ?_⟩
      intro p hp
      cases hp
      have := build_program h2
      subst this
      have htup : ∀ c ∈ l.map fun c => Term.node TUPLE [c.1, c.2], P w2 c := by
        intro c hc
        obtain ⟨q, hq, rfl⟩ := List.mem_map.1 hc
        exact G5.node2 (by simp) (p5 q hq).1 (p5 q hq).2
      refine ⟨(G5.node _ _ (by simp)).2 htup, ?_⟩
      intro c hc
      simp only [Term.children] at hc
      obtain ⟨q, hq, rfl⟩ := List.mem_map.1 hc
      refine ⟨by simpa [Term.children] using p5 q hq, ?_⟩
      intro pat r hpr
      simp only [Term.children, List.cons.injEq] at hpr
      obtain ⟨rfl, _⟩ := hpr
      simp only [checkCases, List.all_eq_true] at hcc
      have := hcc q hq
      simp only [Bool.and_eq_true, decide_eq_true_eq] at this
      exact G5.children (by rw [this.1.1.1]; simp) (p5 q hq).1
  obtain ⟨i5, pb⟩ := hb
  have i6 := H.pop i5 h6
  have i7 : I w2 d { s6 with decls := s6.decls.defineProgram v bd } := by
    cases bd with
    | none => exact i6
    | some p =>
      obtain ⟨q1, q2⟩ := pb p rfl
      by_cases hcv : can w2 v
      · exact H.prog i6 hcv q1 q2
      · rcases hc with hc | hc
        · exact absurd (hc _ _ pv) hcv
        · rcases cv with cv | ⟨rfl, i, rfl, hty⟩
          · exact absurd cv hcv
          · have F := samePrograms_frame
            simp only [Ethos.bindRuleParams, Run.map_ok] at h1
            obtain ⟨⟨s0, l0⟩, h1, rfl⟩ := h1
            have e1 : SamePrograms st s4 := F.trans (F.push st) (F.trans (samePrograms_params _ h1) (F.trans (F.parseTypeList _ h2) (F.parseType h3)))
            have e2 : SamePrograms s4 s6 := by
              refine F.trans ?_ (F.pop h6)
              cases cases with
              | none => simp [Ethos.progBody] at h5
              | some cs =>
                simp only [Ethos.progBody, Run.bind_ok, Run.ite_err, Run.ite_err', Run.map_ok] at h5
                obtain ⟨⟨s, l⟩, h1, _, _, t, _, h2⟩ := h5
                cases h2
                exact F.parsePairs _ h1
            have hi : i < st.next := H.typed hI ((e1 i).1 ▸ hty)
            by_cases hat : ((s6.decls.info (.sym PROGRAM_CONST i)).map (·.attr)).getD .NONE = .NONE
            · exfalso
              have e3 := hc PROGRAM_CONST i hi
              have e4 := mark_info (a := .PROGRAM) (c := some p) hat
              have e5 : st'.decls = (s6.decls.markConstructorKind (.sym PROGRAM_CONST i) .PROGRAM (some p)).1 := by
                rw [← h7]
                dsimp only
                split <;> rfl
              rw [← e5, e3, ← ((F.trans e1 e2) i).2] at e4
              rw [e4] at hat
              simp at hat
            · show I w2 d { s6 with decls := (s6.decls.markConstructorKind _ _ _).1 }
              rw [mark_same hat]
              exact i6
  refine ⟨w2, H.trans l1 lw, ?_⟩
  rw [← h7]
  dsimp only
  split
  · exact H.bind i7 pv
  · exact i7

/-- declarations and definitions other than of rules and of the types of literals -/
def isDecl : Cmd → Bool
  | .assume .. | .assumePush .. | .declareRule _ | .step _ | .reset | .push _ | .pop _ | .declareConsts .. => false
  | _ => true

theorem exec {st st' : State} {c : Cmd} (hI : I w d st) (hc : isDecl c = true)
    (ho : ∀ x ps as ret cs, c = .program x ps as ret cs → (∀ w' t, P w' t → can w' t) ∨ OnlyNew st st')
    (h : Ethos.exec b n st c = .ok st') : ∃ w', le w w' ∧ I w' d st' := by
  cases c with
  | assume x f => cases hc
  | assumePush x f => cases hc
  | declareRule r => cases hc
  | step s => cases hc
  | reset => cases hc
  | push k => cases hc
  | pop k => cases hc
  | declareConsts k ty => cases hc
  | declareConst x ty a =>
    simp only [Ethos.exec, Run.bind_ok, Run.map_ok] at h
    obtain ⟨⟨s1, t⟩, h1, ⟨s2, ck, r⟩, h2, ⟨s3, v⟩, h3, h4⟩ := h
    cases h4
    obtain ⟨i1, p1⟩ := H.parseType hI h1
    obtain ⟨i2, hk, p2⟩ := H.parseAttrs i1 h2
    obtain ⟨w1, l1, i3, p3⟩ := H.declare i2 p1 hk p2 h3
    exact ⟨w1, l1, H.bind i3 p3⟩
  | declareFun x sorts ret =>
    simp only [Ethos.exec, Run.bind_ok, Run.map_ok] at h
    obtain ⟨⟨s1, t⟩, h1, ⟨s2, r⟩, h2, ⟨s3, v⟩, h3, h4⟩ := h
    cases h4
    obtain ⟨i1, p1⟩ := H.parseTypeList _ hI h1
    obtain ⟨i2, p2⟩ := H.parseType i1 h2
    obtain ⟨w1, l1, i3, p3⟩ := H.declare i2 (mkFunctionType_good (H.good i2) p1 p2) (by simp) (by simp) h3
    exact ⟨w1, l1, H.bind i3 p3⟩
  | declareParam x ps ret a => exact H.execDeclareParam hI h
  | declareSort x k =>
    simp only [Ethos.exec] at h
    cases h
    obtain ⟨w1, l1, i1, p1, _⟩ := H.mkTypeConst (x := x) (k := k) hI
    exact ⟨w1, l1, H.bind i1 p1⟩
  | declareDatatype x e => exact H.execDatatype hI h
  | declareDatatypes xs ds => exact H.execDatatypes hI h
  | checkSatAssuming fs =>
    simp only [Ethos.exec, Run.map_ok] at h
    obtain ⟨⟨s1, t⟩, h1, h2⟩ := h
    cases h2
    exact ⟨w, H.refl _, (H.parseList fs hI h1).1⟩
  | defineConst x ty e =>
    simp only [Ethos.exec, Run.bind_ok, Run.map_ok] at h
    obtain ⟨⟨s1, t⟩, h1, ⟨s2, r⟩, h2, _, _, h4⟩ := h
    cases h4
    obtain ⟨i1, p1⟩ := H.parseType hI h1
    obtain ⟨i2, p2⟩ := H.parseExpr e i1 h2
    exact ⟨w, H.refl _, H.bind i2 p2⟩
  | define x ps e ty => exact H.execDefine hI h
  | defineFun x ps ty e => exact H.execDefineFun hI h
  | defineSort x ps ty => exact H.execDefineSort hI h
  | program x ps args ret cases => exact H.execProgram hI (ho _ _ _ _ _ rfl) h
  | assert f =>
    simp only [Ethos.exec, Run.bind_ok] at h
    obtain ⟨⟨s1, t⟩, h1, h2⟩ := h
    exact ⟨w, H.refl _, H.addReferenceAssert (H.parseFormula hI h1).1 h2⟩
  | nop => simp only [Ethos.exec] at h; cases h; exact ⟨w, H.refl _, hI⟩
  | exit => simp only [Ethos.exec] at h; cases h; exact ⟨w, H.refl _, hI⟩
  | incl f => simp only [Ethos.exec] at h; cases h; exact ⟨w, H.refl _, hI⟩
  | reference f nf => simp only [Ethos.exec] at h; cases h; exact ⟨w, H.refl _, hI⟩

end World
end Ethos.Props
