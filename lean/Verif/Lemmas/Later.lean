import Verif.Lemmas.Agree
import Verif.Lemmas.Sound
import Verif.Spec.Later
/-
Commands change nothing about the symbols that exist, except that they may define declared programs.
-/
namespace Ethos.Props
open Ethos Kind Spec

/-- not a symbol made with a number from `m` on -/
def NotNew (m : Nat) (t : Term) : Prop := ∀ k i, t = .sym k i → k ≠ VARIABLE → k ≠ BUILTIN_CONST → i < m

/-- the attribute set is none -/
def Unmarked (st : State) (t : Term) : Prop := ∀ ai, st.decls.info t = some ai → ai.attr = .NONE

/-- what is the same about the symbols numbered below `m`; those in `D` may have been defined, and literals may have got a type if `L` -/
structure Kept (L : Prop) (D : Term → Prop) (m : Nat) (st0 st : State) : Prop where
  next : m ≤ st.next
  symType : ∀ t, NotNew m t → st.symType t = st0.symType t
  symName : ∀ t, NotNew m t → st.symName t = st0.symName t
  info : ∀ t, NotNew m t → st.decls.info t = st0.decls.info t ∨ D t ∧ Unmarked st0 t ∧ ∃ ai p, st.decls.info t = some ai ∧ ai.attr = .PROGRAM ∧ ai.cons = some p
  lit : L ∨ st.decls.litRule = st0.decls.litRule

variable {b : Env} {n n0 m m0 : Nat} {L : Prop} {D : Term → Prop} {st0 st st' : State}

theorem Kept.refl (L : Prop) (D : Term → Prop) (st : State) : Kept L D st.next st st := ⟨Nat.le_refl _, fun _ _ => rfl, fun _ _ => rfl, fun _ _ => .inl rfl, .inr rfl⟩

theorem Kept.congr (H : Kept L D m0 st0 st) (h1 : st'.next = st.next) (h2 : st'.symType = st.symType) (h3 : st'.symName = st.symName)
    (h4 : st'.decls.info = st.decls.info) (h5 : st'.decls.litRule = st.decls.litRule) : Kept L D m0 st0 st' :=
  ⟨by rw [h1]; exact H.next, by rw [h2]; exact H.symType, by rw [h3]; exact H.symName, by rw [h4]; exact H.info, by rw [h5]; exact H.lit⟩

theorem Kept.pop (H : Kept L D m0 st0 st) (h : st.pop = .ok st') : Kept L D m0 st0 st' := by
  simp only [State.pop, Run.map_ok] at h
  obtain ⟨s, _, rfl⟩ := h
  exact H.congr rfl rfl rfl rfl rfl

theorem Kept.mkSym (H : Kept L D m0 st0 st) {k : Kind} (hk : k ≠ VARIABLE ∧ k ≠ BUILTIN_CONST) (x : Name) (ty : Term) : Kept L D m0 st0 (st.mkSymbol k x ty).1 := by
  have hne : ∀ t, NotNew m0 t → t ≠ .sym k st.next := fun t ht he => Nat.lt_irrefl _ (Nat.lt_of_lt_of_le (ht k _ he hk.1 hk.2) H.next)
  refine ⟨Nat.le_succ_of_le H.next, ?_, ?_, H.info, H.lit⟩
  · intro t ht
    simp only [State.mkSymbol, if_neg (hne t ht)]
    exact H.symType t ht
  · intro t ht
    simp only [State.mkSymbol, if_neg (hne t ht)]
    exact H.symName t ht

theorem mark_lit {d : Decls} {v : Term} {a : Attr} {c : Option Term} : (d.markConstructorKind v a c).1.litRule = d.litRule := by
  simp only [Decls.markConstructorKind]
  split <;> rfl

theorem Kept.markNew (H : Kept L D m0 st0 st) {v : Term} (hv : ¬ NotNew m0 v) (a : Attr) (c : Option Term) :
    Kept L D m0 st0 { st with decls := (st.decls.markConstructorKind v a c).1 } := by
  refine ⟨H.next, H.symType, H.symName, ?_, by rw [mark_lit]; exact H.lit⟩
  intro t ht
  have : (st.decls.markConstructorKind v a c).1.info t = st.decls.info t := mark_other (by rintro rfl; exact hv ht)
  show (st.decls.markConstructorKind v a c).1.info t = _ ∨ _
  rw [this]
  exact H.info t ht

theorem Kept.markProg (H : Kept L D m0 st0 st) {v : Term} (hv : D v) (p : Term) :
    Kept L D m0 st0 { st with decls := (st.decls.markConstructorKind v .PROGRAM (some p)).1 } := by
  refine ⟨H.next, H.symType, H.symName, ?_, by rw [mark_lit]; exact H.lit⟩
  intro t ht
  show (st.decls.markConstructorKind v .PROGRAM (some p)).1.info t = _ ∨ _ ∧ _ ∧ ∃ ai p', (st.decls.markConstructorKind v .PROGRAM (some p)).1.info t = _ ∧ _
  by_cases he : t = v
  · subst he
    by_cases ha : ((st.decls.info t).map (·.attr)).getD .NONE = .NONE
    · have h0 : (st.decls.markConstructorKind t .PROGRAM (some p)).1.info t = some { (st.decls.info t).getD ⟨.NONE, none, NONE, none⟩ with attr := .PROGRAM, cons := some p } := by
        have : ((st.decls.info t).getD ⟨.NONE, none, NONE, none⟩).attr = .NONE := by
          cases h : st.decls.info t with
          | none => rfl
          | some ai => rw [h] at ha; exact ha
        simp only [Decls.markConstructorKind, this, ne_eq, not_true_eq_false, if_false, if_true]
      refine .inr ⟨hv, ?_, _, p, h0, rfl, rfl⟩
      rcases H.info t ht with h | ⟨_, h2, _⟩
      · intro ai hai
        rw [h, hai] at ha
        exact ha
      · exact h2
    · rw [World.mark_same ha]
      exact H.info t ht
  · rw [mark_other he]
    exact H.info t ht

theorem Old.notNew (hb : BaseOk b n0) (hn : n0 ≤ m) {t : Term} (h : Old b m t) : NotNew m t := by
  rintro k i rfl h1 h2
  apply Decidable.byContradiction
  intro h3
  exact Old.new hb hn ⟨h1, h2⟩ (by omega) h

/-- the invariants as a world -/
theorem keptWorld (hb : BaseOk b n0) (L : Prop) (D : Term → Prop) (m0 : Nat) (st0 : State) :
    World b (· ≤ ·) (fun m (_ : Nat) st => Fresh b n0 m st ∧ Kept L D m0 st0 st) (fun m => Old b m) (fun m v => Old b m v ∧ ¬ NotNew m0 v) := by
  have W := freshWorld hb
  exact {
    refl := Nat.le_refl
    trans := Nat.le_trans
    mono := fun h ht => ht.mono h
    canMono := fun h ht => ⟨ht.1.mono h, ht.2⟩
    good := fun H => H.1.good hb
    typed := fun H h => W.typed (d := 0) H.1 h
    get := fun H h => W.get (d := 0) H.1 h
    bind := fun H ht => ⟨W.bind (d := 0) H.1 ht, H.2.congr rfl rfl rfl rfl rfl⟩
    push := fun H => ⟨W.push (d := 0) H.1, H.2.congr rfl rfl rfl rfl rfl⟩
    pop := fun H h => ⟨W.pop (d := 0) H.1 h, H.2.pop h⟩
    sym := by
      intro w d st k x ty H hk hty
      have hk' : k ≠ VARIABLE ∧ k ≠ BUILTIN_CONST := by rcases hk with rfl | rfl | rfl <;> simp
      obtain ⟨h1, h2, h3⟩ := H.1.sym hb x hk' hty
      refine ⟨h1, w + 1, by omega, ⟨h2, H.2.mkSym hk' x ty⟩, h3, h3, ?_⟩
      intro h
      exact Nat.lt_irrefl _ (Nat.lt_of_lt_of_le (h k _ rfl hk'.1 hk'.2) H.2.next)
    mark := fun H hv _ hc => ⟨H.1.mark hb hv.1 hc, H.2.markNew hv.2 _ _⟩
    prog := fun H hv hp _ => ⟨H.1.mark hb hv.1 (by simpa using hp), H.2.markNew hv.2 _ _⟩
    refAssert := fun H => ⟨H.1.congr rfl rfl rfl rfl H.1.asms, H.2.congr rfl rfl rfl rfl rfl⟩
    pair := fun H => W.pair H }

variable (hb : BaseOk b n0)
include hb

/-- a program command may define a program that was there before only if it is in `D` -/
theorem Kept.program {x : Name} {ps : List SParam} {args : List SExp} {ret : SExp} {cases : Option (List (SExp × SExp))} (F : Fresh b n0 m st) (H : Kept L D m0 st0 st)
    (hD : ∀ s1 s2 ats s3 rt p cs, bindRuleParams b n ps st.push = .ok s1 → parseTypeList b n true args s1 = .ok (s2, ats) → parseType b n false true ret s2 = .ok (s3, rt) →
      cases = some cs → s3.scope.get x = some p → p.kind = PROGRAM_CONST → D p)
    (h : execProgram b n st x ps args ret cases = .ok st') : Kept L D m0 st0 st' := by
  have W := keptWorld hb L D m0 st0
  obtain ⟨s1, s2, ats, s3, rt, s4, pv, new, s5, body, s6, h1, h2, h3, h4, h5, h6, rfl⟩ := execProgram_ok h
  obtain ⟨m1, l1, i1⟩ := W.bindRuleParams (d := 0) (W.push (d := 0) ⟨F, H⟩) h1
  obtain ⟨i2, p2⟩ := W.parseTypeList (d := 0) _ i1 h2
  obtain ⟨i3, p3⟩ := W.parseType (d := 0) i2 h3
  have G3 := i3.1.good hb
  have pt : Old b m1 (.node PROGRAM_TYPE (ats ++ [rt])) := by
    refine (G3.node _ _ (by simp)).2 ?_
    intro c hc
    rcases List.mem_append.1 hc with hc | hc
    · exact p2 c hc
    · simp at hc; rw [hc]; exact p3
  have e4 : (∃ m2, Fresh b n0 m2 s4 ∧ Kept L D m0 st0 s4) ∧ ((∀ cs, cases = some cs → D pv) ∨ ¬ NotNew m0 pv) := by
    simp only [Ethos.progVar] at h4
    split at h4
    · rename_i prev hprev
      simp only [Run.ite_err, Run.map_ok] at h4
      obtain ⟨hk, _, _, _, h4⟩ := h4
      cases h4
      exact ⟨⟨m1, i3⟩, .inl fun cs hc => hD _ _ _ _ _ _ _ h1 h2 h3 hc hprev (Decidable.of_not_not hk)⟩
    · cases h4
      obtain ⟨_, i4, p4⟩ := i3.1.sym hb (k := PROGRAM_CONST) x (by simp) pt
      refine ⟨⟨m1 + 1, W.bind (d := 0) ⟨i4, i3.2.mkSym (by simp) _ _⟩ p4⟩, .inr ?_⟩
      intro hn
      exact Nat.lt_irrefl _ (Nat.lt_of_lt_of_le (hn _ _ rfl (by simp) (by simp)) i3.2.next)
  obtain ⟨⟨m2, i4⟩, hpv⟩ := e4
  have e5 : Kept L D m0 st0 s5 ∧ (body.isSome = true → ∃ cs, cases = some cs) := by
    cases cases with
    | none => simp only [Ethos.progBody] at h5; cases h5; exact ⟨i4.2, by simp⟩
    | some cs =>
      simp only [Ethos.progBody, Run.bind_ok, Run.ite_err, Run.ite_err', Run.map_ok] at h5
      obtain ⟨⟨s, l⟩, h1, _, _, t, _, h2⟩ := h5
      cases h2
      exact ⟨(W.parsePairs (d := 0) _ i4 h1).1.2, fun _ => ⟨cs, rfl⟩⟩
  have e6 := e5.1.pop h6
  have e7 : Kept L D m0 st0 { s6 with decls := s6.decls.defineProgram pv body } := by
    cases body with
    | none => exact e6
    | some p =>
      obtain ⟨cs, hcs⟩ := e5.2 rfl
      rcases hpv with hd | hn
      · exact e6.markProg (hd cs hcs) _
      · exact e6.markNew hn _ _
  split
  · exact e7.congr rfl rfl rfl rfl rfl
  · exact e7

omit hb in
theorem Kept.ruleArgTypes {pty : Term} : ∀ (as : List Term) (i : Nat) {st : State}, Kept L D m0 st0 st → Kept L D m0 st0 (Ethos.ruleArgTypes pty as i st).1
  | [], i, st, H => H
  | a :: as, i, st, H => by
    simp only [Ethos.ruleArgTypes]
    split
    · exact Kept.ruleArgTypes as (i+1) H
    · exact Kept.ruleArgTypes as (i+1) (H.mkSym (by simp) _ _)

theorem Kept.declareRule {r : SRule} (F : Fresh b n0 m st) (H : Kept L D m0 st0 st) (h : execDeclareRule b n st r = .ok st') : Kept L D m0 st0 st' := by
  have W := keptWorld hb L D m0 st0
  obtain ⟨_, s1, s2, asm, s3, prems, pcons, s4, args, s5, reqs, s6, conc, ret, s7, s8, prog, decls, h1, h2, h3, h4, h5, h6, h7, h8, h9, h10, rfl⟩ :=
    execDeclareRule_ok h
  obtain ⟨m1, l1, i1⟩ := W.bindRuleParams (d := 0) (W.push (d := 0) ⟨F, H⟩) h1
  obtain ⟨i2, p2⟩ := W.parseOpt (d := 0) i1 h2
  obtain ⟨i3, p3, p3'⟩ := W.parsePremises (d := 0) i2 h3
  obtain ⟨i4, p4⟩ := W.parseList (d := 0) _ i3 h4
  obtain ⟨i5, p5⟩ := W.parsePairs (d := 0) _ i4 h5
  obtain ⟨i6, p6⟩ := W.parseExpr (d := 0) _ i5 h6
  have k7 := i6.2.pop h8
  have k8 : Kept L D m0 st0 s8 := by
    have k7' := k7.mkSym (k := PROOF_RULE) (by simp) r.name tBool
    generalize hl : (args ++ (if r.explicit then [conc] else []) ++ asm.toList ++ prems.map mkProof) = l at h9
    cases l with
    | nil =>
      simp only [Ethos.ruleProg, Run.ite_err] at h9
      obtain ⟨_, h9⟩ := h9
      cases h9
      exact k7'
    | cons a as =>
      simp only [Ethos.ruleProg, Run.bind_ok, Run.ite_err', Run.map_ok] at h9
      obtain ⟨u, _, _, v, _, h9⟩ := h9
      cases h9
      have ka := Kept.ruleArgTypes (pty := b.proofType) (a :: as) 0 k7'
      refine (ka.mkSym (k := PROGRAM_CONST) (by simp) _ _).markNew ?_ _ _
      intro hn
      exact Nat.lt_irrefl _ (Nat.lt_of_lt_of_le (hn _ _ rfl (by simp) (by simp)) ka.next)
  have k9 : Kept L D m0 st0 { s8 with decls := decls } := by
    have : decls.info = s8.decls.info ∧ decls.litRule = s8.decls.litRule := by
      simp only [Decls.bindRule] at h10
      split at h10
      · cases h10
      · cases h10; exact ⟨rfl, rfl⟩
    exact k8.congr rfl rfl rfl this.1 this.2
  refine (k9.markNew (v := .sym PROOF_RULE s7.next) ?_ _ _).congr rfl rfl rfl rfl rfl
  intro hn
  exact Nat.lt_irrefl _ (Nat.lt_of_lt_of_le (hn _ _ rfl (by simp) (by simp)) k7.next)

theorem Kept.exec {c : Cmd} (F : Fresh b n0 m st) (H : Kept L D m0 st0 st)
    (hD : ∀ x ps args ret cs, c = .program x ps args ret (some cs) → ∀ s1 s2 ats s3 rt p, bindRuleParams b n ps st.push = .ok s1 →
      parseTypeList b n true args s1 = .ok (s2, ats) → parseType b n false true ret s2 = .ok (s3, rt) → s3.scope.get x = some p → p.kind = PROGRAM_CONST → D p)
    (hL : ∀ k ty, c = .declareConsts k ty → L)
    (h : Ethos.exec b n st c = .ok st') : Kept L D m0 st0 st' := by
  have W := keptWorld hb L D m0 st0
  by_cases hp : ∃ x ps args ret cs, c = .program x ps args ret cs
  · obtain ⟨x, ps, args, ret, cs, rfl⟩ := hp
    refine Kept.program hb F H ?_ h
    rintro s1 s2 ats s3 rt p cs' h1 h2 h3 rfl h5 h6
    exact hD x ps args ret cs' rfl s1 s2 ats s3 rt p h1 h2 h3 h5 h6
  · by_cases hd : World.isDecl c = true
    · obtain ⟨_, _, i⟩ := W.exec (d := 0) ⟨F, H⟩ hd (fun x ps as ret cs he => absurd ⟨x, ps, as, ret, cs, he⟩ hp) h
      exact i.2
    · cases c with
      | assume x f =>
        obtain ⟨s1, t, h1, h2⟩ := execAssume_ok h
        have i1 := (W.parseFormula (d := 0) ⟨F, H⟩ h1).1.2
        obtain ⟨rfl, _⟩ := addAssumption_ok h2
        exact i1.congr rfl rfl rfl rfl rfl
      | assumePush x f =>
        obtain ⟨s1, t, h1, h2⟩ := execAssume_ok h
        have i1 := (W.parseFormula (d := 0) ⟨F, H⟩ h1).1.2
        obtain ⟨rfl, _⟩ := addAssumption_ok h2
        exact i1.congr rfl rfl rfl rfl rfl
      | declareRule r => exact Kept.declareRule hb F H h
      | step s =>
        obtain ⟨s1, proven, rule, s2, prems, s3, args, conc, ty, s4, _, h1, h2, h3, h4, h5, _, _, _, h6, rfl⟩ := execStep_ok h
        obtain ⟨i1, p1⟩ := W.parseConc (d := 0) ⟨F, H⟩ h1
        obtain ⟨i2, p2⟩ := W.parseList (d := 0) _ (show _ ∧ _ from
          ⟨i1.1.congr (st' := { s1 with used := rule :: s1.used }) rfl rfl rfl rfl i1.1.asms, i1.2.congr (st' := { s1 with used := rule :: s1.used }) rfl rfl rfl rfl rfl⟩) h3
        obtain ⟨i3, p3⟩ := W.parseList (d := 0) _ i2 h4
        have i4 : Kept L D m0 st0 s4 := by
          split at h6
          · obtain ⟨last, r, _, h7⟩ := popAssumption_ok h6
            exact (i3.2.congr (st' := { s3 with asmCtx := r, asms := s3.asms.take last }) rfl rfl rfl rfl rfl).pop h7
          · cases h6; exact i3.2
        exact i4.congr rfl rfl rfl rfl rfl
      | reset =>
        simp only [Ethos.exec] at h
        cases h
        exact H.congr rfl rfl rfl rfl rfl
      | push k =>
        simp only [Ethos.exec] at h
        cases h
        have : ∀ (k : Nat) {st : State}, Kept L D m0 st0 st → Kept L D m0 st0 (Ethos.pushN k st) := by
          intro k
          induction k with
          | zero => exact fun h => h
          | succ k ih => exact fun h => ih (h.congr rfl rfl rfl rfl rfl)
        exact this k H
      | pop k =>
        have : ∀ (k : Nat) {st : State}, Kept L D m0 st0 st → Ethos.popN k st = .ok st' → Kept L D m0 st0 st' := by
          intro k
          induction k with
          | zero => intro st H h; simp only [Ethos.popN] at h; cases h; exact H
          | succ k ih =>
            intro st H h
            simp only [Ethos.popN, Run.bind_ok] at h
            obtain ⟨s, h1, h2⟩ := h
            exact ih (H.pop h1) h2
        exact this k H h
      | declareConsts k ty =>
        simp only [Ethos.exec, Run.bind_ok] at h
        obtain ⟨⟨s1, t⟩, h1, d, h2, h3⟩ := h
        obtain ⟨i1, p1⟩ := W.parseType (d := 0) (W.bind (d := 0) (x := nm "eo::self") (W.push (d := 0) ⟨F, H⟩) (F.self hb)) h1
        refine Kept.pop (st := { s1 with decls := d }) ⟨i1.2.next, i1.2.symType, i1.2.symName, ?_, .inl (hL k ty rfl)⟩ h3
        have : d.info = s1.decls.info := ?_
        · show ∀ t, NotNew m0 t → d.info t = _ ∨ _ ∧ _ ∧ ∃ ai p, d.info t = _ ∧ _
          rw [this]
          exact i1.2.info
        simp only [Decls.setLiteralTypeRule] at h2
        split at h2
        · split at h2
          · split at h2
            · cases h2; rfl
            · cases h2
          · cases h2; rfl
        · cases h2
      | _ => exact absurd rfl hd

theorem Kept.event {e : Event} (F : Fresh b n0 m st) (H : Kept L D m0 st0 st)
    (hD : ∀ x ps args ret cs, e = .cmd (.program x ps args ret (some cs)) → ∀ s1 s2 ats s3 rt p, bindRuleParams b n ps st.push = .ok s1 →
      parseTypeList b n true args s1 = .ok (s2, ats) → parseType b n false true ret s2 = .ok (s3, rt) → s3.scope.get x = some p → p.kind = PROGRAM_CONST → D p)
    (hL : ∀ k ty, e = .cmd (.declareConsts k ty) → L)
    (h : replayEvent b n st e = .ok st') : Kept L D m0 st0 st' := by
  have W := keptWorld hb L D m0 st0
  cases e with
  | enter f r nf =>
    simp only [replayEvent, Run.map_ok] at h
    obtain ⟨⟨s1, t⟩, h1, rfl⟩ := h
    exact (W.parseOpt (d := 0) ⟨F, H⟩ h1).1.2.congr rfl rfl rfl rfl rfl
  | skip f r nf =>
    simp only [replayEvent, Run.map_ok] at h
    obtain ⟨⟨s1, t⟩, h1, rfl⟩ := h
    exact (W.parseOpt (d := 0) ⟨F, H⟩ h1).1.2
  | cmd c => exact Kept.exec hb F H (fun x ps args ret cs he => hD x ps args ret cs (by rw [he])) (fun k ty he => hL k ty (by rw [he])) h

theorem Kept.replay : ∀ (es : List Event) {m : Nat} {st st' : State}, Fresh b n0 m st → Kept True (fun _ => True) m0 st0 st →
    Spec.replay b n es st = .ok st' → Kept True (fun _ => True) m0 st0 st'
  | [], m, st, st', F, H, h => by simp only [Spec.replay] at h; cases h; exact H
  | e :: es, m, st, st', F, H, h => by
    simp only [Spec.replay, Run.bind_ok] at h
    obtain ⟨s1, h1, h2⟩ := h
    obtain ⟨m1, l1, i1⟩ := F.event hb h1
    exact Kept.replay es i1 (Kept.event hb F H (fun _ _ _ _ _ _ _ _ _ _ _ _ _ _ _ _ _ => trivial) (fun _ _ _ => trivial) h1) h2

/-- commands that define no bound program keep everything -/
theorem Kept.additive : ∀ (es : List Event) {m : Nat} {st st' : State} {a : Stack}, Fresh b n0 m st → Refines st.scope a → Kept False (fun _ => False) m0 st0 st →
    Additive b n es st → Spec.replay b n es st = .ok st' → Kept False (fun _ => False) m0 st0 st'
  | [], m, st, st', a, F, T, H, A, h => by simp only [Spec.replay] at h; cases h; exact H
  | e :: es, m, st, st', a, F, T, H, A, h => by
    simp only [Spec.replay, Run.bind_ok] at h
    obtain ⟨s1, h1, h2⟩ := h
    obtain ⟨m1, l1, i1⟩ := F.event hb h1
    have hT : ∃ a', Refines s1.scope a' := by
      obtain ⟨a', _, h3⟩ := replay_table [e] (fun hm => A.reset (by rw [List.mem_singleton.1 hm]; simp)) T (by simp only [Spec.replay, Run.bind_ok]; exact ⟨s1, h1, rfl⟩)
      exact ⟨a', h3⟩
    obtain ⟨a', T'⟩ := hT
    have hk : Kept False (fun _ => False) m0 st0 s1 := by
      refine Kept.event hb F H ?_ (fun k ty he => A.literals k ty (by rw [he]; simp)) h1
      rintro x ps args ret cs rfl t1 t2 ats t3 rt p g1 g2 g3 g4 g5
      obtain ⟨z, hz, t1', _⟩ := bindRuleParams_table (a := a) (y := []) (refines_push T) (by simp [ParamScope]) g1
      have t3' := (parseType_on (parseTypeList_on _ (On.refl t1') g2) g3).table
      have hp : lookupIn (z ++ a.all) x = some p := by
        rw [← up_all]
        exact (t3'.holds.sym x).symm.trans g4
      rcases lookup_up hz hp with ⟨i, rfl⟩ | ⟨h7, _⟩
      · simp [Term.kind] at g5
      · have := (T.holds.sym x).symm.trans (A.program x ps args ret cs st (.head _ _ _))
        have h7 : lookupIn (a.scopes.flatten ++ a.globals) x = some p := h7
        rw [this] at h7
        cases h7
    exact Kept.additive es i1 T' hk ⟨fun hm => A.reset (by simp [hm]), fun x ps args ret cs s hs => A.program x ps args ret cs s (.tail _ _ _ _ _ _ h1 hs),
      fun k ty hm => A.literals k ty (by simp [hm])⟩ h2

omit hb in
theorem appInfo_decls {st : State} {t : Term} {ai : AppInfo} (h : st.decls.info t = some ai) :
    attrOf (st.env b) t = if ai.attr = .NONE then (.NONE, none) else (ai.attr, ai.cons) := by
  simp only [attrOf, State.env, Decls.appInfo, h]

omit hb in
theorem appInfo_undecl {st : State} {t : Term} (h : Unmarked st t) : attrOf (st.env b) t = (.NONE, none) := by
  cases h1 : st.decls.info t with
  | some ai => rw [appInfo_decls h1, if_pos (h ai h1)]
  | none =>
    simp only [attrOf, State.env, Decls.appInfo, h1]
    cases st.scope.mark t <;> rfl

omit hb in
theorem Kept.attr (H : Kept L D m0 st0 st) {t : Term} (ht : NotNew m0 t) (hp : D t → st.decls.getProgram t = st0.decls.getProgram t) :
    attrOf (st.env b) t = attrOf (st0.env b) t := by
  rcases H.info t ht with h | ⟨h1, h2, ai, p, h3, h4, h5⟩
  · cases h1 : st0.decls.info t with
    | some ai => rw [appInfo_decls h1, appInfo_decls (h.trans h1)]
    | none => rw [appInfo_undecl (fun ai h2 => by rw [h, h1] at h2; cases h2), appInfo_undecl (fun ai h2 => by rw [h1] at h2; cases h2)]
  · have := hp h1
    simp only [Decls.getProgram, h3, h4, h5, if_true] at this
    cases h6 : st0.decls.info t with
    | none => simp [h6] at this
    | some ai' => simp [h6, h2 ai' h6] at this

/-- the terms made of existing symbols -/
theorem made_iff (hm : st.next = m) {t : Term} : Made b st t ↔ Old b m t := by
  subst hm
  constructor
  · intro h
    induction h with
    | lit l => exact .lit l
    | sym k i h1 h2 h3 => exact .sym _ _ ⟨k, i, rfl, h1, h2⟩ h3
    | own v ty h1 _ ih => exact .own v ty h1 ih
    | node k cs h1 h2 _ ih =>
      by_cases hk : k = PROOF
      · subst hk; exact Built.proof _ trivial fun _ => ih
      · exact .node _ _ ⟨hk, h1, h2⟩ ih
    | lambda cs h1 _ ih => exact .lambda _ ih h1
  · intro h
    induction h with
    | lit l => exact .lit l
    | sym k i h1 h2 =>
      obtain ⟨k', i', h3, h4, h5⟩ := h1
      cases h3
      exact .sym _ _ h4 h5 h2
    | own v ty h1 _ ih => exact .own v ty h1 ih
    | node k cs h1 _ ih => exact .node _ _ h1.2.1 h1.2.2 ih
    | lambda cs _ h1 ih => exact .lambda _ h1 ih
    | proof cs _ _ ih => exact .node _ _ (by simp) rfl (ih rfl)

theorem Kept.ops (F : Fresh b n0 m st0) (H : Kept L D m st0 st) (hp : ∀ t, Old b m t → D t → st.decls.getProgram t = st0.decls.getProgram t)
    (hl : st.decls.litRule = st0.decls.litRule) (n : Nat) : OpsAgree (Old b m) (Ethos.ops (st0.env b) n) (Ethos.ops (st.env b) n) := by
  refine ops_agree (F.good hb) ?_ ?_ n
  · intro cs
    refine (Built.proof_iff (BaseOk.ownSym hb)).trans ?_
    simp [Old]
  · have nn : ∀ t, Old b m t → NotNew m t := fun t ht => ht.notNew hb F.ge
    exact ⟨fun t ht => H.symType t (nn t ht), fun t ht => H.symName t (nn t ht), fun t ht => H.attr (nn t ht) (hp t ht), hl, F.built.litRule,
      fun t h => .own _ t (.inr (.inl rfl)) h, rfl, rfl, rfl, rfl, rfl, rfl, rfl, rfl⟩

end Ethos.Props
