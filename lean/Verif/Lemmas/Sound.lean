import Verif.Lemmas.Levels
import Verif.Lemmas.Bindings
import Verif.Spec.Derive
import Verif.Props.Rules
import Verif.Props.Elab
/-
What the commands do to the assumption scopes.
-/
namespace Ethos.Props
open Ethos Kind Spec

theorem Derives.mono {R : RuleDef → Prop} {E : Env → Prop} {Γ Γ' : Term → Prop} {F : Term} (hΓ : ∀ G, Γ G → Γ' G) (h : Derives R E Γ F) :
    Derives R E Γ' F := by
  induction h generalizing Γ' with
  | hyp Γ F h => exact .hyp _ _ (hΓ _ h)
  | rule Γ d env ctx ps F h1 h2 h3 h4 _ ih => exact .rule _ d env ctx ps F h1 h2 h3 h4 fun p hp => ih p hp hΓ
  | discharge Γ d q env ctx ps F h1 h2 h3 h4 _ ih =>
    exact .discharge _ d q env ctx ps F h1 h2 h3 h4 fun p hp => ih p hp fun G hG => hG.imp id (hΓ G)

section
variable {b : Env} {n n0 : Nat} {a : Stack}

/-! ### Definitions of programs -/

/-- the attributes of the symbols that exist are kept -/
def OldInfo (st st' : State) : Prop := st.next ≤ st'.next ∧ ∀ k i, i < st.next → st'.decls.info (.sym k i) = st.decls.info (.sym k i)

theorem OldInfo.frame : Frame OldInfo where
  refl _ := ⟨Nat.le_refl _, fun _ _ _ => rfl⟩
  trans h1 h2 := ⟨Nat.le_trans h1.1 h2.1, fun k i hi => (h2.2 k i (Nat.lt_of_lt_of_le hi h1.1)).trans (h1.2 k i hi)⟩
  bind _ _ _ := ⟨Nat.le_refl _, fun _ _ _ => rfl⟩
  push _ := ⟨Nat.le_refl _, fun _ _ _ => rfl⟩
  pop := by
    intro st st' h
    simp only [State.pop, Run.map_ok] at h
    obtain ⟨s, _, rfl⟩ := h
    exact ⟨Nat.le_refl _, fun _ _ _ => rfl⟩

theorem OldInfo.attrs {rich : Bool} {j : Nat} {st0 : State} (hj : st0.next ≤ j) : ∀ (as : List PAttr) {st st' : State}, OldInfo st0 st →
    paramAttrs b n rich (.sym PARAM j) as st = .ok st' → OldInfo st0 st'
  | [], st, st', ho, h => by simp only [paramAttrs] at h; cases h; exact ho
  | .list :: as, st, st', ho, h => by
    simp only [paramAttrs] at h
    refine OldInfo.attrs hj as (st := { st with decls := (st.decls.markConstructorKind (.sym PARAM j) .LIST none).1 }) ⟨ho.1, ?_⟩ h
    intro k i hi
    rw [← ho.2 k i hi]
    exact mark_other (by intro e; cases e; exact Nat.lt_irrefl _ (Nat.lt_of_lt_of_le hi hj))
  | .restrict e :: as, st, st', ho, h => by
    simp only [paramAttrs, Run.ite_err', Run.bind_ok] at h
    obtain ⟨_, ⟨s1, t⟩, h1, h2⟩ := h
    exact OldInfo.attrs hj as (OldInfo.frame.trans ho (OldInfo.frame.parseExpr _ _ _ h1)) h2
  | .implicit :: as, st, st', ho, h => by simp only [paramAttrs, Run.ite_err'] at h; exact OldInfo.attrs hj as ho h.2
  | .opq :: as, st, st', ho, h => by simp only [paramAttrs, Run.ite_err'] at h; exact OldInfo.attrs hj as ho h.2
  | .synt :: as, st, st', ho, h => by simp only [paramAttrs, Run.ite_err'] at h; exact OldInfo.attrs hj as ho h.2

theorem OldInfo.params {rich : Bool} : ∀ (vs : List SParam) {st st' : State} {t : List (Term × SParam)}, bindParams b n rich vs st = .ok (st', t) → OldInfo st st'
  | [], st, st', t, h => by simp only [bindParams] at h; cases h; exact OldInfo.frame.refl _
  | v :: vs, st, st', t, h => by
    simp only [bindParams, Run.bind_ok, Run.map_ok] at h
    obtain ⟨⟨s1, l⟩, h1, s0, h0, ⟨s2, u⟩, h2, h3⟩ := h
    cases h3
    exact OldInfo.frame.trans (OldInfo.frame.parseType h1) (OldInfo.frame.trans
      (OldInfo.attrs (st0 := s1) (st := (s1.mkSymbol PARAM v.name l).1.bind v.name (s1.mkSymbol PARAM v.name l).2) (Nat.le_refl _) _
        ⟨Nat.le_succ _, fun _ _ _ => rfl⟩ h0) (OldInfo.params vs h2))

/-- a program command for a name that is not bound defines only the program it introduces -/
theorem program_new {st st' : State} {x : Name} {ps : List SParam} {args : List SExp} {ret : SExp} {cases : Option (List (SExp × SExp))}
    (ht : Refines st.scope a) (hx : cases.isSome = true → st.scope.get x = none) (h : execProgram b n st x ps args ret cases = .ok st') :
    World.OnlyNew st st' := by
  obtain ⟨s1, s2, ats, s3, rt, s4, pv, new, s5, body, s6, h1, h2, h3, h4, h5, h6, rfl⟩ := execProgram_ok h
  have F := OldInfo.frame
  obtain ⟨z, hz, t1, _⟩ := bindRuleParams_table (a := a) (y := []) (refines_push ht) (by simp [ParamScope]) h1
  have t3 := (parseType_on (parseTypeList_on _ (On.refl t1) h2) h3).table
  simp only [Ethos.bindRuleParams, Run.map_ok] at h1
  obtain ⟨⟨s0, l0⟩, h1, rfl⟩ := h1
  have e3 : OldInfo st s3 := F.trans (F.push st) (F.trans (OldInfo.params _ h1) (F.trans (F.parseTypeList _ h2) (F.parseType h3)))
  have e4 : OldInfo st s4 ∧ (cases.isSome = true → ∃ i, pv = .sym PROGRAM_CONST i ∧ st.next ≤ i) := by
    simp only [Ethos.progVar] at h4
    split at h4
    · rename_i prev hprev
      simp only [Run.ite_err, Run.map_ok] at h4
      obtain ⟨hk, _, _, _, h4⟩ := h4
      cases h4
      refine ⟨e3, fun hc => ?_⟩
      have hprev : lookupIn (z ++ a.all) x = some pv := by
        rw [← up_all]
        exact (t3.holds.sym x).symm.trans hprev
      rcases lookup_up hz hprev with ⟨i, rfl⟩ | ⟨h7, _⟩
      · exact absurd (by simp [Term.kind]) hk
      · have := (ht.holds.sym x).symm.trans (hx hc)
        have h7 : lookupIn (a.scopes.flatten ++ a.globals) x = some pv := h7
        rw [this] at h7
        cases h7
    · cases h4
      exact ⟨F.trans e3 ⟨Nat.le_succ _, fun _ _ _ => rfl⟩, fun _ => ⟨_, rfl, e3.1⟩⟩
  have e6 : OldInfo st s6 := by
    refine F.trans e4.1 (F.trans ?_ (F.pop h6))
    cases cases with
    | none => simp only [Ethos.progBody] at h5; cases h5; exact F.refl _
    | some cs =>
      simp only [Ethos.progBody, Run.bind_ok, Run.ite_err, Run.ite_err', Run.map_ok] at h5
      obtain ⟨⟨s, l⟩, h1, _, _, t, _, h2⟩ := h5
      cases h2
      exact F.parsePairs _ h1
  have e7 : ∀ k i, i < st.next → (s6.decls.defineProgram pv body).info (.sym k i) = st.decls.info (.sym k i) := by
    intro k i hi
    rw [← e6.2 k i hi]
    cases cases with
    | none => simp only [Ethos.progBody] at h5; cases h5; rfl
    | some cs =>
      obtain ⟨j, rfl, hj⟩ := e4.2 rfl
      cases body with
      | none => rfl
      | some p => exact mark_other (by intro e; cases e; omega)
  intro k i hi
  rw [← e7 k i hi]
  split <;> rfl

end

/-! ### The assumption scopes -/

section
variable {b : Env} {n n0 : Nat} {D : (Term → Prop) → Term → Prop} {A : Term → Prop} {l : Level} {low : List Level} {d m : Nat} {st st' : State}

theorem Lev.congr {ls : List Level} (H : Lev b n0 D A ls d st) (h1 : st'.scope = st.scope) (h2 : st'.decls = st.decls) (h3 : st'.symType = st.symType)
    (h4 : st'.next = st.next) (h5 : AsmOk A st'.asms st'.asmCtx ls) : Lev b n0 D A ls d st' where
  table := by rw [h1]; exact H.table
  built l hl := by
    have B := H.built l hl
    refine ⟨?_, ?_, ?_, ?_, ?_, ?_, ?_, B.listCons, B.listNil, B.listType, B.proofType⟩
    · rw [h3]; exact B.symType
    · rw [h3]; exact B.ownType
    · rw [h3]; exact B.onlySym
    · rw [h2]; exact B.cons
    · rw [h2]; exact B.program
    · rw [h2]; exact B.kind
    · rw [h2]; exact B.litRule
  info := by rw [h2]; exact H.info
  alloc := by rw [h4]; exact H.alloc
  base := H.base
  chain := H.chain
  asms := h5

/-- outside of all assumption scopes -/
theorem AsmOk.outer {asms : List Term} {ls : List Level} (h : AsmOk A asms [] ls) : ∃ l, ls = [l] ∧ ∀ F, l.Γ F ↔ A F := by
  match ls, h with
  | [l], h => exact ⟨l, rfl, h⟩

theorem AsmOk.inner {asms : List Term} {k : Nat} {ks : List Nat} {ls : List Level} (h : AsmOk A asms (k :: ks) ls) :
    ∃ l l' low, ls = l :: l' :: low ∧ asms[k]? = some l.hyp ∧ AsmOk A (asms.take k) ks (l' :: low) := by
  match ls, h with
  | l :: l' :: low, h => exact ⟨l, l', low, rfl, h⟩

/-- the hypotheses of the top scope -/
theorem AsmOk.hyps : ∀ {ks : List Nat} {asms : List Term} {ls : List Level} {l : Level}, AsmOk A asms ks (l :: ls) → Stacked (l :: ls) →
    ∀ F, l.Γ F → A F ∨ ∃ k ∈ ks, asms[k]? = some F
  | [], asms, ls, l, h, _, F, hF => by
    obtain ⟨l', e, h⟩ := AsmOk.outer h
    cases e
    exact .inl ((h F).1 hF)
  | k :: ks, asms, ls, l, h, hc, F, hF => by
    obtain ⟨l1, l', low, e, h1, h2⟩ := AsmOk.inner h
    cases e
    rcases (hc.2.1 F).1 hF with rfl | hF
    · exact .inr ⟨k, by simp, h1⟩
    · rcases AsmOk.hyps h2 hc.2.2 F hF with h3 | ⟨j, hj, h3⟩
      · exact .inl h3
      · refine .inr ⟨j, by simp [hj], ?_⟩
        rw [List.getElem?_take] at h3
        split at h3
        · exact h3
        · cases h3

theorem T_proof_of (hb : BaseOk b n0) {F : Term} (h : D l.Γ F) (hv : IsValue F) : l.T b D (mkProof F) :=
  (Level.T_proof (BaseOk.ownSym hb)).2 ⟨F, rfl, h, hv⟩

/-- an assumption is added to the top scope -/
theorem Lev.assume (hb : BaseOk b n0) {x : Name} {F : Term} (H : Lev b n0 D A (l :: low) 0 st) (hF : D l.Γ F) (hv : IsValue F) :
    Lev b n0 D A (l :: low) 0 { st.bind x (mkProof F) with asms := st.asms ++ [F] } :=
  (H.bind (x := x) (T_proof_of hb hF hv)).congr rfl rfl rfl rfl (AsmOk.append _ H.asms)

/-- a scope is opened -/
theorem Lev.opened (hb : BaseOk b n0) (hD : ∀ Γ Γ' F, (∀ G, Γ G → Γ' G) → D Γ F → D Γ' F) {x : Name} {F : Term} (H : Lev b n0 D A (l :: low) 0 st)
    (hF : D (fun G => G = F ∨ l.Γ G) F) (hv : IsValue F) (hf : Fresh b n0 m st) :
    Lev b n0 D A (⟨l.S, fun G => G = F ∨ l.Γ G, F⟩ :: l :: low) 0 { st.pushAssumption.bind x (mkProof F) with asms := st.asms ++ [F] } := by
  have hT : ∀ t, l.T b D t → (⟨l.S, fun G => G = F ∨ l.Γ G, F⟩ : Level).T b D t := fun t h => Level.T_mono (l := l) (l' := ⟨l.S, fun G => G = F ∨ l.Γ G, F⟩) hD (fun _ h => h) (fun _ h => .inr h) h
  have h0 : Lev b n0 D A (⟨l.S, fun G => G = F ∨ l.Γ G, F⟩ :: l :: low) 0 { st.pushAssumption with asms := st.asms ++ [F] } := by
    refine ⟨?_, ?_, ?_, ?_, ?_, ⟨fun _ h => h, fun _ => Iff.rfl, H.chain⟩, ?_⟩
    · obtain ⟨tops, rest, g, h1, h2, h3, h4⟩ := H.table
      obtain rfl := List.eq_nil_of_length_eq_zero h2
      exact ⟨[], [] :: rest, g, refines_push h1, rfl, by simp, by simp, h4⟩
    · intro l' hl'
      have B : ∀ k ∈ l :: low, BuiltState b { st.pushAssumption with asms := st.asms ++ [F] } (k.T b D) := fun k hk => { H.built k hk with }
      rcases List.mem_cons.1 hl' with rfl | hl'
      · exact BuiltState.grow hb hf (N := fun _ => False) (H.built l (by simp)) hT (fun t h => .inl h) (by simp) (fun _ _ => rfl) (fun _ _ => rfl)
          (fun t ht => (H.info t ht).imp id fun h => h l (by simp)) rfl |> fun B => { B with }
      · exact B l' hl'
    · intro t ht
      refine (H.info t ht).imp id fun h l' hl' => ?_
      rcases List.mem_cons.1 hl' with rfl | hl'
      · exact hT _ (h l (by simp))
      · exact h l' hl'
    · intro l' hl'
      rcases List.mem_cons.1 hl' with rfl | hl'
      · exact H.alloc l (by simp)
      · exact H.alloc l' hl'
    · intro l' hl'
      rcases List.mem_cons.1 hl' with rfl | hl'
      · exact H.base l (by simp)
      · exact H.base l' hl'
    · refine ⟨?_, ?_⟩
      · show (st.asms ++ [F])[st.asms.length]? = some F
        simp
      · show AsmOk A ((st.asms ++ [F]).take st.asms.length) st.asmCtx (l :: low)
        rw [List.take_left']
        · exact H.asms
        · rfl
  exact (h0.bind (x := x) (T_proof_of hb hF hv)).congr rfl rfl rfl rfl h0.asms

/-- a scope is closed -/
theorem Lev.closed {l' : Level} {k : Nat} {r : List Nat} (H : Lev b n0 D A (l :: l' :: low) 0 st) (hc : st.asmCtx = k :: r)
    (h : ({ st with asmCtx := r, asms := st.asms.take k } : State).pop = .ok st') : Lev b n0 D A (l' :: low) 0 st' := by
  have ha := H.asms
  rw [hc] at ha
  obtain ⟨tops, rest, g, h1, h2, h3, h4⟩ := H.table
  obtain rfl := List.eq_nil_of_length_eq_zero h2
  cases rest with
  | nil => exact h4.elim
  | cons f fs =>
    obtain ⟨s', e1, e2, _⟩ := refines_pop (x := f) (r := fs) (g := g) h1
    simp only [State.pop, e1, Run.map] at h
    cases h
    exact ⟨⟨[], fs, g, e2, rfl, by simp, h4.2⟩, fun k hk => { H.built k (List.mem_cons_of_mem _ hk) with },
      fun t ht => (H.info t ht).imp id fun h k hk => h k (List.mem_cons_of_mem _ hk), fun k hk => H.alloc k (List.mem_cons_of_mem _ hk),
      fun k hk => H.base k (List.mem_cons_of_mem _ hk), H.chain.2.2, ha.2⟩

/-- outside of all assumption scopes every frame is alike -/
theorem Lev.merge (H : Lev b n0 D A [l] d st) : Lev b n0 D A [l] 0 st := by
  obtain ⟨tops, rest, g, h1, h2, h3, h4⟩ := H.table
  refine { H with table := ⟨[], tops ++ rest, g, h1, rfl, by simp, ?_, h4.2⟩ }
  intro f hf p hp
  rcases List.mem_append.1 hf with hf | hf
  · exact h3 f hf p hp l rfl
  · exact h4.1 f hf p hp

theorem Lev.pushN (k : Nat) : ∀ {st : State}, Lev b n0 D A [l] 0 st → Lev b n0 D A [l] 0 (Ethos.pushN k st) := by
  induction k with
  | zero => exact fun H => H
  | succ k ih => exact fun H => ih H.push.merge

theorem Lev.popN (k : Nat) : ∀ {st : State}, Lev b n0 D A [l] 0 st → Ethos.popN k st = .ok st' → Lev b n0 D A [l] 0 st' := by
  induction k with
  | zero => intro st H h; simp only [Ethos.popN] at h; cases h; exact H
  | succ k ih =>
    intro st H h
    simp only [Ethos.popN, Run.bind_ok] at h
    obtain ⟨s1, h1, h2⟩ := h
    obtain ⟨tops, rest, g, t1, t2, t3, t4⟩ := H.table
    obtain rfl := List.eq_nil_of_length_eq_zero t2
    cases rest with
    | nil =>
      simp only [State.pop, refines_pop_none (g := g) t1, Run.map] at h1
      cases h1
    | cons f fs =>
      have H' : Lev b n0 D A [l] 1 st := { H with table := ⟨[f], fs, g, t1, rfl, fun f' hf p hp l' hl' => by
        cases hl'
        rw [List.mem_singleton] at hf
        exact t4.1 f' (by simp [hf]) p hp, fun f' hf => t4.1 f' (by simp [hf]), t4.2⟩ }
      exact ih (H'.pop h1) h2

/-- only symbols that did not exist before have changed -/
structure NewOnly (st st' : State) : Prop where
  scope : st'.scope = st.scope
  next : st.next ≤ st'.next
  asms : st'.asms = st.asms ∧ st'.asmCtx = st.asmCtx
  lit : st'.decls.litRule = st.decls.litRule
  same : ∀ t, (∃ k i, t = .sym k i ∧ st.next ≤ i ∧ k ≠ VARIABLE ∧ k ≠ BUILTIN_CONST) ∨
    st'.symType t = st.symType t ∧ st'.decls.info t = st.decls.info t

theorem NewOnly.refl (st : State) : NewOnly st st := ⟨rfl, Nat.le_refl _, ⟨rfl, rfl⟩, rfl, fun _ => .inr ⟨rfl, rfl⟩⟩

theorem NewOnly.trans {a b c : State} (h1 : NewOnly a b) (h2 : NewOnly b c) : NewOnly a c := by
  refine ⟨h2.scope.trans h1.scope, Nat.le_trans h1.next h2.next, ⟨h2.asms.1.trans h1.asms.1, h2.asms.2.trans h1.asms.2⟩, h2.lit.trans h1.lit, ?_⟩
  intro t
  rcases h2.same t with ⟨k, i, h3, h4, h5⟩ | h3
  · exact .inl ⟨k, i, h3, Nat.le_trans h1.next h4, h5⟩
  · rcases h1.same t with h4 | h4
    · exact .inl h4
    · exact .inr ⟨h3.1.trans h4.1, h3.2.trans h4.2⟩

theorem NewOnly.sym (st : State) {k : Kind} (x : Name) (ty : Term) (hk : k ≠ VARIABLE ∧ k ≠ BUILTIN_CONST) : NewOnly st (st.mkSymbol k x ty).1 := by
  refine ⟨rfl, Nat.le_succ _, ⟨rfl, rfl⟩, rfl, ?_⟩
  intro t
  by_cases h : t = .sym k st.next
  · exact .inl ⟨k, st.next, h, Nat.le_refl _, hk⟩
  · exact .inr ⟨by simp [State.mkSymbol, h], rfl⟩

/-- a new symbol gets an attribute -/
theorem NewOnly.mark {a st : State} (h : NewOnly a st) {k : Kind} {i : Nat} (hi : a.next ≤ i) (hk : k ≠ VARIABLE ∧ k ≠ BUILTIN_CONST) (at' : Attr) (c : Option Term) :
    NewOnly a { st with decls := (st.decls.markConstructorKind (.sym k i) at' c).1 } := by
  refine ⟨h.scope, h.next, h.asms, ?_, ?_⟩
  · have : (st.decls.markConstructorKind (.sym k i) at' c).1.litRule = st.decls.litRule := by
      simp only [Decls.markConstructorKind]; split <;> rfl
    exact this.trans h.lit
  · intro t
    by_cases ht : t = .sym k i
    · exact .inl ⟨k, i, ht, hi, hk⟩
    · rcases h.same t with h1 | h1
      · exact .inl h1
      · exact .inr ⟨h1.1, (mark_other ht).trans h1.2⟩

theorem NewOnly.ruleArgTypes (pty : Term) : ∀ (as : List Term) (i : Nat) (st : State), NewOnly st (Ethos.ruleArgTypes pty as i st).1
  | [], _, st => .refl st
  | a :: as, i, st => by
    simp only [Ethos.ruleArgTypes]
    split
    · exact NewOnly.ruleArgTypes pty as (i+1) st
    · exact (NewOnly.sym st (k := PARAM) _ _ (by simp)).trans (NewOnly.ruleArgTypes pty as (i+1) _)

theorem NewOnly.ruleProg {x : Name} {as : List Term} {ret prog : Term} (h : Ethos.ruleProg b n st x as ret = .ok (st', prog)) : NewOnly st st' := by
  cases as with
  | nil =>
    simp only [Ethos.ruleProg, Run.ite_err] at h
    obtain ⟨_, h⟩ := h
    cases h
    exact .refl _
  | cons a as =>
    simp only [Ethos.ruleProg, Run.bind_ok, Run.ite_err', Run.map_ok] at h
    obtain ⟨u, h1, _, v, h2, h3⟩ := h
    cases h3
    have e := NewOnly.ruleArgTypes b.proofType (a :: as) 0 st
    exact (e.trans (NewOnly.sym _ (k := PROGRAM_CONST) (nm "$eo_prog_" ++ x)
      (.node PROGRAM_TYPE ((Ethos.ruleArgTypes b.proofType (a :: as) 0 st).2 ++ [tBool])) (by simp))).mark e.next (by simp) .PROGRAM (some v)

theorem Lev.unlisted (hb : BaseOk b n0) {ls : List Level} (H : Lev b n0 D A ls d st) (hf : Fresh b n0 m st') (hn : n0 ≤ st.next)
    (h : NewOnly st st') : Lev b n0 D A ls d st' := by
  obtain ⟨h1, h2, h3, h4, h5⟩ := h
  have hold : ∀ l ∈ ls, ∀ t, l.T b D t → st'.symType t = st.symType t ∧ st'.decls.info t = st.decls.info t := by
    intro l hl t ht
    rcases h5 t with ⟨k, i, rfl, h6, h7⟩ | h6
    · exact absurd ht (Level.T_sym hb (H.alloc l hl) hn h7 h6)
    · exact h6
  have hinfo : ∀ t, st'.decls.info t ≠ none → (∃ k i, t = .sym k i ∧ ¬ ∃ u, Own b t u) ∨ ∀ l ∈ ls, l.T b D t := by
    intro t ht
    rcases h5 t with ⟨k, i, rfl, h6, h7⟩ | h6
    · exact .inl ⟨k, i, rfl, notOwn hb h7.1 (by omega)⟩
    · rw [h6.2] at ht; exact H.info t ht
  refine ⟨by rw [h1]; exact H.table, ?_, hinfo, ?_, H.base, H.chain, by rw [h3.1, h3.2]; exact H.asms⟩
  · intro l hl
    exact BuiltState.grow hb hf (N := fun _ => False) (H.built l hl) (fun _ h => h) (fun t h => .inl h) (by simp) (fun t ht => (hold l hl t ht).1)
      (fun t ht => (hold l hl t ht).2) (fun t ht => (hinfo t ht).imp id fun h => h l hl) h4
  · intro l hl t ht
    obtain ⟨k, i, e1, e2, e3⟩ := H.alloc l hl t ht
    exact ⟨k, i, e1, e2, e3.imp id fun h => by omega⟩

theorem Lev.declareRule (hb : BaseOk b n0) (hD : ∀ Γ Γ' F, (∀ G, Γ G → Γ' G) → D Γ F → D Γ' F) {r : SRule} (H : Lev b n0 D A (l :: low) 0 st)
    (hf : Fresh b n0 m st) (h : execDeclareRule b n st r = .ok st') :
    ∃ m' S', Fresh b n0 m' st' ∧ Lev b n0 D A (⟨S', l.Γ, l.hyp⟩ :: low) 0 st' := by
  obtain ⟨m', _, hf', _⟩ := hf.declareRule hb h
  have W := levWorld (A := A) hb hD l.Γ l.hyp low
  obtain ⟨_, s1, s2, asm, s3, prems, pcons, s4, args, s5, reqs, s6, conc, ret, s7, s8, prog, decls, h1, h2, h3, h4, h5, h6, _, h8, h9, h10, rfl⟩ :=
    execDeclareRule_ok h
  obtain ⟨w, _, i1⟩ := W.bindRuleParams (W.push (w := (m, l.S)) ⟨hf, H⟩) h1
  obtain ⟨i2, _⟩ := W.parseOpt i1 h2
  obtain ⟨i3, _⟩ := W.parsePremises i2 h3
  obtain ⟨i4, _⟩ := W.parseList _ i3 h4
  obtain ⟨i5, _⟩ := W.parsePairs _ i4 h5
  obtain ⟨i6, _⟩ := W.parseExpr _ i5 h6
  have i7 := W.pop i6 h8
  refine ⟨m', w.2, hf', i7.2.unlisted hb hf' (by have := i7.1.next; have := i7.1.ge; omega) ?_⟩
  have e1 : NewOnly s7 s8 := (NewOnly.sym s7 (k := PROOF_RULE) r.name tBool (by simp)).trans (NewOnly.ruleProg h9)
  have e2 : NewOnly s7 { s8 with decls := decls } := by
    simp only [Decls.bindRule] at h10
    split at h10
    · cases h10
    · cases h10; exact ⟨e1.scope, e1.next, e1.asms, e1.lit, e1.same⟩
  have e3 := e2.mark (k := PROOF_RULE) (i := s7.next) (Nat.le_refl _) (by simp) .PROOF_RULE
    (some (.node TUPLE [pcons.getD tAny, mkBool asm.isSome, mkBool r.explicit, prog]))
  exact ⟨e3.scope, e3.next, e3.asms, e3.lit, e3.same⟩

theorem Lev.declareConsts (hb : BaseOk b n0) (hD : ∀ Γ Γ' F, (∀ G, Γ G → Γ' G) → D Γ F → D Γ' F) {k : Kind} {ty : SExp} (H : Lev b n0 D A [l] 0 st)
    (hf : Fresh b n0 m st) (h : Ethos.exec b n st (.declareConsts k ty) = .ok st') : Lev b n0 D A [l] 0 st' := by
  have W := levWorld (A := A) hb hD l.Γ l.hyp []
  simp only [Ethos.exec, Run.bind_ok] at h
  obtain ⟨⟨s1, t⟩, h1, d, h2, h3⟩ := h
  have i0 := W.push (w := (m, l.S)) (d := 0) ⟨hf, H⟩
  obtain ⟨i1, p1⟩ := W.parseType (W.bind (x := nm "eo::self") i0
    ⟨i0.1.self hb, Built.of_basic (n := n0) (fun k i hi hk => i0.2.base _ (by simp) _ ⟨k, i, rfl, hk, .inr hi⟩) hb.self⟩) h1
  have i2 : Lev b n0 D A [l] 1 { s1 with decls := d } := by
    simp only [Decls.setLiteralTypeRule] at h2
    split at h2
    · split at h2
      · split at h2
        · cases h2; exact i1.2
        · cases h2
      · cases h2
        refine { i1.2 with built := ?_ }
        intro l' hl'
        refine { i1.2.built l' hl' with litRule := ?_ }
        rw [List.mem_singleton] at hl'
        subst hl'
        intro k' t' h'
        dsimp only at h'
        split at h'
        · cases h'; exact p1.2
        · exact (i1.2.built _ (by simp)).litRule k' t' h'
    · cases h2
  exact i2.pop h3

end
end Ethos.Props
