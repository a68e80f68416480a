import Verif.Spec.Datatype
import Verif.Lemmas.Fresh
import Verif.Lemmas.Bindings
import Verif.Props.Checked
import Verif.Props.Elab
import Verif.Props.Flags
import Verif.Props.Macro
/-
Declarations of datatypes: what the functions of the model make.
-/
namespace Ethos.Props
open Ethos Ethos.Spec Kind

theorem mkFunctionType_arrow (ts : List Term) (r : Term) : mkFunctionType ts r = arrow ts r := by
  induction ts with
  | nil => rfl
  | cons t ts ih => simp only [arrow, ← ih]; rfl

/-- symbols are only added -/
structure Grow (st st' : State) : Prop where
  next : st.next ≤ st'.next
  type : ∀ k i, i < st.next → st'.symType (.sym k i) = st.symType (.sym k i)
  name : ∀ k i, i < st.next → st'.symName (.sym k i) = st.symName (.sym k i)
  prog : ∀ i, i < st.next → st'.decls.info (.sym PROGRAM_CONST i) = st.decls.info (.sym PROGRAM_CONST i)

/-- … and constants are not marked -/
structure Ext (st st' : State) : Prop extends Grow st st' where
  const : ∀ i, st'.decls.info (.sym CONST i) = st.decls.info (.sym CONST i)

theorem Grow.trans {s t u : State} (h : Grow s t) (h' : Grow t u) : Grow s u where
  next := Nat.le_trans h.next h'.next
  type k i hi := (h'.type k i (Nat.lt_of_lt_of_le hi h.next)).trans (h.type k i hi)
  name k i hi := (h'.name k i (Nat.lt_of_lt_of_le hi h.next)).trans (h.name k i hi)
  prog i hi := (h'.prog i (Nat.lt_of_lt_of_le hi h.next)).trans (h.prog i hi)

theorem Ext.refl (st : State) : Ext st st := ⟨⟨Nat.le_refl _, fun _ _ _ => rfl, fun _ _ _ => rfl, fun _ _ => rfl⟩, fun _ => rfl⟩

theorem Ext.trans {s t u : State} (h : Ext s t) (h' : Ext t u) : Ext s u where
  toGrow := h.toGrow.trans h'.toGrow
  const i := (h'.const i).trans (h.const i)

/-- what does not change symbols or declarations -/
theorem Ext.same {s t : State} (h1 : t.next = s.next) (h2 : t.symType = s.symType) (h3 : t.symName = s.symName) (h4 : t.decls = s.decls) : Ext s t :=
  ⟨⟨by omega, fun _ _ _ => by rw [h2], fun _ _ _ => by rw [h3], fun _ _ => by rw [h4]⟩, fun _ => by rw [h4]⟩

theorem Ext.scope {s t : State} (h : ScopeOnly s t) : Ext s t := by
  rw [h]; exact .same rfl rfl rfl rfl

theorem Ext.bind (st : State) (x : Name) (t : Term) : Ext st (st.bind x t) := .same rfl rfl rfl rfl
theorem Ext.push (st : State) : Ext st st.push := .same rfl rfl rfl rfl
theorem Ext.pop {st st' : State} (h : st.pop = .ok st') : Ext st st' := .scope (scopeOnly.pop h)
theorem Ext.bindAll (st : State) (l : List (Name × Term)) : Ext st (st.bindAll l) := .scope (scopeOnly.bindAll l st)

theorem Ext.sym (st : State) (k : Kind) (x : Name) (ty : Term) : Ext st (st.mkSymbol k x ty).1 where
  next := Nat.le_succ _
  type k' i hi := by
    have : (Term.sym k' i = .sym k st.next) ↔ False := by simp; omega
    simp [State.mkSymbol, this]
  name k' i hi := by
    have : (Term.sym k' i = .sym k st.next) ↔ False := by simp; omega
    simp [State.mkSymbol, this]
  prog _ _ := rfl
  const _ := rfl

/-- what is defined is newer -/
theorem Ext.defined {st0 st : State} (h : Ext st0 st) {i : Nat} (hi : st0.next ≤ i) (p : Term) :
    Ext st0 { st with decls := st.decls.defineProgram (.sym PROGRAM_CONST i) (some p) } := by
  have key : ∀ {k j}, Term.sym k j ≠ .sym PROGRAM_CONST i →
      (st.decls.defineProgram (.sym PROGRAM_CONST i) (some p)).info (.sym k j) = st.decls.info (.sym k j) := by
    intro k j hne
    simp only [Decls.defineProgram, Decls.markConstructorKind]
    split
    · rfl
    · simp only [hne, if_false]
  refine ⟨⟨h.next, h.type, h.name, ?_⟩, ?_⟩
  · intro j hj
    have : Term.sym PROGRAM_CONST j ≠ .sym PROGRAM_CONST i := by simp; omega
    exact (key this).trans (h.prog j hj)
  · intro j
    exact (key (by simp)).trans (h.const j)

theorem undoN_mark : ∀ (k : Nat) {s s' : Scope}, Scope.undoN k s = .ok s' → s'.mark = s.mark
  | 0, s, s', h => by simp only [Scope.undoN] at h; cases h; rfl
  | k+1, s, s', h => by
    simp only [Scope.undoN, Run.bind_ok] at h
    obtain ⟨s1, h1, h2⟩ := h
    rw [undoN_mark k h2]
    simp only [Scope.undo] at h1
    split at h1
    · cases h1
    · split at h1
      · split at h1
        · cases h1; rfl
        · cases h1
      · cases h1; rfl

/-- symbols keep their names -/
theorem nameFrame : DeclFrame fun st st' : State => st.next ≤ st'.next ∧ ∀ k i, i < st.next → st'.symName (.sym k i) = st.symName (.sym k i) where
  refl _ := ⟨Nat.le_refl _, fun _ _ _ => rfl⟩
  trans h h' := ⟨Nat.le_trans h.1 h'.1, fun k i hi => (h'.2 k i (Nat.lt_of_lt_of_le hi h.1)).trans (h.2 k i hi)⟩
  bind _ _ _ := ⟨Nat.le_refl _, fun _ _ _ => rfl⟩
  push _ := ⟨Nat.le_refl _, fun _ _ _ => rfl⟩
  pop {st st'} h := by rw [scopeOnly.pop h]; exact ⟨Nat.le_refl _, fun _ _ _ => rfl⟩
  sym st k x ty := ⟨Nat.le_succ _, fun k' i hi => by
    have : i ≠ st.next := by omega
    simp [State.mkSymbol, this]⟩
  mark _ _ _ _ := ⟨Nat.le_refl _, fun _ _ _ => rfl⟩
  lit _ := ⟨Nat.le_refl _, fun _ _ _ => rfl⟩
  refAssert _ _ := ⟨Nat.le_refl _, fun _ _ _ => rfl⟩

/-- the mark of an overloaded symbol stays -/
theorem markFrame : DeclFrame fun st st' : State => ∀ v, st'.scope.mark v = none → st.scope.mark v = none where
  refl _ _ h := h
  trans h h' v hv := h v (h' v hv)
  bind st x t v h := by
    simp only [State.bind, Scope.bind] at h
    split at h
    · exact h
    · dsimp only at h
      split at h
      · cases h
      · exact h
  push _ _ h := h
  pop {st st'} h v hv := by
    simp only [State.pop, Run.map_ok, Scope.pop] at h
    obtain ⟨s1, h1, rfl⟩ := h
    split at h1
    · cases h1
    · simp only [Run.map_ok] at h1
      obtain ⟨s2, h2, rfl⟩ := h1
      have := undoN_mark _ h2
      rw [show s2.mark = st.scope.mark from this] at hv
      exact hv
  sym _ _ _ _ _ h := h
  mark _ _ _ _ _ h := h
  lit _ _ h := h
  refAssert _ _ _ h := h

theorem newSym_ext {k : Kind} {lo : Nat} {st st' : State} {x : Name} {ty t : Term} (h : NewSym k lo st x ty t) (e : Grow st st') : NewSym k lo st' x ty t := by
  obtain ⟨i, rfl, h1, h2, h3, h4⟩ := h
  exact ⟨i, rfl, h1, Nat.lt_of_lt_of_le h2 e.next, (e.name _ _ h2).trans h3, (e.type _ _ h2).trans h4⟩

theorem newSym_new {k : Kind} {lo : Nat} {st : State} {x : Name} {ty : Term} (h : lo ≤ st.next) : NewSym k lo (st.mkSymbol k x ty).1 x ty (.sym k st.next) :=
  ⟨st.next, rfl, h, Nat.lt_succ_self _, by simp [State.mkSymbol], by simp [State.mkSymbol]⟩

theorem each_mono {α β : Type} {R R' : α → β → Prop} (h : ∀ a b, R a b → R' a b) {l : List α} {l' : List β} (e : Each R l l') : Each R' l l' := by
  induction e with
  | nil => exact .nil
  | cons a b as bs h1 _ ih => exact .cons _ _ _ _ (h _ _ h1) ih

theorem each_length {α β : Type} {R : α → β → Prop} {l : List α} {l' : List β} (e : Each R l l') : l.length = l'.length := by
  induction e with
  | nil => rfl
  | cons a b as bs _ _ ih => simp [ih]

theorem fieldOk_ext {b : Env} {n lo : Nat} {st st' : State} {a : Stack} {T : Term} {d : Name × SExp} {f : Field} (h : FieldOk b n lo st a T d f) (e : Grow st st') :
    FieldOk b n lo st' a T d f := ⟨newSym_ext h.1 e, newSym_ext h.2.1 e, h.2.2⟩

section
variable {b : Env} {n n0 : Nat}

/-- applying a program to a variable does not evaluate -/
theorem build_disamb {st : State} {i j : Nat} {cs : List Term} {t : Term} (hi : st.decls.info (.sym PROGRAM_CONST i) = some ⟨.PROGRAM, some (.node PROGRAM cs), NONE, none⟩)
    (hm : st.scope.mark (.sym PROGRAM_CONST i) = none)
    (h : st.build b n APPLY [.sym PROGRAM_CONST i, .sym PARAM j] = .ok t) : t = .node APPLY [.sym PROGRAM_CONST i, .sym PARAM j] := by
  have ha : (st.env b).appInfo (.sym PROGRAM_CONST i) = some ⟨.PROGRAM, some (.node PROGRAM cs), NONE, none⟩ := by
    show st.decls.appInfo st.scope.mark _ = _
    simp [Decls.appInfo, hi, hm]
  simp only [State.build, Run.lift_ok] at h
  cases n with
  | zero => simp [mkExpr] at h
  | succ n =>
    have hg : (Term.sym PARAM j).ground = false := rfl
    simp [mkExpr, mkExprStep, mkApp, ha, mkPlainApp, Term.kind, Env.constructorKind, consTerm, mkApplyAttr, isAssocAttr, evalProgram, hg, Out.bind] at h
    cases hT : (ops (st.env b) (n+1)).getType (.sym PROGRAM_CONST i) with
    | ok r =>
      cases r <;> simp [hT, Out.bind] at h
      exact h.symm
    | _ => simp [hT, Out.bind] at h

theorem disamb_ok (hb : BaseOk b n0) {m : Nat} {st st' : State} {dp r t : Term} {x : Name} (H : Fresh b n0 m st) (hd : Old b m dp) (hr : Old b m r)
    (h : mkDisambiguatedType b n st dp r x = .ok (st', t)) :
    ∃ m', m ≤ m' ∧ Fresh b n0 m' st' ∧ Ext st st' ∧ st'.scope = st.scope ∧ Old b m' t ∧
      t = arrow [.node QUOTE_TYPE [.sym PARAM (st.next+1)]] (.node APPLY [.sym PROGRAM_CONST st.next, .sym PARAM (st.next+1)]) ∧
      st'.decls.info (.sym PROGRAM_CONST st.next) = some ⟨.PROGRAM, some (.node PROGRAM [.node TUPLE [.node APPLY [.sym PROGRAM_CONST st.next, dp], r]]), NONE, none⟩ ∧
      st'.symType (.sym PROGRAM_CONST st.next) = some (.node PROGRAM_TYPE [tType, tType]) ∧ st'.symType (.sym PARAM (st.next+1)) = some tType ∧
      st'.next = st.next + 2 := by
  have W := freshWorld hb
  obtain ⟨m', l', i', p'⟩ := W.mkDisambiguatedType (d := 0) H hd hr h
  simp only [Ethos.mkDisambiguatedType, Run.bind_ok, Run.map_ok] at h
  obtain ⟨u, h1, v, h2, y, h3, h4⟩ := h
  obtain ⟨a1, _⟩ := W.sym (d := 0) (k := PROGRAM_CONST) (x := nm "$eo_disamb_type_" ++ x) H (by simp)
    (ty := .node PROGRAM_TYPE [tType, tType]) ((W.good (d := 0) H).node2 (by simp) (W.good (d := 0) H).type (W.good (d := 0) H).type)
  obtain ⟨ni, nmk⟩ := H.noInfo hb (k := PROGRAM_CONST) (i := st.next) (by simp) (by rw [H.next]; exact Nat.le_refl _)
  have hu := build_undefined rfl a1 h1
  have hv := build_program h2
  subst hu hv
  cases h4
  have hinfo : (st.decls.defineProgram (.sym PROGRAM_CONST st.next) (some (.node PROGRAM [.node TUPLE [.node APPLY [.sym PROGRAM_CONST st.next, dp], r]]))).info
      (.sym PROGRAM_CONST st.next) = some ⟨.PROGRAM, some (.node PROGRAM [.node TUPLE [.node APPLY [.sym PROGRAM_CONST st.next, dp], r]]), NONE, none⟩ := by
    simp [Decls.defineProgram, Decls.markConstructorKind, ni]
  have hty : ∀ k, (Term.sym PROGRAM_CONST st.next = .sym PARAM k) ↔ False := by simp
  have hy : y = .node APPLY [.sym PROGRAM_CONST st.next, .sym PARAM (st.next+1)] := by
    refine build_disamb (cs := [.node TUPLE [.node APPLY [.sym PROGRAM_CONST st.next, dp], r]]) ?_ ?_ h3
    · exact hinfo
    · exact nmk
  subst hy
  refine ⟨m', l', i', ?_, rfl, p', mkFunctionType_arrow _ _, hinfo, ?_, ?_, rfl⟩
  · exact (Ext.defined (Ext.sym st PROGRAM_CONST (nm "$eo_disamb_type_" ++ x) (.node PROGRAM_TYPE [tType, tType])) (Nat.le_refl _) _).trans (Ext.sym _ _ _ _)
  · simp [State.mkSymbol, hty]
  · simp [State.mkSymbol]

/-- the bindings of the selectors and updaters -/
def selBinds (l : List (Name × SExp)) (fs : List Field) : List (Name × Term) :=
  (l.zip fs).flatMap fun p => [(p.1.1, p.2.sel), (nm "update-" ++ p.1.1, p.2.upd)]

theorem dtSels_ok (hb : BaseOk b n0) {dt : Term} {lo : Nat} {a : Stack} : ∀ (l : List (Name × SExp)) {m : Nat} {st st' : State} {r}, Fresh b n0 m st → lo ≤ st.next →
    Old b m dt → Refines st.scope a → dtSels b n dt l st = .ok (st', r) →
    ∃ m' fs, m ≤ m' ∧ Fresh b n0 m' st' ∧ Ext st st' ∧ Refines st'.scope a ∧ Each (FieldOk b n lo st' a dt) l fs ∧ (∀ f ∈ fs, Old b m' f.ty) ∧
      r = (fs.map (·.ty), fs.map (·.sel), selBinds l fs)
  | [], m, st, st', r, H, hl, hd, ht, h => by
    simp only [Ethos.dtSels] at h; cases h
    exact ⟨m, [], Nat.le_refl _, H, .refl _, ht, .nil, by simp, rfl⟩
  | (x, e) :: l, m, st, st', r, H, hl, hd, ht, h => by
    have W := freshWorld hb
    simp only [Ethos.dtSels, Run.bind_ok, Run.map_ok] at h
    obtain ⟨⟨s1, t⟩, h1, ⟨s2, u⟩, h2, h3⟩ := h
    cases h3
    obtain ⟨i1, p1⟩ := W.parseType (d := 0) H h1
    have t1 := (parseType_on (On.refl ht) h1).table
    obtain ⟨e1, pr, _⟩ := parseType_proper h1
    obtain ⟨_, _, hx, hq⟩ := parseType_cases h1
    rw [(hq rfl).1, (hq rfl).2] at hx
    have x1 := Ext.scope e1
    obtain ⟨_, m1, l1, i2, p2, _⟩ := W.sym (d := 0) (k := CONST) (x := x) i1 (by simp) (mkFunctionType_good (W.good (d := 0) i1) (ts := [dt]) (by simpa using hd) p1)
    obtain ⟨_, m2, l2, i3, p3, _⟩ := W.sym (d := 0) (k := CONST) (x := nm "update-" ++ x) i2 (by simp)
      (mkFunctionType_good (W.good (d := 0) i2) (ts := [dt, t]) (by simpa using ⟨W.mono l1 hd, W.mono l1 p1⟩) (W.mono l1 hd))
    have x2 := Ext.sym s1 CONST x (mkFunctionType [dt] t)
    have x3 := Ext.sym (s1.mkSymbol CONST x (mkFunctionType [dt] t)).1 CONST (nm "update-" ++ x) (mkFunctionType [dt, t] dt)
    have l0 : lo ≤ s1.next := Nat.le_trans hl x1.next
    obtain ⟨m3, fs, l3, i4, x4, t4, f4, o4, r4⟩ := dtSels_ok hb l i3 (Nat.le_trans l0 (x2.trans x3).next) (W.mono l2 (W.mono l1 hd)) (a := a) t1 h2
    cases r4
    refine ⟨m3, ⟨.sym CONST s1.next, .sym CONST (s1.next+1), t⟩ :: fs, Nat.le_trans l1 (Nat.le_trans l2 l3), i4, x1.trans (x2.trans (x3.trans x4)), t4,
      .cons _ _ _ _ ⟨?_, ?_, ?_⟩ f4, ?_, rfl⟩
    · have := newSym_ext (newSym_new (k := CONST) (x := x) (ty := mkFunctionType [dt] t) l0) (x3.trans x4).toGrow
      rwa [mkFunctionType_arrow] at this
    · have := newSym_ext (newSym_new (k := CONST) (x := nm "update-" ++ x) (ty := mkFunctionType [dt, t] dt) (Nat.le_trans l0 x2.next)) x4.toGrow
      rw [mkFunctionType_arrow] at this
      exact this
    · exact ⟨st, _, hl, shows_of ht, hx, pr⟩
    · intro f hf
      rcases List.mem_cons.1 hf with rfl | hf
      · exact W.mono (Nat.le_trans l1 (Nat.le_trans l2 l3)) p1
      · exact o4 f hf

/-- the parameters of an applied type -/
theorem curry_params {i : Nat} {ts : List Term} {t : Term} (h : Curry (.sym CONST i) ts t) (hp : ∀ p ∈ ts, IsParam p) {s : Term} (hs : IsParam s) :
    Sub s t ↔ s ∈ ts := by
  have leaf : ∀ {p}, IsParam p → Sub s p → s = p := by
    intro p hq h
    cases h with
    | refl => rfl
    | child _ cs c hc hs => have := hq.2; simp only [Term.children] at this; rw [this] at hc; cases hc
  induction h with
  | nil =>
    constructor
    · intro h; cases h; exact absurd hs.1 (by simp [Term.kind])
    · intro h; cases h
  | snoc ts p u _ ih =>
    have ih := ih fun q hq => hp q (by simp [hq])
    constructor
    · intro h
      cases h with
      | refl => exact absurd hs.1 (by simp [Term.kind])
      | child _ _ c hc h =>
        simp only [List.mem_cons, List.not_mem_nil, or_false] at hc
        rcases hc with rfl | rfl
        · simp [ih.1 h]
        · simp [leaf (hp _ (by simp)) h]
    · intro h
      rcases List.mem_append.1 h with h | h
      · exact .child _ _ _ u (by simp) (ih.2 h)
      · rw [List.mem_singleton] at h
        exact .child _ _ _ p (by simp) (h ▸ .refl _)

/-- the search for a free variable finds one if the constructor is ambiguous -/
theorem free_ambiguous (hb : BaseOk b n0) {m i : Nat} {ps : List Term} {dt : Term} {c : Ctor} (hd : Old b m dt) (hc : Curry (.sym CONST i) ps dt)
    (hp : ∀ p ∈ ps, IsParam p ∧ p ≠ b.self) (ht : ∀ f ∈ c.fields, Old b m f.ty) :
    (findFreeVar b.self dt ((getVariables (c.fields.map (·.ty))).getD [])).isSome ↔ Ambiguous ps c := by
  have hl : ∀ {t}, Old b m t → ParamsAreLeaves t := fun h => Built.leaves (BaseOk.ownSym hb) rfl h
  obtain ⟨r1, e1, _, m1⟩ := C22_variables [dt] (by simpa using hl hd)
  obtain ⟨r2, e2, _, m2⟩ := C22_variables (c.fields.map (·.ty)) (by
    intro e he
    obtain ⟨f, hf, rfl⟩ := List.mem_map.1 he
    exact hl (ht f hf))
  simp only [findFreeVar, e1, e2, Option.getD_some, List.find?_isSome, decide_eq_true_eq, Ambiguous]
  constructor
  · rintro ⟨p, hp1, hp2, _⟩
    obtain ⟨hi, e, he, hs⟩ := (m1 p).1 hp1
    rw [List.mem_singleton] at he
    subst he
    refine ⟨p, (curry_params hc (fun q hq => (hp q hq).1) hi).1 hs, fun f hf h => hp2 ((m2 p).2 ⟨hi, f.ty, List.mem_map_of_mem hf, h⟩)⟩
  · rintro ⟨p, hp1, hp2⟩
    have hi := (hp p hp1).1
    refine ⟨p, (m1 p).2 ⟨hi, dt, by simp, (curry_params hc (fun q hq => (hp q hq).1) hi).2 hp1⟩, fun h => ?_, (hp p hp1).2⟩
    obtain ⟨_, e, he, hs⟩ := (m2 p).1 h
    obtain ⟨f, hf, rfl⟩ := List.mem_map.1 he
    exact hp2 f hf hs

theorem ctorType_ext {lo : Nat} {st st' : State} {ps : List Term} {T : Term} {c : Ctor} {ty : Term} (h : CtorType st lo ps T c ty)
    (e : Grow st st') (hl : ∀ i, st.decls.info (.sym PROGRAM_CONST i) ≠ none → i < st.next) (hl' : ∀ i, st.symType (.sym PARAM i) ≠ none → i < st.next) :
    CtorType st' lo ps T c ty := by
  rcases h with h | ⟨h, i, j, h1, h2, h3, h4, h5, h6⟩
  · exact .inl h
  · have hi := hl i (by simp [h4])
    have hj := hl' j (by simp [h6])
    exact .inr ⟨h, i, j, h1, h2, h3, (e.prog _ hi).trans h4, (e.type _ _ hi).trans h5, (e.type _ _ hj).trans h6⟩

theorem dtConsType_ok (hb : BaseOk b n0) {lo m i : Nat} {st st' : State} {ps : List Term} {dt : Term} {c : Ctor} {x : Name} {r} (H : Fresh b n0 m st)
    (hlo : lo ≤ st.next) (hd : Old b m dt) (hc : Curry (.sym CONST i) ps dt) (hp : ∀ p ∈ ps, IsParam p ∧ p ≠ b.self) (ht : ∀ f ∈ c.fields, Old b m f.ty)
    (h : dtConsType b n st dt ps (c.fields.map (·.ty)) x = .ok (st', r)) :
    ∃ m', m ≤ m' ∧ Fresh b n0 m' st' ∧ Ext st st' ∧ st'.scope = st.scope ∧ Old b m' r.1 ∧ CtorType st' lo ps dt c r.1 ∧ (r.2 = true ↔ Ambiguous ps c) := by
  have pt : Old b m (mkFunctionType (c.fields.map (·.ty)) dt) := mkFunctionType_good (H.good hb) (by
    intro t ht'
    obtain ⟨f, hf, rfl⟩ := List.mem_map.1 ht'
    exact ht f hf) hd
  have A := free_ambiguous hb hd hc hp ht
  simp only [Ethos.dtConsType] at h
  split at h
  · rename_i he
    cases h
    have na : ¬ Ambiguous ps c := by simp [Ambiguous, he]
    exact ⟨m, Nat.le_refl _, H, .refl _, rfl, pt, .inl ⟨na, mkFunctionType_arrow _ _⟩, by simp [na]⟩
  · split at h
    · rename_i hn
      cases h
      have na : ¬ Ambiguous ps c := by rw [← A]; simp [hn]
      exact ⟨m, Nat.le_refl _, H, .refl _, rfl, pt, .inl ⟨na, mkFunctionType_arrow _ _⟩, by simp [na]⟩
    · rename_i hn
      simp only [Run.map_ok] at h
      obtain ⟨⟨s1, l⟩, h1, h2⟩ := h
      cases h2
      have na : Ambiguous ps c := by rw [← A]; simp [hn]
      obtain ⟨m', l', i', e, hs, p', h3, h4, h5, h6, h7⟩ := disamb_ok hb H hd pt h1
      rw [mkFunctionType_arrow] at h4
      exact ⟨m', l', i', e, hs, p', .inr ⟨na, st.next, st.next+1, hlo, Nat.le_succ_of_le hlo, h3, h4, h5, h6⟩, by simp [na]⟩

/-- increasing numbers of constants -/
def Up : Nat → List Term → Nat → Prop
  | lo, [], hi => lo ≤ hi
  | lo, t :: l, hi => ∃ i, lo ≤ i ∧ t = .sym CONST i ∧ Up (i+1) l hi

theorem Up.mono : ∀ {l : List Term} {lo lo' hi : Nat}, lo' ≤ lo → Up lo l hi → Up lo' l hi
  | [], _, _, _, h, h' => Nat.le_trans h h'
  | _ :: _, _, _, _, h, ⟨i, h1, h2, h3⟩ => ⟨i, Nat.le_trans h h1, h2, h3⟩

theorem Up.le : ∀ {l : List Term} {lo hi : Nat}, Up lo l hi → lo ≤ hi
  | [], _, _, h => h
  | _ :: _, _, _, ⟨i, h1, _, h2⟩ => by have := Up.le h2; omega

theorem Up.append : ∀ {l l' : List Term} {lo m hi : Nat}, Up lo l m → Up m l' hi → Up lo (l ++ l') hi
  | [], _, _, _, _, h, h' => h'.mono h
  | _ :: l, _, _, _, _, ⟨i, h1, h2, h3⟩, h' => ⟨i, h1, h2, h3.append h'⟩

theorem Up.mem : ∀ {l : List Term} {lo hi : Nat}, Up lo l hi → ∀ t ∈ l, ∃ i, t = .sym CONST i ∧ lo ≤ i ∧ i < hi
  | [], _, _, _, t, ht => by cases ht
  | u :: l, lo, hi, ⟨i, h1, h2, h3⟩, t, ht => by
    rcases List.mem_cons.1 ht with rfl | ht
    · exact ⟨i, h2, h1, h3.le⟩
    · obtain ⟨j, h4, h5, h6⟩ := h3.mem t ht
      exact ⟨j, h4, by omega, h6⟩

theorem Up.nodup : ∀ {l : List Term} {lo hi : Nat}, Up lo l hi → l.Nodup
  | [], _, _, _ => .nil
  | u :: l, lo, hi, ⟨i, h1, h2, h3⟩ => by
    refine List.nodup_cons.2 ⟨fun hm => ?_, h3.nodup⟩
    obtain ⟨j, h4, h5, h6⟩ := h3.mem _ hm
    rw [h2] at h4
    cases h4
    omega

theorem ctorOk_ext {b : Env} {n lo : Nat} {st st' : State} {a : Stack} {ps : List Term} {T : Term} {d : SCons} {c : Ctor}
    (h : CtorOk b n lo st a ps T d c) (e : Grow st st') (hl : ∀ i, st.decls.info (.sym PROGRAM_CONST i) ≠ none → i < st.next)
    (hl' : ∀ i, st.symType (.sym PARAM i) ≠ none → i < st.next) : CtorOk b n lo st' a ps T d c := by
  obtain ⟨h1, ⟨ty, h2, h3⟩, h4⟩ := h
  exact ⟨each_mono (fun _ _ h => fieldOk_ext h e) h1, ⟨ty, ctorType_ext h2 e hl hl', newSym_ext h3 e⟩, newSym_ext h4 e⟩

theorem Fresh.infoLt (hb : BaseOk b n0) {m : Nat} {st : State} (H : Fresh b n0 m st) (i : Nat) (h : st.decls.info (.sym PROGRAM_CONST i) ≠ none) : i < st.next := by
  rw [H.next]
  refine Nat.lt_of_not_le fun hle => h (H.noInfo hb (by simp) hle).1

theorem Fresh.typeLt {m : Nat} {st : State} (H : Fresh b n0 m st) (i : Nat) (h : st.symType (.sym PARAM i) ≠ none) : i < st.next := by
  rw [H.next]
  rcases H.typed _ _ h with h | h
  · cases h
  · exact h

/-- how a constructor is described to be marked -/
def Described (ps : List Term) (c : Ctor) (p : Term × List Term × Bool) : Prop :=
  p.1 = c.con ∧ p.2.1 = c.fields.map (·.sel) ∧ (p.2.2 = true ↔ Ambiguous ps c)

theorem dtCtors_ok (hb : BaseOk b n0) {ps : List Term} {dt : Term} {lo i : Nat} {a : Stack} (hc : Curry (.sym CONST i) ps dt)
    (hp : ∀ p ∈ ps, IsParam p ∧ p ≠ b.self) : ∀ (l : List SCons) {m : Nat} {st st' : State} {r}, Fresh b n0 m st → lo ≤ st.next →
    Old b m dt → Refines st.scope a → dtCtors b n dt ps l st = .ok (st', r) →
    ∃ m' cs, m ≤ m' ∧ Fresh b n0 m' st' ∧ Ext st st' ∧ Refines st'.scope a ∧ Each (CtorOk b n lo st' a ps dt) l cs ∧
      Each (Described ps) cs r.1 ∧ r.2 = ((l.zip cs).flatMap fun p => ctorBinds p.1 p.2) ∧ Up st.next (cs.map (·.con)) st'.next
  | [], m, st, st', r, H, hl, hd, ht, h => by
    simp only [Ethos.dtCtors] at h; cases h
    exact ⟨m, [], Nat.le_refl _, H, .refl _, ht, .nil, .nil, rfl, Nat.le_refl _⟩
  | d :: l, m, st, st', r, H, hl, hd, ht, h => by
    have W := freshWorld hb
    simp only [Ethos.dtCtors, Run.bind_ok, Run.map_ok] at h
    obtain ⟨⟨s1, p⟩, h1, ⟨s2, t⟩, h2, ⟨s3, q⟩, h3, h4⟩ := h
    cases h4
    obtain ⟨m1, fs, l1, i1, x1, t1, f1, o1, rfl⟩ := dtSels_ok hb _ H hl hd ht h1
    have hl1 : lo ≤ s1.next := Nat.le_trans hl x1.next
    obtain ⟨m2, l2, i2, x2, e2, p2, c2, a2⟩ := dtConsType_ok hb (c := ⟨.sym CONST s2.next, .sym CONST (s2.next+1), fs⟩) i1 hl1 (W.mono l1 hd) hc hp o1 h2
    obtain ⟨_, m3, l3, i3, p3, _⟩ := W.sym (d := 0) (k := CONST) (x := d.name) i2 (by simp) p2
    have hd3 := W.mono (Nat.le_trans l1 (Nat.le_trans l2 l3)) hd
    obtain ⟨_, m4, l4, i4, p4, _⟩ := W.sym (d := 0) (k := CONST) (x := nm "is-" ++ d.name) i3 (by simp)
      (mkFunctionType_good (W.good (d := 0) i3) (ts := [dt]) (by simpa using hd3) ((W.good (d := 0) i3).node0 (k := BOOL_TYPE) (by simp)))
    have x3 := Ext.sym s2 CONST d.name t.1
    have x4 := Ext.sym (s2.mkSymbol CONST d.name t.1).1 CONST (nm "is-" ++ d.name) (mkFunctionType [dt] tBool)
    have l0 : lo ≤ s2.next := Nat.le_trans hl1 x2.next
    obtain ⟨m5, cs, l5, i5, x5, t5, f5, d5, r5, u5⟩ := dtCtors_ok hb hc hp l i4 (Nat.le_trans l0 (x3.trans x4).next) (W.mono l4 hd3) (a := a)
      (by show Refines s2.scope a; rw [e2]; exact t1) h3
    refine ⟨m5, ⟨.sym CONST s2.next, .sym CONST (s2.next+1), fs⟩ :: cs, by omega, i5, x1.trans (x2.trans (x3.trans (x4.trans x5))), t5,
      .cons _ _ _ _ ⟨?_, ⟨t.1, ?_, ?_⟩, ?_⟩ f5, .cons _ _ _ _ ⟨rfl, rfl, a2⟩ d5, ?_, ?_⟩
    · exact each_mono (fun _ _ h => fieldOk_ext h (x2.trans (x3.trans (x4.trans x5))).toGrow) f1
    · exact ctorType_ext c2 (x3.trans (x4.trans x5)).toGrow (i2.infoLt hb) i2.typeLt
    · exact newSym_ext (newSym_new l0) (x4.trans x5).toGrow
    · have := newSym_ext (newSym_new (k := CONST) (x := nm "is-" ++ d.name) (ty := mkFunctionType [dt] tBool) (Nat.le_trans l0 x3.next)) x5.toGrow
      rw [mkFunctionType_arrow] at this
      exact this
    · simp only [r5, List.zip_cons_cons, List.flatMap_cons, ctorBinds, selBinds, List.append_assoc, List.cons_append, List.nil_append]
      rfl
    · exact ⟨s2.next, (x1.trans x2).next, rfl, u5.mono (Nat.le_succ _)⟩

theorem refines_bindAll : ∀ (l : List (Name × Term)) {st : State} {a : Stack}, Refines st.scope a → Refines (st.bindAll l).scope (a.bindAll l)
  | [], _, _, h => h
  | p :: l, _, _, h => refines_bindAll l (refines_bind h p.1 p.2)

theorem bindAll_append (a : Stack) (l l' : List (Name × Term)) : a.bindAll (l ++ l') = (a.bindAll l).bindAll l' := by
  simp [Stack.bindAll]

theorem bindAll_opened : ∀ (l : List (Name × Term)) (a : Stack) (y : List Binding), ∃ z, (up y a).bindAll l = up z a
  | [], a, y => ⟨y, rfl⟩
  | p :: l, a, y => bindAll_opened l a (p :: y)

theorem typeParams_ok (hb : BaseOk b n0) {lo : Nat} : ∀ (ps : List Name) {m : Nat} {st : State} {a : Stack} (acc : List Term), Fresh b n0 m st → lo ≤ st.next →
    Refines st.scope a → ∃ m' l, m ≤ m' ∧ (ps.foldl (fun (p : State × List Term) y =>
      let q := p.1.mkSymbol PARAM y tType
      (q.1.bind y q.2, p.2 ++ [q.2])) (st, acc)).2 = acc ++ l ∧
    ∃ s, (ps.foldl (fun (p : State × List Term) y =>
      let q := p.1.mkSymbol PARAM y tType
      (q.1.bind y q.2, p.2 ++ [q.2])) (st, acc)).1 = s ∧ Fresh b n0 m' s ∧ Ext st s ∧ Refines s.scope (a.bindAll (ps.zip l)) ∧
      Each (fun y p => NewSym PARAM lo s y tType p) ps l ∧ (∀ p ∈ l, Old b m' p ∧ IsParam p ∧ p ≠ b.self)
  | [], m, st, a, acc, H, hl, ht => ⟨m, [], Nat.le_refl _, by simp, st, rfl, H, .refl _, ht, .nil, by simp⟩
  | y :: ps, m, st, a, acc, H, hl, ht => by
    have W := freshWorld hb
    obtain ⟨_, m1, l1, i1, p1, _⟩ := W.sym (d := 0) (k := PARAM) (x := y) H (by simp) (W.good (d := 0) H).type
    have x1 := (Ext.sym st PARAM y tType).trans (Ext.bind _ y (.sym PARAM st.next))
    obtain ⟨m2, l, l2, e2, s, hs, i2, x2, t2, f2, o2⟩ := typeParams_ok hb ps (acc ++ [.sym PARAM st.next]) (W.bind (d := 0) (x := y) i1 p1) (Nat.le_trans hl x1.next)
      (refines_bind ht y _)
    refine ⟨m2, .sym PARAM st.next :: l, Nat.le_trans l1 l2, ?_, s, hs, i2, x1.trans x2, t2, .cons _ _ _ _ ?_ f2, ?_⟩
    · exact e2.trans (by simp)
    · exact newSym_ext (newSym_new hl) ((Ext.bind _ y (.sym PARAM st.next)).trans x2).toGrow
    · intro p hp
      rcases List.mem_cons.1 hp with rfl | hp
      · refine ⟨W.mono l2 p1, ⟨rfl, rfl⟩, fun he => ?_⟩
        exact Old.new hb (k := PARAM) (i := st.next) H.ge (by simp) (by rw [H.next]; exact Nat.le_refl _) (he ▸ H.self hb)
      · exact o2 p hp

/-- a plain application is curried -/
theorem build_curry {st : State} {i : Nat} {ps : List Term} {t : Term} (hi : st.decls.info (.sym CONST i) = none) (hm : st.scope.mark (.sym CONST i) = none)
    (hp : ps ≠ []) (h : st.build b n APPLY (.sym CONST i :: ps) = .ok t) : Curry (.sym CONST i) ps t := by
  have ha : (st.env b).appInfo (.sym CONST i) = none := by
    show st.decls.appInfo st.scope.mark _ = _
    simp [Decls.appInfo, hi, hm]
  simp only [State.build, Run.lift_ok] at h
  have hc : Curry (.sym CONST i) ps (mkApplyInternal (.sym CONST i) ps) := (curry_iff _ _ _).2 rfl
  have := C23_plain ha hp (by simp [Term.kind]) (by simp [Term.kind]) (by simp [Term.kind]) hc
  rw [Builds.det (Builds.intro n n h) this]
  exact hc

theorem dtBody_ok (hb : BaseOk b n0) {lo m : Nat} {x : Name} {pre : Option (Term × Nat)} {d : SDt} {st st' : State} {a : Stack} {r}
    (H : Fresh b n0 m st) (hlo : lo ≤ st.next) (ht : Refines st.scope a)
    (hpre : ∀ q, pre = some q → NewSym CONST lo st x (arrow (List.replicate q.2 tType) tType) q.1 ∧ Old b m q.1 ∧ st.decls.info q.1 = none)
    (hov : d.params ≠ [] → (∃ i, r.1 = .sym CONST i ∧ lo ≤ i) → st'.symName r.1 = x → st'.scope.mark r.1 = none) (h : dtBody b n x pre d st = .ok (st', r)) :
    ∃ m' D, m ≤ m' ∧ Fresh b n0 m' st' ∧ Ext st st' ∧
      Refines st'.scope ((if pre = none ∧ d.params = [] then a.bind x D.sort else a).bindAll (dataBinds d D)) ∧
      DataOk b n lo st' a (if pre = none then [(x, D.sort)] else []) x d D ∧ r.1 = D.sort ∧ Each (Described D.params) D.ctors r.2 ∧
      Up st.next ((if pre = none then [D.sort] else []) ++ D.ctors.map (·.con)) st'.next := by
  have W := freshWorld hb
  simp only [Ethos.dtBody, Run.bind_ok, Run.map_ok] at h
  obtain ⟨⟨s1, t⟩, h1, dt, h2, ⟨s3, c⟩, h3, s4, h4, h5⟩ := h
  cases h5
  dsimp only at hov ⊢
  -- the parameters
  have hps : ∃ m1 l s0, m ≤ m1 ∧ typeParams d.params (if d.params.isEmpty then st else st.push) = (s0, l) ∧ Fresh b n0 m1 s0 ∧ Ext st s0 ∧
      Refines s0.scope ((if d.params = [] then a else a.opened).bindAll (d.params.zip l)) ∧ Each (fun y p => NewSym PARAM lo s0 y tType p) d.params l ∧
      (∀ p ∈ l, Old b m1 p ∧ IsParam p ∧ p ≠ b.self) := by
    by_cases hp : d.params = []
    · refine ⟨m, [], st, Nat.le_refl _, by simp [hp, Ethos.typeParams], H, .refl _, by simp [hp, Stack.bindAll, ht], by rw [hp]; exact .nil, by simp⟩
    · have he : d.params.isEmpty = false := by simpa using hp
      obtain ⟨m1, l, l1, e1, s0, e0, i1, x1, t1, f1, o1⟩ := typeParams_ok hb (lo := lo) d.params [] (W.push (d := 0) H) hlo (refines_push ht)
      refine ⟨m1, l, s0, l1, ?_, i1, (Ext.push st).trans x1, by rw [if_neg hp]; exact t1, f1, o1⟩
      simp only [he, Bool.false_eq_true, if_false, Ethos.typeParams]
      exact Prod.ext e0 e1
  obtain ⟨m1, ps, s0, l1, e0, i0, x0, t0, f0, o0⟩ := hps
  rw [e0] at h1 h2 h3
  dsimp only at h1 h2 h3
  have hlen : ps.length = d.params.length := (each_length f0).symm
  -- the type
  have hty : ∃ m2 i, m1 ≤ m2 ∧ t = .sym CONST i ∧ Fresh b n0 m2 s1 ∧ Ext s0 s1 ∧
      Refines s1.scope (((if d.params = [] then a else a.opened).bindAll (d.params.zip ps)).bindAll (if pre = none then [(x, t)] else [])) ∧
      NewSym CONST lo s1 x (arrow (d.params.map fun _ => tType) tType) t ∧ Old b m2 t ∧ s1.decls.info t = none ∧ (pre = none → st.next ≤ i ∧ i < s1.next) := by
    have hrep : ∀ l : List Name, (l.map fun _ => tType) = List.replicate l.length tType := by
      intro l; induction l with
      | nil => rfl
      | cons _ _ ih => simp [ih, List.replicate_succ]
    cases pre with
    | none =>
      simp only [Ethos.dtType] at h1
      obtain ⟨h6, h7⟩ := Prod.mk.injEq .. ▸ (Run.ok.injEq .. ▸ h1)
      subst h6 h7
      obtain ⟨m2, l2, i2, p2, _⟩ := W.mkTypeConst (d := 0) (x := x) (k := d.params.length) i0
      have x1 := Ext.sym s0 CONST x (mkFunctionType (List.replicate d.params.length tType) tType)
      refine ⟨m2, s0.next, l2, rfl, W.bind (d := 0) i2 p2, x1.trans (Ext.bind _ _ _), refines_bind t0 x _, ?_, p2, ?_, fun _ => ⟨x0.next, Nat.lt_succ_self _⟩⟩
      · rw [hrep, ← mkFunctionType_arrow]
        exact newSym_ext (newSym_new (Nat.le_trans hlo x0.next)) (Ext.bind _ x (.sym CONST s0.next)).toGrow
      · exact (i0.noInfo hb (k := CONST) (i := s0.next) (by simp) (by rw [i0.next]; exact Nat.le_refl _)).1
    | some q =>
      simp only [Ethos.dtType, Run.ite_err'] at h1
      obtain ⟨hk, h1⟩ := h1
      obtain ⟨h6, h7⟩ := Prod.mk.injEq .. ▸ (Run.ok.injEq .. ▸ h1)
      subst h6 h7
      obtain ⟨n1, o1, f1⟩ := hpre q rfl
      rw [hk, ← hrep] at n1
      obtain ⟨i, hi, _⟩ := id n1
      rw [hi] at f1
      exact ⟨m1, i, Nat.le_refl _, hi, i0, .refl _, t0, newSym_ext n1 x0.toGrow, W.mono l1 o1, by rw [hi, x0.const]; exact f1, by simp⟩
  obtain ⟨m2, i, l2, rfl, i2, x2, t2, n2, o2, f2, u2⟩ := hty
  -- the type applied to the parameters
  have hcur : Curry (.sym CONST i) ps dt ∧ Old b m2 dt := by
    by_cases hp : d.params = []
    · have hps : ps = [] := List.eq_nil_of_length_eq_zero (by rw [hlen, hp]; rfl)
      simp only [hp, List.isEmpty_nil, if_true] at h2
      cases h2
      rw [hps]
      exact ⟨.nil, o2⟩
    · have he : d.params.isEmpty = false := by simpa using hp
      simp only [he, Bool.false_eq_true, if_false] at h2 h4
      have hm : s1.scope.mark (.sym CONST i) = none :=
        markFrame.dtCtors _ h3 _ (markFrame.pop h4 _ (markFrame.bindAll _ _ _ (hov hp (by
          obtain ⟨j, hj, h7, _⟩ := n2; exact ⟨j, hj, h7⟩) (by
          obtain ⟨j, hj, _, h8, h9, _⟩ := n2
          cases hj
          have := (nameFrame.trans (nameFrame.dtCtors _ h3) (nameFrame.trans (nameFrame.pop h4) (nameFrame.bindAll c.2 s4))).2 CONST i h8
          exact this.trans h9))))
      exact ⟨build_curry f2 hm (by intro h; apply hp; apply List.eq_nil_of_length_eq_zero; rw [← hlen, h]; rfl) h2,
        W.apply (d := 0) i2 o2 (fun c hc => W.mono l2 (o0 c hc).1) h2⟩
  obtain ⟨hc, od⟩ := hcur
  obtain ⟨m3, cs, l3, i3, x3, t3, f3, d3, r3, u3⟩ := dtCtors_ok hb hc (fun p hp => (o0 p hp).2) _ i2 (Nat.le_trans hlo (x0.trans x2).next) od t2 h3
  have h8 : Fresh b n0 m3 s4 ∧ Ext s3 s4 ∧ Refines s4.scope (if pre = none ∧ d.params = [] then a.bind x (.sym CONST i) else a) ∧ s4.next = s3.next := by
    by_cases hp : d.params = []
    · simp only [hp, List.isEmpty_nil, if_true] at h4
      cases h4
      refine ⟨i3, .refl _, ?_, rfl⟩
      simp only [hp, List.zip_nil_left, Stack.bindAll, List.foldl_nil, if_true, and_true] at t3 ⊢
      split
      · rename_i hn; simpa [hn] using t3
      · rename_i hn; simpa [hn] using t3
    · have he : d.params.isEmpty = false := by simpa using hp
      simp only [he, Bool.false_eq_true, if_false] at h4
      refine ⟨W.pop (d := 0) i3 h4, .pop h4, ?_, by rw [scopeOnly.pop h4]⟩
      rw [if_neg (by simp [hp])]
      rw [if_neg hp, ← bindAll_append] at t3
      obtain ⟨z, hz⟩ := bindAll_opened (d.params.zip ps ++ if pre = none then [(x, .sym CONST i)] else []) a []
      rw [show a.opened = up [] a from rfl, hz] at t3
      exact (pop_table t3 h4).1
  obtain ⟨i4, x4, t4, e4⟩ := h8
  have x5 := Ext.bindAll s4 c.2
  have e5 : (s4.bindAll c.2).next = s3.next := by rw [scopeOnly.bindAll c.2 s4]; exact e4
  have x35 := x3.trans (x4.trans x5)
  refine ⟨m3, ⟨.sym CONST i, ps, dt, cs⟩, Nat.le_trans l1 (Nat.le_trans l2 l3), ?_, x0.trans (x2.trans x35), ?_, ⟨?_, ?_, hc, ?_⟩, rfl, d3, ?_⟩
  · refine W.bindAll (d := 0) i4 ?_
    obtain ⟨m3', l3', i3', _, p3'⟩ := W.dtCtors (d := 0) _ i2 od h3
    have : m3' = m3 := by rw [← i3'.next, ← i3.next]
    subst this
    exact p3'
  · rw [show dataBinds d ⟨.sym CONST i, ps, dt, cs⟩ = c.2 from r3.symm]
    exact refines_bindAll _ t4
  · exact newSym_ext n2 x35.toGrow
  · exact each_mono (fun _ _ h => newSym_ext h (x2.trans x35).toGrow) f0
  · exact each_mono (fun _ _ h => ctorOk_ext h (x4.trans x5).toGrow (i3.infoLt hb) i3.typeLt) f3
  · rw [e5]
    by_cases hn : pre = none
    · obtain ⟨v1, v2⟩ := u2 hn
      simp only [hn, if_true]
      exact ⟨i, v1, rfl, u3.mono v2⟩
    · simp only [hn, if_false]
      exact u3.mono (x0.trans x2).next

/-! ### Marking -/

/-- mark symbols with lists -/
def markList (b : Env) (n : Nat) : List (Term × List Term × Attr) → State → Run State
  | [], st => .ok st
  | (v, ts, a) :: r, st =>
    (st.mkList b n ts).bind fun l => markList b n r { st with decls := (st.decls.markConstructorKind v a (some l)).1 }

theorem dtMark_eq : ∀ (l : List (Term × List (Term × List Term × Bool))) (st : State),
    dtMark b n l st = markList b n (l.map fun p => (p.1, p.2.map (·.1), .DATATYPE)) st
  | [], st => rfl
  | (t, cs) :: l, st => by
    simp only [Ethos.dtMark, List.map_cons, markList]
    congr 1
    funext u
    exact dtMark_eq l _

theorem dtMarkCons_eq : ∀ (l : List (Term × List Term × Bool)) (st : State),
    dtMarkCons b n l st = markList b n (l.map fun p => (p.1, p.2.1, if p.2.2 then .AMB_DATATYPE_CONSTRUCTOR else .DATATYPE_CONSTRUCTOR)) st
  | [], st => rfl
  | (t, cs, amb) :: l, st => by
    simp only [Ethos.dtMarkCons, List.map_cons, markList]
    congr 1
    funext u
    exact dtMarkCons_eq l _

theorem markList_append : ∀ (l l' : List (Term × List Term × Attr)) (st : State), markList b n (l ++ l') st = (markList b n l st).bind (markList b n l')
  | [], l', st => rfl
  | (v, ts, a) :: l, l', st => by
    simp only [List.cons_append, markList]
    cases st.mkList b n ts with
    | ok u => exact markList_append l l' _
    | _ => rfl

theorem markList_same : ∀ (l : List (Term × List Term × Attr)) {st st' : State}, markList b n l st = .ok st' →
    st'.scope = st.scope ∧ st'.symType = st.symType ∧ st'.symName = st.symName ∧ st'.next = st.next ∧
      ∀ v, v ∉ l.map (·.1) → st'.decls.info v = st.decls.info v
  | [], st, st', h => by simp only [markList] at h; cases h; simp
  | (v, ts, a) :: l, st, st', h => by
    simp only [markList, Run.bind_ok] at h
    obtain ⟨u, _, h⟩ := h
    obtain ⟨h1, h2, h3, h4, h5⟩ := markList_same l h
    refine ⟨h1, h2, h3, h4, fun w hw => ?_⟩
    simp only [List.map_cons, List.mem_cons, not_or] at hw
    rw [h5 w hw.2]
    exact mark_other hw.1

/-- the builtin constructor of lists is as it was declared -/
def ListReady (b : Env) (st : State) : Prop := HasAttr (st.env b) b.listCons .RIGHT_ASSOC_NIL (some b.listNil)

def NoList (st : State) (v : Term) : Prop := ∀ ai, st.decls.info v = some ai → ai.attr ≠ .LIST

theorem mkList_eq {st : State} {ts : List Term} {l : Term} (hr : ListReady b st) (hk : b.listNil.kind ≠ PARAMETERIZED) (hn : ∀ t ∈ ts, NoList st t)
    (h : st.mkList b n ts = .ok l) : l = rlist b.listCons b.listNil ts := by
  cases ts with
  | nil => simp only [State.mkList, List.isEmpty_nil, if_true] at h; cases h; rfl
  | cons t ts =>
    simp only [State.mkList, List.isEmpty_cons, Bool.false_eq_true, if_false, State.build, Run.lift_ok] at h
    refine Builds.det (Builds.intro n n h) (C24_list hr (.known _ (.const _ hk)) ?_)
    rintro u hu ⟨ai, h1, h2⟩
    have h1 : st.decls.appInfo st.scope.mark u = some ai := h1
    simp only [Decls.appInfo] at h1
    split at h1
    · rename_i ai' _ h3
      cases h1
      exact hn u hu _ h3 h2
    · cases h1; cases h2
    · cases h1

theorem markList_ok (hk : b.listNil.kind ≠ PARAMETERIZED) : ∀ (l : List (Term × List Term × Attr)) {st st' : State}, markList b n l st = .ok st' →
    ListReady b st' → (l.map (·.1)).Nodup → b.listCons ∉ l.map (·.1) → (∀ p ∈ l, st.decls.info p.1 = none) → (∀ p ∈ l, p.2.2 ≠ .LIST ∧ ∀ t ∈ p.2.1, NoList st t) →
    ∀ p ∈ l, st'.decls.info p.1 = some ⟨p.2.2, some (rlist b.listCons b.listNil p.2.1), NONE, none⟩
  | [], st, st', h, _, _, _, _, _, p, hp => by cases hp
  | (v, ts, a) :: l, st, st', h, hr, hnd, hlc, hi, hnl, p, hp => by
    have hready : ListReady b st := by
      obtain ⟨e1, _, _, _, e5⟩ := markList_same _ h
      have : (st.env b).appInfo b.listCons = (st'.env b).appInfo b.listCons := by
        show st.decls.appInfo st.scope.mark _ = st'.decls.appInfo st'.scope.mark _
        simp only [Decls.appInfo, e1, e5 _ hlc]
      show (st.env b).appInfo b.listCons = _
      rw [this]; exact hr
    simp only [markList, Run.bind_ok] at h
    obtain ⟨u, h1, h⟩ := h
    have hu := mkList_eq hready hk (hnl (v, ts, a) (by simp)).2 h1
    subst hu
    simp only [List.map_cons, List.nodup_cons, List.mem_cons, not_or] at hnd hlc
    have hv := hi _ (List.mem_cons_self ..)
    have hself : (st.decls.markConstructorKind v a (some (rlist b.listCons b.listNil ts))).1.info v = some ⟨a, some (rlist b.listCons b.listNil ts), NONE, none⟩ := by
      simp [Decls.markConstructorKind, hv]
    rcases List.mem_cons.1 hp with rfl | hp
    · rw [(markList_same _ h).2.2.2.2 v hnd.1]
      exact hself
    · refine markList_ok hk l h hr hnd.2 hlc.2 ?_ ?_ p hp
      · intro q hq
        have : q.1 ≠ v := fun e => hnd.1 (e ▸ List.mem_map_of_mem hq)
        exact (mark_other this).trans (hi q (by simp [hq]))
      · intro q hq
        refine ⟨(hnl q (by simp [hq])).1, fun t ht ai hai => ?_⟩
        by_cases he : t = v
        · subst he
          rw [hself] at hai
          cases hai
          exact (hnl _ (List.mem_cons_self ..)).1
        · rw [mark_other he] at hai
          exact (hnl q (by simp [hq])).2 t ht ai hai

/-! ### The operators on datatypes -/

theorem dtInfo_of {st : State} {v : Term} {ai : AppInfo} (h : st.decls.info v = some ai) :
    ∃ o, (st.env b).appInfo v = some { ai with overload := o } := by
  refine ⟨st.scope.mark v, ?_⟩
  show st.decls.appInfo st.scope.mark v = _
  simp [Decls.appInfo, h]

theorem strip_curry {i : Nat} {ts : List Term} {t : Term} (h : Curry (.sym CONST i) ts t) : stripApply t = .sym CONST i := by
  induction h with
  | nil => simp [stripApply]
  | snoc ts t u _ ih => simp only [stripApply]; exact ih

theorem mkListTerm_eq (env : Env) (ts : List Term) : mkListTerm env ts = rlist env.listCons env.listNil ts := by
  induction ts with
  | nil => rfl
  | cons t ts ih => simp only [rlist, ← ih]; rfl

theorem listed_of {st' : State} {D : Data} {i : Nat} (hn : b.listNil.kind ≠ APPLY) (hs : D.sort = .sym CONST i)
    (hD : st'.decls.info D.sort = some ⟨.DATATYPE, some (rlist b.listCons b.listNil (D.ctors.map (·.con))), NONE, none⟩)
    (hC : ∀ c ∈ D.ctors, ∃ j a, c.con = .sym CONST j ∧ st'.decls.info c.con = some ⟨a, some (rlist b.listCons b.listNil (c.fields.map (·.sel))), NONE, none⟩ ∧
      (a = .AMB_DATATYPE_CONSTRUCTOR ∧ Ambiguous D.params c ∨ a = .DATATYPE_CONSTRUCTOR ∧ ¬ Ambiguous D.params c)) : Listed b st' D := by
  obtain ⟨o1, h1⟩ := dtInfo_of (b := b) hD
  have hcon : (rlist (st'.env b).listCons (st'.env b).listNil) = rlist b.listCons b.listNil := rfl
  refine ⟨⟨1, ?_⟩, ?_, ?_⟩
  · rw [hs] at h1 ⊢
    have hg : (Term.sym CONST i).ground = true := rfl
    simp [ops, opStep, evalGround, hg, argO, Out.bind, dtConstructors, Term.kind, h1]
  · intro c hc
    obtain ⟨j, a, hj, hi, ha⟩ := hC c hc
    obtain ⟨o2, h2⟩ := dtInfo_of (b := b) hi
    have ha' : a = .DATATYPE_CONSTRUCTOR ∨ a = .AMB_DATATYPE_CONSTRUCTOR := by rcases ha with ⟨h, _⟩ | ⟨h, _⟩ <;> simp [h]
    rw [hj] at h2 ⊢
    refine ⟨⟨1, ?_⟩, fun r hr => ⟨1, ?_⟩⟩
    · have hg : (Term.sym CONST j).ground = true := rfl
      simp [ops, opStep, evalGround, hg, argO, Out.bind, dtSelectors, Term.kind, h2, ha']
    · have hg : (Term.node APPLY_OPAQUE (.sym CONST j :: r)).ground = true := by
        refine (ground_iff _).2 ?_
        intro s hs
        cases hs with
        | refl => simp [IsParam, IsAny, Term.kind]
        | child _ _ c hc hs =>
          rcases List.mem_cons.1 hc with rfl | hc
          · cases hs; simp [IsParam, IsAny, Term.kind]
          · exact hr c hc s hs
      simp [ops, opStep, evalGround, hg, argO, Out.bind, dtSelectors, Term.kind, h2, ha', Term.children]
  · intro ts t hne hcu hcl ⟨n, hty⟩
    have hg := (ground_iff t).2 hcl
    rw [hs] at hcu h1
    have hk : t.kind = APPLY := by
      cases hcu with
      | nil => exact absurd rfl hne
      | snoc => rfl
    refine ⟨D.ctors.map fun c => match (st'.env b).appInfo c.con with
        | some ci => if ci.attr = .AMB_DATATYPE_CONSTRUCTOR then .node APPLY_OPAQUE [c.con, t] else c.con
        | none => c.con, ⟨n+1, ?_⟩, ?_⟩
    · have hnl : (naryLoop b.listCons false (rlist b.listCons b.listNil (D.ctors.map (·.con)))).1 = D.ctors.map (·.con) := by
        rw [rlist_eq_mkl, naryLoop_mkl _ _ _ (by
          intro x y z w h
          rw [h] at hn; exact hn rfl)]
      simp only [ops, opStep, List.any_cons, List.any_nil, hg, Bool.not_true, Bool.or_false, Bool.false_eq_true, if_false, evalGround, argO,
        List.getElem?_cons_zero, Out.bind, dtConstructors, hk, if_true, hty, Out.map, decide_true, strip_curry hcu, h1]
      rw [show (st'.env b).listCons = b.listCons from rfl, hnl, mkListTerm_eq, List.map_map]
      rfl
    · have : ∀ (l : List Ctor), (∀ c ∈ l, c ∈ D.ctors) → Each (fun (c : Ctor) u => (¬ Ambiguous D.params c ∧ u = c.con) ∨
          (Ambiguous D.params c ∧ u = .node APPLY_OPAQUE [c.con, t])) l (l.map fun c => match (st'.env b).appInfo c.con with
        | some ci => if ci.attr = .AMB_DATATYPE_CONSTRUCTOR then .node APPLY_OPAQUE [c.con, t] else c.con
        | none => c.con) := by
        intro l
        induction l with
        | nil => exact fun _ => .nil
        | cons c l ih =>
          intro hl
          refine .cons _ _ _ _ ?_ (ih fun d hd => hl d (by simp [hd]))
          obtain ⟨j, a, hj, hi, ha⟩ := hC c (hl c (by simp))
          obtain ⟨o2, h2⟩ := dtInfo_of (b := b) hi
          simp only [h2]
          rcases ha with ⟨rfl, h⟩ | ⟨rfl, h⟩
          · exact .inr ⟨h, rfl⟩
          · exact .inl ⟨h, rfl⟩
      exact this D.ctors fun _ h => h

theorem dataOk_ext {lo m : Nat} {st st' : State} {a : Stack} {own : List (Name × Term)} {x : Name} {d : SDt} {D : Data} (hb : BaseOk b n0)
    (H : Fresh b n0 m st) (h : DataOk b n lo st a own x d D) (e : Grow st st') : DataOk b n lo st' a own x d D := by
  obtain ⟨h1, h2, h3, h4⟩ := h
  exact ⟨newSym_ext h1 e, each_mono (fun _ _ h => newSym_ext h e) h2, h3, each_mono (fun _ _ h => ctorOk_ext h e (H.infoLt hb) H.typeLt) h4⟩

theorem datasOk_ext {lo m : Nat} {st st' : State} (hb : BaseOk b n0) (H : Fresh b n0 m st) (e : Grow st st') {a : Stack} {xs ds Ds a'}
    (h : DatasOk b n lo st a xs ds Ds a') : DatasOk b n lo st' a xs ds Ds a' := by
  induction h with
  | nil => exact .nil _ _
  | cons a x xs d ds D Ds a' h1 _ ih => exact .cons _ _ _ _ _ _ _ _ (dataOk_ext hb H h1 e) ih

/-- the type constructors made by `declare-datatypes` -/
def DtMade (b : Env) (lo m : Nat) (st : State) (p : Name × Nat) (q : Name × Term × Nat) : Prop :=
  q.1 = p.1 ∧ q.2.2 = p.2 ∧ NewSym CONST lo st p.1 (arrow (List.replicate p.2 tType) tType) q.2.1 ∧ Old b m q.2.1 ∧ st.decls.info q.2.1 = none

theorem made_ext {lo m m' : Nat} {st st' : State} (e : Ext st st') (hm : m ≤ m') {p : Name × Nat} {q : Name × Term × Nat} (h : DtMade b lo m st p q) :
    DtMade b lo m' st' p q := by
  obtain ⟨h1, h2, h3, h4, h5⟩ := h
  refine ⟨h1, h2, newSym_ext h3 e.toGrow, h4.mono hm, ?_⟩
  obtain ⟨i, hi, _⟩ := h3
  rw [hi] at h5 ⊢
  exact (e.const i).trans h5

theorem dtTypes_ok (hb : BaseOk b n0) {lo : Nat} : ∀ (xs : List (Name × Nat)) {m : Nat} {st : State} {a : Stack}, Fresh b n0 m st → lo ≤ st.next → Refines st.scope a →
    ∃ m', m ≤ m' ∧ Fresh b n0 m' (dtTypes xs st).1 ∧ Ext st (dtTypes xs st).1 ∧
      Refines (dtTypes xs st).1.scope (a.bindAll ((dtTypes xs st).2.map fun q => (q.1, q.2.1))) ∧
      Each (DtMade b lo m' (dtTypes xs st).1) xs (dtTypes xs st).2 ∧ Up st.next ((dtTypes xs st).2.map (·.2.1)) (dtTypes xs st).1.next
  | [], m, st, a, H, hl, ht => ⟨m, Nat.le_refl _, H, .refl _, ht, .nil, Nat.le_refl _⟩
  | (x, k) :: xs, m, st, a, H, hl, ht => by
    have W := freshWorld hb
    obtain ⟨m1, l1, i1, p1, _⟩ := W.mkTypeConst (d := 0) (x := x) (k := k) H
    have x1 : Ext st ((st.mkTypeConst x k).1.bind x (st.mkTypeConst x k).2) := (Ext.sym st _ _ _).trans (Ext.bind _ _ _)
    obtain ⟨m2, l2, i2, x2, t2, f2, u2⟩ := dtTypes_ok hb xs (W.bind (d := 0) (x := x) i1 p1) (Nat.le_trans hl x1.next) (refines_bind ht x _)
    refine ⟨m2, Nat.le_trans l1 l2, i2, x1.trans x2, t2, .cons _ _ _ _ (made_ext x2 l2 ⟨rfl, rfl, ?_, p1, ?_⟩) f2, st.next, Nat.le_refl _, rfl, u2⟩
    · rw [← mkFunctionType_arrow]
      exact newSym_ext (newSym_new hl) (Ext.bind _ _ _).toGrow
    · exact (H.noInfo hb (k := CONST) (i := st.next) (by simp) (by rw [H.next]; exact Nat.le_refl _)).1

/-- how a datatype is described to be marked -/
def DescribedData (D : Data) (p : Term × List (Term × List Term × Bool)) : Prop := p.1 = D.sort ∧ Each (Described D.params) D.ctors p.2

theorem dtBodies_ok (hb : BaseOk b n0) {lo : Nat} : ∀ {ds : List SDt} {xs : List (Name × Nat)} {ts : List (Name × Term × Nat)} {m : Nat} {st st' : State} {a : Stack} {r},
    Fresh b n0 m st → lo ≤ st.next → Refines st.scope a → Each (DtMade b lo m st) xs ts →
    (∀ p ∈ (ts.map fun q => q.2.1).zip ds, p.2.params ≠ [] → st'.scope.mark p.1 = none) → dtBodies b n ts ds st = .ok (st', r) →
    ∃ m' Ds a', m ≤ m' ∧ Fresh b n0 m' st' ∧ Ext st st' ∧ Refines st'.scope a' ∧ DatasOk b n lo st' a (ts.map fun q => (q.1, q.2.1)) ds Ds a' ∧
      Each DescribedData Ds r ∧ Up st.next (Ds.flatMap fun D => D.ctors.map (·.con)) st'.next
  | [], xs, ts, m, st, st', a, r, H, hl, ht, hm, hov, h => by
    have h : Run.ok (st, []) = Run.ok (st', r) := by cases ts <;> exact h
    cases h
    exact ⟨m, [], a, Nat.le_refl _, H, .refl _, ht, .nil _ _, .nil, Nat.le_refl _⟩
  | d :: ds, xs, [], m, st, st', a, r, H, hl, ht, hm, hov, h => by simp only [Ethos.dtBodies] at h; cases h
  | d :: ds, xs, (x, t) :: ts, m, st, st', a, r, H, hl, ht, hm, hov, h => by
    simp only [Ethos.dtBodies, Run.bind_ok, Run.map_ok] at h
    obtain ⟨⟨s1, p1⟩, h1, ⟨s2, p2⟩, h2, h3⟩ := h
    cases h3
    cases hm with
    | cons x0 _ xs _ hm hms =>
      obtain ⟨rfl, e2, n1, o1, f1⟩ := hm
      have e2 : t.2 = x0.2 := e2
      have hr1 : p1.1 = t.1 := by
        simp only [Ethos.dtBody, Run.bind_ok, Run.map_ok] at h1
        obtain ⟨⟨s5, t5⟩, h5, _, _, _, _, _, _, h6⟩ := h1
        cases h6
        simp only [Ethos.dtType, Run.ite_err'] at h5
        obtain ⟨_, h5⟩ := h5
        cases h5
        rfl
      obtain ⟨m1, D, l1, i1, x1, t1, d1, r1, c1, u1⟩ := dtBody_ok hb H hl ht (by
          intro q hq
          cases hq
          exact ⟨by rw [e2]; exact n1, o1, f1⟩) (by
          intro hp _ _
          refine markFrame.dtBodies _ _ h2 _ ?_
          rw [hr1]
          exact hov (t.1, d) (by simp) hp) h1
      have t1 : Refines s1.scope (a.bindAll (dataBinds d D)) := by simpa using t1
      have d1 : DataOk b n lo s1 a [] x0.1 d D := by simpa using d1
      have u1 : Up st.next (D.ctors.map (·.con)) s1.next := by simpa using u1
      obtain ⟨m2, Ds, a', l2, i2, x2, t2, d2, c2, u2⟩ := dtBodies_ok hb i1 (Nat.le_trans hl x1.next) t1 (each_mono (fun _ _ h => made_ext x1 l1 h) hms)
        (fun p hp => hov p (by simp [hp])) h2
      have hs : t.1 = D.sort := hr1.symm.trans r1
      refine ⟨m2, D :: Ds, a', Nat.le_trans l1 l2, i2, x1.trans x2, t2, ?_, .cons _ _ _ _ ⟨r1, c1⟩ c2, ?_⟩
      · simp only [List.map_cons, hs]
        exact .cons _ _ _ _ _ _ _ _ (dataOk_ext hb i1 d1 x2.toGrow) d2
      · simp only [List.flatMap_cons]
        exact u1.append u2

theorem Up.take : ∀ {l : List Term} {lo hi : Nat} (k : Nat), Up lo l hi → Up lo (l.take k) hi
  | [], _, _, k, h => by simpa using h
  | t :: l, lo, hi, 0, h => h.le
  | t :: l, lo, hi, k + 1, ⟨i, h1, h2, h3⟩ => ⟨i, h1, h2, h3.take k⟩

theorem datas_sorts {lo : Nat} {st : State} {a a' : Stack} {xs ds Ds} (h : DatasOk b n lo st a xs ds Ds a') :
    Ds.map (·.sort) = (xs.map (·.2)).take ds.length ∧ Ds.length = ds.length := by
  induction h with
  | nil => simp
  | cons _ _ _ _ _ _ _ _ _ _ ih => simp [ih.1, ih.2]

/-- the markings of described datatypes -/
theorem described_marks {Ds : List Data} {r} (h : Each DescribedData Ds r) :
    (r.map fun p => (p.1, p.2.map (·.1), Attr.DATATYPE)) = Ds.map (fun D => (D.sort, D.ctors.map (·.con), Attr.DATATYPE)) := by
  induction h with
  | nil => rfl
  | cons D p Ds r h _ ih =>
    have : p.2.map (·.1) = D.ctors.map (·.con) := by
      have h2 := h.2
      revert h2
      generalize p.2 = q, D.ctors = cs
      intro h2
      induction h2 with
      | nil => rfl
      | cons _ _ _ _ h _ ih => simp [h.1, ih]
    simp [h.1, this, ih]

open Classical in
/-- the attribute of a constructor -/
noncomputable def ctorAttr (ps : List Term) (c : Ctor) : Attr := if Ambiguous ps c then .AMB_DATATYPE_CONSTRUCTOR else .DATATYPE_CONSTRUCTOR

theorem described_ctors {Ds : List Data} {r} (h : Each DescribedData Ds r) :
    ((r.flatMap (·.2)).map fun p => (p.1, p.2.1, if p.2.2 then Attr.AMB_DATATYPE_CONSTRUCTOR else .DATATYPE_CONSTRUCTOR)) =
      Ds.flatMap (fun D => D.ctors.map fun c => (c.con, c.fields.map (·.sel), ctorAttr D.params c)) := by
  induction h with
  | nil => rfl
  | cons D p Ds r h _ ih =>
    have : (p.2.map fun p => (p.1, p.2.1, if p.2.2 then Attr.AMB_DATATYPE_CONSTRUCTOR else .DATATYPE_CONSTRUCTOR)) =
        D.ctors.map fun c => (c.con, c.fields.map (·.sel), ctorAttr D.params c) := by
      have h2 := h.2
      revert h2
      generalize p.2 = q, D.ctors = cs
      intro h2
      induction h2 with
      | nil => rfl
      | cons c p _ _ h _ ih =>
        have ha : (if p.2.2 = true then Attr.AMB_DATATYPE_CONSTRUCTOR else .DATATYPE_CONSTRUCTOR) = ctorAttr D.params c := by
          by_cases ha : Ambiguous D.params c
          · rw [if_pos (h.2.2.2 ha)]; simp [ctorAttr, ha]
          · rw [if_neg fun h' => ha (h.2.2.1 h')]; simp [ctorAttr, ha]
        simp only [List.map_cons, ih, h.1, h.2.1, ha]
    simp [this, ih]

theorem each_mem {α β : Type} {R : α → β → Prop} {l : List α} {l' : List β} (h : Each R l l') : ∀ y ∈ l', ∃ x ∈ l, R x y := by
  induction h with
  | nil => simp
  | cons a b as bs h _ ih =>
    intro y hy
    rcases List.mem_cons.1 hy with rfl | hy
    · exact ⟨a, by simp, h⟩
    · obtain ⟨x, h1, h2⟩ := ih y hy
      exact ⟨x, by simp [h1], h2⟩

theorem ctor_sels {lo : Nat} {st : State} {a own x d D} (h : DataOk b n lo st a own x d D) :
    ∀ c ∈ D.ctors, ∀ f ∈ c.fields, ∃ i, f.sel = .sym CONST i ∧ lo ≤ i := by
  intro c hc f hf
  obtain ⟨_, _, h1⟩ := each_mem h.2.2.2 c hc
  obtain ⟨_, _, h2⟩ := each_mem h1.1 f hf
  obtain ⟨i, h3, h4, _⟩ := h2.1
  exact ⟨i, h3, h4⟩

theorem datas_sels {lo : Nat} {st : State} {a a' : Stack} {xs ds Ds} (h : DatasOk b n lo st a xs ds Ds a') :
    ∀ D ∈ Ds, ∀ c ∈ D.ctors, ∀ f ∈ c.fields, ∃ i, f.sel = .sym CONST i ∧ lo ≤ i := by
  induction h with
  | nil => simp
  | cons _ _ _ _ _ _ _ _ h _ ih =>
    intro D hD
    rcases List.mem_cons.1 hD with rfl | hD
    · exact ctor_sels h
    · exact ih D hD

theorem dtMarkAll_ok (hb : BaseOk b n0) {m : Nat} {st s1 st' : State} (H : Fresh b n0 m st) (e : Ext st s1) {Ds : List Data} {r}
    (hr : Each DescribedData Ds r) (hup : Up st.next (Ds.map (·.sort) ++ Ds.flatMap fun D => D.ctors.map (·.con)) s1.next)
    (hsel : ∀ D ∈ Ds, ∀ c ∈ D.ctors, ∀ f ∈ c.fields, ∃ i, f.sel = .sym CONST i ∧ st.next ≤ i) (h : dtMarkAll b n r s1 = .ok st')
    (hl : ListReady b st') (hk : b.listNil.kind ≠ PARAMETERIZED) (hk' : b.listNil.kind ≠ APPLY) :
    Grow s1 st' ∧ st'.scope = s1.scope ∧ ∀ D ∈ Ds, Listed b st' D := by
  have h : markList b n ((Ds.map fun D => (D.sort, D.ctors.map (·.con), Attr.DATATYPE)) ++
      Ds.flatMap (fun D => D.ctors.map fun c => (c.con, c.fields.map (·.sel), ctorAttr D.params c))) s1 = .ok st' := by
    rw [markList_append, ← described_marks hr, ← described_ctors hr, ← dtMark_eq]
    rw [← h]
    simp only [Ethos.dtMarkAll]
    congr 1
    funext s
    rw [dtMarkCons_eq]
  have htg : ((Ds.map fun D => (D.sort, D.ctors.map (·.con), Attr.DATATYPE)) ++
      Ds.flatMap (fun D => D.ctors.map fun c => (c.con, c.fields.map (·.sel), ctorAttr D.params c))).map (·.1) =
      Ds.map (·.sort) ++ Ds.flatMap fun D => D.ctors.map (·.con) := by
    simp [List.map_append, List.map_flatMap, Function.comp_def]
  have hnone : ∀ i, st.next ≤ i → s1.decls.info (.sym CONST i) = none := fun i hi =>
    (e.const i).trans (H.noInfo hb (k := CONST) (by simp) (by rw [← H.next]; exact hi)).1
  have hno : ∀ i, st.next ≤ i → NoList s1 (.sym CONST i) := fun i hi ai hai => by rw [hnone i hi] at hai; cases hai
  have hconno : ∀ D ∈ Ds, ∀ c ∈ D.ctors, NoList s1 c.con := by
    intro D hD c hc
    obtain ⟨i, h1, h2, _⟩ := hup.mem c.con (List.mem_append.2 (.inr (List.mem_flatMap.2 ⟨D, hD, List.mem_map.2 ⟨c, hc, rfl⟩⟩)))
    rw [h1]; exact hno i h2
  obtain ⟨e1, e2, e3, e4, e5⟩ := markList_same _ h
  rw [htg] at e5
  have key := markList_ok hk _ h hl (by rw [htg]; exact hup.nodup) (by
      rw [htg]
      intro hm
      obtain ⟨i, h1, h2, _⟩ := hup.mem _ hm
      have := H.built.listCons
      rw [h1] at this
      exact Old.new hb H.ge (by simp) (by rw [← H.next]; exact h2) this) (by
      intro p hp
      obtain ⟨i, h1, h2, _⟩ := hup.mem p.1 (by rw [← htg]; exact List.mem_map.2 ⟨p, hp, rfl⟩)
      rw [h1]; exact hnone i h2) (by
      intro p hp
      rcases List.mem_append.1 hp with hp | hp
      · obtain ⟨D, hD, rfl⟩ := List.mem_map.1 hp
        refine ⟨by simp, fun t ht => ?_⟩
        obtain ⟨c, hc, rfl⟩ := List.mem_map.1 ht
        exact hconno D hD c hc
      · obtain ⟨D, hD, hp⟩ := List.mem_flatMap.1 hp
        obtain ⟨c, hc, rfl⟩ := List.mem_map.1 hp
        refine ⟨by simp only [ctorAttr]; split <;> simp, fun t ht => ?_⟩
        obtain ⟨f, hf, rfl⟩ := List.mem_map.1 ht
        obtain ⟨i, h1, h2⟩ := hsel D hD c hc f hf
        rw [h1]; exact hno i h2)
  refine ⟨⟨by rw [e4]; exact Nat.le_refl _, fun _ _ _ => by rw [e2], fun _ _ _ => by rw [e3], fun i _ => e5 _ fun hm => ?_⟩, e1, ?_⟩
  · obtain ⟨j, h1, _⟩ := hup.mem _ hm
    cases h1
  · intro D hD
    obtain ⟨i, h1, _⟩ := hup.mem D.sort (List.mem_append.2 (.inl (List.mem_map.2 ⟨D, hD, rfl⟩)))
    refine listed_of hk' h1 (key (D.sort, D.ctors.map (·.con), Attr.DATATYPE) (List.mem_append.2 (.inl (List.mem_map.2 ⟨D, hD, rfl⟩)))) ?_
    intro c hc
    obtain ⟨j, h2, _⟩ := hup.mem c.con (List.mem_append.2 (.inr (List.mem_flatMap.2 ⟨D, hD, List.mem_map.2 ⟨c, hc, rfl⟩⟩)))
    refine ⟨j, ctorAttr D.params c, h2, key (c.con, c.fields.map (·.sel), ctorAttr D.params c)
      (List.mem_append.2 (.inr (List.mem_flatMap.2 ⟨D, hD, List.mem_map.2 ⟨c, hc, rfl⟩⟩))), ?_⟩
    by_cases ha : Ambiguous D.params c
    · exact .inl ⟨by simp [ctorAttr, ha], ha⟩
    · exact .inr ⟨by simp [ctorAttr, ha], ha⟩

end
end Ethos.Props
