import Verif.Lemmas.Datatype
import Verif.Props.Elab
import Verif.Lemmas.CmdExample
/-
C64: declarations of datatypes.
-/
namespace Ethos.Props
open Ethos Kind Ethos.Spec

section
variable {b : Env} {n n0 : Nat} {es : List Event} {st st' : State}

/-- the constants made by the command with the name `x` have no overloads -/
def NotOverloaded (st st' : State) (x : Name) : Prop :=
  ∀ i, st.next ≤ i → st'.symName (.sym CONST i) = x → st'.scope.mark (.sym CONST i) = none

/-- the builtin list constructor is there, and has not been overloaded -/
def ListsWork (b : Env) (st : State) : Prop :=
  HasAttr (st.env b) b.listCons .RIGHT_ASSOC_NIL (some b.listNil) ∧ b.listNil.kind ≠ PARAMETERIZED ∧ b.listNil.kind ≠ APPLY

/-- **C64**, one datatype.  Missing for the full property: the name of a datatype with parameters is not bound to it
(`C64_type_name_refuted`).  In every state reached without `reset`, an accepted declaration of a datatype makes its type constructor,
with as many type arguments as parameters, and for each constructor the selectors, updaters, the constructor and the tester,
all of them new, with the types the declaration says; the names are bound to them; and `eo::dt_constructors` and `eo::dt_selectors`
give the constructors and the selectors in the order of the declaration. -/
theorem C64_single_partial {x : Name} {d : SDt} (hb : BaseOk b n0) (hr : .cmd .reset ∉ es) (h : replay b n es (State.init b n0) = .ok st)
    (hx : exec b n st (.declareDatatype x d) = .ok st') (hl : ListsWork b st') (hov : d.params ≠ [] → NotOverloaded st st' x) :
    ∃ a D, Shows st a ∧ DataOk b n st.next st' a [(x, D.sort)] x d D ∧ Listed b st' D ∧
      Shows st' ((if d.params = [] then a.bind x D.sort else a).bindAll (dataBinds d D)) := by
  obtain ⟨a, _, ht⟩ := replay_table es hr (init_table b n0) h
  obtain ⟨m, _, H⟩ := Fresh.replay hb es (Fresh.init hb) h
  simp only [exec, execDatatype, Run.bind_ok] at hx
  obtain ⟨⟨s1, r⟩, h1, h2⟩ := hx
  have hsame : st'.scope = s1.scope ∧ st'.symName = s1.symName := by
    simp only [Ethos.dtMarkAll, dtMark_eq, Run.bind_ok] at h2
    obtain ⟨s2, h3, h4⟩ := h2
    rw [dtMarkCons_eq] at h4
    obtain ⟨e1, _, e2, _⟩ := markList_same _ h3
    obtain ⟨f1, _, f2, _⟩ := markList_same _ h4
    exact ⟨f1.trans e1, f2.trans e2⟩
  obtain ⟨m', D, _, H', e, t, dok, hs, hds, up⟩ := dtBody_ok hb H (Nat.le_refl _) ht (by intro q hq; cases hq) (by
    rintro hp ⟨i, hi1, hi2⟩ hi3
    rw [← hsame.1, hi1]
    exact hov hp i hi2 (by rw [hsame.2, ← hi1]; exact hi3)) h1
  simp only [if_true, true_and] at t dok up
  obtain ⟨g, hsc, hli⟩ := dtMarkAll_ok hb H e (Ds := [D]) (.cons _ _ _ _ ⟨hs, hds⟩ .nil) (by simpa using up) (by
    intro D' hD'
    rw [List.mem_singleton] at hD'
    subst hD'
    exact ctor_sels dok) h2 hl.1 hl.2.1 hl.2.2
  refine ⟨a, D, shows_of ht, dataOk_ext hb H' dok g, hli D (by simp), shows_of ?_⟩
  rw [hsc]; exact t

/-- several datatypes: all the type constructors are made and bound first, with the arities given; then the definitions are
read one after the other as above.  There are at most as many definitions as names; missing for the full property is
that there may be fewer (`C64_definition_refuted`). -/
theorem C64_several_partial {xs : List (Name × Nat)} {ds : List SDt} (hb : BaseOk b n0) (hr : .cmd .reset ∉ es) (h : replay b n es (State.init b n0) = .ok st)
    (hx : exec b n st (.declareDatatypes xs ds) = .ok st') (hl : ListsWork b st')
    (hov : (∃ d ∈ ds, d.params ≠ []) → ∀ x ∈ xs.map (·.1), NotOverloaded st st' x) :
    ∃ a ts Ds a', Shows st a ∧ Each (fun p t => NewSym CONST st.next st' p.1 (arrow (List.replicate p.2 tType) tType) t) xs ts ∧
      DatasOk b n st.next st' (a.bindAll ((xs.map (·.1)).zip ts)) ((xs.map (·.1)).zip ts) ds Ds a' ∧
      Ds.length = ds.length ∧ ds.length ≤ xs.length ∧ (∀ D ∈ Ds, Listed b st' D) ∧ Shows st' a' := by
  obtain ⟨a, _, ht⟩ := replay_table es hr (init_table b n0) h
  obtain ⟨m, _, H⟩ := Fresh.replay hb es (Fresh.init hb) h
  simp only [exec, execDatatypes, Run.ite_err, Run.bind_ok] at hx
  obtain ⟨_, ⟨s1, r⟩, h1, h2⟩ := hx
  have hsame : st'.scope = s1.scope ∧ st'.symName = s1.symName := by
    simp only [Ethos.dtMarkAll, dtMark_eq, Run.bind_ok] at h2
    obtain ⟨s2, h3, h4⟩ := h2
    rw [dtMarkCons_eq] at h4
    obtain ⟨e1, _, e2, _⟩ := markList_same _ h3
    obtain ⟨f1, _, f2, _⟩ := markList_same _ h4
    exact ⟨f1.trans e1, f2.trans e2⟩
  obtain ⟨m0, l0, H0, e0, t0, mk, u0⟩ := dtTypes_ok hb (lo := st.next) xs H (Nat.le_refl _) ht
  revert H0 e0 t0 mk u0 h1
  generalize dtTypes xs st = q
  intro h1 H0 e0 t0 mk u0
  have hts : ∀ {xs ts}, Each (DtMade b st.next m0 q.1) xs ts → (ts.map fun q => (q.1, q.2.1)) = (xs.map (·.1)).zip (ts.map (·.2.1)) := by
    intro xs ts h
    induction h with
    | nil => rfl
    | cons _ _ _ _ h _ ih => simp [ih, h.1]
  obtain ⟨m1, Ds, a', l1, H1, e1, t1, d1, r1, u1⟩ := dtBodies_ok hb (lo := st.next) H0 e0.next t0 mk (by
    intro p hp hne
    have hq := List.of_mem_zip hp
    obtain ⟨w, hw1, hw2⟩ := List.mem_map.1 hq.1
    obtain ⟨y, hy, h3, h4, ⟨i, h5, h6, h7, h8, _⟩, _⟩ := each_mem mk w hw1
    rw [← hw2, ← hsame.1, h5]
    refine hov ⟨p.2, hq.2, hne⟩ y.1 (List.mem_map.2 ⟨y, hy, rfl⟩) i h6 ?_
    rw [hsame.2, (nameFrame.dtBodies _ _ h1).2 CONST i h7, ← h5]
    exact h8) h1
  obtain ⟨hso, hln⟩ := datas_sorts d1
  obtain ⟨g, hsc, hli⟩ := dtMarkAll_ok hb H (e0.trans e1) r1 (by
    rw [hso]
    refine (Up.take ds.length ?_).append u1
    simpa [List.map_map, Function.comp_def] using u0) (datas_sels d1) h2 hl.1 hl.2.1 hl.2.2
  refine ⟨a, q.2.map (·.2.1), Ds, a', shows_of ht, ?_, ?_, hln, ?_, hli, shows_of (by rw [hsc]; exact t1)⟩
  · have : ∀ {xs ts}, Each (DtMade b st.next m0 q.1) xs ts →
        Each (fun p t => NewSym CONST st.next st' p.1 (arrow (List.replicate p.2 tType) tType) t) xs (ts.map (·.2.1)) := by
      intro xs ts h
      induction h with
      | nil => exact .nil
      | cons _ _ _ _ h _ ih => exact .cons _ _ _ _ (newSym_ext h.2.2.1 (e1.toGrow.trans g)) ih
    exact this mk
  · have := datasOk_ext hb H1 g d1
    rw [hts mk] at this
    exact this
  · have h9 : ∀ {a xs ds Ds a'}, DatasOk b n st.next s1 a xs ds Ds a' → ds.length ≤ xs.length := by
      intro a xs ds Ds a' h
      induction h with
      | nil => simp
      | cons _ _ _ _ _ _ _ _ _ _ ih => simpa using ih
    have := h9 d1
    rw [List.length_map, ← each_length mk] at this
    exact this

end

/-! ### Examples -/

set_option synthInstance.maxSize 2000

/-- `(declare-datatype List ((nil) (cons (head Bool) (tail List))))` -/
def listData : SDt := ⟨[], [⟨nm "nil", []⟩, ⟨nm "cons", [(nm "head", .bool), (nm "tail", sy "List")]⟩]⟩

/-- `(par (X) ((nil) (cons (head X) (tail (List X)))))`, and without the name of the type for a single declaration -/
def polyData : SDt := ⟨[nm "X"], [⟨nm "nil", []⟩, ⟨nm "cons", [(nm "head", sy "X"), (nm "tail", ap "List" [sy "X"])]⟩]⟩

/-- what can be seen of a run: the bound symbols with names, types and what is known about them -/
def dtLook (c : Cmd) (l : List String) : Run (List (Option (Term × Name × Option Term × Option (Attr × Option Term)))) :=
  (exec exB 10 (State.init exB 10) c).map fun st => l.map fun x =>
    (st.scope.get (nm x)).map fun t => (t, st.symName t, st.symType t, (st.decls.info t).map fun i => (i.attr, i.cons))

/-- the type, its constructors, selectors, an updater and a tester -/
example : dtLook (.declareDatatype (nm "List") listData) ["List", "cons", "tail", "update-head", "is-nil"] = .ok
    [some (.sym CONST 10, nm "List", some tType,
       some (.DATATYPE, some (rlist exB.listCons exB.listNil [.sym CONST 11, .sym CONST 17]))),
     some (.sym CONST 17, nm "cons", some (arrow [tBool, .sym CONST 10] (.sym CONST 10)),
       some (.DATATYPE_CONSTRUCTOR, some (rlist exB.listCons exB.listNil [.sym CONST 13, .sym CONST 15]))),
     some (.sym CONST 15, nm "tail", some (arrow [.sym CONST 10] (.sym CONST 10)), none),
     some (.sym CONST 14, nm "update-head", some (arrow [.sym CONST 10, tBool] (.sym CONST 10)), none),
     some (.sym CONST 12, nm "is-nil", some (arrow [.sym CONST 10] tBool), none)] := by decide +kernel

/-- that the hypotheses are met can be computed -/
theorem dt_met {c : Cmd} {xs : List Name} (h : (exec exB 10 (State.init exB 10) c).map (fun s =>
      (((s.env exB).appInfo exB.listCons).map (fun i => (i.attr, i.cons, i.kind, i.overload)),
       (List.range s.next).all fun i => decide (s.symName (.sym CONST i) ∈ xs → s.scope.mark (.sym CONST i) = none))) =
      .ok (some (.RIGHT_ASSOC_NIL, some exB.listNil, NONE, none), true)) :
    ∃ st', exec exB 10 (State.init exB 10) c = .ok st' ∧ ListsWork exB st' ∧ ∀ x ∈ xs, NotOverloaded (State.init exB 10) st' x := by
  simp only [Run.map_ok, Prod.mk.injEq, Option.map_eq_some_iff] at h
  obtain ⟨st', h1, ⟨⟨i1, i2, i3, i4⟩, h2, h3⟩, h4⟩ := h
  refine ⟨st', h1, ⟨?_, by decide, by decide⟩, fun x hx i _ hn => ?_⟩
  · obtain ⟨rfl, rfl, rfl, rfl⟩ := h3
    exact h2
  · obtain ⟨m, _, H⟩ := Fresh.replay exB_ok [.cmd c] (Fresh.init exB_ok) (n := 10) (st' := st') (by simp [replay, replayEvent, h1, Run.bind])
    by_cases hi : i < st'.next
    · simp only [List.all_eq_true, List.mem_range, decide_eq_true_eq] at h4
      exact h4 i hi (by rw [hn]; exact hx)
    · exact (H.noInfo exB_ok (k := CONST) (by simp) (by rw [← H.next]; omega)).2

/-- the hypotheses of `C64_single_partial` and `C64_several_partial` are met -/
example : ∃ st', exec exB 10 (State.init exB 10) (.declareDatatype (nm "List") listData) = .ok st' ∧ ListsWork exB st' ∧
    ∀ x ∈ [nm "List"], NotOverloaded (State.init exB 10) st' x := dt_met (by decide +kernel)

example : ∃ st', exec exB 10 (State.init exB 10) (.declareDatatype (nm "List") polyData) = .ok st' ∧ ListsWork exB st' ∧
    ∀ x ∈ [nm "List"], NotOverloaded (State.init exB 10) st' x := dt_met (by decide +kernel)

example : ∃ st', exec exB 10 (State.init exB 10) (.declareDatatypes [(nm "List", 1), (nm "E", 0)] [polyData, ⟨[], [⟨nm "a", []⟩, ⟨nm "b", []⟩]⟩]) = .ok st' ∧
    ListsWork exB st' ∧ ∀ x ∈ [nm "List", nm "E"], NotOverloaded (State.init exB 10) st' x := dt_met (by decide +kernel)

/-- with a parameter, `nil` is ambiguous and `cons` is not -/
example : dtLook (.declareDatatypes [(nm "List", 1)] [polyData]) ["List", "nil", "cons", "head"] = .ok
    [some (.sym CONST 10, nm "List", some (arrow [tType] tType),
       some (.DATATYPE, some (rlist exB.listCons exB.listNil [.sym CONST 14, .sym CONST 20]))),
     some (.sym CONST 14, nm "nil", some (arrow [.node QUOTE_TYPE [.sym PARAM 13]] (.node APPLY [.sym PROGRAM_CONST 12, .sym PARAM 13])),
       some (.AMB_DATATYPE_CONSTRUCTOR, some exB.listNil)),
     some (.sym CONST 20, nm "cons", some (arrow [.sym PARAM 11, .node APPLY [.sym CONST 10, .sym PARAM 11]] (.node APPLY [.sym CONST 10, .sym PARAM 11])),
       some (.DATATYPE_CONSTRUCTOR, some (rlist exB.listCons exB.listNil [.sym CONST 16, .sym CONST 18]))),
     some (.sym CONST 16, nm "head", some (arrow [.node APPLY [.sym CONST 10, .sym PARAM 11]] (.sym PARAM 11)), none)] := by decide +kernel

/-! ### What does not hold -/

/-- after `(declare-datatype List (par (X) …))` the name `List` is not bound, although `List` can be used in the definition and
the constructors have been declared: the name is bound in the scope opened for the parameters -/
theorem C64_type_name_refuted : ∃ st', exec exB 10 (State.init exB 10) (.declareDatatype (nm "List") polyData) = .ok st' ∧
    st'.scope.get (nm "List") = none ∧ st'.scope.get (nm "cons") ≠ none := by
  have h : (exec exB 10 (State.init exB 10) (.declareDatatype (nm "List") polyData)).map
      (fun st' => (st'.scope.get (nm "List"), (st'.scope.get (nm "cons")).isSome)) = .ok (none, true) := by decide +kernel
  simp only [Run.map_ok, Prod.mk.injEq] at h
  obtain ⟨st', h1, h2, h3⟩ := h
  exact ⟨st', h1, h2, by intro h; rw [h] at h3; cases h3⟩

/-- `(declare-datatypes ((A 0) (B 0)) (((a))))` is accepted: `B` is a type that is not known to be a datatype -/
theorem C64_definition_refuted : ∃ st' t, exec exB 10 (State.init exB 10) (.declareDatatypes [(nm "A", 0), (nm "B", 0)] [⟨[], [⟨nm "a", []⟩]⟩]) = .ok st' ∧
    st'.scope.get (nm "B") = some t ∧ st'.symType t = some tType ∧ st'.decls.info t = none := by
  have h : (exec exB 10 (State.init exB 10) (.declareDatatypes [(nm "A", 0), (nm "B", 0)] [⟨[], [⟨nm "a", []⟩]⟩])).map
      (fun st' => (st'.scope.get (nm "B"), st'.symType (.sym CONST 11), (st'.decls.info (.sym CONST 11)).isSome)) = .ok (some (.sym CONST 11), some tType, false) := by
    decide +kernel
  simp only [Run.map_ok, Prod.mk.injEq] at h
  obtain ⟨st', h1, h2, h3, h4⟩ := h
  exact ⟨st', _, h1, h2, h3, by simpa using h4⟩

end Ethos.Props
