import Verif.Lemmas.CmdReader
/-
Reading commands from tokens agrees with executing them as trees.
-/
namespace Ethos.Props
open Ethos Kind Ethos.Spec

section
variable {α β σ τ : Type} {fl : LexFlags}
variable (b : Env) (n : Nat) (o : ReadOpts)

/-! ### Datatypes -/

/-- `dtBodies` for types that may be new -/
def dtBodiesOf : List (Name × Option (Term × Nat)) → List SDt → State → Run (State × List (Term × List (Term × List Term × Bool)))
  | _, [], st => .ok (st, [])
  | [], _ :: _, _ => .err
  | (x, t) :: xs, d :: ds, st => (dtBody b n x t d st).bind fun p => (dtBodiesOf xs ds p.1).map fun q => (q.1, p.2 :: q.2)

theorem dtBodiesOf_eq : ∀ (xs : List (Name × Term × Nat)) (ds : List SDt) (st : State),
    dtBodiesOf b n (xs.map fun t => (t.1, some t.2)) ds st = dtBodies b n xs ds st
  | [], [], st => rfl
  | _ :: _, [], st => rfl
  | [], _ :: _, _ => rfl
  | (x, t) :: xs, d :: ds, st => by simp only [List.map_cons, dtBodiesOf, dtBodies, dtBodiesOf_eq xs ds]

theorem reads_dts : ∀ xs, ReadsWith fl AtClose (rDts b n o xs) (Many (DtDef (tokSem o))) (dtBodiesOf b n xs)
  | [] => by
    refine (ReadsWith.peek' (c := fun tk => tk = .LPAREN) (ReadsWith.err' (σ := Unit) (fl := fl) AtClose fun _ _ => .err) (ReadsWith.pure' (fl := fl) AtClose []) ?_ ?_).to' ?_ ?_
    · rintro s ws rest _ h _
      exact h.elim
    · rintro s ws rest _ h ⟨u, r, rfl⟩
      cases h
      exact ⟨_, _, rfl, by simp⟩
    · rintro (s | s) ws st r _ h hm
      · exact h.elim
      · cases h
        exact ⟨[], .nil, hm⟩
    · rintro ds ws st r _ h hm
      cases h with
      | nil => exact ⟨.inr (), rfl, hm⟩
      | cons => cases hm
  | (x, pre) :: xs => by
    refine (ReadsWith.peek' (c := fun tk => tk = .LPAREN) (ReadsWith.eat (t := .LPAREN) (q := fun _ => _) ((reads_dt (fl := fl) b n o x pre).then (f := fun d => _) fun d =>
      (reads_dts xs).end (f := fun ds => pure (d :: ds)) fun ds => ReadsWith.pure' (fl := fl) AtClose (d :: ds))) (ReadsWith.pure' (fl := fl) AtClose []) ?_ ?_).to' ?_ ?_
    · rintro s ws rest _ ⟨u, w, rfl, _⟩ _
      exact ⟨_, _, rfl, rfl⟩
    · rintro s ws rest _ h ⟨u, r, rfl⟩
      cases h
      exact ⟨_, _, rfl, by simp⟩
    · rintro (⟨d, ds⟩ | s) ws st r _ h hm
      · obtain ⟨u, w, rfl, h⟩ := h
        obtain ⟨w, w', rfl, h1, h2⟩ := both_iff.1 h
        refine ⟨d :: ds, .cons d ((.LPAREN, u) :: w) ds w' ((dtDef_iff o).2 ⟨u, w, rfl, h1⟩) h2, ?_⟩
        simpa only [Sum.elim_inl, dtBodiesOf, Run.map_eq', Run.bind_bind'] using hm
      · cases h
        exact ⟨[], .nil, hm⟩
    · rintro ds ws st r _ h hm
      cases h with
      | nil => exact ⟨.inr (), rfl, hm⟩
      | cons d w ds ws h1 h2 =>
        obtain ⟨u, w, rfl, h3⟩ := (dtDef_iff o).1 h1
        refine ⟨.inl (d, ds), ⟨u, w ++ ws, rfl, both_iff.2 ⟨w, ws, rfl, h3, h2⟩⟩, ?_⟩
        simpa only [Sum.elim_inl, dtBodiesOf, Run.map_eq', Run.bind_bind'] using hm

/-! ### Commands -/

theorem Rd.bind_bind' {γ : Type} (p : Rd α) (f : α → Rd β) (g : β → Rd γ) : p >>= f >>= g = p >>= fun a => f a >>= g := by
  funext toks st
  simp only [Rd.bind_def, Run.bind_bind']

theorem Rd.pure_bind' (a : α) (f : α → Rd β) : (pure a : Rd α) >>= f = f a := rfl

/-- `p` reads the rest of a command as `W` writes it and executes it -/
def ReadsCmd (fl : LexFlags) (b : Env) (n : Nat) (p : Rd Unit) (W : Cmd → List Tk → Prop) : Prop :=
  ReadsWith fl AtClose p W fun c st => (exec b n st c).map fun st => (st, ())

/-- the bodies of commands without options -/
def BodyOf (isRef : Bool) (x : String) (c : Cmd) (w : List Tk) : Prop := Body (tokSem o) true isRef x c none w

theorem bodyOf {o : ReadOpts} {isRef : Bool} {x : String} {c : Cmd} {w w' : List Tk} (h : Body (tokSem o) true isRef x c none w) (he : w' = w) :
    BodyOf o isRef x c w' := he ▸ h

variable (isRef : Bool)

theorem reads_declareDatatype : ReadsCmd fl b n (rDeclareDatatype b n o) (BodyOf o isRef "declare-datatype") := by
  refine ((reads_name (fl := fl) o).then (f := fun x => _) fun x => (reads_dts (fl := fl) b n o [(x, none)]).end (f := fun ds => _) fun ds =>
    ReadsWith.get (g := fun _ => if ds.isEmpty then .err else .ok ()) (f := fun _ => _) fun _ =>
    ReadsWith.upd' AtClose (fun st => dtMarkAll b n ds st)).to' ?_ ?_
  · rintro ⟨x, ds⟩ ws st r _ h hm
    obtain ⟨w, w', rfl, h1, h2⟩ := both_iff.1 h
    match ds, h2, hm with
    | [], h2, hm =>
      simp only [dtBodiesOf, Run.ok_bind', List.isEmpty_nil, if_true, Run.err_bind'] at hm
      cases hm
    | [d], h2, hm =>
      cases h2 with
      | cons _ w2 _ w3 h3 h4 =>
        cases h4
        refine ⟨_, .declareDatatype x d w (w2 ++ []) h1 (by simpa using h3), ?_⟩
        simpa only [exec, execDatatype, dtBodiesOf, Run.map_eq', Run.bind_bind', Run.ok_bind', List.isEmpty_cons, Bool.false_eq_true, if_false] using hm
    | _ :: _ :: _, h2, hm =>
      simp only [Run.ok_bind', dtBodiesOf, Run.map_eq', Run.bind_bind', Run.err_bind'] at hm
      simp only [Run.bind_ok] at hm
      obtain ⟨_, _, h⟩ := hm
      cases h
  · rintro c ws st r _ h hm
    generalize hn : "declare-datatype" = y at h
    cases h with
    | declareDatatype x d w w' h1 h2 =>
      refine ⟨(x, [d]), both_iff.2 ⟨w, w', rfl, h1, ?_⟩, ?_⟩
      · have := Many.cons d w' [] [] h2 .nil
        simpa using this
      · simpa only [exec, execDatatype, dtBodiesOf, Run.map_eq', Run.bind_bind', Run.ok_bind', List.isEmpty_cons, Bool.false_eq_true, if_false] using hm
    | _ => exact absurd hn (by decide)

theorem reads_sortDec : ReadsWith fl Any rSortDec (Before (Both (NameW (tokSem o)) (Num true))) fun p st => .ok (st, p) := by
  refine ((reads_name (fl := fl) o).then (f := fun x => _) fun x => (reads_numeral (fl := fl)).close (f := fun k => pure (x, k))
    (fun k => ReadsWith.pure' (fl := fl) Any (x, k)) fun _ _ => trivial).to ?_ ?_
  · rintro ⟨x, k⟩ ws _ h
    obtain ⟨w, w', rfl, h1, u, w2, rfl, h2⟩ := both_iff.1 h
    exact ⟨(x, k), ⟨u, w ++ w2, by simp, both_iff.2 ⟨w, w2, rfl, h1, h2⟩⟩, fun st => rfl⟩
  · rintro ⟨x, k⟩ ws _ ⟨u, w, rfl, h⟩
    obtain ⟨w, w', rfl, h1, h2⟩ := both_iff.1 h
    exact ⟨(x, k), both_iff.2 ⟨w, w' ++ [(.RPAREN, u)], by simp, h1, u, w', rfl, h2⟩, fun st => rfl⟩

theorem mAll_id (es : List σ) : mAll (fun (a : σ) st => .ok (st, a)) es = fun st => .ok (st, es) := by
  induction es with
  | nil => funext st; rfl
  | cons e es ih => funext st; simp only [mAll, ih, Run.bind, Run.map]

theorem reads_declareDatatypes : ReadsCmd fl b n (rDeclareDatatypes b n o) (BodyOf o isRef "declare-datatypes") := by
  have hl := (reads_sortDec (fl := fl) o).listOf
  rw [funext mAll_id] at hl
  have h := hl.then (F := AtClose) (f := fun xs => _) fun xs =>
    ReadsWith.get (g := fun _ => if xs.isEmpty then .err else .ok ()) (f := fun _ => _) fun _ =>
    ReadsWith.eat (t := .LPAREN) (q := fun _ => _) (ReadsWith.new (g := fun st => dtTypes xs st) (f := fun ts => _) fun ts =>
      (reads_dts (fl := fl) b n o (ts.map fun t => (t.1, some t.2))).bind (f := fun ds => _) (F2 := AtClose) (fun ds =>
        ReadsWith.upd (g := fun st => dtMarkAll b n ds st) (f := fun _ => rEat .RPAREN) (reads_eat' (fl := fl) .RPAREN |>.weaken fun _ _ => trivial))
        fun s' w' rest _ h _ => by obtain ⟨u, rfl⟩ := h; exact ⟨u, rest, rfl⟩)
  rw [Rd.bind_bind'] at h
  refine ReadsWith.to' (p := rDeclareDatatypes b n o) h ?_ ?_
  · rintro ⟨xs, ds, _⟩ ws st r _ h hm
    obtain ⟨w, w', rfl, h1, u, w2, rfl, h2⟩ := both_iff.1 h
    obtain ⟨w3, w4, rfl, h3, u', rfl⟩ := both_iff.1 h2
    refine ⟨_, .declareDatatypes xs ds w _ h1 (Parens.mk ds u u' w3 h3), ?_⟩
    simp only [dtBodiesOf_eq] at hm
    simp only [exec, execDatatypes, Run.map_eq', Run.bind_bind', Run.ite_bind', Run.ok_bind', Run.err_bind'] at hm ⊢
    exact hm
  · rintro c ws st r _ h hm
    generalize hn : "declare-datatypes" = y at h
    cases h with
    | declareDatatypes xs ds w w' h1 h2 =>
      cases h2 with
      | mk u u' w2 h2 =>
        refine ⟨(xs, ds, ()), both_iff.2 ⟨w, _, rfl, h1, u, _, rfl, both_iff.2 ⟨w2, _, rfl, h2, u', rfl⟩⟩, ?_⟩
        simp only [dtBodiesOf_eq]
        simp only [exec, execDatatypes, Run.map_eq', Run.bind_bind', Run.ite_bind', Run.ok_bind', Run.err_bind'] at hm ⊢
        exact hm
    | _ => exact absurd hn (by decide)

theorem reads_assume (isPush : Bool) : ReadsCmd fl b n (rAssume b n o isPush) (BodyOf o isRef (if isPush then "assume-push" else "assume")) := by
  refine ((reads_name (fl := fl) o).then (f := fun x => _) fun x => (reads_formula (fl := fl) b n o |>.weaken fun _ _ => trivial).end (f := fun t => _) fun t =>
    ReadsWith.upd' AtClose (fun st => let st := if isPush then st.pushAssumption else st; (st.bind x (mkProof t)).addAssumption b n t)).to' ?_ ?_
  · rintro ⟨x, f⟩ ws st r _ h hm
    obtain ⟨w, w', rfl, h1, h2⟩ := both_iff.1 h
    cases isPush with
    | false =>
      refine ⟨_, .assume x f w w' h1 h2, ?_⟩
      simpa only [exec, execAssume, Run.map_eq', Run.bind_bind', Run.ok_bind'] using hm
    | true =>
      refine ⟨_, .assumePush x f w w' h1 h2, ?_⟩
      simpa only [exec, execAssume, Run.map_eq', Run.bind_bind', Run.ok_bind'] using hm
  · rintro c ws st r _ h hm
    generalize hn : (if isPush then "assume-push" else "assume") = y at h
    cases h with
    | assume x f w w' h1 h2 =>
      cases isPush with
      | true => exact absurd hn (by decide)
      | false =>
      refine ⟨(x, f), both_iff.2 ⟨w, w', rfl, h1, h2⟩, ?_⟩
      simpa only [exec, execAssume, Run.map_eq', Run.bind_bind', Run.ok_bind'] using hm
    | assumePush x f w w' h1 h2 =>
      cases isPush with
      | false => exact absurd hn (by decide)
      | true =>
      refine ⟨(x, f), both_iff.2 ⟨w, w', rfl, h1, h2⟩, ?_⟩
      simpa only [exec, execAssume, Run.map_eq', Run.bind_bind', Run.ok_bind'] using hm
    | _ => exact absurd hn (by cases isPush <;> decide)

theorem reads_declareConst : ReadsCmd fl b n (rDeclareConst b n o) (BodyOf o isRef "declare-const") := by
  refine ((reads_name (fl := fl) o).then (f := fun x => _) fun x => (reads_type (fl := fl) b n o true).then (f := fun t => _) fun t =>
    (reads_constAttrs (fl := fl) b n o).end (f := fun as => _) fun as => ReadsWith.upd' AtClose (fun st =>
      (declare st x t (chooseAttr as).1 (attrCons (chooseAttr as).2)).map fun v => v.1.bind x v.2)).to' ?_ ?_
  · rintro ⟨x, ty, as⟩ ws st r _ h hm
    obtain ⟨w, w', rfl, h1, h2⟩ := both_iff.1 h
    obtain ⟨w2, w3, rfl, h3, h4⟩ := both_iff.1 h2
    refine ⟨.declareConst x ty as, bodyOf (.declareConst x ty as w w2 w3 h1 h3 h4) (by simp), ?_⟩
    simpa only [exec, parseAttrs, Run.map_eq', Run.bind_bind', Run.ok_bind'] using hm
  · rintro c ws st r _ h hm
    generalize hn : "declare-const" = y at h
    cases h with
    | declareConst x ty as w w' w'' h1 h2 h3 =>
      refine ⟨(x, ty, as), both_iff.2 ⟨w, w' ++ w'', by simp, h1, both_iff.2 ⟨w', w'', rfl, h2, h3⟩⟩, ?_⟩
      simpa only [exec, parseAttrs, Run.map_eq', Run.bind_bind', Run.ok_bind'] using hm
    | _ => exact absurd hn (by decide)

theorem reads_declareFun : ReadsCmd fl b n (rDeclareFun b n o) (BodyOf o isRef "declare-fun") := by
  refine ((reads_name (fl := fl) o).then (f := fun x => _) fun x => (reads_typeList (fl := fl) b n o).then (f := fun ts => _) fun ts =>
    (reads_type (fl := fl) b n o true |>.weaken fun _ _ => trivial).end (f := fun t => _) fun t => ReadsWith.upd' AtClose (fun st =>
      (declare st x (mkFunctionType ts t) .NONE none).map fun v => v.1.bind x v.2)).to' ?_ ?_
  · rintro ⟨x, ty, as⟩ ws st r _ h hm
    obtain ⟨w, w', rfl, h1, h2⟩ := both_iff.1 h
    obtain ⟨w2, w3, rfl, h3, h4⟩ := both_iff.1 h2
    refine ⟨.declareFun x ty as, bodyOf (.declareFun x ty as w w2 w3 h1 h3 h4) (by simp), ?_⟩
    simpa only [exec, Run.map_eq', Run.bind_bind', Run.ok_bind'] using hm
  · rintro c ws st r _ h hm
    generalize hn : "declare-fun" = y at h
    cases h with
    | declareFun x ty as w w' w'' h1 h2 h3 =>
      refine ⟨(x, ty, as), both_iff.2 ⟨w, w' ++ w'', by simp, h1, both_iff.2 ⟨w', w'', rfl, h2, h3⟩⟩, ?_⟩
      simpa only [exec, Run.map_eq', Run.bind_bind', Run.ok_bind'] using hm
    | _ => exact absurd hn (by decide)

theorem paramTypes_drop (st : State) : ∀ (l : List (Term × SParam)) (t : Term) (op : List Term),
    paramTypes b n st (l.map fun v => (v.1, dropExprs v.2)) t op = paramTypes b n st l t op
  | [], t, op => rfl
  | (p, a) :: r, t, op => by
    simp only [List.map_cons, paramTypes, opq_drop]
    cases st.typeCheck b n p with
    | ok pt => simp only [Run.bind, paramTypes_drop st r]
    | _ => rfl

theorem filter_drop (l : List (Term × SParam)) : (l.map fun v => (v.1, dropExprs v.2)).filter (fun v => !v.2.implicit) =
    (l.filter fun v => !v.2.implicit).map fun v => (v.1, dropExprs v.2) := by
  rw [List.filter_map]
  congr 1
  refine List.filter_congr fun v _ => ?_
  simp only [Function.comp, implicit_drop]

theorem reads_declareParam : ReadsCmd fl b n (rDeclareParam b n o) (BodyOf o isRef "declare-parameterized-const") := by
  have h := ((reads_name (fl := fl) o).then (f := fun x => _) fun x => ReadsWith.upd (g := fun st => .ok st.push) (f := fun _ => _) <|
    (reads_params (fl := fl) b n o true).then (f := fun ps => _) fun ps =>
    (reads_type (fl := fl) b n o true).then (f := fun t => _) fun t =>
    (reads_constAttrs (fl := fl) b n o).end (f := fun as => _) fun as => ReadsWith.upd' AtClose (fun st =>
      (paramTypes b n st (ps.filter fun v => !v.2.implicit).reverse t []).bind fun tt =>
      (disambiguate b n st x tt.1 tt.2 (chooseAttr as).1).bind fun d =>
      (opaqueType d.2.1 tt.2 d.2.2 (attrCons (chooseAttr as).2)).bind fun e =>
      (declare d.1 x e.1 e.2.1 e.2.2).bind fun v => v.1.pop.map fun st => st.bind x v.2))
  refine ReadsWith.to' (p := rDeclareParam b n o) h ?_ ?_
  · rintro ⟨x, ps, ty, as⟩ ws st r _ h hm
    obtain ⟨w, w', rfl, h1, h2⟩ := both_iff.1 h
    obtain ⟨w2, w3, rfl, h3, h4⟩ := both_iff.1 h2
    obtain ⟨w4, w5, rfl, h5, h6⟩ := both_iff.1 h4
    refine ⟨.declareParam x ps ty as, bodyOf (.declareParam x ps ty as w w2 w4 w5 h1 h3 h5 h6) (by simp), ?_⟩
    simpa only [exec, execDeclareParam, parseAttrs, bindParams', filter_drop, ← List.map_reverse, paramTypes_drop, Run.map_eq', Run.bind_bind', Run.ok_bind'] using hm
  · rintro c ws st r _ h hm
    generalize hn : "declare-parameterized-const" = y at h
    cases h with
    | declareParam x ps ty as w w' w'' w3 h1 h2 h3 h4 =>
      refine ⟨(x, ps, ty, as), both_iff.2 ⟨w, w' ++ (w'' ++ w3), by simp, h1, both_iff.2 ⟨w', _, rfl, h2, both_iff.2 ⟨w'', w3, rfl, h3, h4⟩⟩⟩, ?_⟩
      simpa only [exec, execDeclareParam, parseAttrs, bindParams', filter_drop, ← List.map_reverse, paramTypes_drop, Run.map_eq', Run.bind_bind', Run.ok_bind'] using hm
    | _ => exact absurd hn (by decide)

theorem reads_declareConsts : ReadsCmd fl b n (rDeclareConsts b n o) (BodyOf o isRef "declare-consts") := by
  refine (ReadsWith.upd (fl := fl) (g := fun st => .ok (st.push.bind (nm "eo::self") b.self)) (f := fun _ => _) <|
    (reads_litKind (fl := fl) o).then (f := fun k => _) fun k =>
    (reads_type (fl := fl) b n o true |>.weaken fun _ _ => trivial).end (f := fun t => _) fun t => ReadsWith.upd' AtClose (fun st =>
      (st.decls.setLiteralTypeRule k t).bind fun d => ({ st with decls := d }).pop)).to' ?_ ?_
  · rintro ⟨k, ty⟩ ws st r _ h hm
    obtain ⟨w, w', rfl, h1, h2⟩ := both_iff.1 h
    refine ⟨_, .declareConsts k ty w w' h1 h2, ?_⟩
    simpa only [exec, Run.map_eq', Run.bind_bind', Run.ok_bind'] using hm
  · rintro c ws st r _ h hm
    generalize hn : "declare-consts" = y at h
    cases h with
    | declareConsts x ty w w' h1 h2 =>
      refine ⟨(x, ty), both_iff.2 ⟨w, w', rfl, h1, h2⟩, ?_⟩
      simpa only [exec, Run.map_eq', Run.bind_bind', Run.ok_bind'] using hm
    | _ => exact absurd hn (by decide)

theorem reads_declareSort : ReadsCmd fl b n rDeclareSort (BodyOf o isRef "declare-sort") := by
  refine ((reads_name (fl := fl) o).then (f := fun x => _) fun x => (reads_numeral (fl := fl) |>.weaken fun _ _ => trivial).end (f := fun k => _) fun k =>
    ReadsWith.upd' AtClose (fun st => let p := st.mkTypeConst x k; .ok (p.1.bind x p.2))).to' ?_ ?_
  · rintro ⟨x, k⟩ ws st r _ h hm
    obtain ⟨w, w', rfl, h1, h2⟩ := both_iff.1 h
    exact ⟨_, .declareSort x k w w' h1 h2, hm⟩
  · rintro c ws st r _ h hm
    generalize hn : "declare-sort" = y at h
    cases h with
    | declareSort x k w w' h1 h2 => exact ⟨(x, k), both_iff.2 ⟨w, w', rfl, h1, h2⟩, hm⟩
    | _ => exact absurd hn (by decide)

theorem reads_defineConst : ReadsCmd fl b n (rDefineConst b n o) (BodyOf o isRef "define-const") := by
  refine ((reads_name (fl := fl) o).then (f := fun x => _) fun x => (reads_type (fl := fl) b n o true).then (f := fun t => _) fun t =>
    (reads_expr (fl := fl) b n o |>.weaken fun _ _ => trivial).end (f := fun e => _) fun e => ReadsWith.upd' AtClose (fun st =>
      (st.typeCheckAs b n e t).map fun _ => st.bind x e)).to' ?_ ?_
  · rintro ⟨x, ty, as⟩ ws st r _ h hm
    obtain ⟨w, w', rfl, h1, h2⟩ := both_iff.1 h
    obtain ⟨w2, w3, rfl, h3, h4⟩ := both_iff.1 h2
    refine ⟨.defineConst x ty as, bodyOf (.defineConst x ty as w w2 w3 h1 h3 h4) (by simp), ?_⟩
    simpa only [exec, Run.map_eq', Run.bind_bind', Run.ok_bind'] using hm
  · rintro c ws st r _ h hm
    generalize hn : "define-const" = y at h
    cases h with
    | defineConst x ty as w w' w'' h1 h2 h3 =>
      refine ⟨(x, ty, as), both_iff.2 ⟨w, w' ++ w'', by simp, h1, both_iff.2 ⟨w', w'', rfl, h2, h3⟩⟩, ?_⟩
      simpa only [exec, Run.map_eq', Run.bind_bind', Run.ok_bind'] using hm
    | _ => exact absurd hn (by decide)

/-- the parameters of definitions, after `push` -/
def defineParams' (ps : List SParam) (st : State) : Run (State × List Term) :=
  (bindParams b n true ps st).bind fun p =>
  let vars := p.2.filter fun v => !v.2.implicit
  if vars.length < p.2.length then
    p.1.pop.map fun st => (st.push.bindAll (vars.map fun v => (v.2.name, v.1)), vars.map (·.1))
  else .ok (p.1, vars.map (·.1))

theorem reads_defineParams : ReadsWith fl Any (rDefineParams b n o) (ParamList (tokSem o) true) (defineParams' b n) := by
  refine ((reads_params (fl := fl) b n o true).end (g := fun ps _ st =>
    let vars := ps.filter fun v => !v.2.implicit
    if vars.length < ps.length then
      st.pop.map fun st => (st.push.bindAll (vars.map fun v => (v.2.name, v.1)), vars.map (·.1))
    else .ok (st, vars.map (·.1))) (f := fun ps => _) fun ps => ?_).to ?_ ?_
  · rotate_left
    simp only
    by_cases hc : (ps.filter fun v => !v.2.implicit).length < ps.length
    · simp only [if_pos hc]
      refine (ReadsWith.upd (fl := fl) (F := Any) (g := fun st => st.pop.map fun st => st.push.bindAll ((ps.filter fun v => !v.2.implicit).map fun v => (v.2.name, v.1)))
        (f := fun _ => _) (ReadsWith.pure' (fl := fl) Any ((ps.filter fun v => !v.2.implicit).map (·.1)))).to ?_ ?_ <;>
      · refine fun s ws _ h => ⟨s, h, fun st => ?_⟩
        simp only [Run.map_eq', Run.bind_bind', Run.ok_bind']
    · simp only [if_neg hc]
      exact ReadsWith.pure' (fl := fl) Any ((ps.filter fun v => !v.2.implicit).map (·.1))
  all_goals
    refine fun s ws _ h => ⟨s, h, fun st => ?_⟩
    simp only [defineParams', bindParams', filter_drop, Run.map_eq', Run.bind_bind', Run.ok_bind', List.length_map, List.map_map]
    rfl

theorem reads_define : ReadsCmd fl b n (rDefine b n o) (BodyOf o isRef "define") := by
  have h := ReadsWith.upd (fl := fl) (F := AtClose) (g := fun st => .ok st.push) (f := fun _ => _) <| (reads_name (fl := fl) o).then (f := fun x => _) fun x =>
    (reads_defineParams (fl := fl) b n o).then (f := fun vars => _) fun vars =>
    (reads_expr (fl := fl) b n o).then (f := fun e => _) fun e =>
    (reads_typeAttrs (fl := fl) b n o (if vars.isEmpty then e else .node LAMBDA [.node TUPLE vars, e])).end (f := fun _ => _) fun _ => ReadsWith.upd' AtClose (fun st =>
      st.pop.map fun st => st.bind x (if vars.isEmpty then e else .node LAMBDA [.node TUPLE vars, e]))
  have hdp : ∀ ps st, defineParams b n ps st = defineParams' b n ps st.push := fun _ _ => rfl
  refine ReadsWith.to' (p := rDefine b n o) h ?_ ?_
  · rintro ⟨x, ps, e, tys⟩ ws st r _ h hm
    obtain ⟨w, w', rfl, h1, h2⟩ := both_iff.1 h
    obtain ⟨w2, w3, rfl, h3, h4⟩ := both_iff.1 h2
    obtain ⟨w4, w5, rfl, h5, h6⟩ := both_iff.1 h4
    refine ⟨.define x ps e tys, bodyOf (.define x ps e tys w w2 w4 w5 h1 h3 h5 h6) (by simp), ?_⟩
    simpa only [exec, execDefine, hdp, ← mAll_checkTypeAttr, Run.map_eq', Run.bind_bind', Run.ok_bind'] using hm
  · rintro c ws st r _ h hm
    generalize hn : "define" = y at h
    cases h with
    | define x ps e tys w w' w'' w3 h1 h2 h3 h4 =>
      refine ⟨(x, ps, e, tys), both_iff.2 ⟨w, w' ++ (w'' ++ w3), by simp, h1, both_iff.2 ⟨w', _, rfl, h2, both_iff.2 ⟨w'', w3, rfl, h3, h4⟩⟩⟩, ?_⟩
      simpa only [exec, execDefine, hdp, ← mAll_checkTypeAttr, Run.map_eq', Run.bind_bind', Run.ok_bind'] using hm
    | _ => exact absurd hn (by decide)

theorem reads_defineFun : ReadsCmd fl b n (rDefineFun b n o) (BodyOf o isRef "define-fun") := by
  have h := ReadsWith.upd (fl := fl) (F := AtClose) (g := fun st => .ok st.push) (f := fun _ => _) <| (reads_name (fl := fl) o).then (f := fun x => _) fun x =>
    (reads_defineParams (fl := fl) b n o).then (f := fun vars => _) fun vars =>
    (reads_type (fl := fl) b n o true).then (f := fun ret => _) fun ret =>
    (reads_expr (fl := fl) b n o |>.weaken fun _ _ => trivial).end (f := fun e => _) fun e => ReadsWith.upd' AtClose (fun st =>
      (st.typeCheckAs b n e ret).bind fun _ =>
      (Run.orErr (st.scope.get (nm "="))).bind fun eq =>
      (defineFunRhs b n st vars e ret).bind fun r =>
      let c := st.mkSymbol CONST x r.2
      (c.1.build b n APPLY [eq, c.2, r.1]).bind fun a =>
      (c.1.addReferenceAssert b n a).bind fun st =>
      st.pop.map fun st => st.bind x c.2)
  have hdp : ∀ ps st, defineParams b n ps st = defineParams' b n ps st.push := fun _ _ => rfl
  refine ReadsWith.to' (p := rDefineFun b n o) h ?_ ?_
  · rintro ⟨x, ps, e, tys⟩ ws st r _ h hm
    obtain ⟨w, w', rfl, h1, h2⟩ := both_iff.1 h
    obtain ⟨w2, w3, rfl, h3, h4⟩ := both_iff.1 h2
    obtain ⟨w4, w5, rfl, h5, h6⟩ := both_iff.1 h4
    refine ⟨.defineFun x ps e tys, bodyOf (.defineFun x ps e tys w w2 w4 w5 h1 h3 h5 h6) (by simp), ?_⟩
    simpa only [exec, execDefineFun, hdp, Run.map_eq', Run.bind_bind', Run.ok_bind'] using hm
  · rintro c ws st r _ h hm
    generalize hn : "define-fun" = y at h
    cases h with
    | defineFun x ps e tys w w' w'' w3 h1 h2 h3 h4 =>
      refine ⟨(x, ps, e, tys), both_iff.2 ⟨w, w' ++ (w'' ++ w3), by simp, h1, both_iff.2 ⟨w', _, rfl, h2, both_iff.2 ⟨w'', w3, rfl, h3, h4⟩⟩⟩, ?_⟩
      simpa only [exec, execDefineFun, hdp, Run.map_eq', Run.bind_bind', Run.ok_bind'] using hm
    | _ => exact absurd hn (by decide)

theorem reads_defineSort : ReadsCmd fl b n (rDefineSort b n o) (BodyOf o isRef "define-sort") := by
  have h := (reads_name (fl := fl) o).then (F := AtClose) (f := fun x => _) fun x =>
    (reads_nameList (fl := fl) o).then (f := fun names => _) fun names =>
    ReadsWith.new (g := fun st => typeParams names (if names.isEmpty then st else st.push)) (f := fun ps => _) fun ps =>
    (reads_type (fl := fl) b n o true |>.weaken fun _ _ => trivial).end (f := fun t => _) fun t => ReadsWith.upd' AtClose (fun st =>
      if names.isEmpty then .ok (st.bind x t) else st.pop.map fun st => st.bind x (.node LAMBDA [.node TUPLE ps, t]))
  refine ReadsWith.to' (p := rDefineSort b n o) h ?_ ?_
  · rintro ⟨x, ty, as⟩ ws st r _ h hm
    obtain ⟨w, w', rfl, h1, h2⟩ := both_iff.1 h
    obtain ⟨w2, w3, rfl, h3, h4⟩ := both_iff.1 h2
    refine ⟨.defineSort x ty as, bodyOf (.defineSort x ty as w w2 w3 h1 h3 h4) (by simp), ?_⟩
    simpa only [exec, execDefineSort, Run.map_eq', Run.bind_bind', Run.ok_bind'] using hm
  · rintro c ws st r _ h hm
    generalize hn : "define-sort" = y at h
    cases h with
    | defineSort x ty as w w' w'' h1 h2 h3 =>
      refine ⟨(x, ty, as), both_iff.2 ⟨w, w' ++ w'', by simp, h1, both_iff.2 ⟨w', w'', rfl, h2, h3⟩⟩, ?_⟩
      simpa only [exec, execDefineSort, Run.map_eq', Run.bind_bind', Run.ok_bind'] using hm
    | _ => exact absurd hn (by decide)

/-! ### Keywords -/

/-- a decision by a keyword -/
theorem ReadsWith.keyword {F : List Tk → Prop} {x : String} {y : Name} (hx : bytes x = 58 :: y) {p : Rd α} {g : Name → Rd α} {W : σ → List Tk → Prop}
    {W' : τ → List Tk → Prop} {m m'} (h1 : ReadsWith fl F p W m) (h2 : ReadsWith fl F (rKeyword >>= g) W' m')
    (hne : ∀ s ws, W' s ws → ws ≠ []) :
    ReadsWith fl F (rKeyword >>= fun k => if k = y then p else g k) (Either (fun s ws => ∃ w, ws = key x :: w ∧ W s w) fun s ws => W' s ws ∧ ∀ w, ws ≠ key x :: w)
      (Sum.elim m m') := by
  have hk : ∀ {toks rest st st' k}, GoodToks fl toks → (rKeyword toks st = .ok (rest, st', k) ↔ toks = (.KEYWORD, 58 :: k) :: rest ∧ st' = st) := by
    intro toks rest st st' k hg
    rw [(reads_keyword (fl := fl)).iff hg trivial]
    constructor
    · rintro ⟨_, ws, rfl, rfl, h⟩
      cases h
      exact ⟨rfl, rfl⟩
    · rintro ⟨rfl, rfl⟩
      exact ⟨k, _, rfl, rfl, rfl⟩
  have hkey : key x = (.KEYWORD, 58 :: y) := by rw [key, hx]
  have hgen : ∀ {q : Name → Rd α} {toks st r}, GoodToks fl toks → ((rKeyword >>= q) toks st = .ok r ↔ ∃ k t, toks = (.KEYWORD, 58 :: k) :: t ∧ q k t st = .ok r) := by
    intro q toks st r hg
    simp only [Rd.bind_def, Run.bind_ok]
    constructor
    · rintro ⟨⟨t, s1, k⟩, hp, hq⟩
      obtain ⟨rfl, rfl⟩ := (hk hg).1 hp
      exact ⟨k, t, rfl, hq⟩
    · rintro ⟨k, t, rfl, hq⟩
      exact ⟨(t, st, k), (hk hg).2 ⟨rfl, rfl⟩, hq⟩
  refine ⟨?_, fun {toks st rest st' a} hg hr => ?_⟩
  · intro toks st rest st' a h
    have h' := h
    simp only [Rd.bind_def, Run.bind_ok] at h
    obtain ⟨⟨t, s1, k⟩, hp, hq⟩ := h
    by_cases hy : k = y
    · simp only [if_pos hy] at hq
      obtain ⟨v, rfl⟩ := (reads_keyword (fl := fl)).shrinks _ _ _ _ _ hp
      obtain ⟨v', rfl⟩ := h1.shrinks _ _ _ _ _ hq
      exact ⟨v ++ v', by simp⟩
    · simp only [if_neg hy] at hq
      refine h2.shrinks toks st rest st' a ?_
      simp only [Rd.bind_def, Run.bind_ok]
      exact ⟨_, hp, hq⟩
  · rw [hgen hg]
    constructor
    · rintro ⟨k, t, rfl, h⟩
      by_cases hy : k = y
      · subst hy
        simp only [if_true] at h
        obtain ⟨s, w, rfl, hw, hm⟩ := (h1.iff hg.tail hr).1 h
        exact ⟨.inl s, key x :: w, by rw [hkey]; rfl, ⟨w, rfl, hw⟩, hm⟩
      · simp only [if_neg hy] at h
        obtain ⟨s, ws, he, hw, hm⟩ := (h2.iff hg hr).1 ((hgen hg).2 ⟨k, t, rfl, h⟩)
        refine ⟨.inr s, ws, he, ⟨hw, ?_⟩, hm⟩
        rintro w rfl
        rw [hkey] at he
        simp only [List.cons_append, List.cons.injEq, Prod.mk.injEq, true_and] at he
        exact hy he.1
    · rintro ⟨s | s, ws, rfl, hw, hm⟩
      · obtain ⟨w, rfl, hw⟩ := hw
        refine ⟨y, w ++ rest, by rw [hkey]; rfl, ?_⟩
        simp only [if_true]
        exact (h1.iff hg.tail hr).2 ⟨s, w, rfl, hw, hm⟩
      · obtain ⟨k, t, he, h⟩ := (hgen hg).1 ((h2.iff hg hr).2 ⟨s, ws, rfl, hw.1, hm⟩)
        refine ⟨k, t, he, ?_⟩
        rw [if_neg]
        · exact h
        · rintro rfl
          match ws, hne s ws hw.1, he, hw with
          | tk :: ws, _, he, hw =>
            simp only [List.cons_append, List.cons.injEq] at he
            exact hw.2 ws (by rw [he.1, hkey])

/-- a part that may be missing -/
theorem ReadsWith.section {F : List Tk → Prop} {x : String} {y : Name} (hx : bytes x = 58 :: y) {p : Rd α} {a : α} {q : α → Name → Rd β}
    {W : σ → List Tk → Prop} {dflt : σ} {W' : τ → List Tk → Prop} {m} {m' : α → τ → State → Run (State × β)} (h1 : ReadsWith fl Any p W m)
    (h2 : ∀ a, ReadsWith fl F (rKeyword >>= q a) W' (m' a)) (hd : ∀ st, m dflt st = .ok (st, a)) (hne : ∀ s ws, W' s ws → ws ≠ [] ∧ ∀ w, ws ≠ key x :: w) :
    ReadsWith fl F (rKeyword >>= fun k => rSection y p a k >>= fun r => q r.1 r.2) (Both (Section x W dflt) W')
      fun s st => (m s.1 st).bind fun u => m' u.2 s.2 u.1 := by
  have he : (fun k => rSection y p a k >>= fun r => q r.1 r.2) = fun k => if k = y then (p >>= fun a => rKeyword >>= q a) else q a k := by
    funext k
    unfold rSection
    split <;> simp only [Rd.bind_bind', Rd.pure_bind']
  rw [he]
  refine (ReadsWith.keyword hx (h1.then h2) (h2 a) fun s ws h => (hne s ws h).1).to' ?_ ?_
  · rintro (⟨s, t⟩ | t) ws st r _ h hm
    · obtain ⟨w, rfl, h⟩ := h
      obtain ⟨w, w', rfl, h3, h4⟩ := both_iff.1 h
      exact ⟨(s, t), both_iff.2 ⟨key x :: w, w', rfl, .present s w h3, h4⟩, hm⟩
    · refine ⟨(dflt, t), both_iff.2 ⟨[], ws, rfl, .absent, h.1⟩, ?_⟩
      simp only [hd, Run.ok_bind']
      exact hm
  · rintro ⟨s, t⟩ ws st r _ h hm
    obtain ⟨w, w', rfl, h3, h4⟩ := both_iff.1 h
    cases h3 with
    | absent =>
      simp only [hd, Run.ok_bind'] at hm
      exact ⟨.inr t, ⟨h4, (hne t w' h4).2⟩, hm⟩
    | present s w h3 => exact ⟨.inl (s, t), ⟨w ++ w', rfl, both_iff.2 ⟨w, w', rfl, h3, h4⟩⟩, hm⟩

/-- the premises of a rule -/
theorem reads_rulePremises {F : List Tk → Prop} {q : List Term × Option Term → Name → Rd β} {W' : τ → List Tk → Prop} {m' : List Term × Option Term → τ → State → Run (State × β)}
    (h2 : ∀ a, ReadsWith fl F (rKeyword >>= q a) W' (m' a))
    (hne : ∀ s ws, W' s ws → ws ≠ [] ∧ ∀ w, ws ≠ key ":premises" :: w ∧ ws ≠ key ":premise-list" :: w) :
    ReadsWith fl F (rKeyword >>= fun k => rRulePremises b n o k >>= fun r => q r.1 r.2) (Both (RulePremises (tokSem o)) W')
      fun s st => (parsePremises b n s.1 st).bind fun u => m' u.2 s.2 u.1 := by
  have he : (fun k => rRulePremises b n o k >>= fun r => q r.1 r.2) = fun k => if k = bytes "premises" then
      ((rExprList b n o >>= fun es => pure (es, none)) >>= fun a => rKeyword >>= q a) else if k = bytes "premise-list" then
      ((rExpr b n o >>= fun p => rExpr b n o >>= fun c => pure ([p], some c)) >>= fun a => rKeyword >>= q a) else q ([], none) k := by
    funext k
    unfold rRulePremises rSection
    by_cases h1 : k = bytes "premises"
    · simp only [if_pos h1, Rd.bind_bind', Rd.pure_bind']
    · simp only [if_neg h1]
      split <;> simp only [Rd.bind_bind', Rd.pure_bind']
  rw [he]
  have hl := (reads_expr (fl := fl) b n o).then (F := Any) (f := fun p => _) fun p => (reads_expr (fl := fl) b n o).end (f := fun c => pure ([p], some c)) fun c =>
    ReadsWith.pure' (fl := fl) Any ([p], some c)
  have hp := (reads_exprList (fl := fl) b n o).end (f := fun es => pure (es, (none : Option Term))) fun es => ReadsWith.pure' (fl := fl) Any (es, (none : Option Term))
  have h3 := ReadsWith.keyword (x := ":premise-list") (y := bytes "premise-list") rfl (hl.then h2) (h2 ([], none)) fun s ws h => (hne s ws h).1
  refine (ReadsWith.keyword (x := ":premises") (y := bytes "premises") rfl (hp.then h2) h3 ?_).to' ?_ ?_
  · rintro (⟨⟨p, c⟩, t⟩ | t) ws h
    · obtain ⟨w, rfl, _⟩ := h; simp
    · exact (hne t ws h.1).1
  · rintro (⟨es, t⟩ | ⟨⟨p, c⟩, t⟩ | t) ws st r _ h hm
    · obtain ⟨w, rfl, h⟩ := h
      obtain ⟨w, w', rfl, h3, h4⟩ := both_iff.1 h
      refine ⟨(.each es, t), both_iff.2 ⟨key ":premises" :: w, w', rfl, .each es w h3, h4⟩, ?_⟩
      simpa only [parsePremises, Run.map_eq', Run.bind_bind', Run.ok_bind', Sum.elim_inl, Sum.elim_inr] using hm
    · obtain ⟨⟨w, rfl, h⟩, -⟩ := h
      obtain ⟨w, w', rfl, h3, h4⟩ := both_iff.1 h
      obtain ⟨w2, w3, rfl, h5, h6⟩ := both_iff.1 h3
      refine ⟨(.plist p c, t), both_iff.2 ⟨key ":premise-list" :: w2 ++ w3, w', by simp, .plist p c w2 w3 h5 h6, h4⟩, ?_⟩
      simpa only [parsePremises, Run.map_eq', Run.bind_bind', Run.ok_bind', Sum.elim_inl, Sum.elim_inr] using hm
    · refine ⟨(.each [], t), both_iff.2 ⟨[], ws, rfl, .absent, h.1.1⟩, ?_⟩
      simpa only [parsePremises, parseList, Run.map_eq', Run.bind_bind', Run.ok_bind', Sum.elim_inl, Sum.elim_inr] using hm
  · rintro ⟨s, t⟩ ws st r _ h hm
    obtain ⟨w, w', rfl, h3, h4⟩ := both_iff.1 h
    cases h3 with
    | absent =>
      refine ⟨.inr (.inr t), ⟨⟨h4, fun w => ((hne t w' h4).2 w).2⟩, fun w => ((hne t w' h4).2 w).1⟩, ?_⟩
      simpa only [parsePremises, parseList, Run.map_eq', Run.bind_bind', Run.ok_bind', Sum.elim_inl, Sum.elim_inr] using hm
    | each es w h3 =>
      refine ⟨.inl (es, t), ⟨w ++ w', rfl, both_iff.2 ⟨w, w', rfl, h3, h4⟩⟩, ?_⟩
      simpa only [parsePremises, Run.map_eq', Run.bind_bind', Run.ok_bind', Sum.elim_inl, Sum.elim_inr] using hm
    | plist p c w2 w3 h5 h6 =>
      refine ⟨.inr (.inl ((p, c), t)), ⟨⟨(w2 ++ w3) ++ w', by simp, both_iff.2 ⟨_, w', rfl, both_iff.2 ⟨w2, w3, rfl, h5, h6⟩, h4⟩⟩, ?_⟩, ?_⟩
      · intro w h
        simp only [List.cons_append, List.cons.injEq] at h
        exact absurd h.1 (by decide)
      · simpa only [parsePremises, Run.map_eq', Run.bind_bind', Run.ok_bind', Sum.elim_inl, Sum.elim_inr] using hm

/-! ### Rules -/

/-- the tokens begin with one of the keywords -/
def Starts (ks : List String) (ws : List Tk) : Prop := ∃ k ∈ ks, ∃ w, ws = key k :: w

theorem Starts.ne {ks : List String} {ws : List Tk} (h : Starts ks ws) : ws ≠ [] := by
  obtain ⟨k, _, w, rfl⟩ := h
  simp

theorem Starts.other {ks : List String} {ws : List Tk} (h : Starts ks ws) {x : String} (hx : ∀ k ∈ ks, bytes k ≠ bytes x) (w : List Tk) : ws ≠ key x :: w := by
  obtain ⟨k, hk, w', rfl⟩ := h
  intro he
  simp only [List.cons.injEq, key, Prod.mk.injEq, true_and] at he
  exact hx k hk he.1

theorem Starts.conclusion {G : TokSem} {s : Bool × SExp} {w w' : List Tk} (h : RuleConclusion G s w) : Starts [":conclusion", ":conclusion-explicit"] (w ++ w') := by
  cases h with
  | plain e w h => exact ⟨_, by simp, _, rfl⟩
  | explicit e w h => exact ⟨_, by simp, _, rfl⟩

theorem Starts.section {k : String} {W : σ → List Tk → Prop} {d s : σ} {w w' : List Tk} {ks : List String} (h : Section k W d s w) (h' : Starts ks w') :
    Starts (k :: ks) (w ++ w') := by
  cases h with
  | absent => obtain ⟨k, hk, w, rfl⟩ := h'; exact ⟨k, by simp [hk], w, rfl⟩
  | present s w h => exact ⟨k, by simp, _, rfl⟩

theorem Starts.premises {G : TokSem} {s : SPremises} {w w' : List Tk} {ks : List String} (h : RulePremises G s w) (h' : Starts ks w') :
    Starts (":premises" :: ":premise-list" :: ks) (w ++ w') := by
  cases h with
  | absent => obtain ⟨k, hk, w, rfl⟩ := h'; exact ⟨k, by simp [hk], w, rfl⟩
  | each => exact ⟨":premises", by simp, _, rfl⟩
  | plist => exact ⟨":premise-list", by simp, _, rfl⟩

/-- a rule from its conclusion on -/
def ruleEnd (x : Name) (asm : Option Term) (prems : List Term × Option Term) (args : List Term) (reqs : List (Term × Term)) (s : (Bool × SExp) × List Unit)
    (st : State) : Run (State × Unit) :=
  (parseExpr b n s.1.2 st).bind fun conc =>
  let progArgs := args ++ (if s.1.1 then [conc.2] else []) ++ asm.toList ++ prems.1.map mkProof
  (Run.lift (mkRequires (mkExpr (conc.1.env b) (ops (conc.1.env b) n) n) reqs conc.2)).bind fun ret =>
  conc.1.pop.bind fun st =>
  let rule := st.mkSymbol PROOF_RULE x tBool
  (ruleProg b n rule.1 x progArgs ret).bind fun p =>
  (p.1.decls.bindRule x rule.2).bind fun decls =>
  let tuple : Term := .node TUPLE [prems.2.getD tAny, mkBool asm.isSome, mkBool s.1.1, p.2]
  .ok ({ p.1 with
    decls := (decls.markConstructorKind rule.2 .PROOF_RULE (some tuple)).1
    pfrSorry := if s.2.isEmpty then p.1.pfrSorry else rule.2 :: p.1.pfrSorry }, ())

/-- the reader of that part -/
def rRuleEnd (x : Name) (asm : Option Term) (prems : List Term × Option Term) (args : List Term) (reqs : List (Term × Term)) (k : Name) : Rd Unit := do
  let explicit ← .get fun _ => if k = bytes "conclusion" then .ok false else if k = bytes "conclusion-explicit" then .ok true else .err
  let conc ← rExpr b n o
  let ret ← .get fun st => Run.lift (mkRequires (mkExpr (st.env b) (ops (st.env b) n) n) reqs conc)
  .upd State.pop
  let rule ← .new fun st => st.mkSymbol PROOF_RULE x tBool
  let prog ← .act fun st => ruleProg b n st x (args ++ (if explicit then [conc] else []) ++ asm.toList ++ prems.1.map mkProof) ret
  .upd fun st =>
    (st.decls.bindRule x rule).map fun decls =>
    { st with decls := (decls.markConstructorKind rule .PROOF_RULE (some (.node TUPLE [prems.2.getD tAny, mkBool asm.isSome, mkBool explicit, prog]))).1 }
  let as ← rAttrs rRuleAttr
  .upd fun st => .ok { st with pfrSorry := if as.isEmpty then st.pfrSorry else rule :: st.pfrSorry }

theorem reads_ruleEnd (x : Name) (asm : Option Term) (prems : List Term × Option Term) (args : List Term) (reqs : List (Term × Term)) :
    ReadsWith fl AtClose (rKeyword >>= rRuleEnd b n o x asm prems args reqs) (Both (RuleConclusion (tokSem o)) (Attrs (tokSem o) SorryAttr)) (ruleEnd b n x asm prems args reqs) := by
  have h := (reads_keyword (fl := fl)).then (F := AtClose) (f := fun k => _) fun k =>
    ReadsWith.get (g := fun _ => if k = bytes "conclusion" then .ok false else if k = bytes "conclusion-explicit" then .ok true else .err) (f := fun explicit => _) fun explicit =>
    (reads_expr (fl := fl) b n o).then (f := fun conc => _) fun conc =>
    ReadsWith.get (g := fun st => Run.lift (mkRequires (mkExpr (st.env b) (ops (st.env b) n) n) reqs conc)) (f := fun ret => _) fun ret =>
    ReadsWith.upd (g := State.pop) (f := fun _ => _) <| ReadsWith.new (g := fun st => st.mkSymbol PROOF_RULE x tBool) (f := fun rule => _) fun rule =>
    ReadsWith.act (g := fun st => ruleProg b n st x (args ++ (if explicit then [conc] else []) ++ asm.toList ++ prems.1.map mkProof) ret) (f := fun prog => _) fun prog =>
    ReadsWith.upd (g := fun st => (st.decls.bindRule x rule).map fun decls =>
      { st with decls := (decls.markConstructorKind rule .PROOF_RULE (some (.node TUPLE [prems.2.getD tAny, mkBool asm.isSome, mkBool explicit, prog]))).1 }) (f := fun _ => _) <|
    (reads_ruleAttrs (fl := fl) o).end (f := fun as => _) fun as =>
    ReadsWith.upd' AtClose (fun st => .ok { st with pfrSorry := if as.isEmpty then st.pfrSorry else rule :: st.pfrSorry })
  refine ReadsWith.to' (p := rKeyword >>= rRuleEnd b n o x asm prems args reqs) h ?_ ?_
  · rintro ⟨k, e, as⟩ ws st r _ h hm
    obtain ⟨w, w', rfl, rfl, h2⟩ := both_iff.1 h
    obtain ⟨w2, w3, rfl, h3, h4⟩ := both_iff.1 h2
    simp only [Run.ok_bind', Run.map_eq', Run.bind_bind', Run.ite_bind', Run.err_bind'] at hm
    split at hm
    · rename_i hk
      refine ⟨((false, e), as), both_iff.2 ⟨key ":conclusion" :: w2, w3, by rw [show k = _ from hk]; rfl, .plain e w2 h3, h4⟩, ?_⟩
      simpa only [ruleEnd, Bool.false_eq_true, if_false] using hm
    · split at hm
      · rename_i hk
        refine ⟨((true, e), as), both_iff.2 ⟨key ":conclusion-explicit" :: w2, w3, by rw [show k = _ from hk]; rfl, .explicit e w2 h3, h4⟩, ?_⟩
        simpa only [ruleEnd, if_true] using hm
      · cases hm
  · rintro ⟨⟨ex, e⟩, as⟩ ws st r _ h hm
    obtain ⟨w, w', rfl, h1, h2⟩ := both_iff.1 h
    have hne : bytes "conclusion-explicit" ≠ bytes "conclusion" := by decide
    cases h1 with
    | plain _ w2 h3 =>
      refine ⟨(bytes "conclusion", e, as), both_iff.2 ⟨[key ":conclusion"], w2 ++ w', rfl, rfl, both_iff.2 ⟨w2, w', rfl, h3, h2⟩⟩, ?_⟩
      simpa only [Run.ok_bind', Run.map_eq', Run.bind_bind', Run.ite_bind', Run.err_bind', if_true, ruleEnd, Bool.false_eq_true, if_false] using hm
    | explicit _ w2 h3 =>
      refine ⟨(bytes "conclusion-explicit", e, as), both_iff.2 ⟨[key ":conclusion-explicit"], w2 ++ w', rfl, rfl, both_iff.2 ⟨w2, w', rfl, h3, h2⟩⟩, ?_⟩
      simpa only [Run.ok_bind', Run.map_eq', Run.bind_bind', Run.ite_bind', Run.err_bind', if_true, ruleEnd, if_neg hne] using hm

/-- the assumption of a rule -/
theorem reads_assumption : ReadsWith fl Any (rExpr b n o >>= fun t => pure (some t)) (fun a w => ∃ e, a = some e ∧ Written (tokSem o) e w) (parseOpt b n) := by
  refine ((reads_expr (fl := fl) b n o).end (f := fun t => pure (some t)) fun t => ReadsWith.pure' (fl := fl) Any (some t)).to ?_ ?_
  · rintro e ws _ h
    exact ⟨some e, ⟨e, rfl, h⟩, fun st => by simp only [parseOpt, Run.map_eq']⟩
  · rintro _ ws _ ⟨e, rfl, h⟩
    exact ⟨e, h, fun st => by simp only [parseOpt, Run.map_eq']⟩

theorem reads_declareRule : ReadsCmd fl b n (rDeclareRule b n o) (BodyOf o isRef "declare-rule") := by
  have h := ReadsWith.get (fl := fl) (F := AtClose) (g := fun st => if st.asmCtx ≠ [] then .err else .ok ()) (f := fun _ => _) fun _ =>
    ReadsWith.upd (g := fun st => .ok st.push) (f := fun _ => _) <|
    (reads_name (fl := fl) o).then (f := fun x => _) fun x =>
    (reads_params (fl := fl) b n o false).then (f := fun _ => _) fun _ =>
    ReadsWith.section (x := ":assumption") (y := bytes "assumption") rfl (reads_assumption (fl := fl) b n o) (a := none) (dflt := none) (fun asm =>
      reads_rulePremises (fl := fl) b n o (fun prems =>
        ReadsWith.section (x := ":args") (y := bytes "args") rfl (reads_exprList (fl := fl) b n o) (a := []) (dflt := []) (fun args =>
          ReadsWith.section (x := ":requires") (y := bytes "requires") rfl (reads_pairs (fl := fl) b n o) (a := []) (dflt := [])
            (fun reqs => reads_ruleEnd (fl := fl) b n o x asm prems args reqs) (fun _ => rfl)
            (fun s ws h => by
              obtain ⟨w, w', rfl, h1, _⟩ := both_iff.1 h
              exact ⟨(Starts.conclusion h1).ne, (Starts.conclusion h1).other (by decide)⟩))
          (fun _ => rfl)
          (fun s ws h => by
            obtain ⟨w, w', rfl, h1, h2⟩ := both_iff.1 h
            obtain ⟨w2, w3, rfl, h3, _⟩ := both_iff.1 h2
            exact ⟨(Starts.section h1 (Starts.conclusion h3)).ne, (Starts.section h1 (Starts.conclusion h3)).other (by decide)⟩))
        (fun s ws h => by
          obtain ⟨w, w', rfl, h1, h2⟩ := both_iff.1 h
          obtain ⟨w2, w3, rfl, h3, h4⟩ := both_iff.1 h2
          obtain ⟨w4, w5, rfl, h5, _⟩ := both_iff.1 h4
          have hs := Starts.section h1 (Starts.section h3 (Starts.conclusion h5 (w' := w5)))
          exact ⟨hs.ne, fun w => ⟨hs.other (by decide) w, hs.other (by decide) w⟩⟩))
      (fun _ => rfl)
      (fun s ws h => by
        obtain ⟨w, w', rfl, h1, h2⟩ := both_iff.1 h
        obtain ⟨w2, w3, rfl, h3, h4⟩ := both_iff.1 h2
        obtain ⟨w4, w5, rfl, h5, h6⟩ := both_iff.1 h4
        obtain ⟨w6, w7, rfl, h7, _⟩ := both_iff.1 h6
        have hs := Starts.premises h1 (Starts.section h3 (Starts.section h5 (Starts.conclusion h7 (w' := w7))))
        exact ⟨hs.ne, hs.other (by decide)⟩)
  refine ReadsWith.to' (p := rDeclareRule b n o) h ?_ ?_
  · rintro ⟨x, ps, asm, prems, args, reqs, ⟨ex, conc⟩, sry⟩ ws st r _ h hm
    obtain ⟨w1, _, rfl, h1, h⟩ := both_iff.1 h
    obtain ⟨w2, _, rfl, h2, h⟩ := both_iff.1 h
    obtain ⟨w3, _, rfl, h3, h⟩ := both_iff.1 h
    obtain ⟨w4, _, rfl, h4, h⟩ := both_iff.1 h
    obtain ⟨w5, _, rfl, h5, h⟩ := both_iff.1 h
    obtain ⟨w6, _, rfl, h6, h⟩ := both_iff.1 h
    obtain ⟨w7, w8, rfl, h7, h8⟩ := both_iff.1 h
    refine ⟨.declareRule ⟨x, ps, asm, prems, args, reqs, conc, ex, !sry.isEmpty⟩, bodyOf (.declareRule x ps asm prems args reqs conc ex sry w1 w2 w3 w4 w5 w6 w7 w8 h1 h2 h3 h4 h5 h6 h7 h8) (by simp), ?_⟩
    cases hs : sry.isEmpty <;>
    simpa only [exec, execDeclareRule, bindRuleParams, bindParams', ruleEnd, Run.ok_bind', Run.map_eq', Run.bind_bind', Run.ite_bind', Run.err_bind', hs,
      Bool.not_true, Bool.not_false, Bool.false_eq_true, if_false, if_true] using hm
  · rintro c ws st r _ h hm
    generalize hn : "declare-rule" = y at h
    cases h with
    | declareRule x ps asm prems args reqs conc ex sry w1 w2 w3 w4 w5 w6 w7 w8 h1 h2 h3 h4 h5 h6 h7 h8 =>
      refine ⟨(x, ps, asm, prems, args, reqs, (ex, conc), sry), both_iff.2 ⟨w1, w2 ++ (w3 ++ (w4 ++ (w5 ++ (w6 ++ (w7 ++ w8))))), by simp, h1, both_iff.2 ⟨w2, _, rfl, h2, both_iff.2 ⟨w3, _, rfl, h3,
        both_iff.2 ⟨w4, _, rfl, h4, both_iff.2 ⟨w5, _, rfl, h5, both_iff.2 ⟨w6, _, rfl, h6, both_iff.2 ⟨w7, w8, rfl, h7, h8⟩⟩⟩⟩⟩⟩⟩, ?_⟩
      cases hs : sry.isEmpty <;>
      simpa only [exec, execDeclareRule, bindRuleParams, bindParams', ruleEnd, Run.ok_bind', Run.map_eq', Run.bind_bind', Run.ite_bind', Run.err_bind', hs,
        Bool.not_true, Bool.not_false, Bool.false_eq_true, if_false, if_true] using hm
    | _ => exact absurd hn (by decide)

/-! ### Programs -/

theorem reads_cases (pvar : Term) (arity : Nat) : ReadsWith fl AtClose (rCases b n o pvar arity) (Maybe (PairList (tokSem o))) (progBody b n pvar arity) := by
  refine (ReadsWith.peek' (c := fun tk => tk = .RPAREN) (ReadsWith.pure' (fl := fl) AtClose (none : Option Term))
    ((reads_pairs (fl := fl) b n o |>.weaken fun _ _ => trivial).end (f := fun cs => _) fun cs => ReadsWith.get' AtClose (fun st =>
      if cs.isEmpty then .err
      else if checkCases b.self pvar arity cs then (st.build b n PROGRAM (cs.map fun c => .node TUPLE [c.1, c.2])).map some
      else .err)) ?_ ?_).to ?_ ?_
  · rintro s ws rest _ h ⟨u, r, rfl⟩
    cases h
    exact ⟨_, _, rfl, rfl⟩
  · rintro s ws rest _ ⟨u, u', w, _⟩ _
    exact ⟨_, _, rfl, by simp⟩
  · rintro (s | cs) ws _ h
    · cases h
      exact ⟨none, .absent, fun st => rfl⟩
    · refine ⟨some cs, .present cs ws h, fun st => ?_⟩
      simp only [progBody, Sum.elim_inr, Run.map_eq', Run.bind_bind', Run.ite_bind', Run.ok_bind', Run.err_bind']
  · rintro cs ws _ h
    cases h with
    | absent => exact ⟨.inl (), rfl, fun st => rfl⟩
    | present cs _ h =>
      refine ⟨.inr cs, h, fun st => ?_⟩
      simp only [progBody, Sum.elim_inr, Run.map_eq', Run.bind_bind', Run.ite_bind', Run.ok_bind', Run.err_bind']

theorem reads_program : ReadsCmd fl b n (rProgram b n o) (BodyOf o isRef "program") := by
  have h := (reads_name (fl := fl) o).then (F := AtClose) (f := fun x => _) fun x => ReadsWith.upd (g := fun st => .ok st.push) (f := fun _ => _) <|
    (reads_params (fl := fl) b n o false).then (f := fun _ => _) fun _ =>
    (reads_keyword (fl := fl)).then (f := fun k => _) fun k =>
    ReadsWith.get (g := fun _ => if k = bytes "signature" then .ok () else .err) (f := fun _ => _) fun _ =>
    (reads_argTypes (fl := fl) b n o).then (f := fun ats => _) fun ats =>
    (reads_type (fl := fl) b n o true).then (f := fun rt => _) fun rt =>
    ReadsWith.get (g := fun _ => if ats.isEmpty then .err else .ok ()) (f := fun _ => _) fun _ =>
    ReadsWith.act (g := fun st => (progVar b n st x (.node PROGRAM_TYPE (ats ++ [rt])))) (f := fun pv => _) fun pv =>
    (reads_cases (fl := fl) b n o pv.1 ats.length).end (f := fun prog => _) fun prog => ReadsWith.upd' AtClose (fun st => st.pop.map fun st =>
      let st := { st with decls := st.decls.defineProgram pv.1 prog }
      if pv.2 then st.bind x pv.1 else st)
  refine ReadsWith.to' (p := rProgram b n o) h ?_ ?_
  · rintro ⟨x, ps, k, ats, rt, cs⟩ ws st r _ h hm
    obtain ⟨w1, _, rfl, h1, ha⟩ := both_iff.1 h
    obtain ⟨w2, _, rfl, h2, hb⟩ := both_iff.1 ha
    obtain ⟨_, _, rfl, rfl, hc⟩ := both_iff.1 hb
    obtain ⟨w3, _, rfl, h3, hd⟩ := both_iff.1 hc
    obtain ⟨w4, w5, rfl, h4, h5⟩ := both_iff.1 hd
    by_cases hk : k = bytes "signature"
    · subst hk
      refine ⟨.program x ps ats rt cs, bodyOf (.program x ps ats rt cs w1 w2 w3 w4 w5 h1 h2 h3 h4 h5) (by simp; rfl), ?_⟩
      simpa only [exec, execProgram, bindRuleParams, bindParams', Run.ok_bind', Run.map_eq', Run.bind_bind', Run.ite_bind', Run.err_bind', if_true] using hm
    · exfalso
      simp only [Run.ok_bind', Run.bind_ok, if_neg hk] at hm
      obtain ⟨_, _, _, h, _⟩ := hm
      cases h
  · rintro c ws st r _ h hm
    generalize hn : "program" = y at h
    cases h with
    | program x ps ats rt cs w1 w2 w3 w4 w5 h1 h2 h3 h4 h5 =>
      refine ⟨(x, ps, bytes "signature", ats, rt, cs), both_iff.2 ⟨w1, w2 ++ ([key ":signature"] ++ (w3 ++ (w4 ++ w5))), by simp, h1, both_iff.2 ⟨w2, _, rfl, h2,
        both_iff.2 ⟨[key ":signature"], _, rfl, rfl, both_iff.2 ⟨w3, _, rfl, h3, both_iff.2 ⟨w4, w5, rfl, h4, h5⟩⟩⟩⟩⟩, ?_⟩
      simpa only [exec, execProgram, bindRuleParams, bindParams', Run.ok_bind', Run.map_eq', Run.bind_bind', Run.ite_bind', Run.err_bind', if_true] using hm
    | _ => exact absurd hn (by decide)

/-! ### Steps -/

theorem reads_optConc {F : List Tk → Prop} {q : Option Term → Rd β} {W' : τ → List Tk → Prop} {m' : Option Term → τ → State → Run (State × β)}
    (h2 : ∀ a, ReadsWith fl F (q a) W' (m' a)) (hne : ∀ s ws, W' s ws → ∃ k w, ws = (.KEYWORD, k) :: w) :
    ReadsWith fl F (rOptConc b n o >>= q) (Both (Maybe (Written (tokSem o))) W') fun s st => (parseConc b n s.1 st).bind fun u => m' u.2 s.2 u.1 := by
  have h : ReadsWith fl (fun rest => ∃ k w, rest = (.KEYWORD, k) :: w) (rOptConc b n o) (Maybe (Written (tokSem o))) (parseConc b n) := by
    refine (ReadsWith.peek' (c := fun tk => tk ≠ .KEYWORD) ((reads_formula (fl := fl) b n o |>.weaken fun _ _ => trivial).end (f := fun t => pure (some t)) fun t =>
      ReadsWith.pure' (fl := fl) _ (some t)) (ReadsWith.pure' (fl := fl) _ none) ?_ ?_).to ?_ ?_
    · rintro e ws rest _ h _
      obtain ⟨tk, r, rfl, _, hk, _⟩ := written_head o h
      exact ⟨_, _, rfl, hk⟩
    · rintro s ws rest _ h ⟨k, w, rfl⟩
      cases h
      exact ⟨_, _, rfl, by simp⟩
    · rintro (e | s) ws _ h
      · exact ⟨some e, .present e ws h, fun st => by simp only [parseConc, Sum.elim_inl, Run.map_eq']⟩
      · cases h
        exact ⟨none, .absent, fun st => rfl⟩
    · rintro e ws _ h
      cases h with
      | absent => exact ⟨.inr (), rfl, fun st => rfl⟩
      | present e _ h => exact ⟨.inl e, h, fun st => by simp only [parseConc, Sum.elim_inl, Run.map_eq']⟩
  exact h.bind h2 fun s' w' rest _ hw _ => by obtain ⟨k, w, rfl⟩ := hne s' w' hw; exact ⟨k, _, rfl⟩

/-- a keyword that may be missing -/
theorem ReadsWith.nextKeyword {k : Name} {g : Name → Rd β} {W : σ → List Tk → Prop} {m m'} (h1 : ReadsWith fl AtClose (rKeyword >>= g) W m)
    (hW : ∀ s ws, W s ws → ∃ k w, ws = (.KEYWORD, k) :: w) (h2 : ReadsWith fl AtClose (g k) NoTok m') :
    ReadsWith fl AtClose (rNextKeyword k >>= g) (Either W NoTok) (Sum.elim m m') := by
  have he : rNextKeyword k >>= g = rPeek >>= fun tk => if tk = .KEYWORD then rKeyword >>= g else g k := by
    unfold rNextKeyword
    rw [Rd.bind_bind']
    congr 1
    funext tk
    split <;> rfl
  rw [he]
  refine ReadsWith.peek' (c := fun tk => tk = .KEYWORD) h1 h2 ?_ ?_
  · rintro s ws rest _ h _
    obtain ⟨k, w, rfl⟩ := hW s ws h
    exact ⟨_, _, rfl, rfl⟩
  · rintro s ws rest _ h ⟨u, r, rfl⟩
    cases h
    exact ⟨_, _, rfl, by simp⟩

/-- the arguments of a step and what is accepted instead -/
def ArgsPart (as : List SExp) (ws : List Tk) : Prop :=
  Section ":args" (ExprList (tokSem o)) [] as ws ∨ as = [] ∧ ∃ k, ws = [(.KEYWORD, 58 :: k)] ∧ k ≠ bytes "args"

/-- the premises of a step and what follows -/
def StepPart (s : List SExp × List SExp) (ws : List Tk) : Prop :=
  (∃ w w', ws = key ":premises" :: w ++ w' ∧ ExprList (tokSem o) s.1 w ∧ ArgsPart o s.2 w') ∨
  (s.1 = [] ∧ ArgsPart o s.2 ws ∧ ∀ w, ws ≠ key ":premises" :: w)

/-- reading the arguments after the last keyword -/
def rArgs (ps : List Term) (k : Name) : Rd (List Term × List Term) := do
  let args ← if k = bytes "args" then rExprList b n o else pure []
  pure (ps, args)

/-- arguments after the premises -/
def argsAfter (ps : List Term) (as : List SExp) (st : State) : Run (State × List Term × List Term) :=
  (parseList b n as st).map fun r => (r.1, ps, r.2)

theorem reads_args1 (ps : List Term) : ReadsWith fl AtClose (rKeyword >>= rArgs b n o ps) (fun as ws => ws ≠ [] ∧ ArgsPart o as ws) (argsAfter b n ps) := by
  have he : rArgs b n o ps = fun k => if k = bytes "args" then rExprList b n o >>= fun args => pure (ps, args) else pure (ps, []) := by
    funext k
    unfold rArgs
    split <;> rfl
  rw [he]
  have h1 := (reads_exprList (fl := fl) b n o |>.weaken (F' := AtClose) fun _ _ => trivial).end (f := fun args => pure (ps, args)) fun args => ReadsWith.pure' (fl := fl) AtClose (ps, args)
  have h2 := (reads_keyword (fl := fl) |>.weaken (F' := AtClose) fun _ _ => trivial).end (f := fun _ => pure (ps, ([] : List Term))) fun _ => ReadsWith.pure' (fl := fl) AtClose (ps, ([] : List Term))
  refine (ReadsWith.keyword (x := ":args") (y := bytes "args") rfl h1 h2 ?_).to ?_ ?_
  · rintro k ws rfl
    simp
  · rintro (es | k) ws _ h
    · obtain ⟨w, rfl, h⟩ := h
      exact ⟨es, ⟨by simp, .inl (.present es w h)⟩, fun st => by simp only [argsAfter, Sum.elim_inl, Run.map_eq']⟩
    · obtain ⟨rfl, h⟩ := h
      refine ⟨[], ⟨by simp, .inr ⟨rfl, k, rfl, ?_⟩⟩, fun st => rfl⟩
      rintro rfl
      exact h [] rfl
  · rintro es ws _ ⟨hne, h | ⟨rfl, k, rfl, h⟩⟩
    · cases h with
      | absent => exact absurd rfl hne
      | present _ w h => exact ⟨.inl es, ⟨w, rfl, h⟩, fun st => by simp only [argsAfter, Sum.elim_inl, Run.map_eq']⟩
    · refine ⟨.inr k, ⟨rfl, ?_⟩, fun st => rfl⟩
      intro w he
      simp only [List.cons.injEq, key, Prod.mk.injEq, true_and] at he
      exact h (List.cons.inj (he.1.trans (show bytes ":args" = 58 :: bytes "args" from rfl))).2

theorem reads_args {k : Name} (hk : k ≠ bytes "args") (ps : List Term) : ReadsWith fl AtClose (rNextKeyword k >>= rArgs b n o ps) (ArgsPart o) (argsAfter b n ps) := by
  have h2 : ReadsWith fl AtClose (rArgs b n o ps k) NoTok fun _ st => .ok (st, ps, []) := by
    unfold rArgs
    simp only [if_neg hk]
    exact ReadsWith.pure' (fl := fl) AtClose (ps, [])
  refine (ReadsWith.nextKeyword (reads_args1 (fl := fl) b n o ps) ?_ h2).to ?_ ?_
  · rintro es ws ⟨hne, h | ⟨rfl, k, rfl, h⟩⟩
    · cases h with
      | absent => exact absurd rfl hne
      | present _ w h => exact ⟨_, _, rfl⟩
    · exact ⟨_, _, rfl⟩
  · rintro (es | s) ws _ h
    · exact ⟨es, h.2, fun st => rfl⟩
    · cases h
      exact ⟨[], .inl .absent, fun st => rfl⟩
  · rintro es ws _ h
    by_cases hne : ws = []
    · subst hne
      rcases h with h | ⟨rfl, k, h, _⟩
      · cases h
        exact ⟨.inr (), rfl, fun st => rfl⟩
      · cases h
    · exact ⟨.inl es, ⟨hne, h⟩, fun st => rfl⟩

/-- premises and arguments -/
def stepArgs (s : List SExp × List SExp) (st : State) : Run (State × List Term × List Term) :=
  (parseList b n s.1 st).bind fun p => (parseList b n s.2 p.1).map fun r => (r.1, p.2, r.2)

theorem reads_stepArgs : ReadsWith fl AtClose (rStepArgs b n o (bytes "rule")) (StepPart o) (stepArgs b n) := by
  have he : rStepArgs b n o (bytes "rule") = rNextKeyword (bytes "rule") >>= fun k => if k = bytes "premises" then
      rExprList b n o >>= fun ts => rNextKeyword (bytes "premises") >>= rArgs b n o ts else rArgs b n o [] k := by
    unfold rStepArgs
    congr 1
    funext k
    by_cases hk : k = bytes "premises"
    · subst hk
      simp only [if_true, Rd.bind_bind', Rd.pure_bind']
      rfl
    · simp only [if_neg hk]
      rfl
  rw [he]
  have h1 := (reads_exprList (fl := fl) b n o).then (F := AtClose) fun ts => reads_args (fl := fl) b n o (k := bytes "premises") (by decide) ts
  have h3 : ReadsWith fl AtClose (if bytes "rule" = bytes "premises" then
      rExprList b n o >>= fun ts => rNextKeyword (bytes "premises") >>= rArgs b n o ts else rArgs b n o [] (bytes "rule")) NoTok fun _ st => .ok (st, [], []) := by
    rw [if_neg (by decide)]
    unfold rArgs
    simp only [if_neg (show bytes "rule" ≠ bytes "args" by decide)]
    exact ReadsWith.pure' (fl := fl) AtClose ([], [])
  refine (ReadsWith.nextKeyword (ReadsWith.keyword (x := ":premises") (y := bytes "premises") rfl h1 (reads_args1 (fl := fl) b n o []) fun s ws h => h.1) ?_ h3).to ?_ ?_
  · rintro (⟨ps, as⟩ | as) ws h
    · obtain ⟨w, rfl, _⟩ := h
      exact ⟨_, _, rfl⟩
    · obtain ⟨⟨hne, h | ⟨rfl, k, rfl, h⟩⟩, _⟩ := h
      · cases h with
        | absent => exact absurd rfl hne
        | present _ w h => exact ⟨_, _, rfl⟩
      · exact ⟨_, _, rfl⟩
  · rintro ((⟨ps, as⟩ | as) | s) ws _ h
    · obtain ⟨w, rfl, h⟩ := h
      obtain ⟨w, w', rfl, h4, h5⟩ := both_iff.1 h
      exact ⟨(ps, as), .inl ⟨w, w', rfl, h4, h5⟩, fun st => by simp only [stepArgs, argsAfter, Sum.elim_inl]⟩
    · exact ⟨([], as), .inr ⟨rfl, h.1.2, h.2⟩, fun st => by simp only [stepArgs, argsAfter, Sum.elim_inl, Sum.elim_inr, parseList, Run.ok_bind']⟩
    · cases h
      exact ⟨([], []), .inr ⟨rfl, .inl .absent, by simp⟩, fun st => rfl⟩
  · rintro ⟨ps, as⟩ ws _ (⟨w, w', rfl, h4, h5⟩ | ⟨rfl, h4, h5⟩)
    · exact ⟨.inl (.inl (ps, as)), ⟨w ++ w', rfl, both_iff.2 ⟨w, w', rfl, h4, h5⟩⟩, fun st => by simp only [stepArgs, argsAfter, Sum.elim_inl]⟩
    · by_cases hne : ws = []
      · subst hne
        rcases h4 with h | ⟨rfl, k, h, _⟩
        · cases h
          exact ⟨.inr (), rfl, fun st => rfl⟩
        · cases h
      · exact ⟨.inl (.inr as), ⟨⟨hne, h4⟩, h5⟩, fun st => by simp only [stepArgs, argsAfter, Sum.elim_inl, Sum.elim_inr, parseList, Run.ok_bind']⟩

theorem stepPart_iff {s : List SExp × List SExp} {ws : List Tk} (hg : GoodToks fl ws) : StepPart o s ws ↔ StepArgs (tokSem o) true s ws := by
  have hargs : bytes ":args" = 58 :: bytes "args" := rfl
  constructor
  · rintro (⟨w, w', rfl, h1, h2⟩ | ⟨h0, h2, h3⟩)
    · obtain ⟨ps, as⟩ := s
      rcases h2 with h2 | ⟨rfl, k, rfl, hk⟩
      · exact .mk ps as (key ":premises" :: w) w' (.present ps w h1) h2
      · refine .other ps (key ":premises" :: w) _ rfl (.present ps w h1) ?_ (by simp)
        rw [hargs]
        exact fun h => hk (List.cons.inj h).2.symm
    · obtain ⟨ps, as⟩ := s
      cases h0
      rcases h2 with h2 | ⟨rfl, k, rfl, hk⟩
      · exact .mk [] as [] ws .absent h2
      · refine .other [] [] _ rfl .absent ?_ ?_
        · rw [hargs]
          exact fun h => hk (List.cons.inj h).2.symm
        · intro _ h
          exact h3 [] (by rw [key, h])
  · intro h
    cases h with
    | mk ps as w w' h1 h2 =>
      cases h1 with
      | absent =>
        refine .inr ⟨rfl, .inl h2, ?_⟩
        intro w h
        cases h2 with
        | absent => cases h
        | present _ _ _ =>
          simp only [List.nil_append, List.cons.injEq] at h
          exact absurd h.1 (by decide)
      | present _ w h1 => exact .inl ⟨w, w', rfl, h1, .inl h2⟩
    | other ps w k _ h1 hk hk' =>
      have hgk : GoodTok fl (.KEYWORD, k) := hg.right.head
      have : ∃ k', k = 58 :: k' := by
        obtain ⟨la, hx⟩ := hgk.lexeme
        cases hx with
        | keyword c cs _ h1 h2 h3 h4 => exact ⟨_, rfl⟩
        | symbol _ c cs _ _ _ _ hc => cases hc
      obtain ⟨k, rfl⟩ := this
      have hk1 : k ≠ bytes "args" := fun h => hk (by rw [h, hargs])
      cases h1 with
      | absent =>
        refine .inr ⟨rfl, .inr ⟨rfl, k, rfl, hk1⟩, ?_⟩
        intro w h
        simp only [List.nil_append, List.cons.injEq, key, Prod.mk.injEq, true_and] at h
        exact hk' rfl h.1.symm
      | present _ w h1 => exact .inl ⟨w, [(.KEYWORD, 58 :: k)], rfl, h1, .inr ⟨rfl, k, rfl, hk1⟩⟩

theorem reads_step (isPop : Bool) : ReadsCmd fl b n (rStep b n o isPop) (BodyOf o isRef (if isPop then "step-pop" else "step")) := by
  have h := ReadsWith.get (fl := fl) (F := AtClose) (g := fun st => if isPop ∧ st.asmCtx = [] then .err else .ok ()) (f := fun _ => _) fun _ =>
    (reads_name (fl := fl) o).then (f := fun x => _) fun x =>
    reads_optConc (fl := fl) b n o (q := fun proven => _) (fun proven =>
      ReadsWith.keyword (x := ":rule") (y := bytes "rule") rfl
        ((reads_name (fl := fl) o).then (f := fun r => _) fun r =>
          ReadsWith.act (g := fun st => (Run.orErr (st.decls.rules r)).map fun rule => ({ st with used := rule :: st.used }, rule)) (f := fun rule => _) fun rule =>
          (reads_stepArgs (fl := fl) b n o).end (f := fun pa => _) fun pa => ReadsWith.upd' AtClose (fun st =>
            (notifyStep b n st rule proven pa.1 pa.2 isPop).bind fun conc =>
            (st.typeCheck b n conc).bind fun ty =>
            if ty.kind ≠ BOOL_TYPE then .err
            else if proven.isSome && proven ≠ some conc then .err
            else (if isPop then st.popAssumption else .ok st).map fun st => st.bind x (mkProof conc)))
        (g := fun _ => Rd.err)
        (ReadsWith.err' (σ := Unit) (fl := fl) AtClose (fun _ _ => .err) |> fun h => (reads_keyword (fl := fl)).then (f := fun _ => Rd.err) fun _ => h)
        fun s ws h => by obtain ⟨_, _, _, _, h⟩ := both_iff.1 h; exact h.elim)
      (fun s ws h => by
        rcases s with s | s
        · obtain ⟨w, rfl, _⟩ := h; exact ⟨_, _, rfl⟩
        · obtain ⟨_, _, _, _, h⟩ := both_iff.1 h.1; exact h.elim)
  have he : (rStep b n o isPop : Rd Unit) = Rd.get (fun st => if isPop ∧ st.asmCtx = [] then .err else .ok ()) >>= fun _ => rName >>= fun x => rOptConc b n o >>= fun proven =>
      rKeyword >>= fun k => if k = bytes "rule" then rName >>= fun r =>
        Rd.act (fun st => (Run.orErr (st.decls.rules r)).map fun rule => ({ st with used := rule :: st.used }, rule)) >>= fun rule =>
        rStepArgs b n o (bytes "rule") >>= fun pa => Rd.upd (fun st =>
            (notifyStep b n st rule proven pa.1 pa.2 isPop).bind fun conc =>
            (st.typeCheck b n conc).bind fun ty =>
            if ty.kind ≠ BOOL_TYPE then .err
            else if proven.isSome && proven ≠ some conc then .err
            else (if isPop then st.popAssumption else .ok st).map fun st => st.bind x (mkProof conc)) else Rd.err := by
    unfold rStep
    congr 1
    funext _
    congr 1
    funext x
    congr 1
    funext proven
    congr 1
    funext k
    by_cases hk : k = bytes "rule"
    · simp only [if_pos hk, hk]
      rfl
    · simp only [if_neg hk]
      rfl
  unfold ReadsCmd
  rw [he]
  have hmean : ∀ (x f r ps as) (st : State) (q : State × Unit), (exec b n st (.step ⟨x, f, r, ps, as, isPop⟩)).map (fun st => (st, ())) = .ok q ↔
      ((if isPop = true ∧ st.asmCtx = [] then Run.err else .ok ()).bind fun _ => (parseConc b n f st).bind fun u =>
        ((Run.orErr (u.1.decls.rules r)).map fun rule => (({ u.1 with used := rule :: u.1.used } : State), rule)).bind fun q =>
        (stepArgs b n (ps, as) q.1).bind fun pa => ((notifyStep b n pa.1 q.2 u.2 pa.2.1 pa.2.2 isPop).bind fun conc =>
            (pa.1.typeCheck b n conc).bind fun ty =>
            if ty.kind ≠ BOOL_TYPE then .err
            else if u.2.isSome && u.2 ≠ some conc then .err
            else (if isPop then pa.1.popAssumption else .ok pa.1).map fun st => st.bind x (mkProof conc)).map fun s => (s, ())) = .ok q := by
    intro x f r ps as st q
    simp only [exec, execStep, stepArgs, Run.map_eq', Run.bind_bind', Run.ite_bind', Run.err_bind', Run.ok_bind']
    split
    · rfl
    · refine iff_of_eq ?_
      congr 2
      funext u
      cases u.1.decls.rules r with
      | none => rfl
      | some rule => simp only [Run.orErr, Run.ok_bind', Run.bind_bind', Run.ite_bind', Run.err_bind']
  refine ReadsWith.to' h ?_ ?_
  · rintro ⟨x, f, ⟨r, ps, as⟩ | ⟨_, _⟩⟩ ws st q hg h hm
    · obtain ⟨w1, _, rfl, h1, ha⟩ := both_iff.1 h
      obtain ⟨w2, _, rfl, h2, w, rfl, hb⟩ := both_iff.1 ha
      obtain ⟨w3, w4, rfl, h3, h4⟩ := both_iff.1 hb
      have h5 := (stepPart_iff (fl := fl) o (show GoodToks fl w4 from fun tk ht => hg tk (by simp [ht]))).1 h4
      cases isPop with
      | false =>
        refine ⟨.step ⟨x, f, r, ps, as, false⟩, bodyOf (.step x f r ps as w1 w2 w3 w4 h1 h2 h3 h5) (by simp), ?_⟩
        exact (hmean x f r ps as st q).2 hm
      | true =>
        refine ⟨.step ⟨x, f, r, ps, as, true⟩, bodyOf (.stepPop x f r ps as w1 w2 w3 w4 h1 h2 h3 h5) (by simp), ?_⟩
        exact (hmean x f r ps as st q).2 hm
    · obtain ⟨w1, _, rfl, h1, ha⟩ := both_iff.1 h
      obtain ⟨w2, _, rfl, h2, hb, _⟩ := both_iff.1 ha
      obtain ⟨_, _, _, _, hb⟩ := both_iff.1 hb
      exact hb.elim
  · rintro c ws st q hg h hm
    generalize hn : (if isPop then "step-pop" else "step") = y at h
    cases h with
    | step x f r ps as w1 w2 w3 w4 h1 h2 h3 h5 =>
      cases isPop with
      | true => exact absurd hn (by decide)
      | false =>
      have h4 := (stepPart_iff (fl := fl) o (show GoodToks fl w4 from fun tk ht => hg tk (by simp [ht]))).2 h5
      exact ⟨(x, f, .inl (r, ps, as)), both_iff.2 ⟨w1, w2 ++ (key ":rule" :: (w3 ++ w4)), by simp, h1, both_iff.2 ⟨w2, _, rfl, h2, w3 ++ w4, rfl, both_iff.2 ⟨w3, w4, rfl, h3, h4⟩⟩⟩,
        (hmean x f r ps as st q).1 hm⟩
    | stepPop x f r ps as w1 w2 w3 w4 h1 h2 h3 h5 =>
      cases isPop with
      | false => exact absurd hn (by decide)
      | true =>
      have h4 := (stepPart_iff (fl := fl) o (show GoodToks fl w4 from fun tk ht => hg tk (by simp [ht]))).2 h5
      exact ⟨(x, f, .inl (r, ps, as)), both_iff.2 ⟨w1, w2 ++ (key ":rule" :: (w3 ++ w4)), by simp, h1, both_iff.2 ⟨w2, _, rfl, h2, w3 ++ w4, rfl, both_iff.2 ⟨w3, w4, rfl, h3, h4⟩⟩⟩,
        (hmean x f r ps as st q).1 hm⟩
    | _ => exact absurd hn (by cases isPop <;> decide)

theorem reads_assert : ReadsCmd fl b n (rAssert b n o) (BodyOf o isRef "assert") := by
  refine ((reads_formula (fl := fl) b n o |>.weaken fun _ _ => trivial).end (f := fun t => _) fun t => ReadsWith.upd' AtClose (fun st => st.addReferenceAssert b n t)).to' ?_ ?_
  · rintro f ws st r _ h hm
    refine ⟨_, .assert f ws h, ?_⟩
    simpa only [exec, Run.map_eq', Run.bind_bind', Run.ok_bind'] using hm
  · rintro c ws st r _ h hm
    generalize hn : "assert" = y at h
    cases h with
    | assert f _ h =>
      refine ⟨f, h, ?_⟩
      simpa only [exec, Run.map_eq', Run.bind_bind', Run.ok_bind'] using hm
    | _ => exact absurd hn (by decide)

/-! ### Commands and what follows them -/

/-- the meaning of a command that is not a command of the driver -/
def cmdRun (b : Env) (n : Nat) (s : Cmd × Option (Name × Bool)) (st : State) : Run (State × After) :=
  match s.1 with
  | .exit => .ok (st, .finished)
  | .incl f => if st.asmCtx ≠ [] then .err else .ok (st, .incl f false none)
  | .reference f nf => if st.hasRef ∨ st.asmCtx ≠ [] then .err else (parseOpt b n nf st).map fun p => (p.1, .incl f true p.2)
  | c => (exec b n st c).map fun st => (st, match s.2 with | some p => .option p.1 p.2 | none => .next)

/-- a command, and the option that it sets -/
def BodyAll (o : ReadOpts) (isRef : Bool) (x : String) (s : Cmd × Option (Name × Bool)) (w : List Tk) : Prop :=
  Body (tokSem o) true isRef x s.1 s.2 w

/-- reads the command with the given name -/
def ReadsAll (fl : LexFlags) (b : Env) (n : Nat) (o : ReadOpts) (isRef : Bool) (x : String) (p : Rd After) : Prop :=
  ReadsWith fl AtClose p (BodyAll o isRef x) (cmdRun b n)

/-- not a command that the driver handles -/
def Plain : Cmd → Prop
  | .exit | .incl _ | .reference _ _ => False
  | _ => True

theorem cmdRun_plain {c : Cmd} (h : Plain c) (eff : Option (Name × Bool)) (st : State) :
    cmdRun b n (c, eff) st = (exec b n st c).map fun st => (st, match eff with | some p => .option p.1 p.2 | none => .next) := by
  cases c <;> first | rfl | exact h.elim

theorem ReadsCmd.next {p : Rd Unit} {x : String} (h : ReadsCmd fl b n p (BodyOf o isRef x))
    (hx : ∀ c eff w, Body (tokSem o) true isRef x c eff w → eff = none ∧ Plain c) : ReadsAll fl b n o isRef x p.next := by
  refine (ReadsWith.end h (f := fun _ => _) fun _ => ReadsWith.pure' AtClose After.next).to' ?_ ?_
  · intro c ws st r _ hw hm
    refine ⟨(c, none), hw, ?_⟩
    rw [cmdRun_plain b n (hx _ _ _ hw).2]
    simpa only [Run.map_eq', Run.bind_bind', Run.ok_bind'] using hm
  · rintro ⟨c, eff⟩ ws st r _ hw hm
    obtain ⟨rfl, hp⟩ := hx _ _ _ hw
    refine ⟨c, hw, ?_⟩
    rw [cmdRun_plain b n hp] at hm
    simpa only [Run.map_eq', Run.bind_bind', Run.ok_bind'] using hm

theorem reads_count : ReadsWith fl AtClose rCount (Maybe (Num true)) fun k st => .ok (st, k.getD 1) := by
  refine (ReadsWith.peek' (fl := fl) (c := fun tk => tk = Token.INTEGER_LITERAL) (reads_numeral.weaken fun _ _ => trivial) (ReadsWith.pure' AtClose 1) ?_ ?_).to' ?_ ?_
  · rintro s ws rest _ h _
    cases h <;> exact ⟨_, _, rfl, rfl⟩
  · rintro s ws rest _ h ⟨u, r, rfl⟩
    cases h
    exact ⟨_, _, rfl, by simp⟩
  · rintro (k | _) ws st r _ h hm
    · exact ⟨some k, .present _ _ h, hm⟩
    · cases h
      exact ⟨none, .absent, hm⟩
  · rintro k ws st r _ h hm
    cases h with
    | absent => exact ⟨.inr (), rfl, hm⟩
    | present k _ h => exact ⟨.inl k, h, hm⟩

theorem reads_push : ReadsAll fl b n o isRef "push" (do let k ← rCount; .upd fun st => .ok (pushN k st); pure .next) := by
  have h := (reads_count (fl := fl)).end (f := fun k => _) fun k =>
    (ReadsWith.upd' (fl := fl) AtClose fun st => .ok (pushN k st)).end (f := fun _ => _) fun _ => ReadsWith.pure' AtClose After.next
  refine ReadsWith.to' h ?_ ?_
  · rintro k ws st r _ h hm
    exact ⟨(_, _), .push k ws h, by simpa only [cmdRun, exec, Run.map_eq', Run.bind_bind', Run.ok_bind'] using hm⟩
  · rintro ⟨c, eff⟩ ws st r _ h hm
    unfold BodyAll at h
    dsimp only at h
    generalize hn : "push" = y at h
    cases h with
    | push k _ h => exact ⟨k, h, by simpa only [cmdRun, exec, Run.map_eq', Run.bind_bind', Run.ok_bind'] using hm⟩
    | _ => exact absurd hn (by decide)

theorem reads_pop : ReadsAll fl b n o isRef "pop" (do let k ← rCount; .upd fun st => popN k st; pure .next) := by
  have h := (reads_count (fl := fl)).end (f := fun k => _) fun k =>
    (ReadsWith.upd' (fl := fl) AtClose fun st => popN k st).end (f := fun _ => _) fun _ => ReadsWith.pure' AtClose After.next
  refine ReadsWith.to' h ?_ ?_
  · rintro k ws st r _ h hm
    exact ⟨(_, _), .pop k ws h, by simpa only [cmdRun, exec, Run.map_eq', Run.bind_bind', Run.ok_bind'] using hm⟩
  · rintro ⟨c, eff⟩ ws st r _ h hm
    unfold BodyAll at h
    dsimp only at h
    generalize hn : "pop" = y at h
    cases h with
    | pop k _ h => exact ⟨k, h, by simpa only [cmdRun, exec, Run.map_eq', Run.bind_bind', Run.ok_bind'] using hm⟩
    | _ => exact absurd hn (by decide)

theorem reads_reset : ReadsAll fl b n o isRef "reset" (do .upd fun st => .ok st.reset; pure .next) := by
  have h := (ReadsWith.upd' (fl := fl) AtClose fun st => .ok st.reset).end (f := fun _ => _) fun _ => ReadsWith.pure' AtClose After.next
  refine ReadsWith.to' h ?_ ?_
  · rintro _ ws st r _ h hm
    cases h
    exact ⟨(_, _), .reset, by simpa only [cmdRun, exec, Run.map_eq', Run.bind_bind', Run.ok_bind'] using hm⟩
  · rintro ⟨c, eff⟩ ws st r _ h hm
    unfold BodyAll at h
    dsimp only at h
    generalize hn : "reset" = y at h
    cases h with
    | reset => exact ⟨(), rfl, by simpa only [cmdRun, exec, Run.map_eq', Run.bind_bind', Run.ok_bind'] using hm⟩
    | _ => exact absurd hn (by decide)

theorem reads_exit : ReadsAll fl b n o isRef "exit" (pure .finished) := by
  refine ReadsWith.to' (ReadsWith.pure' AtClose After.finished) ?_ ?_
  · rintro _ ws st r _ h hm
    cases h
    exact ⟨(_, _), .exit, hm⟩
  · rintro ⟨c, eff⟩ ws st r _ h hm
    unfold BodyAll at h
    dsimp only at h
    generalize hn : "exit" = y at h
    cases h with
    | exit => exact ⟨(), rfl, hm⟩
    | _ => exact absurd hn (by decide)

theorem reads_checkSat : ReadsAll fl b n o true "check-sat" (pure .next) := by
  refine ReadsWith.to' (ReadsWith.pure' AtClose After.next) ?_ ?_
  · rintro _ ws st r _ h hm
    cases h
    exact ⟨(_, _), .checkSat rfl, hm⟩
  · rintro ⟨c, eff⟩ ws st r _ h hm
    unfold BodyAll at h
    dsimp only at h
    generalize hn : "check-sat" = y at h
    cases h with
    | checkSat => exact ⟨(), rfl, hm⟩
    | _ => exact absurd hn (by decide)

theorem reads_echo : ReadsAll fl b n o isRef "echo" (do
    let tk ← rPeek
    if tk = .STRING_LITERAL then (do let _ ← rStr; pure .next : Rd After) else pure .next) := by
  have h := ReadsWith.peek' (fl := fl) (F := AtClose) (c := fun tk => tk = Token.STRING_LITERAL)
    (((reads_str (fl := fl)).weaken fun _ _ => trivial).end (f := fun _ => _) fun _ => ReadsWith.pure' AtClose After.next) (ReadsWith.pure' AtClose After.next) ?_ ?_
  refine ReadsWith.to' h ?_ ?_
  · rintro (s | _) ws st r _ h hm
    · exact ⟨(_, _), .echo (some s) ws (.present _ _ h), hm⟩
    · cases h
      exact ⟨(_, _), .echo none [] .absent, hm⟩
  · rintro ⟨c, eff⟩ ws st r _ h hm
    unfold BodyAll at h
    dsimp only at h
    generalize hn : "echo" = y at h
    cases h with
    | echo s _ h =>
      cases h with
      | absent => exact ⟨.inr (), rfl, hm⟩
      | present s _ h => exact ⟨.inl s, h, hm⟩
    | _ => exact absurd hn (by decide)
  · rintro s ws rest _ h _
    cases h
    exact ⟨_, _, rfl, rfl⟩
  · rintro s ws rest _ h ⟨u, r, rfl⟩
    cases h
    exact ⟨_, _, rfl, by simp⟩

theorem reads_setLogic : ReadsAll fl b n o true "set-logic" (do let _ ← rName; pure .next) := by
  have h := ((reads_name (fl := fl) o).weaken (F' := AtClose) fun _ _ => trivial).end (f := fun _ => _) fun _ => ReadsWith.pure' AtClose After.next
  refine ReadsWith.to' h ?_ ?_
  · rintro x ws st r _ h hm
    exact ⟨(_, _), .setLogic x ws rfl h, hm⟩
  · rintro ⟨c, eff⟩ ws st r _ h hm
    unfold BodyAll at h
    dsimp only at h
    generalize hn : "set-logic" = y at h
    cases h with
    | setLogic x _ _ h => exact ⟨x, h, hm⟩
    | _ => exact absurd hn (by decide)

theorem reads_checkSatAssuming : ReadsAll fl b n o true "check-sat-assuming" (do let _ ← rExprList b n o; pure .next) := by
  have h := ((reads_exprList (fl := fl) b n o).weaken (F' := AtClose) fun _ _ => trivial).end (f := fun _ => _) fun _ => ReadsWith.pure' AtClose After.next
  refine ReadsWith.to' h ?_ ?_
  · rintro x ws st r _ h hm
    exact ⟨(_, _), .checkSatAssuming x ws h, by simpa only [cmdRun, exec, Run.map_eq', Run.bind_bind', Run.ok_bind'] using hm⟩
  · rintro ⟨c, eff⟩ ws st r _ h hm
    unfold BodyAll at h
    dsimp only at h
    generalize hn : "check-sat-assuming" = y at h
    cases h with
    | checkSatAssuming x _ h => exact ⟨x, h, by simpa only [cmdRun, exec, Run.map_eq', Run.bind_bind', Run.ok_bind'] using hm⟩
    | _ => exact absurd hn (by decide)

theorem keyword_good {k : List Nat} (h : GoodTok fl (.KEYWORD, k)) : ∃ k', k = 58 :: k' := by
  obtain ⟨la, hx⟩ := h.lexeme
  cases hx with
  | keyword c cs _ h1 h2 h3 h4 => exact ⟨_, rfl⟩
  | symbol _ c cs _ _ _ _ hc => cases hc

theorem reads_setInfo : ReadsAll fl b n o true "set-info" (do let _ ← rKeyword; rSkip; pure .next) := by
  have h := (reads_keyword (fl := fl)).then (F := AtClose) (f := fun _ => _) fun _ => ((reads_skip (fl := fl)).weaken (F' := AtClose) fun _ _ => trivial).end (f := fun _ => _) fun _ => ReadsWith.pure' AtClose After.next
  refine ReadsWith.to' h ?_ ?_
  · rintro ⟨k, _⟩ ws st r _ h hm
    obtain ⟨_, w, rfl, rfl, hv⟩ := both_iff.1 h
    exact ⟨(_, _), .setInfo _ w rfl hv, hm⟩
  · rintro ⟨c, eff⟩ ws st r hg h hm
    unfold BodyAll at h
    dsimp only at h
    generalize hn : "set-info" = y at h
    cases h with
    | setInfo k w _ h =>
      obtain ⟨k, rfl⟩ := keyword_good hg.head
      exact ⟨(k, ()), both_iff.2 ⟨_, w, rfl, rfl, h⟩, hm⟩
    | _ => exact absurd hn (by decide)

theorem reads_setOptionRef : ReadsAll fl b n o true "set-option" (do let _ ← rKeyword; rSkip; pure .next) := by
  have h := (reads_keyword (fl := fl)).then (F := AtClose) (f := fun _ => _) fun _ => ((reads_skip (fl := fl)).weaken (F' := AtClose) fun _ _ => trivial).end (f := fun _ => _) fun _ => ReadsWith.pure' AtClose After.next
  refine ReadsWith.to' h ?_ ?_
  · rintro ⟨k, _⟩ ws st r _ h hm
    obtain ⟨_, w, rfl, rfl, hv⟩ := both_iff.1 h
    exact ⟨(_, _), .setOption _ w none hv rfl, hm⟩
  · rintro ⟨c, eff⟩ ws st r hg h hm
    unfold BodyAll at h
    dsimp only at h
    generalize hn : "set-option" = y at h
    cases h with
    | setOption k w _ h he =>
      obtain ⟨k, rfl⟩ := keyword_good hg.head
      cases he
      exact ⟨(k, ()), both_iff.2 ⟨_, w, rfl, rfl, h⟩, hm⟩
    | _ => exact absurd hn (by decide)

/-- the boolean that the tokens are -/
def optVal (w : List Tk) : Option Bool :=
  if w = [(.SYMBOL, bytes "true")] then some true else if w = [(.SYMBOL, bytes "false")] then some false else none

/-- the boolean that the token is -/
def optTok (tk : Tk) : Option Bool :=
  if tk.1 = .SYMBOL then
    (if tokenStr tk.2 = bytes "true" then some true else if tokenStr tk.2 = bytes "false" then some false else none) else none

theorem value_head {tk : Tk} {w : List Tk} (h : Value true (tk :: w)) : tk.1 = .LPAREN ∨ tk.1 = .RPAREN ∨ w = [] := by
  cases h with
  | mk h =>
    cases h with
    | atom _ _ _ => exact .inr (.inr rfl)
    | list _ _ _ _ => exact .inl rfl
  | flipped _ h =>
    generalize hm : (tk :: w).map flipParen = v at h
    cases h with
    | atom _ _ _ =>
      refine .inr (.inr ?_)
      simp only [List.map_cons, List.cons.injEq, List.map_eq_nil_iff] at hm
      exact hm.2
    | list s s' ws _ =>
      simp only [List.map_cons, List.cons_append, List.cons.injEq] at hm
      refine .inr (.inl ?_)
      have := hm.1
      unfold flipParen at this
      split at this
      · exact absurd (congrArg Prod.fst this) (by simp)
      · split at this
        · assumption
        · exact absurd (by rw [this]) ‹¬tk.1 = Token.LPAREN›

theorem optVal_eq {tk : Tk} {w : List Tk} (hg : GoodTok fl tk) (h : Value true (tk :: w)) : optVal (tk :: w) = optTok tk := by
  obtain ⟨k, x⟩ := tk
  unfold optVal optTok
  dsimp only
  rw [tokenStr_eq hg.null]
  by_cases hk : k = .SYMBOL
  · cases hk
    rcases value_head h with h | h | rfl
    · cases h
    · cases h
    · simp
  · rw [if_neg hk, if_neg (by simp [hk]), if_neg (by simp [hk])]

theorem value_ne {w : List Tk} (h : Value true w) : w ≠ [] := by
  rintro rfl
  cases h with
  | mk h => cases h
  | flipped _ h => cases h

theorem reads_optVal : ReadsWith fl Any (Rd.tok (fun toks => match toks with | [] => .err | tk :: _ => .ok (toks, optTok tk)) >>= fun v => rSkip >>= fun _ => pure v)
    (fun v w => Value true w ∧ v = optVal w) fun v st => .ok (st, v) := by
  have hp : ∀ tk r st, ((Rd.tok (fun toks => match toks with | [] => .err | tk :: _ => .ok (toks, optTok tk)) >>= fun v => rSkip >>= fun _ => pure v) : Rd (Option Bool)) (tk :: r) st =
      (rSkip (tk :: r) st).bind fun q => .ok (q.1, q.2.1, optTok tk) := fun tk r st => rfl
  refine ⟨?_, fun {toks st rest st' a} hg hr => ?_⟩
  · intro toks st rest st' a h
    match toks, h with
    | [], h => cases h
    | tk :: r, h =>
      rw [hp, Run.bind_ok] at h
      obtain ⟨⟨_, _, _⟩, h', he⟩ := h
      cases he
      exact (reads_skip (fl := fl)).shrinks _ _ _ _ _ h'
  · match toks with
    | [] =>
      constructor
      · intro h
        cases h
      · rintro ⟨v, w, he, ⟨h, _⟩, _⟩
        exact absurd (List.append_eq_nil_iff.1 he.symm).1 (value_ne h)
    | tk :: r =>
      rw [hp, Run.bind_ok]
      constructor
      · rintro ⟨⟨_, _, _⟩, h, he⟩
        cases he
        obtain ⟨_, w, he, hw, hm⟩ := (reads_skip.iff hg trivial).1 h
        cases hm
        refine ⟨_, w, he, ⟨hw, rfl⟩, ?_⟩
        match w, he, hw with
        | [], _, hw => exact absurd rfl (value_ne hw)
        | tk' :: w, he, hw =>
          cases (List.cons.inj he).1
          rw [optVal_eq hg.head hw]
      · rintro ⟨v, w, he, ⟨hw, rfl⟩, hm⟩
        refine ⟨(rest, st, ()), (reads_skip.iff hg trivial).2 ⟨(), w, he, hw, rfl⟩, ?_⟩
        cases hm
        match w, he, hw with
        | [], _, hw => exact absurd rfl (value_ne hw)
        | tk' :: w, he, hw =>
          cases (List.cons.inj he).1
          rw [optVal_eq hg.head hw]

theorem reads_setOption : ReadsAll fl b n o false "set-option" rSetOption := by
  have h := (reads_keyword (fl := fl)).then (F := AtClose) (f := fun k => _) fun k => ((reads_optVal (fl := fl)).weaken (F' := AtClose) fun _ _ => trivial).end (f := fun v => _) fun v =>
    ReadsWith.pure' AtClose (match v with | some v => After.option k v | none => .next)
  have he : rSetOption = rKeyword >>= fun k => (Rd.tok (fun toks => match toks with | [] => .err | tk :: _ => .ok (toks, optTok tk)) >>= fun v => rSkip >>= fun _ => pure v) >>= fun v =>
      pure (match v with | some v => After.option k v | none => .next) := by
    simp only [Rd.bind_bind', Rd.pure_bind']
    rfl
  unfold ReadsAll
  rw [he]
  refine ReadsWith.to' h ?_ ?_
  · rintro ⟨k, _⟩ ws st r _ h hm
    obtain ⟨_, w, rfl, rfl, hv, rfl⟩ := both_iff.1 h
    unfold optVal at hm
    split at hm
    · subst w
      exact ⟨(_, _), .setOption _ _ _ hv (.yes k), hm⟩
    · split at hm
      · subst w
        exact ⟨(_, _), .setOption _ _ _ hv (.no k), hm⟩
      · exact ⟨(_, _), .setOption _ _ _ hv (.none _ _ ‹_› ‹_›), hm⟩
  · rintro ⟨c, eff⟩ ws st r hg h hm
    unfold BodyAll at h
    dsimp only at h
    generalize hn : "set-option" = y at h
    cases h with
    | setOption k w _ h he =>
      obtain ⟨k', hk⟩ := keyword_good hg.head
      refine ⟨(k', optVal w), both_iff.2 ⟨_, w, by rw [hk]; rfl, rfl, h, rfl⟩, ?_⟩
      cases he with
      | yes k => cases hk; exact hm
      | no k => cases hk; exact hm
      | none _ _ h1 h2 =>
        unfold optVal
        rw [if_neg h1, if_neg h2]
        exact hm
    | _ => exact absurd hn (by decide)

theorem reads_include : ReadsAll fl b n o isRef "include" (rInclude b n o false) := by
  have h := ReadsWith.get (fl := fl) (F := AtClose) (g := fun st => if st.asmCtx ≠ [] then .err else .ok ()) (f := fun _ => _) fun _ =>
    ((reads_str (fl := fl)).weaken (F' := AtClose) fun _ _ => trivial).end (f := fun f => _) fun f => ReadsWith.pure' AtClose (After.incl f false none)
  have he : rInclude b n o false = Rd.get (fun st => if st.asmCtx ≠ [] then .err else .ok ()) >>= fun _ => rStr >>= fun f => pure (After.incl f false none) := by
    simp only [rInclude, Bool.false_eq_true, false_and, if_false]
  unfold ReadsAll
  rw [he]
  refine ReadsWith.to' h ?_ ?_
  · rintro f ws st r _ h hm
    refine ⟨(_, _), .incl f ws h, ?_⟩
    simpa only [cmdRun, Run.map_eq', Run.bind_bind', Run.ok_bind', Run.ite_bind', Run.err_bind'] using hm
  · rintro ⟨c, eff⟩ ws st r _ h hm
    unfold BodyAll at h
    dsimp only at h
    generalize hn : "include" = y at h
    cases h with
    | incl f _ h => exact ⟨f, h, by simpa only [cmdRun, Run.map_eq', Run.bind_bind', Run.ok_bind', Run.ite_bind', Run.err_bind'] using hm⟩
    | _ => exact absurd hn (by decide)

theorem reads_maybeExpr : ReadsWith fl AtClose (rPeek >>= fun tk => if tk ≠ .RPAREN then (rExpr b n o >>= fun t => pure (some t) : Rd (Option Term)) else pure none)
    (Maybe (Written (tokSem o))) (parseOpt b n) := by
  refine (ReadsWith.peek' (fl := fl) (c := fun tk => tk ≠ Token.RPAREN) (((reads_expr (fl := fl) b n o).weaken (F' := AtClose) fun _ _ => trivial).end (f := fun t => _) fun t => ReadsWith.pure' AtClose (some t))
    (ReadsWith.pure' AtClose none) ?_ ?_).to' ?_ ?_
  · rintro s ws rest hg h _
    obtain ⟨tk, r, rfl, hh, _⟩ := written_head o h
    exact ⟨tk, _, rfl, hh⟩
  · rintro s ws rest _ h ⟨u, r, rfl⟩
    cases h
    exact ⟨_, _, rfl, by simp⟩
  · rintro (k | _) ws st r _ h hm
    · exact ⟨some k, .present _ _ h, by simpa only [parseOpt, Sum.elim_inl, Run.map_eq', Run.bind_bind', Run.ok_bind'] using hm⟩
    · cases h
      exact ⟨none, .absent, hm⟩
  · rintro k ws st r _ h hm
    cases h with
    | absent => exact ⟨.inr (), rfl, hm⟩
    | present k _ h => exact ⟨.inl k, h, by simpa only [parseOpt, Sum.elim_inl, Run.map_eq', Run.bind_bind', Run.ok_bind'] using hm⟩

theorem reads_reference : ReadsAll fl b n o isRef "reference" (rInclude b n o true) := by
  have h := ReadsWith.get (fl := fl) (F := AtClose) (g := fun st => if st.hasRef then .err else if st.asmCtx ≠ [] then .err else .ok ()) (f := fun _ => _) fun _ =>
    (reads_str (fl := fl)).then (f := fun f => _) fun f => (reads_maybeExpr (fl := fl) b n o).end (f := fun nf => _) fun nf => ReadsWith.pure' AtClose (After.incl f true nf)
  have he : rInclude b n o true = Rd.get (fun st => if st.hasRef then .err else if st.asmCtx ≠ [] then .err else .ok ()) >>= fun _ => rStr >>= fun f =>
      (rPeek >>= fun tk => if tk ≠ .RPAREN then (rExpr b n o >>= fun t => pure (some t) : Rd (Option Term)) else pure none) >>= fun nf => pure (After.incl f true nf) := by
    simp only [rInclude, true_and, if_true, Rd.bind_bind']
    congr 1
    funext _
    congr 1
    funext f
    congr 1
    funext tk
    split <;> simp only [Rd.bind_bind', Rd.pure_bind']
  unfold ReadsAll
  rw [he]
  have hmean : ∀ (f nf) (st : State), cmdRun b n (.reference f nf, none) st = (if st.hasRef then Run.err else if st.asmCtx ≠ [] then .err else .ok ()).bind fun _ => (Run.ok (st, f)).bind fun q =>
      (parseOpt b n nf q.1).bind fun p => .ok (p.1, After.incl q.2 true p.2) := by
    intro f nf st
    simp only [cmdRun, Run.map_eq', Run.ok_bind']
    cases st.hasRef
    · simp only [Bool.false_eq_true, false_or, if_false]
      split <;> rfl
    · simp only [true_or, if_true]
      rfl
  refine ReadsWith.to' h ?_ ?_
  · rintro ⟨f, nf⟩ ws st r _ h hm
    obtain ⟨w, w', rfl, h1, h2⟩ := both_iff.1 h
    exact ⟨(_, _), .reference f nf w w' h1 h2, (hmean f nf st).trans hm⟩
  · rintro ⟨c, eff⟩ ws st r _ h hm
    unfold BodyAll at h
    dsimp only at h
    generalize hn : "reference" = y at h
    cases h with
    | reference f nf w w' h1 h2 => exact ⟨(f, nf), both_iff.2 ⟨w, w', rfl, h1, h2⟩, (hmean f nf st).symm.trans hm⟩
    | _ => exact absurd hn (by decide)

/-! ### The table of commands -/

theorem bytes_inj {x y : String} (h : bytes x = bytes y) : x = y := by
  have hi : ∀ (l l' : List Char), l.map Char.toNat = l'.map Char.toNat → l = l' := by
    intro l
    induction l with
    | nil => intro l' h; cases l' with | nil => rfl | cons _ _ => cases h
    | cons c l ih =>
      intro l' h
      cases l' with
      | nil => cases h
      | cons c' l' =>
        simp only [List.map_cons, List.cons.injEq] at h
        rw [ih _ h.2, Char.toNat_inj.1 h.1]
  exact String.toList_injective (hi _ _ h)

/-- every entry of the table reads the command of its name -/
theorem table_reads {p : List Nat × Rd After} (h : p ∈ cmdTable b n o isRef) : ∃ x, p.1 = bytes x ∧ ReadsAll fl b n o isRef x p.2 := by
  have hx : ∀ {x : String} {q : Rd Unit}, ReadsCmd fl b n q (BodyOf o isRef x) →
      (x ≠ "exit" ∧ x ≠ "include" ∧ x ≠ "reference" ∧ x ≠ "set-option") → ReadsAll fl b n o isRef x q.next := by
    rintro x q hq ⟨h1, h2, h3, h4⟩
    refine hq.next b n o isRef ?_
    intro c eff w hb
    cases hb <;> first | exact ⟨rfl, trivial⟩ | contradiction
  simp only [cmdTable, List.mem_append, commonTable, List.map_cons, List.map_nil, List.mem_cons, List.not_mem_nil, or_false] at h
  rcases h with (rfl | rfl | rfl | rfl | rfl | rfl | rfl | rfl | rfl | rfl) | h
  · exact ⟨_, rfl, hx (reads_declareConst b n o isRef) (by decide)⟩
  · exact ⟨_, rfl, hx (reads_declareDatatype b n o isRef) (by decide)⟩
  · exact ⟨_, rfl, hx (reads_declareDatatypes b n o isRef) (by decide)⟩
  · exact ⟨_, rfl, hx (reads_declareSort b n o isRef) (by decide)⟩
  · exact ⟨_, rfl, reads_echo b n o isRef⟩
  · exact ⟨_, rfl, reads_exit b n o isRef⟩
  · cases isRef
    · exact ⟨_, rfl, reads_setOption b n o⟩
    · exact ⟨_, rfl, reads_setOptionRef b n o⟩
  · exact ⟨_, rfl, reads_pop b n o isRef⟩
  · exact ⟨_, rfl, reads_push b n o isRef⟩
  · exact ⟨_, rfl, reads_reset b n o isRef⟩
  · cases isRef
    · simp only [Bool.false_eq_true, if_false, fileTable, List.mem_cons, List.not_mem_nil, or_false] at h
      rcases h with rfl | rfl | rfl | rfl | rfl | rfl | rfl | rfl | rfl | rfl | rfl
      · exact ⟨_, rfl, hx (reads_assume b n o false false) (by decide)⟩
      · exact ⟨_, rfl, hx (reads_assume b n o false true) (by decide)⟩
      · exact ⟨_, rfl, hx (reads_declareConsts b n o false) (by decide)⟩
      · exact ⟨_, rfl, hx (reads_declareParam b n o false) (by decide)⟩
      · exact ⟨_, rfl, hx (reads_declareRule b n o false) (by decide)⟩
      · exact ⟨_, rfl, hx (reads_define b n o false) (by decide)⟩
      · exact ⟨_, rfl, reads_include b n o false⟩
      · exact ⟨_, rfl, hx (reads_program b n o false) (by decide)⟩
      · exact ⟨_, rfl, reads_reference b n o false⟩
      · exact ⟨_, rfl, hx (reads_step b n o false false) (by decide)⟩
      · exact ⟨_, rfl, hx (reads_step b n o false true) (by decide)⟩
    · simp only [if_true, refTable, List.mem_cons, List.not_mem_nil, or_false] at h
      rcases h with rfl | rfl | rfl | rfl | rfl | rfl | rfl | rfl | rfl
      · exact ⟨_, rfl, hx (reads_assert b n o true) (by decide)⟩
      · exact ⟨_, rfl, hx (reads_declareFun b n o true) (by decide)⟩
      · exact ⟨_, rfl, hx (reads_defineConst b n o true) (by decide)⟩
      · exact ⟨_, rfl, hx (reads_defineFun b n o true) (by decide)⟩
      · exact ⟨_, rfl, hx (reads_defineSort b n o true) (by decide)⟩
      · exact ⟨_, rfl, reads_checkSat b n o⟩
      · exact ⟨_, rfl, reads_checkSatAssuming b n o⟩
      · exact ⟨_, rfl, reads_setLogic b n o⟩
      · exact ⟨_, rfl, reads_setInfo b n o⟩

/-- the names of the table -/
theorem table_names : (cmdTable b n o isRef).map (·.1) = (["declare-const", "declare-datatype", "declare-datatypes", "declare-sort", "echo", "exit",
    "set-option", "pop", "push", "reset"] ++ if isRef then ["assert", "declare-fun", "define-const", "define-fun", "define-sort", "check-sat",
    "check-sat-assuming", "set-logic", "set-info"] else ["assume", "assume-push", "declare-consts", "declare-parameterized-const", "declare-rule",
    "define", "include", "program", "reference", "step", "step-pop"]).map bytes := by
  cases isRef <;> rfl

/-- a command is in the table if it is allowed -/
theorem table_iff {x : String} {c eff w} (h : Body (tokSem o) true isRef x c eff w) :
    bytes x ∈ (cmdTable b n o isRef).map (·.1) ↔ c.allowed isRef = true := by
  rw [table_names, List.mem_map]
  have hb : (∃ a, a ∈ (["declare-const", "declare-datatype", "declare-datatypes", "declare-sort", "echo", "exit",
    "set-option", "pop", "push", "reset"] ++ if isRef then ["assert", "declare-fun", "define-const", "define-fun", "define-sort", "check-sat",
    "check-sat-assuming", "set-logic", "set-info"] else ["assume", "assume-push", "declare-consts", "declare-parameterized-const", "declare-rule",
    "define", "include", "program", "reference", "step", "step-pop"]) ∧ bytes a = bytes x) ↔ x ∈ (["declare-const", "declare-datatype", "declare-datatypes", "declare-sort", "echo", "exit",
    "set-option", "pop", "push", "reset"] ++ if isRef then ["assert", "declare-fun", "define-const", "define-fun", "define-sort", "check-sat",
    "check-sat-assuming", "set-logic", "set-info"] else ["assume", "assume-push", "declare-consts", "declare-parameterized-const", "declare-rule",
    "define", "include", "program", "reference", "step", "step-pop"]) := by
    constructor
    · rintro ⟨a, h, he⟩
      rwa [← bytes_inj he]
    · intro h
      exact ⟨x, h, rfl⟩
  rw [hb]
  cases h <;> cases isRef <;> simp [Cmd.allowed] at *

theorem readCmd_iff {isRef : Bool} {toks : List Tk} {st : State} {s : List Nat} {rest : List Tk} {st' : State} {af : After} (hg : GoodToks fl toks) :
    readCmd b n o isRef toks st = .ok ((.RPAREN, s) :: rest, st', af) ↔
      ∃ x c eff w, toks = (.SYMBOL, bytes x) :: w ++ (.RPAREN, s) :: rest ∧ Body (tokSem o) true isRef x c eff w ∧ c.allowed isRef = true ∧
        cmdRun b n (c, eff) st = .ok (st', af) := by
  match toks, hg with
  | [], _ =>
    constructor
    · intro h
      cases h
    · rintro ⟨_, _, _, _, h, _⟩
      cases h
  | (k, v) :: r, hg =>
    unfold readCmd
    simp only [tokenStr_eq hg.head.null]
    have hcl : AtClose ((.RPAREN, s) :: rest) := ⟨_, _, rfl⟩
    constructor
    · intro h
      split at h
      case isFalse => cases h
      case isTrue hk =>
      cases hk
      split at h
      case h_2 => cases h
      case h_1 p hp =>
      have hm := List.mem_of_find?_eq_some hp
      have hv := List.find?_some hp
      simp only [decide_eq_true_eq] at hv
      obtain ⟨x, hx, hr⟩ := table_reads (fl := fl) b n o isRef hm
      obtain ⟨⟨c, eff⟩, w, rfl, hb, he⟩ := (hr.iff hg.tail hcl).1 h
      refine ⟨x, c, eff, w, by rw [← hv, hx]; rfl, hb, ?_, he⟩
      exact (table_iff b n o isRef hb).1 (hx ▸ List.mem_map_of_mem hm)
    · rintro ⟨x, c, eff, w, h, hb, ha, hm⟩
      obtain ⟨hk, rfl⟩ := List.cons.inj h
      cases hk
      rw [if_pos rfl]
      obtain ⟨q, hq, hqx⟩ := List.mem_map.1 ((table_iff b n o isRef hb).2 ha)
      cases hf : (cmdTable b n o isRef).find? fun p => decide (p.1 = bytes x) with
      | none => exact absurd hqx (by simpa using List.find?_eq_none.1 hf q hq)
      | some p =>
        have hv := List.find?_some hf
        simp only [decide_eq_true_eq] at hv
        obtain ⟨y, hy, hr⟩ := table_reads (fl := fl) b n o isRef (List.mem_of_find?_eq_some hf)
        obtain rfl : y = x := bytes_inj (hy.symm.trans hv)
        exact (hr.iff hg.tail hcl).2 ⟨(c, eff), w, rfl, hb, hm⟩

end
end Ethos.Props
