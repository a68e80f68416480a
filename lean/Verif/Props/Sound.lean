import Verif.Lemmas.Sound
/-
C37: what is proved follows from the assumptions by the declared rules.
-/
namespace Ethos.Props
open Ethos Kind Spec

section
variable {b : Env} {n n0 : Nat} {es : List Event} {st st' : State}

theorem Lev.init (hb : BaseOk b n0) (D : (Term → Prop) → Term → Prop) (A : Term → Prop) (hyp : Term) :
    Lev b n0 D A [⟨Alloc n0, A, hyp⟩] 0 (State.init b n0) := by
  have hF := Fresh.init hb
  have hbas : ∀ {t : Term}, Basic b n0 t → (⟨Alloc n0, A, hyp⟩ : Level).T b D t := fun h =>
    Built.of_basic (n := n0) (fun k i hi hk => ⟨k, i, rfl, hk, .inr hi⟩) h
  have hown : ∀ i, ¬ ∃ ty, Own b (builtinSym i) ty := by
    rintro i ⟨ty, h1⟩
    obtain ⟨k', i', h2, h3⟩ := hb.own _ _ h1
    cases h2
    rcases h3 with h3 | h3
    · cases h3
    · cases h3.1
  have hbi : ∀ i, (⟨Alloc n0, A, hyp⟩ : Level).T b D (builtinSym i) := fun i => .sym _ _ ⟨_, i, rfl, by simp, .inl rfl⟩ (hown i)
  have hinfo : ∀ t ai, (State.init b n0).decls.info t = some ai →
      (∃ i p, t = builtinSym i ∧ builtins[i]? = some p ∧ ai = ⟨.NONE, none, p.2, none⟩) ∨ t = b.listCons ∧ ai = ⟨.RIGHT_ASSOC_NIL, some b.listNil, NONE, none⟩ := by
    intro t ai h
    simp only [State.init] at h
    split at h
    · rename_i i
      simp only [Option.map_eq_some_iff] at h
      obtain ⟨p, h1, rfl⟩ := h
      exact .inl ⟨i, p, rfl, h1, rfl⟩
    · split at h
      · rename_i ht; cases h; exact .inr ⟨ht, rfl⟩
      · cases h
  refine ⟨⟨[], [], _, init_table b n0, rfl, by simp, by simp, ?_⟩, ?_, ?_, ?_, ?_, trivial, fun F => Iff.rfl⟩
  · intro p hp
    simp only [builtinNames, List.mem_reverse, List.mem_append, List.mem_map, List.mem_cons, List.not_mem_nil, or_false] at hp
    rcases hp with ⟨q, _, rfl⟩ | rfl | rfl | rfl | rfl | rfl
    · exact hbi _
    · exact .lit _
    · exact .lit _
    · exact hbas hb.listType
    · exact hbas hb.listNil
    · exact hbas hb.listCons
  · intro l hl
    rw [List.mem_singleton] at hl
    subst hl
    refine ⟨?_, hF.built.ownType, hF.built.onlySym, ?_, ?_, hF.built.kind, by simp [State.init], hbas hb.listCons, hbas hb.listNil, hbas hb.listType,
      hbas hb.proofType⟩
    · intro k i ty hn _ h
      exact hbas (hb.types _ _ hn h).2
    · intro t ai c _ h hc
      rcases hinfo t ai h with ⟨i, p, _, _, rfl⟩ | ⟨_, rfl⟩
      · cases hc
      · cases hc; exact hbas hb.listNil
    · intro t ai c _ h ha hc
      rcases hinfo t ai h with ⟨i, p, _, _, rfl⟩ | ⟨_, rfl⟩
      · cases hc
      · cases ha
  · intro t ht
    cases h : (State.init b n0).decls.info t with
    | none => exact absurd h ht
    | some ai =>
      rcases hinfo t ai h with ⟨i, p, rfl, _, _⟩ | ⟨rfl, _⟩
      · exact .inl ⟨_, _, rfl, hown i⟩
      · refine .inr fun l hl => ?_
        rw [List.mem_singleton] at hl
        rw [hl]
        exact hbas hb.listCons
  · intro l hl t ht
    rw [List.mem_singleton] at hl
    rw [hl] at ht
    exact ht
  · intro l hl t ht
    rw [List.mem_singleton] at hl
    rw [hl]
    exact ht

/-! ### Steps -/

/-- the derivations of a run -/
abbrev Der (b : Env) (n n0 : Nat) (es : List Event) : (Term → Prop) → Term → Prop :=
  Derives (RuleOf b n es (State.init b n0)) (EnvOf b n es (State.init b n0))

theorem Der.mono (Γ Γ' : Term → Prop) (F : Term) (h : ∀ G, Γ G → Γ' G) (hd : Der b n n0 es Γ F) : Der b n n0 es Γ' F := Derives.mono h hd

theorem Declares.plist {r : SRule} {d : RuleDef} {c : Term} (h : Declares b n st r d) (hc : d.plist = some c) : ∃ p, d.prems = [p] := by
  obtain ⟨s1, s2, s3, s4, s5, s6, _, _, h3, _⟩ := h
  cases hp : r.premises with
  | each es =>
    rw [hp] at h3
    simp only [parsePremises, Run.map_ok] at h3
    obtain ⟨p, _, h3⟩ := h3
    have := (Prod.mk.inj (Prod.mk.inj h3).2).2
    rw [hc] at this
    cases this
  | plist pat cons =>
    rw [hp] at h3
    simp only [parsePremises, Run.map_ok, Run.bind_ok] at h3
    obtain ⟨p, _, q, _, h3⟩ := h3
    exact ⟨_, (Prod.mk.inj (Prod.mk.inj h3).2).1.symm⟩

/-- proofs of the premises: the formulas they prove are derived, and are the premises of the rule -/
theorem premises_derived (hb : BaseOk b n0) {D : (Term → Prop) → Term → Prop} {l : Level} {env : Env} {d : RuleDef} {ctx : Ctx} {prems ps X Y : List Term}
    (hl : ∀ c, d.plist = some c → ∃ p, d.prems = [p]) (hT : ∀ t ∈ prems, l.T b D t) (hX : ∀ t ∈ X, l.T b D t) (h : Premises env d.plist prems ps)
    (hps : Y ++ d.prems.map (fun q => .node PROOF [subst (ctxSub ctx) q]) = X ++ ps) : ∃ qs, PremisesAre env d ctx qs ∧ ∀ q ∈ qs, D l.Γ q := by
  have hone : ps = prems → ∀ q ∈ d.prems.map (subst (ctxSub ctx)), D l.Γ q := by
    intro e q hq
    obtain ⟨p, hp, rfl⟩ := List.mem_map.1 hq
    have hm : Term.node PROOF [subst (ctxSub ctx) p] ∈ X ++ ps := by
      rw [← hps]; exact List.mem_append.2 (.inr (List.mem_map.2 ⟨p, hp, rfl⟩))
    have hT' : l.T b D (.node PROOF [subst (ctxSub ctx) p]) := by
      rcases List.mem_append.1 hm with hm | hm
      · exact hX _ hm
      · exact hT _ (e ▸ hm)
    obtain ⟨f, h1, h2, _⟩ := (Level.T_proof (BaseOk.ownSym hb)).1 hT'
    cases h1
    exact h2
  cases hc : d.plist with
  | none =>
    rw [hc] at h
    exact ⟨_, by simp only [PremisesAre, hc], hone h⟩
  | some c =>
    rw [hc] at h
    simp only [Premises] at h
    split at h
    · rename_i ha
      refine ⟨d.prems.map (subst (ctxSub ctx)), ?_, hone h⟩
      simp only [PremisesAre, hc]
      rw [if_pos ha]; trivial
    · rename_i ha
      obtain ⟨fs, f, h1, h2, rfl, h4, h5⟩ := h
      obtain ⟨p, hp⟩ := hl c hc
      rw [hp] at hps
      have hps := (List.append_inj' hps rfl).2
      simp only [List.map_cons, List.map_nil, List.cons.injEq, Term.node.injEq, true_and, and_true] at hps
      subst hps
      refine ⟨fs, ?_, ?_⟩
      · simp only [PremisesAre, hc]
        rw [if_neg ha]
        exact ⟨p, hp, h4, h5⟩
      · intro q hq
        obtain ⟨i, hi⟩ := List.mem_iff_getElem?.1 hq
        have hlt : i < prems.length := by
          rw [← h1]
          exact (List.getElem?_eq_some_iff.1 hi).1
        obtain ⟨g, r, e1, e2⟩ := h2 i prems[i] (List.getElem?_eq_getElem hlt)
        rw [hi] at e2
        cases e2
        have := hT prems[i] (List.getElem_mem hlt)
        rw [e1] at this
        obtain ⟨f, k1, k2, _⟩ := (Level.T_proof (BaseOk.ownSym hb)).1 this
        cases k1
        exact k2

theorem at_append {es es' : List Event} {st0 : State} {e : Event} {s : State} (h : At b n es st0 e s) : At b n (es ++ es') st0 e s := by
  induction h with
  | head e es st => exact .head _ _ _
  | tail e es st s1 e' s2 h1 _ ih => exact .tail _ _ _ _ _ _ h1 ih

theorem at_of_replay : ∀ (pre : List Event) {st0 s : State} (e : Event) (suf : List Event), replay b n pre st0 = .ok s → At b n (pre ++ e :: suf) st0 e s
  | [], st0, s, e, suf, h => by simp only [replay] at h; cases h; exact .head _ _ _
  | x :: pre, st0, s, e, suf, h => by
    simp only [replay, Run.bind_ok] at h
    obtain ⟨s1, h1, h2⟩ := h
    exact .tail _ _ _ _ _ _ h1 (at_of_replay pre e suf h2)

theorem replay_snoc : ∀ (pre : List Event) {st0 s s' : State} (e : Event), replay b n pre st0 = .ok s → replayEvent b n s e = .ok s' →
    replay b n (pre ++ [e]) st0 = .ok s'
  | [], st0, s, s', e, h, he => by simp only [replay] at h; cases h; simp [replay, he, Run.bind]
  | x :: pre, st0, s, s', e, h, he => by
    simp only [replay, Run.bind_ok] at h
    obtain ⟨s1, h1, h2⟩ := h
    simp only [List.cons_append, replay, h1, Run.bind]
    exact replay_snoc pre e h2 he

/-- the environment after reading is that of a state of the run -/
theorem env_of {a : Stack} {s3 : State} (ht : Refines st.scope a) (h : Refines s3.scope a)
    (h1 : s3.symType = st.symType) (h2 : s3.symName = st.symName) (h3 : s3.decls = st.decls) :
    s3.env b = ({ st with scope := { st.scope with mark := s3.scope.mark } } : State).env b := by
  have : s3.scope.ov = st.scope.ov := funext fun x => by rw [h.holds.ov, ht.holds.ov]
  simp only [State.env, h1, h2, h3, this]

/-- the invariant of a run -/
def Inv (b : Env) (n n0 : Nat) (es : List Event) (st : State) : Prop :=
  ∃ m ls, Fresh b n0 m st ∧ Lev b n0 (Der b n n0 es) (Assumed b n es (State.init b n0)) ls 0 st

theorem AsmOk.ne {A : Term → Prop} {asms : List Term} : ∀ {ks : List Nat} {ls : List Level}, AsmOk A asms ks ls → ∃ l low, ls = l :: low
  | _, l :: low, _ => ⟨l, low, rfl⟩
  | [], [], h => h.elim
  | _ :: _, [], h => h.elim

theorem AsmOk.base {A : Term → Prop} : ∀ {ks : List Nat} {asms : List Term} {ls : List Level} {l : Level}, AsmOk A asms ks (l :: ls) → Stacked (l :: ls) →
    ∀ F, A F → l.Γ F
  | [], asms, ls, l, h, _, F, hF => by
    obtain ⟨l', e, h⟩ := AsmOk.outer h
    cases e
    exact (h F).2 hF
  | k :: ks, asms, ls, l, h, hc, F, hF => by
    obtain ⟨l1, l', low, e, h1, h2⟩ := AsmOk.inner h
    cases e
    exact (hc.2.1 F).2 (.inr (AsmOk.base h2 hc.2.2 F hF))

theorem inv_step (hb : BaseOk b n0) {s : SStep} {pre suf : List Event} (H : Orderly b n (pre ++ .cmd (.step s) :: suf) (State.init b n0))
    (hr : replay b n pre (State.init b n0) = .ok st) (hI : Inv b n n0 (pre ++ .cmd (.step s) :: suf) st) (hs : exec b n st (.step s) = .ok st') :
    Inv b n n0 (pre ++ .cmd (.step s) :: suf) st' := by
  obtain ⟨m, ls, hf, HL⟩ := hI
  obtain ⟨l, low, rfl⟩ := AsmOk.ne HL.asms
  obtain ⟨m', _, hf'⟩ := Fresh.exec hb hf hs
  have hat := at_of_replay pre (.cmd (.step s)) suf hr
  obtain ⟨r, s0, d, g1, g2, g3, s1, s2, s3, rule, proven, prems, args, inputs, F, h1, h2, h3, i1, i2, i3, i4, i5, i6, i7, s4, h4, rfl⟩ :=
    step_instance hb hr hs fun r hr => H.nullary s r (at_mem hat) (by simp [hr])
  have hv : IsValue F := H.closed _ _ _ _ _ hat (.inr (.inr ⟨s, rfl, rfl⟩)) hs i5
  have W := levWorld (A := Assumed b n (pre ++ .cmd (.step s) :: suf) (State.init b n0)) hb (Der.mono (b := b) (n := n) (n0 := n0) (es := pre ++ .cmd (.step s) :: suf)) l.Γ l.hyp low
  obtain ⟨j1, p1⟩ := W.parseConc (w := (m, l.S)) (d := 0) ⟨hf, HL⟩ h1
  obtain ⟨j2, p2⟩ := W.parseList (w := (m, l.S)) (d := 0) _ (st := { s1 with used := rule :: s1.used })
    ⟨j1.1.congr rfl rfl rfl rfl j1.1.asms, j1.2.congr rfl rfl rfl rfl j1.2.asms⟩ h2
  obtain ⟨j3, p3⟩ := W.parseList (w := (m, l.S)) (d := 0) _ j2 h3
  -- the environment
  obtain ⟨tops, rest, g, t1, _⟩ := HL.table
  have o1 := parseConc_on (On.refl t1) h1
  have o2 := parseList_on (On.refl (st := { s1 with used := rule :: s1.used }) o1.table) h2
  have o3 := parseList_on o2 h3
  have hE : EnvOf b n (pre ++ .cmd (.step s) :: suf) (State.init b n0) (s3.env b) := by
    refine ⟨_, st, s3.scope.mark, hat, env_of t1 o3.table ?_ ?_ ?_⟩
    · rw [o3.same, o1.same]
    · rw [o3.same, o1.same]
    · rw [o3.same, o1.same]
  have hR : RuleOf b n (pre ++ .cmd (.step s) :: suf) (State.init b n0) d := ⟨r, s0, at_append g1, g3⟩
  -- the rule
  cases hp : s.isPop with
  | false =>
    rw [hp] at h4 i1
    simp only [Bool.false_eq_true, if_false] at h4
    cases h4
    have ha : d.asm = none := by
      have := i1.pop
      cases hd : d.asm with
      | none => rfl
      | some q => rw [hd] at this; cases this
    obtain ⟨ctx, e1, _, _, e4, e5, _⟩ := i2
    obtain ⟨as, ps, q1, q2, q3⟩ := i1.parts
    simp only [Bool.false_eq_true, if_false] at q2
    subst q2
    rw [q1] at e1
    simp only [RuleDef.pats, List.map_append, List.map_map] at e1
    obtain ⟨qs, k1, k2⟩ := premises_derived hb (l := ⟨l.S, l.Γ, l.hyp⟩) (D := Der b n n0 (pre ++ .cmd (.step s) :: suf)) (d := d) (ctx := ctx)
      (fun c hc => Declares.plist g3 hc) (fun t ht => (p2 t ht).2) (X := args ++ (if d.explicit then proven.toList else []) ++ [])
      (fun t ht => by
        simp only [List.append_nil, List.mem_append] at ht
        rcases ht with ht | ht
        · exact (p3 t ht).2
        · split at ht
          · exact (p1 t (Option.mem_toList.1 ht)).2
          · simp at ht) q3 (Y := d.args.map (subst (ctxSub ctx)) ++ (if d.explicit then [d.conc] else []).map (subst (ctxSub ctx)) ++ d.asm.toList.map (subst (ctxSub ctx))) (by
        rw [← e1]
        congr 1)
    have hD : Der b n n0 (pre ++ .cmd (.step s) :: suf) l.Γ F := .rule _ d _ ctx qs F hR ha hE ⟨k1, e4, e5⟩ k2
    exact ⟨m', l :: low, hf', j3.2.bind (T_proof_of hb hD hv)⟩
  | true =>
    rw [hp] at h4 i1
    simp only [if_true] at h4
    obtain ⟨k, ks, c1, c2⟩ := popAssumption_ok h4
    have hl : args.length = d.args.length := by
      rw [parseList_length _ h3, H.args s r (at_mem hat) (by simp [at_mem g1]) g2 hp]
      obtain ⟨_, _, _, _, _, _, _, _, _, z, _⟩ := g3
      exact (parseList_length _ z).symm
    obtain ⟨ctx, ps, e1, e2, e3, e4, e5, e6, e7⟩ := Instance.aligned i2 i1 hl
    have ha := j3.2.asms
    rw [c1] at ha
    obtain ⟨l1, l', low', el, ha1, ha2⟩ := AsmOk.inner ha
    cases el
    obtain ⟨q, hq⟩ : ∃ q, d.asm = some q := by
      have := i1.pop
      cases hd : d.asm with
      | none => rw [hd] at this; cases this
      | some q => exact ⟨q, rfl⟩
    obtain ⟨k', ks', c3, c4⟩ := e3 q hq
    rw [c1] at c3
    cases c3
    rw [ha1] at c4
    have c4 : l.hyp = subst (ctxSub ctx) q := Option.some.inj c4
    obtain ⟨qs, k1, k2⟩ := premises_derived hb (l := ⟨l.S, l.Γ, l.hyp⟩) (D := Der b n n0 (pre ++ .cmd (.step s) :: suf)) (d := d) (ctx := ctx)
      (fun c hc => Declares.plist g3 hc) (fun t ht => (p2 t ht).2) (X := []) (by simp) e4 (Y := []) (by rw [e5])
    have hD : Der b n n0 (pre ++ .cmd (.step s) :: suf) l'.Γ F := by
      refine .discharge _ d q _ ctx qs F hR hq hE ⟨k1, e6, e7⟩ fun p hp => Derives.mono ?_ (k2 p hp)
      intro G hG
      rw [← c4]
      exact (j3.2.chain.2.1 G).1 hG
    have hc := j3.2.closed c1 c2
    exact ⟨m', l' :: low', hf', hc.bind (T_proof_of hb hD hv)⟩

theorem inv_event (hb : BaseOk b n0) {e : Event} {pre suf : List Event} (H : Orderly b n (pre ++ e :: suf) (State.init b n0))
    (hr : replay b n pre (State.init b n0) = .ok st) (hI : Inv b n n0 (pre ++ e :: suf) st) (hs : replayEvent b n st e = .ok st') :
    Inv b n n0 (pre ++ e :: suf) st' := by
  have hat := at_of_replay pre e suf hr
  have hI0 := hI
  obtain ⟨m, ls, hf, HL⟩ := hI
  obtain ⟨l, low, rfl⟩ := AsmOk.ne HL.asms
  have hDm := Der.mono (b := b) (n := n) (n0 := n0) (es := pre ++ e :: suf)
  have W := levWorld (A := Assumed b n (pre ++ e :: suf) (State.init b n0)) hb hDm l.Γ l.hyp low
  have hout : st.asmCtx = [] → low = [] := by
    intro h
    have := HL.asms
    rw [h] at this
    obtain ⟨l', e, _⟩ := AsmOk.outer this
    cases e
    rfl
  obtain ⟨m', _, hf'⟩ := Fresh.event hb hf hs
  cases e with
  | enter f r nf =>
    simp only [replayEvent, Run.map_ok] at hs
    obtain ⟨⟨s1, t⟩, h1, rfl⟩ := hs
    have i1 := (W.parseOpt (w := (m, l.S)) (d := 0) ⟨hf, HL⟩ h1).1
    exact ⟨m', _, hf', i1.2.congr rfl rfl rfl rfl i1.2.asms⟩
  | skip f r nf =>
    simp only [replayEvent, Run.map_ok] at hs
    obtain ⟨⟨s1, t⟩, h1, rfl⟩ := hs
    have i1 := (W.parseOpt (w := (m, l.S)) (d := 0) ⟨hf, HL⟩ h1).1
    exact ⟨m', _, hf', i1.2⟩
  | cmd c =>
    have hs' : exec b n st c = .ok st' := hs
    by_cases hd : World.isDecl c = true
    · obtain ⟨w, _, i1⟩ := W.exec (w := (m, l.S)) (d := 0) ⟨hf, HL⟩ hd (fun x ps as ret cs ec => by
        subst ec
        by_cases ho : st.asmCtx = []
        · obtain rfl := hout ho
          exact .inl fun w' t ht => ⟨ht, .inl rfl⟩
        · refine .inr ?_
          obtain ⟨tops, rest, g, t1, _⟩ := HL.table
          refine program_new t1 (fun hc => ?_) hs'
          cases cs with
          | none => cases hc
          | some cs => exact (H.program _ _ _ _ _ _ hat).resolve_left ho) hs'
      exact ⟨_, _, i1⟩
    · cases c with
      | assume x f =>
        obtain ⟨s1, F, h1, h2⟩ := execAssume_ok hs'
        obtain ⟨i1, p1⟩ := W.parseFormula (w := (m, l.S)) (d := 0) ⟨hf, HL⟩ h1
        simp only [Bool.false_eq_true, if_false] at h2
        obtain ⟨rfl, _⟩ := addAssumption_ok h2
        have hv : IsValue F := H.closed _ _ _ x _ hat (.inl ⟨f, rfl⟩) hs (by simp [State.bind, Scope.bind, Scope.get, mkProof])
        have hA : Assumed b n (pre ++ .cmd (.assume x f) :: suf) (State.init b n0) F := ⟨x, f, st, s1, hat, h1⟩
        have hΓ : l.Γ F := AsmOk.base HL.asms HL.chain F hA
        exact ⟨m', l :: low, hf', i1.2.assume hb (.hyp _ _ hΓ) hv⟩
      | assumePush x f =>
        obtain ⟨s1, F, h1, h2⟩ := execAssume_ok hs'
        obtain ⟨i1, p1⟩ := W.parseFormula (w := (m, l.S)) (d := 0) ⟨hf, HL⟩ h1
        simp only [if_true] at h2
        obtain ⟨rfl, _⟩ := addAssumption_ok h2
        have hv : IsValue F := H.closed _ _ _ x _ hat (.inr (.inl ⟨f, rfl⟩)) hs (by simp [State.bind, Scope.bind, Scope.get, mkProof])
        exact ⟨m', _, hf', i1.2.opened hb hDm (.hyp _ _ (.inl rfl)) hv i1.1⟩
      | declareRule r =>
        obtain ⟨m1, S', i1, i2⟩ := Lev.declareRule hb hDm HL hf hs'
        exact ⟨m1, _, i1, i2⟩
      | step s => exact inv_step hb H hr hI0 hs'
      | reset => exact absurd (at_mem hat) H.reset
      | push k =>
        obtain rfl := hout (H.push k st hat)
        simp only [Ethos.exec] at hs'
        cases hs'
        exact ⟨m', _, hf', HL.pushN k⟩
      | pop k =>
        obtain rfl := hout (H.pop k st hat)
        exact ⟨m', _, hf', HL.popN k hs'⟩
      | declareConsts k ty =>
        obtain rfl := hout (H.consts k ty st hat)
        exact ⟨m', _, hf', HL.declareConsts hb hDm hf hs'⟩
      | _ => exact absurd rfl hd

theorem inv_replay (hb : BaseOk b n0) : ∀ (suf : List Event) {pre : List Event} {st st' : State}, Orderly b n (pre ++ suf) (State.init b n0) →
    replay b n pre (State.init b n0) = .ok st → Inv b n n0 (pre ++ suf) st → replay b n suf st = .ok st' → Inv b n n0 (pre ++ suf) st'
  | [], pre, st, st', _, _, hI, h => by simp only [replay] at h; cases h; exact hI
  | e :: suf, pre, st, st', H, hr, hI, h => by
    simp only [replay, Run.bind_ok] at h
    obtain ⟨s1, h1, h2⟩ := h
    have hI' := inv_event hb H hr hI h1
    have ea : pre ++ e :: suf = (pre ++ [e]) ++ suf := by simp
    rw [ea] at H hI' ⊢
    exact inv_replay hb suf H (replay_snoc pre e hr h1) hI' h2

/-! ### The property -/

/-- C37, inside of assumption scopes: a formula proved in an orderly run is derived with the declared rules from the assumed formulas
and the open hypotheses.  (Partial: the conditions of `Orderly`.) -/
theorem C37_open_partial (hb : BaseOk b n0) (H : Orderly b n es (State.init b n0)) (hr : replay b n es (State.init b n0) = .ok st) {x : Name} {F : Term}
    (hx : st.scope.get x = some (.node PROOF [F])) :
    Derives (RuleOf b n es (State.init b n0)) (EnvOf b n es (State.init b n0)) (fun G => Assumed b n es (State.init b n0) G ∨ OpenHyp st G) F := by
  obtain ⟨m, ls, hf, HL⟩ := inv_replay hb es (pre := []) H rfl ⟨n0, _, Fresh.init hb, Lev.init hb _ _ tTrue⟩ hr
  obtain ⟨l, low, rfl⟩ := AsmOk.ne HL.asms
  obtain ⟨f, h1, h2, _⟩ := (Level.T_proof (BaseOk.ownSym hb)).1 ((HL.shown Der.mono).1 _ _ hx)
  cases h1
  exact Derives.mono (AsmOk.hyps HL.asms HL.chain) h2

/-- C37: outside of assumption scopes, a formula proved in an orderly run is derived with the declared rules from the assumed formulas
alone.  (Partial: the conditions of `Orderly`.) -/
theorem C37_partial (hb : BaseOk b n0) (H : Orderly b n es (State.init b n0)) (hr : replay b n es (State.init b n0) = .ok st) {x : Name} {F : Term}
    (hx : st.scope.get x = some (.node PROOF [F])) (ho : st.asmCtx = []) :
    Derives (RuleOf b n es (State.init b n0)) (EnvOf b n es (State.init b n0)) (Assumed b n es (State.init b n0)) F := by
  refine Derives.mono ?_ (C37_open_partial hb H hr hx)
  rintro G (h | ⟨k, hk, _⟩)
  · exact h
  · rw [ho] at hk; cases hk

end

/-! ### A run that meets the conditions -/

/-- a condition on the events and the states they are executed in and lead to -/
def checkAt (b : Env) (n : Nat) (p : Event → State → State → Bool) : List Event → State → Bool
  | [], _ => true
  | e :: es, st => match replayEvent b n st e with
    | .ok s => p e st s && checkAt b n p es s
    | _ => false

theorem checkAt_at {b : Env} {n : Nat} {p : Event → State → State → Bool} {es : List Event} {st0 : State} {e : Event} {s : State}
    (h : At b n es st0 e s) : checkAt b n p es st0 = true → ∃ s', replayEvent b n s e = .ok s' ∧ p e s s' = true := by
  induction h with
  | head e es st =>
    intro hc
    simp only [checkAt] at hc
    split at hc
    · rename_i s hs
      simp only [Bool.and_eq_true] at hc
      exact ⟨s, hs, hc.1⟩
    · cases hc
  | tail e es st s1 e' s2 h1 _ ih =>
    intro hc
    simp only [checkAt, h1, Bool.and_eq_true] at hc
    exact ih hc.2

/-- the conditions on single events -/
def orderlyEvent (e : Event) (s s' : State) : Bool :=
  match e with
  | .cmd .reset | .cmd (.push _) | .cmd (.pop _) | .cmd (.declareConsts ..) => false
  | .cmd (.program x _ _ _ (some _)) => s.asmCtx == [] || s.scope.get x == none
  | .cmd (.assume x _) | .cmd (.assumePush x _) => closedAt s' x
  | .cmd (.step t) => closedAt s' t.name
  | _ => true
where
  closedAt (s : State) (x : Name) : Bool :=
    match s.scope.get x with
    | some (.node PROOF [F]) => F.ground && !F.evaluatable
    | _ => true

theorem closedAt_value {s : State} {x : Name} {F : Term} (h : orderlyEvent.closedAt s x = true) (hx : s.scope.get x = some (.node PROOF [F])) :
    IsValue F := by
  simp only [orderlyEvent.closedAt, hx, Bool.and_eq_true, Bool.not_eq_true'] at h
  exact (isValue_iff _).2 h

theorem orderly_of {b : Env} {n : Nat} {es : List Event} {st0 : State} (h : checkAt b n orderlyEvent es st0 = true)
    (h1 : .cmd .reset ∉ es)
    (h2 : ∀ s r, .cmd (.step s) ∈ es → .cmd (.declareRule r) ∈ es → r.name = s.rule → s.isPop = true → s.args.length = r.args.length)
    (h3 : ∀ s r, .cmd (.step s) ∈ es → .cmd (.declareRule r) ∈ es → r.name = s.rule → Nullary r → s.args = [] ∧ s.premises = []) :
    Orderly b n es st0 where
  reset := h1
  push k s hs := by obtain ⟨_, _, hp⟩ := checkAt_at hs h; cases hp
  pop k s hs := by obtain ⟨_, _, hp⟩ := checkAt_at hs h; cases hp
  consts k ty s hs := by obtain ⟨_, _, hp⟩ := checkAt_at hs h; cases hp
  program x ps as ret cs s hs := by
    obtain ⟨_, _, hp⟩ := checkAt_at hs h
    simpa [orderlyEvent] using hp
  closed e s s' x F hs hc hr hx := by
    obtain ⟨s'', hr', hp⟩ := checkAt_at hs h
    rw [hr] at hr'
    cases hr'
    rcases hc with ⟨f, rfl⟩ | ⟨f, rfl⟩ | ⟨t, rfl, rfl⟩
    · exact closedAt_value hp hx
    · exact closedAt_value hp hx
    · exact closedAt_value hp hx
  args := h2
  nullary := h3

/-- C37: modus ponens under the assumption `p`, and the introduction of `(=> p q)` -/
def introCmds : List Cmd := mpCmds ++ [.step mpStep, .step introStep]

/-- C37: the conditions are met by the run that proves `(=> p q)` -/
theorem intro_orderly : Orderly exB 10 (introCmds.map .cmd) (State.init exB 10) := by
  refine orderly_of (by decide +kernel) (by simp [introCmds, mpCmds]) ?_ ?_
  · intro s r hs hr hn hp
    simp only [introCmds, mpCmds, List.map_cons, List.map_nil, List.mem_cons, Event.cmd.injEq, Cmd.declareRule.injEq, Cmd.step.injEq, reduceCtorEq,
      false_or, or_false, List.not_mem_nil, List.cons_append, List.nil_append] at hs hr
    rcases hs with rfl | rfl <;> rcases hr with rfl | rfl <;> rfl
  · intro s r _ hr _ hN
    simp only [introCmds, mpCmds, List.map_cons, List.map_nil, List.mem_cons, Event.cmd.injEq, Cmd.declareRule.injEq, reduceCtorEq,
      false_or, or_false, List.not_mem_nil, List.cons_append, List.nil_append] at hr
    rcases hr with rfl | rfl
    · exact absurd hN.2.2.2 (by simp)
    · exact absurd hN.2.2.1 (by simp)

/-- C37: and it proves `(=> p q)` -/
example : ∃ st, replay exB 10 (introCmds.map .cmd) (State.init exB 10) = .ok st ∧
    st.asmCtx = [] ∧ st.scope.get (nm "t") = some (.node PROOF [.node APPLY [.node APPLY [.sym CONST 10, .sym CONST 11], .sym CONST 12]]) := by
  have h : (exRun introCmds).map (fun st => (st.asmCtx, st.scope.get (nm "t"))) =
      .ok ([], some (.node PROOF [.node APPLY [.node APPLY [.sym CONST 10, .sym CONST 11], .sym CONST 12]])) := by decide +kernel
  obtain ⟨st, h1, h2⟩ := Run.map_ok.1 h
  exact ⟨st, h1, (Prod.mk.inj h2).1, (Prod.mk.inj h2).2⟩

/-! ### Runs that do not -/

/-- a rule that discharges any assumption and concludes `true` -/
def closeRule : SRule := { name := nm "close", params := boolParams ["F"], assumption := some (sy "F"), conc := .lit (.bool true) }
def closeStep : SStep := { name := nm "t", rule := nm "close", isPop := true }

theorem only_true {R : RuleDef → Prop} {E : Env → Prop} {Γ : Term → Prop} {F : Term} (hR : ∀ d, R d → d.conc = tTrue) (hΓ : ∀ G, Γ G → G = tTrue)
    (h : Derives R E Γ F) : F = tTrue := by
  have key : ∀ (env : Env) (ctx : Ctx), EvaluatesTo env ctx tTrue F → F = tTrue := by
    rintro env ctx ⟨n, h⟩
    obtain ⟨m, h'⟩ := value_eval env ctx tTrue ((isValue_iff _).2 (by decide))
    exact ops_det env (fun o => o.evaluate tTrue ctx) (fun o o' ho => ho.evaluate _ _) h h'
  cases h with
  | hyp _ _ h => exact hΓ _ h
  | rule _ d env ctx ps _ h1 _ _ h4 _ => exact key env ctx (hR d h1 ▸ h4.2.2)
  | discharge _ d q env ctx ps _ h1 _ _ h4 _ => exact key env ctx (hR d h1 ▸ h4.2.2)

/-- the commands prove `false` outside of all assumption scopes, are accepted, and `false` is not derivable from the assumptions -/
def ProvesFalse (cmds : List Cmd) (x : String) : Prop :=
  runEx cmds x = .ok (some (.node PROOF [tFalse]), .correct) ∧
  ∃ st, replay exB 10 (cmds.map .cmd) (State.init exB 10) = .ok st ∧ st.asmCtx = [] ∧ st.scope.get (nm x) = some (.node PROOF [tFalse]) ∧
    ¬ Derives (RuleOf exB 10 (cmds.map .cmd) (State.init exB 10)) (EnvOf exB 10 (cmds.map .cmd) (State.init exB 10))
      (Assumed exB 10 (cmds.map .cmd) (State.init exB 10)) tFalse

theorem provesFalse {cmds : List Cmd} {x : String} (h1 : runEx cmds x = .ok (some (.node PROOF [tFalse]), .correct))
    (h2 : (exRun cmds).map (fun st => (st.asmCtx, st.scope.get (nm x))) = .ok ([], some (.node PROOF [tFalse])))
    (h3 : ∀ r, Cmd.declareRule r ∈ cmds → r.conc = .lit (.bool true)) (h4 : ∀ x f, Cmd.assume x f ∈ cmds → f = .lit (.bool true)) : ProvesFalse cmds x := by
  obtain ⟨st, k1, k2⟩ := Run.map_ok.1 h2
  refine ⟨h1, st, k1, (Prod.mk.inj k2).1, (Prod.mk.inj k2).2, fun hd => ?_⟩
  have := only_true ?_ ?_ hd
  · cases this
  · rintro d ⟨r, s, hat, s1, s2, s3, s4, s5, s6, _, _, _, _, _, h, _⟩
    have hr := h3 r (by simpa using at_mem hat)
    rw [hr] at h
    simp only [parseExpr, Run.ok.injEq, Prod.mk.injEq] at h
    exact h.2.symm
  · rintro G ⟨y, f, s, s', hat, h⟩
    have hf := h4 y f (by simpa using at_mem hat)
    subst hf
    have h := parseFormula_elab h
    simp only [parseExpr] at h
    cases h
    rfl

/-- a `push` after `assume-push` is undone by the `step-pop` in place of the scope of the assumption -/
theorem C37_push_refuted : ProvesFalse [.declareRule closeRule, .assumePush (nm "h") (.lit (.bool false)), .push 1, .step closeStep] "h" :=
  provesFalse (by decide +kernel) (by decide +kernel) (by simp [closeRule]) (by simp)

/-- `reset` keeps the bindings that were shadowed, and the end of a scope brings them back -/
theorem C37_reset_refuted : ProvesFalse [.assumePush (nm "h") (.lit (.bool false)), .define (nm "h") [] (.lit (.bool true)) [], .reset,
    .push 1, .define (nm "h") [] (.lit (.bool true)) [], .pop 1] "h" :=
  provesFalse (by decide +kernel) (by decide +kernel) (by simp) (by simp)

/-- the definition of a program declared before may contain the local proofs -/
theorem C37_program_refuted : ProvesFalse [.declareRule closeRule, .assume (nm "h0") (.lit (.bool true)),
    .define (nm "PT") [] (ap "eo::typeof" [sy "h0"]) [],
    .program (nm "f") (boolParams ["x"]) [.bool] (sy "PT") none,
    .assumePush (nm "h") (.lit (.bool false)),
    .program (nm "f") (boolParams ["x"]) [.bool] (sy "PT") (some [(ap "f" [sy "x"], sy "h")]), .step closeStep,
    .define (nm "z") [] (ap "f" [.lit (.bool true)]) []] "z" :=
  provesFalse (by decide +kernel) (by decide +kernel) (by simp [closeRule]) (by simp)

/-- and so may the type of literals -/
theorem C37_consts_refuted : ProvesFalse [.declareRule closeRule, .assume (nm "h0") (.lit (.bool true)),
    .define (nm "PT") [] (ap "eo::typeof" [sy "h0"]) [],
    .declareConst (nm "C") (ap "->" [sy "PT", .type]) [],
    .program (nm "f") [⟨nm "x", sy "PT", []⟩] [.type] (sy "PT") (some [(ap "f" [ap "C" [sy "x"]], sy "x")]),
    .assumePush (nm "h") (.lit (.bool false)), .declareConsts NUMERAL (ap "C" [sy "h"]), .step closeStep,
    .define (nm "z") [] (ap "f" [ap "eo::typeof" [.lit (.num 1)]]) []] "z" :=
  provesFalse (by decide +kernel) (by decide +kernel) (by simp [closeRule]) (by simp)

/-- **C37** without its conditions is false. -/
theorem C37_refuted : ¬ ∀ (b : Env) (n n0 : Nat) (es : List Event) (st : State) (x : Name) (F : Term), BaseOk b n0 →
    replay b n es (State.init b n0) = .ok st → st.scope.get x = some (.node PROOF [F]) → st.asmCtx = [] →
    Derives (RuleOf b n es (State.init b n0)) (EnvOf b n es (State.init b n0)) (Assumed b n es (State.init b n0)) F := by
  intro hall
  obtain ⟨_, st, h1, h2, h3, h4⟩ := C37_push_refuted
  exact h4 (hall exB 10 10 _ st _ _ exB_ok h1 h3 h2)

end Ethos.Props
