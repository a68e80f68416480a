import Verif.Lemmas.Zone
import Verif.Props.OpTypes
/-
`eo::self` is only used in the type rules of literals.
-/
namespace Ethos.Props
open Ethos Kind Spec

/-- a term made of existing symbols other than `eo::self` -/
def Pure (b : Env) (m : Nat) : Term → Prop := Built b false (fun t => Alloc m t ∧ t ≠ b.self) (fun _ => True)

variable {b : Env} {n0 m : Nat} {st st' : State}

theorem Pure.mono {m m' : Nat} (h : m ≤ m') {t : Term} (ht : Pure b m t) : Pure b m' t :=
  Built.mono (fun t ht => by
    obtain ⟨⟨k, i, rfl, h1, h2⟩, h3⟩ := ht
    exact ⟨⟨k, i, rfl, h1, h2.imp id fun h2 => by omega⟩, h3⟩) (fun _ h => h) ht

theorem Pure.old {t : Term} (h : Pure b m t) : Old b m t := Built.mono (fun _ h => h.1) (fun _ h => h) h

theorem Pure.of_basic (hn : n0 ≤ m) {t : Term} (h : Basic b n0 t) (hs : ¬ Sub b.self t) : Pure b m t := by
  induction t using Term.induct' with
  | h t ih =>
    cases t with
    | sym k i =>
      have := (h _ (.refl _)).1 k i rfl
      exact .sym k i ⟨⟨k, i, rfl, this.2.1, .inr (by omega)⟩, fun he => hs (he ▸ .refl _)⟩ this.2.2
    | lit l => exact .lit l
    | node k cs =>
      have h0 := (h _ (.refl _)).2
      refine .node k cs ⟨h0.2.1, h0.1, h0.2.2 _ _ rfl⟩ ?_
      intro c hc
      exact ih c hc (fun s hs => h s (.child _ _ _ _ hc hs)) fun hs' => hs (.child _ _ _ _ hc hs')

/-- `eo::self` does not occur in such a term -/
theorem Pure.noSelf (hb : BaseOk b n0) (hs : SelfOk b) {t : Term} (h : Pure b m t) : ¬ Sub b.self t := by
  obtain ⟨i, hi⟩ := hs.param
  rw [hi]
  have hno : ¬ ∃ ty, Own b (.sym PARAM i) ty := by
    rintro ⟨ty, ho⟩
    obtain ⟨k, j, h1, h2⟩ := hb.own _ _ ho
    cases h1
    rcases h2 with h2 | h2
    · cases h2
    · cases h2.1
  induction h with
  | lit l => intro h; cases h
  | sym k j h1 _ => intro h; cases h; exact h1.2 hi.symm
  | own v ty ho _ _ =>
    obtain ⟨k, j, rfl, _⟩ := hb.own _ _ ho
    intro h; cases h; exact hno ⟨ty, ho⟩
  | node k cs _ _ ih => intro h; cases h with | child _ _ _ hc hs => exact ih _ hc hs
  | lambda cs _ _ ih => intro h; cases h with | child _ _ _ hc hs => exact ih _ hc hs
  | proof cs _ _ ih => intro h; cases h with | child _ _ _ hc hs => exact ih rfl _ hc hs

theorem Pure.parts (hb : BaseOk b n0) {k : Kind} {cs : List Term} (h : Pure b m (.node k cs)) : ∀ c ∈ cs, Pure b m c := by
  by_cases h1 : k = PROOF
  · subst h1; exact ((Built.proof_iff (BaseOk.ownSym hb)).1 h).2 rfl
  · by_cases h2 : k = LAMBDA
    · subst h2; exact ((Built.lambda_iff (BaseOk.ownSym hb)).1 h).1
    · exact (Built.node_iff (BaseOk.ownSym hb) ⟨h1, h2, Built.leaf (BaseOk.ownSym hb) h⟩).1 h

theorem Pure.proof (hb : BaseOk b n0) {cs : List Term} (h : ∀ c ∈ cs, Pure b m c) : Pure b m (.node PROOF cs) :=
  (Built.proof_iff (BaseOk.ownSym hb)).2 ⟨trivial, fun _ => h⟩

theorem Templ.weaken {ar : Prop} {self : Term} {P : Term → Prop} {t : Term} (h : Templ ar self P t) : Templ False self P t := by
  induction h with
  | self => exact .self
  | of t h => exact .of t h
  | node k cs h1 _ h3 _ ih => exact .node k cs h1 (fun h => h.elim) h3 ih

theorem Templ.mono {ar : Prop} {self : Term} {P P' : Term → Prop} (hp : ∀ t, P t → P' t) {t : Term} (h : Templ ar self P t) : Templ ar self P' t := by
  induction h with
  | self => exact .self
  | of t h => exact .of t (hp t h)
  | node k cs h1 h2 h3 _ ih => exact .node k cs h1 h2 h3 ih

/-- in a term that has a type every operator has the right number of arguments -/
theorem Templ.typed {env : Env} {self : Term} {P : Term → Prop} {t ty : Term} (h : Templ False self P t) (ht : TypeResult env t (some ty)) :
    Templ True self P t := by
  induction h generalizing ty with
  | self => exact .self
  | of t h => exact .of t h
  | node k cs h1 _ h3 _ ih =>
    obtain ⟨n, cts, g1, g2, _⟩ := typeResult_node ht
    refine .node k cs h1 ?_ h3 ?_
    · rintro _ rfl
      simp only [typeInternal, Term.kind, isLiteralOp, if_pos, litOpType] at g2
      split at g2
      · cases g2
      · rename_i ha
        rw [← typesOf_length g1]
        simpa [checkArity] using ha
    · intro c hc
      obtain ⟨i, hi⟩ := List.mem_iff_getElem?.1 hc
      have hl := typesOf_length g1
      have hlt : i < cts.length := by
        rw [hl]
        exact (List.getElem?_eq_some_iff.1 hi).1
      obtain ⟨c', g3, g4⟩ := typesOf_get g1 (List.getElem?_eq_getElem hlt)
      rw [hi] at g3
      cases g3
      exact ih c hc ⟨n, g4⟩

/-- no term in the state uses `eo::self`, but for the type rules of literals -/
structure Clean (b : Env) (n0 m : Nat) (st : State) : Prop where
  fresh : Fresh b n0 m st
  scope : ScopeIn (Pure b m) st.scope
  info : ∀ t, st.decls.info t ≠ none → Pure b m t
  types : ∀ k i ty, (¬ ∃ u, Own b (.sym k i) u) → st.symType (.sym k i) = some ty → Pure b m ty
  cons : ∀ t ai c, st.decls.info t = some ai → ai.cons = some c → Pure b m c
  litRule : ∀ k t, st.decls.litRule k = some t → Templ True b.self (Pure b m) t
  asms : ∀ t ∈ st.asms, Pure b m t
  rules : ∀ x r, st.decls.rules x = some r → Pure b m r

theorem ProgShape.pure (hb : BaseOk b n0) {p : Term} (h : Pure b m p) : ProgShape (Pure b m) p := by
  have hch : ∀ t : Term, Pure b m t → ∀ c ∈ t.children, Pure b m c := by
    intro t ht c hc
    cases t with
    | sym k i => simp [Term.children] at hc
    | lit l => simp [Term.children] at hc
    | node k cs => exact ht.parts hb c hc
  intro c hc
  have h1 := hch p h c hc
  refine ⟨hch c h1, ?_⟩
  intro pat r hp e he
  exact hch pat (hch c h1 pat (by rw [hp]; simp)) e he

theorem Clean.good (hb : BaseOk b n0) (hs : SelfOk b) (H : Clean b n0 m st) : Good (st.env b) (Pure b m) := by
  have hn := H.fresh.ge
  have B : BuiltState b { st with decls := { st.decls with litRule := fun _ => none } } (Pure b m) :=
    ⟨fun k i ty hn _ h => H.types k i ty hn h, H.fresh.built.ownType, H.fresh.built.onlySym, fun t ai c _ h hc => H.cons t ai c h hc,
      fun p ai c _ h _ hc => ProgShape.pure hb (H.cons p ai c h hc), H.fresh.built.kind, by simp, .of_basic hn hb.listCons hs.listCons,
      .of_basic hn hb.listNil hs.listNil, .of_basic hn hb.listType hs.listType, .of_basic hn hb.proofType hs.proofType⟩
  have G := B.good (BaseOk.ownSym hb) H.scope.ov (by simp) (by simp)
  exact ⟨G.lit, G.node, G.lambda, G.leaf, G.proof, G.symType, G.cons, G.program, G.kind, G.overloads,
    fun k t h => .inr ⟨hs.param, fun cs h => Pure.proof hb h, H.litRule k t h⟩, G.boundVar, G.tmp, G.listCons, G.listNil, G.listType, G.proofType⟩

theorem Clean.congr (H : Clean b n0 m st) (h1 : st'.next = st.next) (h2 : st'.scope = st.scope) (h3 : st'.decls = st.decls)
    (h4 : st'.symType = st.symType) (h5 : ∀ t ∈ st'.asms, Pure b m t) : Clean b n0 m st' where
  fresh := H.fresh.congr h1 h2 h3 h4 fun t ht => (h5 t ht).old
  scope := h2 ▸ H.scope
  info := h3 ▸ H.info
  types := h4 ▸ H.types
  cons := h3 ▸ H.cons
  litRule := h3 ▸ H.litRule
  asms := h5
  rules := h3 ▸ H.rules

theorem Clean.withScope (H : Clean b n0 m st) {s : Scope} (hf : Fresh b n0 m { st with scope := s }) (h : ScopeIn (Pure b m) s) :
    Clean b n0 m { st with scope := s } :=
  ⟨hf, h, H.info, H.types, H.cons, H.litRule, H.asms, H.rules⟩

theorem Clean.sym (hb : BaseOk b n0) (hs : SelfOk b) (H : Clean b n0 m st) {k : Kind} (x : Name) {ty : Term} (hk : k ≠ VARIABLE ∧ k ≠ BUILTIN_CONST)
    (hty : Pure b m ty) : Clean b n0 (m+1) (st.mkSymbol k x ty).1 ∧ Pure b (m+1) (.sym k st.next) := by
  have hle : m ≤ m + 1 := by omega
  have hnx := H.fresh.next
  have hge := H.fresh.ge
  obtain ⟨_, F, _⟩ := H.fresh.sym hb x hk hty.old
  have hne : Term.sym k st.next ≠ b.self := by
    obtain ⟨i, hi⟩ := hs.param
    intro he
    rw [hi] at he
    have := (hb.self _ (.refl _)).1 PARAM i hi
    cases he
    omega
  refine ⟨⟨F, H.scope.mono fun t ht => ht.mono hle, fun t ht => (H.info t ht).mono hle, ?_, fun t ai c h hc => (H.cons t ai c h hc).mono hle,
    fun k t h => (H.litRule k t h).mono fun t ht => ht.mono hle, fun t ht => (H.asms t ht).mono hle, fun x r hr => (H.rules x r hr).mono hle⟩,
    .sym _ _ ⟨⟨k, st.next, rfl, hk.1, .inr (by omega)⟩, hne⟩ (notOwn hb hk.1 (by omega))⟩
  intro k' i' ty' hn h
  simp only [State.mkSymbol] at h
  split at h
  · cases h; exact hty.mono hle
  · exact (H.types k' i' ty' hn h).mono hle

theorem Clean.mark (hb : BaseOk b n0) (H : Clean b n0 m st) {v : Term} {a : Attr} {c : Option Term} (hv : Pure b m v) (hc : ∀ t, c = some t → Pure b m t) :
    Clean b n0 m { st with decls := (st.decls.markConstructorKind v a c).1 } := by
  have F := H.fresh.mark hb (a := a) hv.old fun t ht => (hc t ht).old
  revert F
  simp only [Decls.markConstructorKind]
  split
  · exact fun _ => H
  · intro F
    refine ⟨F, H.scope, ?_, H.types, ?_, H.litRule, H.asms, H.rules⟩
    · intro t ht
      dsimp only at ht
      split at ht
      · rename_i h; rw [h]; exact hv
      · exact H.info t ht
    · intro t ai c' h hc'
      dsimp only at h
      split at h
      · cases h; exact hc c' hc'
      · exact H.cons t ai c' h hc'

/-- the invariant as a world, numbered by the next symbol -/
theorem cleanWorld (hb : BaseOk b n0) (hs : SelfOk b) :
    World b (· ≤ ·) (fun m (_ : Nat) st => Clean b n0 m st) (fun m => Pure b m) (fun m => Pure b m) := by
  have W := freshWorld hb
  exact {
    refl := Nat.le_refl
    trans := Nat.le_trans
    mono := fun h ht => ht.mono h
    canMono := fun h ht => ht.mono h
    good := fun H => H.good hb hs
    typed := fun H h => W.typed (d := 0) H.fresh h
    get := fun H h => H.scope.sym _ _ h
    bind := fun H ht => H.withScope (W.bind (d := 0) H.fresh ht.old) (H.scope.bind ht _)
    push := fun H => H.withScope (W.push (d := 0) H.fresh) ⟨H.scope.sym, H.scope.ov⟩
    pop := by
      intro w d st st' H h
      have F := W.pop (d := 0) H.fresh h
      simp only [State.pop, Run.map_ok] at h
      obtain ⟨s, h1, rfl⟩ := h
      exact H.withScope F (H.scope.pop h1)
    sym := by
      intro w d st k x ty H hk hty
      have hk' : k ≠ VARIABLE ∧ k ≠ BUILTIN_CONST := by rcases hk with rfl | rfl | rfl <;> simp
      obtain ⟨h1, h2⟩ := H.sym hb hs x hk' hty
      exact ⟨(H.fresh.sym hb x hk' hty.old).1, w + 1, by omega, h1, h2, h2⟩
    mark := fun H hv _ hc => H.mark hb hv hc
    prog := fun H hv hp _ => H.mark hb hv (by simpa using hp)
    refAssert := fun H => H.congr rfl rfl rfl rfl H.asms
    pair := by
      intro w a c r h
      exact ⟨h.parts hb a (by simp), h.parts hb c (by simp)⟩ }

/-! ### The command `declare-consts` -/

/-- the state while a type rule is read: `eo::self` is visible, until the scope is closed -/
structure Inside (b : Env) (n0 m : Nat) (D0 : List Name) (C0 : List Nat) (d : Nat) (st : State) : Prop where
  rest : ∃ s0, Clean b n0 m { st with scope := s0 }
  scope : ScopeIn (Templ False b.self (Pure b m)) st.scope
  opened : Opened (Pure b m) D0 C0 d st.scope

theorem Inside.good (hb : BaseOk b n0) (hs : SelfOk b) {D0 : List Name} {C0 : List Nat} {d : Nat} (H : Inside b n0 m D0 C0 d st) :
    Good (st.env b) (Templ False b.self (Pure b m)) := by
  obtain ⟨s0, R⟩ := H.rest
  have G := R.good hb hs
  obtain ⟨i, hi⟩ := hs.param
  have hleaf : ∀ k cs, Templ False b.self (Pure b m) (.node k cs) → isSymbol k = false := fun k cs h =>
    (h.node_inv hs.param).elim (G.leaf k cs) fun h => h.1
  have hparts : ∀ k cs, Templ False b.self (Pure b m) (.node k cs) → ∀ c ∈ cs, Templ False b.self (Pure b m) c := fun k cs h c hc =>
    (h.node_inv hs.param).elim (fun h => .of _ (h.parts hb c hc)) fun h => h.2.2.2 c hc
  have hgr : ∀ t, t.ground = true → Templ False b.self (Pure b m) t → Pure b m t := fun t hg h =>
    Templ.ground G hs.param (fun cs h => Pure.proof hb h) h hg
  have hinfo : ∀ t ai, (st.env b).appInfo t = some ai → ai.cons ≠ none → ∃ ai', st.decls.info t = some ai' ∧ ai'.cons = ai.cons := by
    intro t ai h hc
    have h : st.decls.appInfo st.scope.mark t = some ai := h
    cases hi : st.decls.info t with
    | none => cases hm : st.scope.mark t <;> simp [Decls.appInfo, hi, hm] at h; subst h; exact absurd rfl hc
    | some ai' => simp only [Decls.appInfo, hi, Option.some.injEq] at h; subst h; exact ⟨ai', rfl, rfl⟩
  refine ⟨fun l => .of _ (G.lit l), ?_, ?_, hleaf, .inl ?_, ?_, ?_, ?_, ?_, H.scope.ov, ?_, ?_, ?_, .of _ G.listCons, .of _ G.listNil, .of _ G.listType,
    .of _ G.proofType⟩
  · exact fun k cs hk => ⟨hparts k cs, fun h => .node k cs hk.2.2 (fun h => h.elim) (fun h => absurd h hk.2.1) h⟩
  · refine fun cs => ⟨fun h => ⟨hparts _ cs h, ?_⟩, fun h => .node _ cs rfl (fun h => h.elim) (fun _ => h.2) h.1⟩
    exact (h.node_inv hs.param).elim (fun h => ((G.lambda cs).1 h).2) fun h => h.2.2.1 rfl
  · exact fun cs => ⟨hparts _ cs, fun h => .node _ cs rfl (fun h => h.elim) (fun h => by cases h) h⟩
  · intro t ty ht h
    have h : st.symType t = some ty := h
    obtain ⟨k, j, rfl⟩ := R.fresh.built.onlySym t ty h
    by_cases ho : ∃ u, Own b (.sym k j) u
    · generalize hv : Term.sym k j = v at ht
      cases ht with
      | self =>
        obtain ⟨u, ho⟩ := ho
        obtain ⟨k', i', h1, h2⟩ := hb.own _ _ ho
        rw [hi] at hv
        cases hv
        cases h1
        rcases h2 with h2 | h2
        · cases h2
        · cases h2.1
      | of _ ht => rw [← hv] at ht; exact .of _ (G.symType _ ty ht h)
      | node => cases hv
    · exact .of _ (R.types k j ty ho h)
  · intro t ai c _ h hc
    obtain ⟨ai', h1, h2⟩ := hinfo t ai h (by rw [hc]; simp)
    exact .of _ (R.cons t ai' c h1 (h2.trans hc))
  · intro p prog _ h
    have h : (match (st.env b).appInfo p with
      | some ai => if ai.attr = .PROGRAM then ai.cons else none
      | none => none) = some prog := h
    split at h
    · rename_i ai ha
      split at h
      · obtain ⟨ai', h1, h2⟩ := hinfo p ai ha (by rw [h]; simp)
        have := ProgShape.pure hb (R.cons p ai' prog h1 (h2.trans h))
        exact fun c hc => ⟨fun d hd => .of _ ((this c hc).1 d hd), fun pat r hp e he => .of _ ((this c hc).2 pat r hp e he)⟩
      · cases h
    · cases h
  · intro t ai h
    have h : st.decls.appInfo st.scope.mark t = some ai := h
    cases hi : st.decls.info t with
    | none => cases hm : st.scope.mark t <;> simp [Decls.appInfo, hi, hm] at h; subst h; simp
    | some ai' =>
      simp only [Decls.appInfo, hi, Option.some.injEq] at h
      subst h
      exact R.fresh.built.kind t ai' hi
  · exact fun k t h => .inl (R.litRule k t h).weaken
  · exact fun x ty hg h => .of _ (G.boundVar x ty hg (hgr ty hg h))
  · exact fun t hg h => .of _ (G.tmp t hg (hgr t hg h))

theorem insideReads (hb : BaseOk b n0) (hs : SelfOk b) (D0 : List Name) (C0 : List Nat) :
    ReadWorld b (fun m d st => Inside b n0 m D0 C0 d st) (fun m => Templ False b.self (Pure b m)) where
  good H := H.good hb hs
  get H h := H.scope.sym _ _ h
  bind H ht := ⟨H.rest, H.scope.bind ht _, H.opened.bind _ _⟩
  push H := ⟨H.rest, ⟨H.scope.sym, H.scope.ov⟩, H.opened.push⟩
  pop := by
    intro w d st st' H h
    simp only [State.pop, Run.map_ok] at h
    obtain ⟨s, h1, rfl⟩ := h
    exact ⟨H.rest, H.scope.pop h1, H.opened.pop h1⟩
  pair := by
    intro w a c r h
    rcases h.node_inv hs.param with h | h
    · exact ⟨.of _ (h.parts hb a (by simp)), .of _ (h.parts hb c (by simp))⟩
    · exact ⟨h.2.2.2 a (by simp), h.2.2.2 c (by simp)⟩

theorem Clean.declareConsts (hb : BaseOk b n0) (hs : SelfOk b) {n : Nat} {k : Kind} {ty : SExp} (H : Clean b n0 m st)
    (h : Ethos.exec b n st (.declareConsts k ty) = .ok st') : Clean b n0 m st' := by
  have F := H.fresh.declareConsts hb h
  simp only [Ethos.exec, Run.bind_ok] at h
  obtain ⟨⟨s1, t⟩, h1, d, h2, h3⟩ := h
  have W := insideReads hb hs st.scope.decls st.scope.ctx
  have i0 : Inside b n0 m st.scope.decls st.scope.ctx 0 st.push :=
    ⟨⟨st.scope, H.congr rfl rfl rfl rfl H.asms⟩, ⟨fun x t h => .of _ (H.scope.sym x t h), fun x t h => .of _ (H.scope.ov x t h)⟩, Opened.start H.scope⟩
  obtain ⟨i1, p1⟩ := W.parseType (W.bind (x := nm "eo::self") i0 .self) h1
  have ht : Templ True b.self (Pure b m) t := by
    simp only [parseType, Run.bind_ok, Run.map_ok, State.checkType, State.typeCheckAs, State.typeCheck, Run.lift_ok, Run.orErr_ok] at h1
    obtain ⟨⟨s, u⟩, _, _, ⟨_, ⟨ty', ⟨r, h4, rfl⟩, _⟩, _⟩, h5⟩ := h1
    cases h5
    exact p1.typed ⟨n, h4⟩
  obtain ⟨s0, R⟩ := i1.rest
  simp only [State.pop, Run.map_ok] at h3
  obtain ⟨s2, h4, rfl⟩ := h3
  have hsc := i1.opened.stop h4
  have hd : d.info = s1.decls.info ∧ d.rules = s1.decls.rules ∧ ∀ k t', d.litRule k = some t' → t' = t ∨ s1.decls.litRule k = some t' := by
    simp only [Decls.setLiteralTypeRule] at h2
    split at h2
    · split at h2
      · split at h2
        · cases h2; exact ⟨rfl, rfl, fun _ _ h => .inr h⟩
        · cases h2
      · cases h2
        refine ⟨rfl, rfl, ?_⟩
        intro k' t' h'
        dsimp only at h'
        split at h'
        · cases h'; exact .inl rfl
        · exact .inr h'
    · cases h2
  refine ⟨F, hsc, ?_, R.types, ?_, ?_, R.asms, ?_⟩
  · show ∀ t, d.info t ≠ none → _
    rw [hd.1]; exact R.info
  · show ∀ t ai c, d.info t = _ → _
    rw [hd.1]; exact R.cons
  · intro k' t' h'
    rcases hd.2.2 k' t' h' with rfl | h'
    · exact ht
    · exact R.litRule k' t' h'
  · show ∀ x r, d.rules x = _ → _
    rw [hd.2.1]; exact R.rules

/-- the invariant is one that all commands keep -/
theorem cleanTerms (hb : BaseOk b n0) (hs : SelfOk b) : StateTerms b (Clean b n0) (Pure b) where
  world := cleanWorld hb hs
  next H := H.fresh.next
  asms H := H.asms
  rules H := H.rules
  congr := Clean.congr
  reset H := H.withScope (H.fresh.withScope H.fresh.scope.reset) H.scope.reset
  new H x _ hk hty := ⟨(H.fresh.sym hb x hk hty.old).1, H.sym hb hs x hk hty⟩
  noInfo H hk := (H.fresh.noInfo hb hk (by rw [H.fresh.next]; exact Nat.le_refl _)).1
  mark H := H.mark hb
  addRule := by
    intro m st r H hr x
    refine ⟨(freshTerms hb).addRule H.fresh hr.old x, H.scope, H.info, H.types, H.cons, H.litRule, H.asms, ?_⟩
    intro y u hu
    dsimp only at hu
    split at hu
    · cases hu; exact hr
    · exact H.rules y u hu
  parts h := h.parts hb
  proof h := Pure.proof hb (by simpa using h)
  consts H := H.declareConsts hb hs

/-- the state at the start -/
theorem Clean.init (hb : BaseOk b n0) (hs : SelfOk b) : Clean b n0 n0 (State.init b n0) := by
  have F := Fresh.init hb
  have hp : ∀ {t : Term}, Basic b n0 t → ¬ Sub b.self t → Pure b n0 t := fun h1 h2 => .of_basic (Nat.le_refl _) h1 h2
  obtain ⟨i0, hi0⟩ := hs.param
  have hbi : ∀ i, Pure b n0 (builtinSym i) := fun i => .sym _ _ ⟨⟨_, i, rfl, by simp, .inl rfl⟩, by rw [hi0]; simp⟩ (by
    rintro ⟨ty, h1⟩
    obtain ⟨k', i', h2, h3⟩ := hb.own _ _ h1
    cases h2
    rcases h3 with h3 | h3
    · cases h3
    · cases h3.1)
  have hscope : ScopeIn (Pure b n0) (initScope b) := by
    have h0 : ∀ (l : List ((String × Kind) × Nat)) (s : Scope), ScopeIn (Pure b n0) s →
        ScopeIn (Pure b n0) (l.foldl (fun s p => Scope.bind s (nm p.1.1) (builtinSym p.2)) s) := by
      intro l
      induction l with
      | nil => intro s h; exact h
      | cons p l ih => intro s h; exact ih _ (h.bind (hbi _) _)
    simp only [initScope]
    refine (((((h0 builtins.zipIdx Scope.init ?_).bind ?_ _).bind ?_ _).bind (hp hb.listType hs.listType) _).bind (hp hb.listNil hs.listNil) _).bind
      (hp hb.listCons hs.listCons) _
    · exact ⟨by simp [Scope.init], by simp [Scope.init]⟩
    · exact .lit _
    · exact .lit _
  have hinfo : ∀ t ai, (State.init b n0).decls.info t = some ai →
      (∃ i p, t = builtinSym i ∧ builtins[i]? = some p ∧ ai = ⟨.NONE, none, p.2, none⟩) ∨ t = b.listCons ∧ ai = ⟨.RIGHT_ASSOC_NIL, some b.listNil, NONE, none⟩ := by
    intro t ai h
    simp only [State.init] at h
    split at h
    · rename_i i
      simp only [Option.map_eq_some_iff] at h
      obtain ⟨p, h1, rfl⟩ := h
      exact .inl ⟨i, p, rfl, h1, rfl⟩
    · split at h
      · rename_i ht; cases h; exact .inr ⟨ht, rfl⟩
      · cases h
  refine ⟨F, hscope, ?_, ?_, ?_, by simp [State.init], by simp [State.init], by simp [State.init]⟩
  · intro t ht
    cases h : (State.init b n0).decls.info t with
    | none => exact absurd h ht
    | some ai =>
      rcases hinfo t ai h with ⟨i, p, rfl, _, _⟩ | ⟨rfl, _⟩
      · exact hbi i
      · exact hp hb.listCons hs.listCons
  · intro k i ty hn h
    exact hp (hb.types _ _ hn h).2 (hs.types _ _ hn h)
  · intro t ai c h hc
    rcases hinfo t ai h with ⟨i, p, _, _, rfl⟩ | ⟨_, rfl⟩
    · cases hc
    · cases hc; exact hp hb.listNil hs.listNil

theorem Clean.replay (hb : BaseOk b n0) (hs : SelfOk b) {n : Nat} {es : List Event} (h : Spec.replay b n es (State.init b n0) = .ok st) :
    ∃ m, Clean b n0 m st := by
  obtain ⟨m, _, H⟩ := (cleanTerms hb hs).replay es (Clean.init hb hs) h
  exact ⟨m, H⟩

end Ethos.Props
