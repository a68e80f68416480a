import Verif.Lemmas.Built
import Verif.Lemmas.StateTerms
/-
Every symbol in the state was made before: the next symbol a command makes is new.
-/
namespace Ethos.Props
open Ethos Kind Spec

/-! ### Terms in the symbol table -/

/-- every term the symbol table gives for a name, now or later, has `T` -/
structure ScopeIn (T : Term → Prop) (s : Scope) : Prop where
  sym : ∀ x t, s.sym x = some t → T t
  ov : ∀ x t, t ∈ s.ov x → T t

namespace ScopeIn
variable {T T' : Term → Prop} {s s' : Scope}

theorem mono (h : ∀ t, T t → T' t) (H : ScopeIn T s) : ScopeIn T' s :=
  ⟨fun x t ht => h t (H.sym x t ht), fun x t ht => h t (H.ov x t ht)⟩

theorem bind (H : ScopeIn T s) {t : Term} (ht : T t) (x : Name) : ScopeIn T (s.bind x t) := by
  cases ho : s.sym x with
  | none =>
    refine ⟨?_, ?_⟩
    · intro y u h
      simp only [Scope.bind, ho] at h
      split at h
      · cases h; exact ht
      · exact H.sym y u h
    · intro y u h; simp only [Scope.bind, ho] at h; exact H.ov y u h
  | some old =>
    refine ⟨?_, ?_⟩
    · intro y u h
      simp only [Scope.bind, ho] at h
      split at h
      · cases h; exact ht
      · exact H.sym y u h
    · intro y u h
      simp only [Scope.bind, ho] at h
      split at h
      · rcases List.mem_append.1 h with h | h
        · split at h
          · simp at h; rw [h]; exact H.sym x old ho
          · exact H.ov x u h
        · simp at h; rw [h]; exact ht
      · exact H.ov y u h

theorem undo (H : ScopeIn T s) (h : s.undo = .ok s') : ScopeIn T s' := by
  simp only [Scope.undo] at h
  split at h
  · cases h
  · rename_i x r hd
    split at h
    · split at h
      · rename_i t' t h1 h2
        cases h
        have hov : ∀ u ∈ (s.ov x).dropLast, T u := fun u hu => H.ov x u (List.dropLast_subset _ hu)
        refine ⟨?_, ?_⟩
        · intro y u h
          dsimp only at h
          split at h
          · cases h; exact hov _ (List.mem_of_getLast? h2)
          · exact H.sym y u h
        · intro y u h
          dsimp only at h
          split at h
          · split at h
            · simp at h
            · exact hov u h
          · exact H.ov y u h
      · cases h
    · cases h
      refine ⟨?_, H.ov⟩
      intro y u h
      dsimp only at h
      split at h
      · cases h
      · exact H.sym y u h

theorem undoN : ∀ (k : Nat) {s s' : Scope}, ScopeIn T s → Scope.undoN k s = .ok s' → ScopeIn T s'
  | 0, s, s', H, h => by simp only [Scope.undoN] at h; cases h; exact H
  | k+1, s, s', H, h => by
    simp only [Scope.undoN, Run.bind_ok] at h
    obtain ⟨s1, h1, h2⟩ := h
    exact undoN k (H.undo h1) h2

theorem pop (H : ScopeIn T s) (h : s.pop = .ok s') : ScopeIn T s' := by
  simp only [Scope.pop] at h
  split at h
  · cases h
  · rename_i last r _
    simp only [Run.map_ok] at h
    obtain ⟨s1, h1, rfl⟩ := h
    have h0 : ScopeIn T { s with ctx := r } := ⟨H.sym, H.ov⟩
    have := undoN _ h0 h1
    exact ⟨this.sym, this.ov⟩

theorem reset (H : ScopeIn T s) : ScopeIn T s.reset := ⟨by simp [Scope.reset], H.ov⟩

end ScopeIn

theorem undo_only {s s' : Scope} (h : s.undo = .ok s') : s'.mark = s.mark ∧ s'.ctx = s.ctx := by
  simp only [Scope.undo] at h
  split at h
  · cases h
  · split at h
    · split at h
      · cases h; exact ⟨rfl, rfl⟩
      · cases h
    · cases h; exact ⟨rfl, rfl⟩

theorem undoN_only : ∀ (k : Nat) {s s' : Scope}, Scope.undoN k s = .ok s' → s'.mark = s.mark ∧ s'.ctx = s.ctx
  | 0, s, s', h => by simp only [Scope.undoN] at h; cases h; exact ⟨rfl, rfl⟩
  | k+1, s, s', h => by
    simp only [Scope.undoN, Run.bind_ok] at h
    obtain ⟨s1, h1, h2⟩ := h
    obtain ⟨a, c⟩ := undo_only h1
    obtain ⟨a', c'⟩ := undoN_only k h2
    exact ⟨a'.trans a, c'.trans c⟩

/-- every term in the symbol table, visible or not, has `T` -/
structure ScopeAll (T : Term → Prop) (s : Scope) : Prop extends ScopeIn T s where
  mark : ∀ t, s.mark t ≠ none → T t

namespace ScopeAll
variable {T T' : Term → Prop} {s s' : Scope}

theorem mono (h : ∀ t, T t → T' t) (H : ScopeAll T s) : ScopeAll T' s :=
  ⟨H.toScopeIn.mono h, fun t ht => h t (H.mark t ht)⟩

theorem bind (H : ScopeAll T s) {t : Term} (ht : T t) (x : Name) : ScopeAll T (s.bind x t) := by
  refine ⟨H.toScopeIn.bind ht x, ?_⟩
  intro u h
  cases ho : s.sym x with
  | none => simp only [Scope.bind, ho] at h; exact H.mark u h
  | some old =>
    simp only [Scope.bind, ho] at h
    split at h
    · rename_i hu; rw [hu]; exact ht
    · exact H.mark u h

theorem pop (H : ScopeAll T s) (h : s.pop = .ok s') : ScopeAll T s' := by
  refine ⟨H.toScopeIn.pop h, ?_⟩
  simp only [Scope.pop] at h
  split at h
  · cases h
  · rename_i last r _
    simp only [Run.map_ok] at h
    obtain ⟨s1, h1, rfl⟩ := h
    show ∀ t, s1.mark t ≠ none → T t
    rw [(undoN_only _ h1).1]
    exact H.mark

theorem reset (H : ScopeAll T s) : ScopeAll T s.reset := ⟨H.toScopeIn.reset, H.mark⟩

end ScopeAll

/-! ### The invariant -/

/-- the symbols made when `m` is the next one; builtin symbols are numbered separately -/
def Alloc (m : Nat) (t : Term) : Prop := ∃ k i, t = .sym k i ∧ k ≠ VARIABLE ∧ (k = BUILTIN_CONST ∨ i < m)

/-- a term made of existing symbols -/
def Old (b : Env) (m : Nat) : Term → Prop := Built b false (Alloc m) (fun _ => True)

theorem Old.mono {b : Env} {m m' : Nat} (h : m ≤ m') {t : Term} (ht : Old b m t) : Old b m' t :=
  Built.mono (fun t ht => by
    obtain ⟨k, i, rfl, h1, h2⟩ := ht
    exact ⟨k, i, rfl, h1, h2.imp id fun h2 => by omega⟩) (fun _ h => h) ht

/-- every term in the state is made of existing symbols -/
structure Fresh (b : Env) (n0 m : Nat) (st : State) : Prop where
  next : st.next = m
  ge : n0 ≤ m
  scope : ScopeAll (Old b m) st.scope
  info : ∀ t, st.decls.info t ≠ none → Old b m t
  built : BuiltState b st (Old b m)
  typed : ∀ k i, st.symType (.sym k i) ≠ none → k = VARIABLE ∨ i < m
  asms : ∀ t ∈ st.asms, Old b m t
  rules : ∀ x r, st.decls.rules x = some r → Old b m r

variable {b : Env} {n0 m : Nat} {st st' : State}

theorem BaseOk.ownSym (hb : BaseOk b n0) : OwnSym b := fun v ty h => by
  obtain ⟨k, i, h, _⟩ := hb.own v ty h
  exact ⟨k, i, h⟩

theorem Fresh.good (hb : BaseOk b n0) (H : Fresh b n0 m st) : Good (st.env b) (Old b m) :=
  H.built.good (BaseOk.ownSym hb) H.scope.ov (by simp) (by simp)

/-- the parts of the state the invariant speaks about -/
theorem Fresh.congr (H : Fresh b n0 m st) (h1 : st'.next = st.next) (h2 : st'.scope = st.scope) (h3 : st'.decls = st.decls)
    (h4 : st'.symType = st.symType) (h5 : ∀ t ∈ st'.asms, Old b m t) : Fresh b n0 m st' where
  next := h1.trans H.next
  ge := H.ge
  scope := h2 ▸ H.scope
  info := h3 ▸ H.info
  built := by
    refine ⟨?_, ?_, ?_, ?_, ?_, ?_, ?_, H.built.listCons, H.built.listNil, H.built.listType, H.built.proofType⟩
    · rw [h4]; exact H.built.symType
    · rw [h4]; exact H.built.ownType
    · rw [h4]; exact H.built.onlySym
    · rw [h3]; exact H.built.cons
    · rw [h3]; exact H.built.program
    · rw [h3]; exact H.built.kind
    · rw [h3]; exact H.built.litRule
  typed := h4 ▸ H.typed
  asms := h5
  rules := h3 ▸ H.rules

theorem Fresh.withScope (H : Fresh b n0 m st) {s : Scope} (h : ScopeAll (Old b m) s) : Fresh b n0 m { st with scope := s } where
  next := H.next
  ge := H.ge
  scope := h
  info := H.info
  built := { H.built with }
  typed := H.typed
  asms := H.asms
  rules := H.rules

/-- a symbol that was not made before is not used anywhere -/
theorem Old.new (hb : BaseOk b n0) {k : Kind} {i : Nat} (hn : n0 ≤ m) (hk : k ≠ VARIABLE ∧ k ≠ BUILTIN_CONST) (hi : m ≤ i) : ¬ Old b m (.sym k i) := by
  intro h
  rcases Built.sym_inv h with ⟨⟨k', i', h1, h2, h3⟩, _⟩ | ⟨ty, h1, _⟩
  · cases h1
    rcases h3 with h3 | h3
    · exact hk.2 h3
    · omega
  · obtain ⟨k', i', h2, h3⟩ := hb.own _ _ h1
    cases h2
    rcases h3 with h3 | h3
    · exact hk.1 h3
    · omega

theorem notOwn (hb : BaseOk b n0) {k : Kind} {i : Nat} (hk : k ≠ VARIABLE) (hi : n0 ≤ i) : ¬ ∃ ty, Own b (.sym k i) ty := by
  rintro ⟨ty, h1⟩
  obtain ⟨k', i', h2, h3⟩ := hb.own _ _ h1
  cases h2
  rcases h3 with h3 | h3
  · exact hk h3
  · omega

theorem Fresh.noInfo (hb : BaseOk b n0) (H : Fresh b n0 m st) {k : Kind} {i : Nat} (hk : k ≠ VARIABLE ∧ k ≠ BUILTIN_CONST) (hi : m ≤ i) :
    st.decls.info (.sym k i) = none ∧ st.scope.mark (.sym k i) = none := by
  constructor
  · cases h : st.decls.info (.sym k i) with
    | none => rfl
    | some ai => exact absurd (H.info _ (by simp [h])) (Old.new hb H.ge hk hi)
  · cases h : st.scope.mark (.sym k i) with
    | none => rfl
    | some ai => exact absurd (H.scope.mark _ (by simp [h])) (Old.new hb H.ge hk hi)

theorem Fresh.sym (hb : BaseOk b n0) (H : Fresh b n0 m st) {k : Kind} (x : Name) {ty : Term} (hk : k ≠ VARIABLE ∧ k ≠ BUILTIN_CONST) (hty : Old b m ty) :
    ((st.mkSymbol k x ty).1.env b).appInfo (.sym k st.next) = none ∧ Fresh b n0 (m+1) (st.mkSymbol k x ty).1 ∧ Old b (m+1) (.sym k st.next) := by
  have hle : m ≤ m + 1 := by omega
  have hnx := H.next
  have hge := H.ge
  obtain ⟨hi, hm⟩ := H.noInfo hb hk (i := st.next) (by omega)
  have hnew : Old b (m+1) (.sym k st.next) := .sym _ _ ⟨k, st.next, rfl, hk.1, .inr (by omega)⟩ (notOwn hb hk.1 (by omega))
  refine ⟨?_, ?_, hnew⟩
  · show st.decls.appInfo st.scope.mark (.sym k st.next) = none
    simp [Decls.appInfo, hi, hm]
  · refine ⟨by simp [State.mkSymbol, hnx], by omega, H.scope.mono fun t ht => ht.mono hle, fun t ht => (H.info t ht).mono hle, ?_, ?_,
      fun t ht => (H.asms t ht).mono hle, fun x r hr => (H.rules x r hr).mono hle⟩
    · refine ⟨?_, ?_, ?_, ?_, ?_, H.built.kind, fun k t h => (H.built.litRule k t h).mono hle, H.built.listCons.mono hle, H.built.listNil.mono hle,
        H.built.listType.mono hle, H.built.proofType.mono hle⟩
      · intro k' i' ty' hn ht h
        simp only [State.mkSymbol] at h
        split at h
        · cases h; exact hty.mono hle
        · refine (H.built.symType k' i' ty' hn ?_ h).mono hle
          rcases H.typed k' i' (by simp [h]) with h5 | h5
          · subst h5
            rcases Built.sym_inv ht with ⟨⟨_, _, h1, h2, _⟩, _⟩ | ⟨u, h1, _⟩
            · cases h1; exact absurd rfl h2
            · exact absurd ⟨u, h1⟩ hn
          · rcases Built.sym_inv ht with ⟨⟨_, _, h1, h2, _⟩, _⟩ | ⟨u, h1, _⟩
            · cases h1; exact .sym _ _ ⟨k', i', rfl, h2, .inr h5⟩ hn
            · exact absurd ⟨u, h1⟩ hn
      · intro v u ty' ho h
        simp only [State.mkSymbol] at h
        split at h
        · rename_i hv
          subst hv
          exact absurd ⟨u, ho⟩ (notOwn hb hk.1 (by omega))
        · exact H.built.ownType v u ty' ho h
      · intro t ty' h
        simp only [State.mkSymbol] at h
        split at h
        · rename_i hv; exact ⟨_, _, hv⟩
        · exact H.built.onlySym t ty' h
      · intro t ai c _ h hc
        exact (H.built.cons t ai c (H.info t (by show st.decls.info t ≠ none; have h : st.decls.info t = _ := h; simp [h])) h hc).mono hle
      · intro t ai c _ h ha hc c' hc'
        have := H.built.program t ai c (H.info t (by show st.decls.info t ≠ none; have h : st.decls.info t = _ := h; simp [h])) h ha hc c' hc'
        exact ⟨fun d hd => (this.1 d hd).mono hle, fun pat r h e he => (this.2 pat r h e he).mono hle⟩
    · intro k' i' h
      simp only [State.mkSymbol] at h
      split at h
      · rename_i hv; cases hv; exact .inr (by omega)
      · exact (H.typed k' i' h).imp id fun h => by omega

theorem ProgShape.old (hb : BaseOk b n0) {p : Term} (h : Old b m p) : ProgShape (Old b m) p := by
  have hch : ∀ t : Term, Old b m t → ∀ c ∈ t.children, Old b m c := by
    intro t ht c hc
    cases t with
    | sym k i => simp [Term.children] at hc
    | lit l => simp [Term.children] at hc
    | node k cs =>
      by_cases h1 : k = PROOF
      · subst h1; exact ((Built.proof_iff (BaseOk.ownSym hb)).1 ht).2 rfl c hc
      · by_cases h2 : k = LAMBDA
        · subst h2; exact ((Built.lambda_iff (BaseOk.ownSym hb)).1 ht).1 c hc
        · exact (Built.node_iff (BaseOk.ownSym hb) ⟨h1, h2, Built.leaf (BaseOk.ownSym hb) ht⟩).1 ht c hc
  intro c hc
  have h1 := hch p h c hc
  refine ⟨hch c h1, ?_⟩
  intro pat r hp e he
  exact hch pat (hch c h1 pat (by rw [hp]; simp)) e he

theorem Fresh.mark (hb : BaseOk b n0) (H : Fresh b n0 m st) {v : Term} {a : Attr} {c : Option Term} (hv : Old b m v) (hc : ∀ t, c = some t → Old b m t) :
    Fresh b n0 m { st with decls := (st.decls.markConstructorKind v a c).1 } := by
  simp only [Decls.markConstructorKind]
  split
  · exact H
  · refine ⟨H.next, H.ge, H.scope, ?_, ?_, H.typed, H.asms, H.rules⟩
    · intro t ht
      dsimp only at ht
      split at ht
      · rename_i h; rw [h]; exact hv
      · exact H.info t ht
    · refine { H.built with cons := ?_, program := ?_, kind := ?_ }
      · intro t ai c' ht h hc'
        dsimp only at h
        split at h
        · cases h; exact hc c' hc'
        · exact H.built.cons t ai c' ht h hc'
      · intro t ai c' ht h ha hc'
        dsimp only at h
        split at h
        · cases h; exact ProgShape.old hb (hc c' hc')
        · exact H.built.program t ai c' ht h ha hc'
      · intro t ai h
        dsimp only at h
        split at h
        · cases h
          cases hi : st.decls.info v with
          | none => simp
          | some ai' => simpa using H.built.kind v ai' hi
        · exact H.built.kind t ai h

/-- the invariant as a world, numbered by the next symbol -/
theorem freshWorld (hb : BaseOk b n0) :
    World b (· ≤ ·) (fun m (_ : Nat) st => Fresh b n0 m st) (fun m => Old b m) (fun m => Old b m) where
  refl := Nat.le_refl
  trans := Nat.le_trans
  mono h ht := ht.mono h
  canMono h ht := ht.mono h
  good H := H.good hb
  typed := by
    intro w d st i H h
    rcases H.typed _ _ h with h | h
    · cases h
    · rw [H.next]; exact h
  get H h := H.scope.sym _ _ h
  bind H ht := H.withScope (H.scope.bind ht _)
  push H := H.withScope ⟨⟨H.scope.sym, H.scope.ov⟩, H.scope.mark⟩
  pop := by
    intro w d st st' H h
    simp only [State.pop, Run.map_ok] at h
    obtain ⟨s, h1, rfl⟩ := h
    exact H.withScope (H.scope.pop h1)
  sym := by
    intro w d st k x ty H hk hty
    obtain ⟨h1, h2, h3⟩ := H.sym hb x (k := k) (by rcases hk with rfl | rfl | rfl <;> simp) hty
    exact ⟨h1, w + 1, by omega, h2, h3, h3⟩
  mark H hv _ hc := H.mark hb hv hc
  prog H hv hp _ := H.mark hb hv (by simpa using hp)
  refAssert H := H.congr rfl rfl rfl rfl H.asms
  pair := by
    intro w a c r h
    have := ((Built.proof_iff (BaseOk.ownSym hb)).1 h).2 rfl
    exact ⟨this a (by simp), this c (by simp)⟩

/-! ### Commands -/

theorem Old.proof (hb : BaseOk b n0) {t : Term} (h : Old b m t) : Old b m (mkProof t) :=
  (Built.proof_iff (BaseOk.ownSym hb)).2 ⟨trivial, fun _ c hc => by rw [List.mem_singleton] at hc; rw [hc]; exact h⟩

/-- parts of a tuple, whatever its kind -/
theorem Old.parts (hb : BaseOk b n0) {k : Kind} {cs : List Term} (h : Old b m (.node k cs)) : ∀ c ∈ cs, Old b m c := by
  by_cases h1 : k = PROOF
  · subst h1; exact ((Built.proof_iff (BaseOk.ownSym hb)).1 h).2 rfl
  · by_cases h2 : k = LAMBDA
    · subst h2; exact ((Built.lambda_iff (BaseOk.ownSym hb)).1 h).1
    · exact (Built.node_iff (BaseOk.ownSym hb) ⟨h1, h2, Built.leaf (BaseOk.ownSym hb) h⟩).1 h

theorem Fresh.self (hb : BaseOk b n0) (H : Fresh b n0 m st) : Old b m b.self :=
  Built.of_basic (n := n0) (fun k i hi hk => ⟨k, i, rfl, hk, .inr (by have := H.ge; omega)⟩) hb.self

theorem Fresh.declareConsts (hb : BaseOk b n0) {n : Nat} {k : Kind} {ty : SExp} (H : Fresh b n0 m st)
    (h : Ethos.exec b n st (.declareConsts k ty) = .ok st') : Fresh b n0 m st' := by
  have W := freshWorld hb
  simp only [Ethos.exec, Run.bind_ok] at h
  obtain ⟨⟨s1, t⟩, h1, d, h2, h3⟩ := h
  obtain ⟨i1, p1⟩ := W.parseType (d := 0) (W.bind (d := 0) (x := nm "eo::self") (W.push (d := 0) H) (H.self hb)) h1
  have i2 : Fresh b n0 m { s1 with decls := d } := by
    simp only [Decls.setLiteralTypeRule] at h2
    split at h2
    · split at h2
      · split at h2
        · cases h2; exact i1
        · cases h2
      · cases h2
        refine ⟨i1.next, i1.ge, i1.scope, i1.info, ?_, i1.typed, i1.asms, i1.rules⟩
        refine { i1.built with litRule := ?_ }
        intro k' t' h'
        dsimp only at h'
        split at h'
        · cases h'; exact p1
        · exact i1.built.litRule k' t' h'
    · cases h2
  exact W.pop (d := 0) i2 h3

/-- the invariant is one that all commands keep -/
theorem freshTerms (hb : BaseOk b n0) : StateTerms b (Fresh b n0) (Old b) where
  world := freshWorld hb
  next H := H.next
  asms H := H.asms
  rules H := H.rules
  congr := Fresh.congr
  reset H := H.withScope H.scope.reset
  new H x _ hk hty := H.sym hb x hk hty
  noInfo H hk := (H.noInfo hb hk (by rw [H.next]; exact Nat.le_refl _)).1
  mark H := H.mark hb
  addRule := by
    intro m st r H hr x
    refine ⟨H.next, H.ge, H.scope, H.info, { H.built with }, H.typed, H.asms, ?_⟩
    intro y u hu
    dsimp only at hu
    split at hu
    · cases hu; exact hr
    · exact H.rules y u hu
  parts h := h.parts hb
  proof h := h.proof hb
  consts H := H.declareConsts hb

theorem Fresh.popN (hb : BaseOk b n0) (k : Nat) {st st' : State} (H : Fresh b n0 m st) (h : Ethos.popN k st = .ok st') : Fresh b n0 m st' :=
  (freshTerms hb).popN k H h

theorem Fresh.pushN (hb : BaseOk b n0) (k : Nat) {st : State} (H : Fresh b n0 m st) : Fresh b n0 m (Ethos.pushN k st) :=
  (freshTerms hb).pushN k H

theorem Fresh.assume (hb : BaseOk b n0) {n : Nat} {x : Name} {f : SExp} {p : Bool} (H : Fresh b n0 m st) (h : execAssume b n st x f p = .ok st') :
    Fresh b n0 m st' := (freshTerms hb).assume H h

theorem premiseFormulas_old (hb : BaseOk b n0) (l fs : List Term) (hl : ∀ t ∈ l, Old b m t) (h : premiseFormulas l = .ok fs) : ∀ t ∈ fs, Old b m t :=
  (freshTerms hb).premiseFormulas l fs hl h

theorem Fresh.ruleInputs (hb : BaseOk b n0) {n : Nat} {pc : Option Term} {ia ie ip : Bool} {proven : Option Term} {prems args cs : List Term}
    (H : Fresh b n0 m st) (hp : ∀ c, pc = some c → Old b m c) (hv : ∀ c, proven = some c → Old b m c) (hm : ∀ t ∈ prems, Old b m t) (ha : ∀ t ∈ args, Old b m t)
    (h : Ethos.ruleInputs b n st pc ia ie proven prems args ip = .ok cs) : ∀ c ∈ cs, Old b m c :=
  (freshTerms hb).ruleInputs H hp hv hm ha h

theorem Fresh.notifyStep (hb : BaseOk b n0) {n : Nat} {rule conc : Term} {proven : Option Term} {prems args : List Term} {isPop : Bool}
    (H : Fresh b n0 m st) (hv : ∀ c, proven = some c → Old b m c) (hm : ∀ t ∈ prems, Old b m t) (ha : ∀ t ∈ args, Old b m t)
    (hr : Old b m rule) (h : Ethos.notifyStep b n st rule proven prems args isPop = .ok conc) : Old b m conc :=
  (freshTerms hb).notifyStep H hv hm ha hr h

theorem Fresh.step (hb : BaseOk b n0) {n : Nat} {s : SStep} (H : Fresh b n0 m st) (h : execStep b n st s = .ok st') :
    Fresh b n0 m st' := (freshTerms hb).step H h

theorem Fresh.ruleArgTypes (hb : BaseOk b n0) {pty : Term} (as : List Term) (i : Nat) {m : Nat} {st : State} (H : Fresh b n0 m st) (hp : Old b m pty) :
    ∃ m', m ≤ m' ∧ Fresh b n0 m' (Ethos.ruleArgTypes pty as i st).1 ∧ ∀ t ∈ (Ethos.ruleArgTypes pty as i st).2, Old b m' t :=
  (freshTerms hb).ruleArgTypes as i H hp

theorem Fresh.declareRule (hb : BaseOk b n0) {n : Nat} {r : SRule} (H : Fresh b n0 m st) (h : execDeclareRule b n st r = .ok st') :
    ∃ m', m ≤ m' ∧ Fresh b n0 m' st' ∧ ∃ d, Declares b n st r d ∧ Stored st' r.name d := (freshTerms hb).declareRule H h

theorem Fresh.exec (hb : BaseOk b n0) {n : Nat} {c : Cmd} (H : Fresh b n0 m st) (h : Ethos.exec b n st c = .ok st') : ∃ m', m ≤ m' ∧ Fresh b n0 m' st' :=
  (freshTerms hb).exec H h

theorem Fresh.event (hb : BaseOk b n0) {n : Nat} {e : Event} (H : Fresh b n0 m st) (h : replayEvent b n st e = .ok st') : ∃ m', m ≤ m' ∧ Fresh b n0 m' st' :=
  (freshTerms hb).event H h

theorem Fresh.replay (hb : BaseOk b n0) {n : Nat} (es : List Event) {m : Nat} {st st' : State} (H : Fresh b n0 m st)
    (h : Spec.replay b n es st = .ok st') : ∃ m', m ≤ m' ∧ Fresh b n0 m' st' := (freshTerms hb).replay es H h

/-- the state at the start -/
theorem Fresh.init (hb : BaseOk b n0) : Fresh b n0 n0 (State.init b n0) := by
  have hbas : ∀ {t : Term}, Basic b n0 t → Old b n0 t := fun h =>
    Built.of_basic (n := n0) (fun k i hi hk => ⟨k, i, rfl, hk, .inr hi⟩) h
  have hbi : ∀ i, Old b n0 (builtinSym i) := fun i => .sym _ _ ⟨_, i, rfl, by simp, .inl rfl⟩ (by
    rintro ⟨ty, h1⟩
    obtain ⟨k', i', h2, h3⟩ := hb.own _ _ h1
    cases h2
    rcases h3 with h3 | h3
    · cases h3
    · cases h3.1)
  have hscope : ScopeAll (Old b n0) (initScope b) := by
    have h0 : ∀ (l : List ((String × Kind) × Nat)) (s : Scope), ScopeAll (Old b n0) s →
        ScopeAll (Old b n0) (l.foldl (fun s p => Scope.bind s (nm p.1.1) (builtinSym p.2)) s) := by
      intro l
      induction l with
      | nil => intro s h; exact h
      | cons p l ih => intro s h; exact ih _ (h.bind (hbi _) _)
    simp only [initScope]
    refine (((((h0 builtins.zipIdx Scope.init ?_).bind ?_ _).bind ?_ _).bind (hbas hb.listType) _).bind (hbas hb.listNil) _).bind (hbas hb.listCons) _
    · exact ⟨⟨by simp [Scope.init], by simp [Scope.init]⟩, by simp [Scope.init]⟩
    · exact .lit _
    · exact .lit _
  have hinfo : ∀ t ai, (State.init b n0).decls.info t = some ai →
      (∃ i p, t = builtinSym i ∧ builtins[i]? = some p ∧ ai = ⟨.NONE, none, p.2, none⟩) ∨ t = b.listCons ∧ ai = ⟨.RIGHT_ASSOC_NIL, some b.listNil, NONE, none⟩ := by
    intro t ai h
    simp only [State.init] at h
    split at h
    · rename_i i
      simp only [Option.map_eq_some_iff] at h
      obtain ⟨p, h1, rfl⟩ := h
      exact .inl ⟨i, p, rfl, h1, rfl⟩
    · split at h
      · rename_i ht; cases h; exact .inr ⟨ht, rfl⟩
      · cases h
  refine ⟨rfl, Nat.le_refl _, hscope, ?_, ?_, ?_, by simp [State.init], by simp [State.init]⟩
  · intro t ht
    cases h : (State.init b n0).decls.info t with
    | none => exact absurd h ht
    | some ai =>
      rcases hinfo t ai h with ⟨i, p, rfl, _, _⟩ | ⟨rfl, _⟩
      · exact hbi i
      · exact hbas hb.listCons
  · refine ⟨?_, ?_, ?_, ?_, ?_, ?_, by simp [State.init], hbas hb.listCons, hbas hb.listNil, hbas hb.listType, hbas hb.proofType⟩
    · intro k i ty hn _ h
      exact hbas (hb.types _ _ hn h).2
    · intro v u ty ho h
      exact hb.ownType v u ty ho h
    · intro t ty h
      by_cases ho : ∃ u, Own b t u
      · obtain ⟨u, ho⟩ := ho
        obtain ⟨k, i, h, _⟩ := hb.own _ _ ho
        exact ⟨k, i, h⟩
      · obtain ⟨⟨k, i, h, _⟩, _⟩ := hb.types _ _ ho h
        exact ⟨k, i, h⟩
    · intro t ai c _ h hc
      rcases hinfo t ai h with ⟨i, p, _, _, rfl⟩ | ⟨_, rfl⟩
      · cases hc
      · cases hc; exact hbas hb.listNil
    · intro t ai c _ h ha hc
      rcases hinfo t ai h with ⟨i, p, _, _, rfl⟩ | ⟨_, rfl⟩
      · cases hc
      · cases ha
    · intro t ai h
      rcases hinfo t ai h with ⟨i, p, _, hp, rfl⟩ | ⟨_, rfl⟩
      · have : ∀ p ∈ builtins, p.2 ≠ PROOF ∧ p.2 ≠ LAMBDA ∧ isSymbol p.2 = false := by decide
        exact this p (List.mem_of_getElem? hp)
      · simp
  · intro k i h
    cases hs : b.symType (.sym k i) with
    | none => exact absurd hs h
    | some ty =>
      by_cases ho : ∃ u, Own b (.sym k i) u
      · obtain ⟨u, ho⟩ := ho
        obtain ⟨k', i', h1, h2⟩ := hb.own _ _ ho
        cases h1
        exact h2.imp id fun h => h.2
      · obtain ⟨⟨k', i', h1, h2⟩, _⟩ := hb.types _ _ ho hs
        cases h1
        exact .inr h2

end Ethos.Props
