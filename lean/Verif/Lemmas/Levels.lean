import Verif.Lemmas.Fresh
import Verif.Lemmas.Scope
/-
Assumption scopes: which terms each of them may hold.
-/
namespace Ethos.Props
open Ethos Kind Spec

/-- an assumption scope: its symbols, the hypotheses its proofs may use and the one it was opened with -/
structure Level where
  S : Term → Prop
  Γ : Term → Prop
  hyp : Term

/-- the contents of a proof: one closed formula without computation that is derived from the hypotheses -/
def Pfs (D : (Term → Prop) → Term → Prop) (Γ : Term → Prop) (cs : List Term) : Prop := ∃ f, cs = [f] ∧ D Γ f ∧ IsValue f

/-- the terms of an assumption scope -/
def Level.T (b : Env) (D : (Term → Prop) → Term → Prop) (l : Level) : Term → Prop := Built b true l.S (Pfs D l.Γ)

/-- the terms of each assumption scope are bound in its frame or in frames above it -/
def FramesOk (b : Env) (D : (Term → Prop) → Term → Prop) : List Level → List (List Binding) → List Binding → Prop
  | [], _, _ => False
  | [l], fs, g => (∀ f ∈ fs, ∀ p ∈ f, l.T b D p.2) ∧ ∀ p ∈ g, l.T b D p.2
  | _ :: _ :: _, [], _ => False
  | l :: l' :: ls, f :: fs, g => (∀ p ∈ f, l.T b D p.2) ∧ FramesOk b D (l' :: ls) fs g

/-- each assumption scope has one more hypothesis than the one below it -/
def Stacked : List Level → Prop
  | l :: l' :: ls => (∀ t, l'.S t → l.S t) ∧ (∀ F, l.Γ F ↔ F = l.hyp ∨ l'.Γ F) ∧ Stacked (l' :: ls)
  | _ => True

/-- the hypotheses of the assumption scopes are the first assumptions made in them -/
def AsmOk (A : Term → Prop) (asms : List Term) : List Nat → List Level → Prop
  | [], [l] => ∀ F, l.Γ F ↔ A F
  | k :: ks, l :: l' :: ls => asms[k]? = some l.hyp ∧ AsmOk A (asms.take k) ks (l' :: ls)
  | _, _ => False

structure Lev (b : Env) (n0 : Nat) (D : (Term → Prop) → Term → Prop) (A : Term → Prop) (ls : List Level) (d : Nat) (st : State) : Prop where
  table : ∃ tops rest g, Refines st.scope ⟨tops ++ rest, g⟩ ∧ tops.length = d ∧
    (∀ f ∈ tops, ∀ p ∈ f, ∀ l, ls.head? = some l → l.T b D p.2) ∧ FramesOk b D ls rest g
  built : ∀ l ∈ ls, BuiltState b st (l.T b D)
  info : ∀ t, st.decls.info t ≠ none → (∃ k i, t = .sym k i ∧ ¬ ∃ u, Own b t u) ∨ ∀ l ∈ ls, l.T b D t
  alloc : ∀ l ∈ ls, ∀ t, l.S t → Alloc st.next t
  base : ∀ l ∈ ls, ∀ t, Alloc n0 t → l.S t
  chain : Stacked ls
  asms : AsmOk A st.asms st.asmCtx ls

variable {b : Env} {n n0 : Nat} {D : (Term → Prop) → Term → Prop} {A : Term → Prop}

theorem Level.T_mono (hD : ∀ Γ Γ' F, (∀ G, Γ G → Γ' G) → D Γ F → D Γ' F) {l l' : Level} (hS : ∀ t, l.S t → l'.S t) (hΓ : ∀ F, l.Γ F → l'.Γ F)
    {t : Term} (h : l.T b D t) : l'.T b D t :=
  Built.mono hS (fun _ ⟨f, h1, h2, h3⟩ => ⟨f, h1, hD _ _ _ hΓ h2, h3⟩) h

theorem FramesOk.all (hD : ∀ Γ Γ' F, (∀ G, Γ G → Γ' G) → D Γ F → D Γ' F) : ∀ (ls : List Level) (l : Level) (fs : List (List Binding)) (g : List Binding),
    Stacked (l :: ls) → FramesOk b D (l :: ls) fs g → ∀ p ∈ fs.flatten ++ g, l.T b D p.2
  | [], l, fs, g, _, h, p, hp => by
    obtain ⟨h1, h2⟩ := h
    rcases List.mem_append.1 hp with hp | hp
    · obtain ⟨f, hf, hp⟩ := List.mem_flatten.1 hp
      exact h1 f hf p hp
    · exact h2 p hp
  | l' :: ls, l, [], g, _, h, p, hp => h.elim
  | l' :: ls, l, f :: fs, g, hc, h, p, hp => by
    obtain ⟨h1, h2⟩ := h
    obtain ⟨c1, c2, c3⟩ := hc
    simp only [List.flatten_cons, List.append_assoc] at hp
    rcases List.mem_append.1 hp with hp | hp
    · exact h1 p hp
    · exact Level.T_mono hD c1 (fun F hF => (c2 F).2 (.inr hF)) (FramesOk.all hD ls l' fs g c3 h2 p hp)

theorem FramesOk.top {l l' : Level} {ls : List Level} (ht : ∀ t, l.T b D t → l'.T b D t) : ∀ {fs : List (List Binding)} {g : List Binding},
    FramesOk b D (l :: ls) fs g → FramesOk b D (l' :: ls) fs g := by
  intro fs g h
  cases ls with
  | nil => exact ⟨fun f hf p hp => ht _ (h.1 f hf p hp), fun p hp => ht _ (h.2 p hp)⟩
  | cons k ls =>
    cases fs with
    | nil => exact h
    | cons f fs => exact ⟨fun p hp => ht _ (h.1 p hp), h.2⟩

theorem FramesOk.bind {l : Level} {ls : List Level} {x : Name} {t : Term} (ht : l.T b D t) : ∀ {fs : List (List Binding)} {g : List Binding},
    FramesOk b D (l :: ls) fs g → FramesOk b D (l :: ls) ((⟨fs, g⟩ : Stack).bind x t).scopes ((⟨fs, g⟩ : Stack).bind x t).globals := by
  intro fs g h
  cases fs with
  | nil =>
    cases ls with
    | nil =>
      refine ⟨h.1, ?_⟩
      intro p hp
      rcases List.mem_cons.1 hp with rfl | hp
      · exact ht
      · exact h.2 p hp
    | cons k ls => exact h.elim
  | cons f fs =>
    cases ls with
    | nil =>
      refine ⟨?_, h.2⟩
      intro f' hf p hp
      rcases List.mem_cons.1 hf with rfl | hf
      · rcases List.mem_cons.1 hp with rfl | hp
        · exact ht
        · exact h.1 f (by simp) p hp
      · exact h.1 f' (by simp [hf]) p hp
    | cons k ls =>
      refine ⟨?_, h.2⟩
      intro p hp
      rcases List.mem_cons.1 hp with rfl | hp
      · exact ht
      · exact h.1 p hp

theorem AsmOk.congr {asms : List Term} {ks : List Nat} {l l' : Level} {ls : List Level} (h1 : l'.hyp = l.hyp) (h2 : l'.Γ = l.Γ)
    (h : AsmOk A asms ks (l :: ls)) : AsmOk A asms ks (l' :: ls) := by
  cases ks with
  | nil => cases ls with
    | nil => simpa only [AsmOk, h2] using h
    | cons k ls => exact h.elim
  | cons k ks => cases ls with
    | nil => exact h.elim
    | cons k ls => exact ⟨by rw [h1]; exact h.1, h.2⟩

theorem AsmOk.append {asms : List Term} (x : List Term) : ∀ {ks : List Nat} {ls : List Level}, AsmOk A asms ks ls → AsmOk A (asms ++ x) ks ls
  | [], [], h => h.elim
  | [], [_], h => h
  | [], _ :: _ :: _, h => h.elim
  | _ :: _, [], h => h.elim
  | _ :: _, [_], h => h.elim
  | k :: ks, l :: l' :: ls, h => by
    obtain ⟨h1, h2⟩ := h
    have hk : k < asms.length := by
      apply Decidable.byContradiction
      intro hk
      rw [List.getElem?_eq_none (by omega)] at h1
      cases h1
    refine ⟨?_, ?_⟩
    · rw [List.getElem?_append_left hk]; exact h1
    · rw [List.take_append_of_le_length (by omega)]; exact h2

theorem mem_lookupIn {l : List Binding} {x : Name} {t : Term} (h : lookupIn l x = some t) : ∃ p ∈ l, p.2 = t := by
  simp only [lookupIn, Option.map_eq_some_iff] at h
  obtain ⟨p, h1, h2⟩ := h
  exact ⟨p, List.mem_of_find?_eq_some h1, h2⟩

theorem mem_candsOf {l : List Binding} {x : Name} {t : Term} (h : t ∈ candsOf l x) : ∃ p ∈ l, p.2 = t := by
  simp only [candsOf, List.mem_reverse, List.mem_map, List.mem_filter] at h
  obtain ⟨p, ⟨h1, _⟩, h2⟩ := h
  exact ⟨p, h1, h2⟩

/-- what the table shows are terms of the top scope -/
theorem Lev.shown (hD : ∀ Γ Γ' F, (∀ G, Γ G → Γ' G) → D Γ F → D Γ' F) {l : Level} {low : List Level} {d : Nat} {st : State}
    (H : Lev b n0 D A (l :: low) d st) : (∀ x t, st.scope.get x = some t → l.T b D t) ∧ ∀ x t, t ∈ st.scope.ov x → l.T b D t := by
  obtain ⟨tops, rest, g, h1, _, h3, h4⟩ := H.table
  have hall : ∀ p ∈ (tops ++ rest).flatten ++ g, l.T b D p.2 := by
    intro p hp
    simp only [List.flatten_append, List.append_assoc] at hp
    rcases List.mem_append.1 hp with hp | hp
    · obtain ⟨f, hf, hp⟩ := List.mem_flatten.1 hp
      exact h3 f hf p hp l rfl
    · exact FramesOk.all hD _ _ _ _ H.chain h4 p hp
  refine ⟨?_, ?_⟩
  · intro x t h
    obtain ⟨p, hp, rfl⟩ := mem_lookupIn ((h1.holds.sym x).symm.trans h)
    exact hall p hp
  · intro x t h
    rw [h1.holds.ov] at h
    split at h
    · obtain ⟨p, hp, rfl⟩ := mem_candsOf h
      exact hall p hp
    · cases h

theorem value_proof {f : Term} (h : IsValue f) : (Term.node PROOF [f]).ground = true ∧ (Term.node PROOF [f]).evaluatable = false := by
  obtain ⟨h1, h2⟩ := (isValue_iff f).1 h
  refine ⟨?_, ?_⟩
  · simp [Term.ground, Term.grounds, h1]
  · simp [Term.evaluatable, Term.evaluatables, isLiteralOp, h2]

theorem Good.and {env : Env} {P Q : Term → Prop} (G1 : Good env P) (G2 : Good env Q)
    (hr1 : ∀ k t, env.litRule k = some t → P t) (hr2 : ∀ k t, env.litRule k = some t → Q t)
    (hp : ∀ cs, Q (.node PROOF cs) → (Term.node PROOF cs).ground = true ∧ (Term.node PROOF cs).evaluatable = false) :
    Good env fun t => P t ∧ Q t where
  lit l := ⟨G1.lit l, G2.lit l⟩
  node k cs hk := ⟨fun h c hc => ⟨(G1.node k cs hk).1 h.1 c hc, (G2.node k cs hk).1 h.2 c hc⟩,
    fun h => ⟨(G1.node k cs hk).2 fun c hc => (h c hc).1, (G2.node k cs hk).2 fun c hc => (h c hc).2⟩⟩
  lambda cs := ⟨fun h => ⟨fun c hc => ⟨((G1.lambda cs).1 h.1).1 c hc, ((G2.lambda cs).1 h.2).1 c hc⟩, ((G1.lambda cs).1 h.1).2⟩,
    fun h => ⟨(G1.lambda cs).2 ⟨fun c hc => (h.1 c hc).1, h.2⟩, (G2.lambda cs).2 ⟨fun c hc => (h.1 c hc).2, h.2⟩⟩⟩
  leaf k cs h := G1.leaf k cs h.1
  proof := .inr fun cs h => hp cs h.2
  symType t ty h e := ⟨G1.symType t ty h.1 e, G2.symType t ty h.2 e⟩
  cons t ai c h e hc := ⟨G1.cons t ai c h.1 e hc, G2.cons t ai c h.2 e hc⟩
  program p prog h e c hc := ⟨fun d hd => ⟨(G1.program p prog h.1 e c hc).1 d hd, (G2.program p prog h.2 e c hc).1 d hd⟩,
    fun pat r hr e' he => ⟨(G1.program p prog h.1 e c hc).2 pat r hr e' he, (G2.program p prog h.2 e c hc).2 pat r hr e' he⟩⟩
  kind := G1.kind
  overloads x t h := ⟨G1.overloads x t h, G2.overloads x t h⟩
  litRule k t h := .inl ⟨hr1 k t h, hr2 k t h⟩
  boundVar x ty hg h := ⟨G1.boundVar x ty hg h.1, G2.boundVar x ty hg h.2⟩
  tmp t hg h := ⟨G1.tmp t hg h.1, G2.tmp t hg h.2⟩
  listCons := ⟨G1.listCons, G2.listCons⟩
  listNil := ⟨G1.listNil, G2.listNil⟩
  listType := ⟨G1.listType, G2.listType⟩
  proofType := ⟨G1.proofType, G2.proofType⟩

theorem Pfs.value {Γ : Term → Prop} {cs : List Term} (h : Pfs D Γ cs) : (Term.node PROOF cs).ground = true ∧ (Term.node PROOF cs).evaluatable = false := by
  obtain ⟨f, rfl, _, h⟩ := h
  exact value_proof h

theorem Level.T_proof (ho : OwnSym b) {l : Level} {cs : List Term} : l.T b D (.node PROOF cs) ↔ Pfs D l.Γ cs :=
  (Built.proof_iff ho).trans ⟨fun h => h.1, fun h => ⟨h, by simp⟩⟩

theorem Lev.good (hb : BaseOk b n0) (hD : ∀ Γ Γ' F, (∀ G, Γ G → Γ' G) → D Γ F → D Γ' F) {l : Level} {low : List Level} {d m : Nat} {st : State}
    (F : Fresh b n0 m st) (H : Lev b n0 D A (l :: low) d st) : Good (st.env b) fun t => Old b m t ∧ l.T b D t :=
  (F.good hb).and ((H.built l (by simp)).good (BaseOk.ownSym hb) (H.shown hD).2 (fun _ _ h => h.value) (by simp)) F.built.litRule
    (H.built l (by simp)).litRule fun cs h => ((Level.T_proof (BaseOk.ownSym hb)).1 h).value

/-- a symbol of a scope exists -/
theorem Level.T_sym (hb : BaseOk b n0) {l : Level} {m : Nat} (ha : ∀ t, l.S t → Alloc m t) (hn : n0 ≤ m) {k : Kind} {i : Nat}
    (hk : k ≠ VARIABLE ∧ k ≠ BUILTIN_CONST) (hi : m ≤ i) : ¬ l.T b D (.sym k i) := by
  intro h
  rcases Built.sym_inv h with ⟨h1, _⟩ | ⟨ty, h1, _⟩
  · obtain ⟨k', i', h1, h2, h3⟩ := ha _ h1
    cases h1
    rcases h3 with h3 | h3
    · exact hk.2 h3
    · omega
  · exact notOwn hb hk.1 (by omega) ⟨ty, h1⟩

/-- the scope knows the same about its terms in `st'` as in `st`, up to new symbols that are `N` -/
theorem BuiltState.grow (hb : BaseOk b n0) {st st' : State} {m : Nat} (F : Fresh b n0 m st') {l l' : Level} {N : Term → Prop}
    (H : BuiltState b st (l.T b D)) (hT : ∀ t, l.T b D t → l'.T b D t) (hS : ∀ t, l'.S t → l.S t ∨ N t)
    (hN : ∀ t, N t → st'.decls.info t = none ∧ ∀ ty, st'.symType t = some ty → l'.T b D ty)
    (hs : ∀ t, l.T b D t → st'.symType t = st.symType t) (hi : ∀ t, l.T b D t → st'.decls.info t = st.decls.info t)
    (hinfo : ∀ t, st'.decls.info t ≠ none → (∃ k i, t = .sym k i ∧ ¬ ∃ u, Own b t u) ∨ l.T b D t) (hl : st'.decls.litRule = st.decls.litRule) :
    BuiltState b st' (l'.T b D) := by
  have hsym : ∀ k i, l'.T b D (.sym k i) → (¬ ∃ u, Own b (.sym k i) u) → l.T b D (.sym k i) ∨ N (.sym k i) := by
    intro k i h hn
    rcases Built.sym_inv h with ⟨h1, h2⟩ | ⟨ty, h1, _⟩
    · exact (hS _ h1).imp (fun h => .sym k i h h2) id
    · exact absurd ⟨ty, h1⟩ hn
  have hold : ∀ t ai, l'.T b D t → st'.decls.info t = some ai → l.T b D t := by
    intro t ai ht h
    rcases hinfo t (by simp [h]) with ⟨k, i, rfl, ho⟩ | h1
    · rcases hsym k i ht ho with h1 | h1
      · exact h1
      · rw [(hN _ h1).1] at h; cases h
    · exact h1
  refine ⟨?_, F.built.ownType, F.built.onlySym, ?_, ?_, F.built.kind, ?_, hT _ H.listCons, hT _ H.listNil, hT _ H.listType, hT _ H.proofType⟩
  · intro k i ty hn ht h
    rcases hsym k i ht hn with h1 | h1
    · rw [hs _ h1] at h; exact hT _ (H.symType k i ty hn h1 h)
    · exact (hN _ h1).2 ty h
  · intro t ai c ht h hc
    have h1 := hold t ai ht h
    rw [hi _ h1] at h
    exact hT _ (H.cons t ai c h1 h hc)
  · intro t ai prog ht h ha hc c hc'
    have h1 := hold t ai ht h
    rw [hi _ h1] at h
    have := H.program t ai prog h1 h ha hc c hc'
    exact ⟨fun d hd => hT _ (this.1 d hd), fun pat r hr e he => hT _ (this.2 pat r hr e he)⟩
  · intro k t h
    rw [hl] at h
    exact hT _ (H.litRule k t h)

/-- only the table changes -/
theorem Lev.withScope {ls : List Level} {d d' : Nat} {st : State} {s : Scope} (H : Lev b n0 D A ls d st)
    (h : ∃ tops rest g, Refines s ⟨tops ++ rest, g⟩ ∧ tops.length = d' ∧
      (∀ f ∈ tops, ∀ p ∈ f, ∀ l, ls.head? = some l → l.T b D p.2) ∧ FramesOk b D ls rest g) : Lev b n0 D A ls d' { st with scope := s } where
  table := h
  built l hl := { H.built l hl with }
  info := H.info
  alloc := H.alloc
  base := H.base
  chain := H.chain
  asms := H.asms

theorem Lev.bind {l : Level} {low : List Level} {d : Nat} {st : State} {x : Name} {t : Term} (H : Lev b n0 D A (l :: low) d st) (ht : l.T b D t) :
    Lev b n0 D A (l :: low) d (st.bind x t) := by
  obtain ⟨tops, rest, g, h1, h2, h3, h4⟩ := H.table
  refine H.withScope ?_
  have h5 := refines_bind h1 x t
  cases tops with
  | nil => exact ⟨[], _, _, h5, h2, by simp, FramesOk.bind ht h4⟩
  | cons f tops =>
    refine ⟨((x, t) :: f) :: tops, rest, g, h5, h2, ?_, h4⟩
    intro f' hf p hp l' hl'
    cases hl'
    rcases List.mem_cons.1 hf with rfl | hf
    · rcases List.mem_cons.1 hp with rfl | hp
      · exact ht
      · exact h3 f (by simp) p hp l rfl
    · exact h3 f' (by simp [hf]) p hp l rfl

theorem Lev.push {l : Level} {low : List Level} {d : Nat} {st : State} (H : Lev b n0 D A (l :: low) d st) : Lev b n0 D A (l :: low) (d+1) st.push := by
  obtain ⟨tops, rest, g, h1, h2, h3, h4⟩ := H.table
  refine H.withScope ⟨[] :: tops, rest, g, refines_push h1, by simp [h2], ?_, h4⟩
  intro f hf p hp
  rcases List.mem_cons.1 hf with rfl | hf
  · cases hp
  · exact h3 f hf p hp

theorem Lev.pop {l : Level} {low : List Level} {d : Nat} {st st' : State} (H : Lev b n0 D A (l :: low) (d+1) st) (h : st.pop = .ok st') :
    Lev b n0 D A (l :: low) d st' := by
  obtain ⟨tops, rest, g, h1, h2, h3, h4⟩ := H.table
  cases tops with
  | nil => cases h2
  | cons f tops =>
    obtain ⟨s', e1, e2, _⟩ := refines_pop h1
    simp only [State.pop, e1, Run.map] at h
    cases h
    exact H.withScope ⟨tops, rest, g, e2, by simpa using h2, fun f' hf => h3 f' (by simp [hf]), h4⟩

/-- a new symbol of the top scope -/
theorem Lev.sym (hb : BaseOk b n0) (hD : ∀ Γ Γ' F, (∀ G, Γ G → Γ' G) → D Γ F → D Γ' F) {l : Level} {low : List Level} {d m : Nat} {st : State}
    (F : Fresh b n0 m st) (H : Lev b n0 D A (l :: low) d st) {k : Kind} {x : Name} {ty : Term} (hk : k ≠ VARIABLE ∧ k ≠ BUILTIN_CONST)
    (hty : l.T b D ty) (hty' : Old b m ty) :
    Lev b n0 D A ({ l with S := fun t => l.S t ∨ t = .sym k st.next } :: low) d (st.mkSymbol k x ty).1 := by
  have hnx := F.next
  have hge := F.ge
  have hT : ∀ t, l.T b D t → ({ l with S := fun t => l.S t ∨ t = .sym k st.next } : Level).T b D t := fun t h =>
    Level.T_mono (l := l) (l' := { l with S := fun t => l.S t ∨ t = .sym k st.next }) hD (fun _ h => .inl h) (fun _ h => h) h
  have hal : ∀ t, Alloc st.next t → Alloc (st.mkSymbol k x ty).1.next t := by
    rintro t ⟨k, i, h1, h2, h3⟩
    exact ⟨k, i, h1, h2, h3.imp id fun h => Nat.lt_succ_of_lt h⟩
  have hne : ∀ l' ∈ l :: low, ∀ t, l'.T b D t → t ≠ .sym k st.next := by
    rintro l' hl' t ht rfl
    exact Level.T_sym hb (H.alloc l' hl') (by omega) hk (Nat.le_refl _) ht
  have F' := (F.sym hb x hk hty').2.1
  refine ⟨?_, ?_, ?_, ?_, ?_, ?_, ?_⟩
  · obtain ⟨tops, rest, g, h1, h2, h3, h4⟩ := H.table
    refine ⟨tops, rest, g, h1, h2, ?_, FramesOk.top hT h4⟩
    intro f hf p hp l' hl'
    cases hl'
    exact hT _ (h3 f hf p hp l rfl)
  · intro l' hl'
    rcases List.mem_cons.1 hl' with rfl | hl'
    · refine BuiltState.grow hb F' (N := fun t => t = .sym k st.next) (H.built l (by simp)) hT (fun t h => h) ?_ ?_ (fun _ _ => rfl) ?_ rfl
      · rintro t rfl
        refine ⟨(F.noInfo hb hk (by omega)).1, ?_⟩
        intro ty' h
        simp only [State.mkSymbol, if_true, Option.some.injEq] at h
        exact h ▸ hT _ hty
      · intro t ht
        simp only [State.mkSymbol]
        rw [if_neg (hne l (by simp) t ht)]
      · intro t ht
        exact (H.info t ht).imp id fun h => h l (by simp)
    · refine BuiltState.grow hb F' (N := fun _ => False) (H.built l' (by simp [hl'])) (fun _ h => h) (fun t h => .inl h) (by simp) ?_ (fun _ _ => rfl) ?_ rfl
      · intro t ht
        simp only [State.mkSymbol]
        rw [if_neg (hne l' (by simp [hl']) t ht)]
      · intro t ht
        exact (H.info t ht).imp id fun h => h l' (by simp [hl'])
  · intro t ht
    refine (H.info t ht).imp id fun h l' hl' => ?_
    rcases List.mem_cons.1 hl' with rfl | hl'
    · exact hT _ (h l (by simp))
    · exact h l' (by simp [hl'])
  · intro l' hl' t ht
    rcases List.mem_cons.1 hl' with rfl | hl'
    · rcases ht with ht | rfl
      · exact hal _ (H.alloc l (by simp) t ht)
      · exact ⟨k, st.next, rfl, hk.1, .inr (Nat.lt_succ_self _)⟩
    · exact hal _ (H.alloc l' (by simp [hl']) t ht)
  · intro l' hl' t ht
    rcases List.mem_cons.1 hl' with rfl | hl'
    · exact .inl (H.base l (by simp) t ht)
    · exact H.base l' (by simp [hl']) t ht
  · have := H.chain
    cases low with
    | nil => trivial
    | cons l' low => exact ⟨fun t h => .inl (this.1 t h), this.2.1, this.2.2⟩
  · exact AsmOk.congr (by rfl) (by rfl) H.asms

/-- a term that gets an attribute: anything in the outermost scope, else a symbol of the top scope only -/
def CanMark (b : Env) (D : (Term → Prop) → Term → Prop) (low : List Level) (v : Term) : Prop :=
  low = [] ∨ (∃ k i, v = .sym k i ∧ ¬ ∃ u, Own b v u) ∧ ∀ l ∈ low, ¬ l.T b D v

theorem Lev.mark {l : Level} {low : List Level} {d : Nat} {st : State}
    (H : Lev b n0 D A (l :: low) d st) {v : Term} {a : Attr} {c : Option Term} (hv : l.T b D v) (hc : CanMark b D low v)
    (h1 : ∀ t, c = some t → l.T b D t) (h2 : ∀ t, c = some t → a = .PROGRAM → ProgShape (l.T b D) t) :
    Lev b n0 D A (l :: low) d { st with decls := (st.decls.markConstructorKind v a c).1 } := by
  simp only [Decls.markConstructorKind]
  split
  · exact H
  · refine ⟨H.table, ?_, ?_, H.alloc, H.base, H.chain, H.asms⟩
    · intro l' hl'
      have hkind : ∀ t ai, (if t = v then some (((st.decls.info v).getD ⟨.NONE, none, NONE, none⟩)) else st.decls.info t) = some ai →
          ai.kind ≠ PROOF ∧ ai.kind ≠ LAMBDA ∧ isSymbol ai.kind = false := by
        intro t ai h
        split at h
        · cases h
          cases hi : st.decls.info v with
          | none => simp
          | some ai' => simpa using (H.built l' hl').kind v ai' hi
        · exact (H.built l' hl').kind t ai h
      rcases List.mem_cons.1 hl' with rfl | hl''
      · refine { H.built l' hl' with cons := ?_, program := ?_, kind := ?_ }
        · intro t ai c' ht h hc'
          dsimp only at h
          split at h
          · cases h; exact h1 c' hc'
          · exact (H.built l' hl').cons t ai c' ht h hc'
        · intro t ai c' ht h ha hc'
          dsimp only at h
          split at h
          · cases h; exact h2 c' hc' ha
          · exact (H.built l' hl').program t ai c' ht h ha hc'
        · intro t ai h
          dsimp only at h
          split at h
          · cases h
            cases hi : st.decls.info v with
            | none => simp
            | some ai' => simpa using (H.built l' hl').kind v ai' hi
          · exact (H.built l' hl').kind t ai h
      · have hne : ∀ t, l'.T b D t → t ≠ v := by
          rintro t ht rfl
          rcases hc with hc | ⟨_, hc⟩
          · rw [hc] at hl''; cases hl''
          · exact hc l' hl'' ht
        refine { H.built l' hl' with cons := ?_, program := ?_, kind := ?_ }
        · intro t ai c' ht h hc'
          dsimp only at h
          rw [if_neg (hne t ht)] at h
          exact (H.built l' hl').cons t ai c' ht h hc'
        · intro t ai c' ht h ha hc'
          dsimp only at h
          rw [if_neg (hne t ht)] at h
          exact (H.built l' hl').program t ai c' ht h ha hc'
        · intro t ai h
          dsimp only at h
          split at h
          · cases h
            cases hi : st.decls.info v with
            | none => simp
            | some ai' => simpa using (H.built l' hl').kind v ai' hi
          · exact (H.built l' hl').kind t ai h
    · intro t ht
      dsimp only at ht
      split at ht
      · rename_i e
        subst e
        rcases hc with rfl | ⟨hc, _⟩
        · exact .inr fun l' hl' => by rw [List.mem_singleton] at hl'; rw [hl']; exact hv
        · exact .inl hc
      · exact H.info t ht

/-- the invariant as a world: the next symbol and the symbols of the top scope -/
theorem levWorld (hb : BaseOk b n0) (hD : ∀ Γ Γ' F, (∀ G, Γ G → Γ' G) → D Γ F → D Γ' F) (Γ : Term → Prop) (hyp : Term) (low : List Level) :
    World b (fun (w w' : Nat × (Term → Prop)) => w.1 ≤ w'.1 ∧ ∀ t, w.2 t → w'.2 t)
      (fun w d st => Fresh b n0 w.1 st ∧ Lev b n0 D A (⟨w.2, Γ, hyp⟩ :: low) d st)
      (fun w t => Old b w.1 t ∧ (⟨w.2, Γ, hyp⟩ : Level).T b D t)
      (fun w t => (Old b w.1 t ∧ (⟨w.2, Γ, hyp⟩ : Level).T b D t) ∧ CanMark b D low t) where
  refl w := ⟨Nat.le_refl _, fun _ h => h⟩
  trans h1 h2 := ⟨Nat.le_trans h1.1 h2.1, fun t h => h2.2 t (h1.2 t h)⟩
  mono {w w' _} h ht := ⟨ht.1.mono h.1, Level.T_mono hD (l := ⟨w.2, Γ, hyp⟩) (l' := ⟨w'.2, Γ, hyp⟩) h.2 (fun _ h => h) ht.2⟩
  canMono {w w' _} h ht := ⟨⟨ht.1.1.mono h.1, Level.T_mono hD (l := ⟨w.2, Γ, hyp⟩) (l' := ⟨w'.2, Γ, hyp⟩) h.2 (fun _ h => h) ht.1.2⟩, ht.2⟩
  good H := H.2.good hb hD H.1
  typed H h := (freshWorld hb).typed (d := 0) H.1 h
  get H h := ⟨H.1.scope.sym _ _ h, (H.2.shown hD).1 _ _ h⟩
  bind H h := ⟨(freshWorld hb).bind (d := 0) H.1 h.1, H.2.bind h.2⟩
  push H := ⟨(freshWorld hb).push (d := 0) H.1, H.2.push⟩
  pop H h := ⟨(freshWorld hb).pop (d := 0) H.1 h, H.2.pop h⟩
  sym := by
    intro w d st k x ty H hk hty
    have hk' : k ≠ VARIABLE ∧ k ≠ BUILTIN_CONST := by rcases hk with rfl | rfl | rfl <;> simp
    obtain ⟨h1, h2, h3⟩ := H.1.sym hb x hk' hty.1
    have hnx := H.1.next
    have hge := H.1.ge
    have hT : (⟨fun t => w.2 t ∨ t = .sym k st.next, Γ, hyp⟩ : Level).T b D (.sym k st.next) :=
      .sym _ _ (.inr rfl) (notOwn hb hk'.1 (by omega))
    refine ⟨h1, (w.1 + 1, fun t => w.2 t ∨ t = .sym k st.next), ⟨Nat.le_succ _, fun _ h => .inl h⟩, ⟨h2, H.2.sym hb hD H.1 hk' hty.2 hty.1⟩, ⟨h3, hT⟩,
      ⟨h3, hT⟩, .inr ⟨⟨k, st.next, rfl, notOwn hb hk'.1 (by omega)⟩, ?_⟩⟩
    intro l hl
    exact Level.T_sym hb (H.2.alloc l (by simp [hl])) (by omega) hk' (Nat.le_refl _)
  mark H hv ha hc := ⟨H.1.mark hb hv.1.1 fun t ht => (hc t ht).1, H.2.mark hv.1.2 hv.2 (fun t ht => (hc t ht).2) fun _ _ h => absurd h ha.1⟩
  prog H hv hp hs := ⟨H.1.mark hb hv.1.1 fun t ht => by cases ht; exact hp.1, H.2.mark hv.1.2 hv.2 (fun t ht => by cases ht; exact hp.2) fun t ht _ => by
    cases ht
    exact fun c hc => ⟨fun d hd => ((hs c hc).1 d hd).2, fun pat r hr e he => ((hs c hc).2 pat r hr e he).2⟩⟩
  refAssert H := ⟨H.1.congr rfl rfl rfl rfl H.1.asms, { H.2 with built := fun l hl => { H.2.built l hl with } }⟩
  pair := by
    intro w a c r h
    obtain ⟨f, h1, _⟩ := (Level.T_proof (BaseOk.ownSym hb)).1 h.2
    cases h1

end Ethos.Props
