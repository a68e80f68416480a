import Verif.Lemmas.Bindings
import Verif.Lemmas.BaseExample
/-
C59: expressions denote terms by lexical scoping.  C60: the bindings made by commands.
-/
namespace Ethos.Props
open Ethos Kind Ethos.Spec

/-! ### The table of a reachable state -/

theorem foldl_table {α : Type} (f : α → Binding) : ∀ (l : List α) {s : Scope} {g : List Binding}, Refines s ⟨[], g⟩ →
    Refines (l.foldl (fun s p => s.bind (f p).1 (f p).2) s) ⟨[], (l.map f).reverse ++ g⟩
  | [], s, g, h => by simpa using h
  | p :: l, s, g, h => by
    have h1 : Refines (s.bind (f p).1 (f p).2) ⟨[], f p :: g⟩ := refines_bind h _ _
    have := foldl_table f l h1
    simpa using this

theorem init_table (b : Env) (n0 : Nat) : Refines (State.init b n0).scope (builtinNames b) := by
  have h := foldl_table (fun p : (String × Kind) × Nat => (nm p.1.1, builtinSym p.2)) builtins.zipIdx (s := Scope.init) (g := []) refines_init
  have h := refines_bind (refines_bind (refines_bind (refines_bind (refines_bind h (nm "true") tTrue) (nm "false") tFalse) (nm "eo::List") b.listType)
    (nm "eo::List::nil") b.listNil) (nm "eo::List::cons") b.listCons
  simp only [builtinNames]
  rw [List.reverse_append, ← List.append_nil (builtins.zipIdx.map _).reverse]
  exact h

theorem shows_of {st : State} {a : Stack} (h : Refines st.scope a) : Shows st a := ⟨h.holds.sym, h.holds.ov⟩

theorem event_table {b : Env} {n : Nat} {e : Event} {st st' : State} {a : Stack} (he : ∀ c, e ≠ .cmd c) (h : Refines st.scope a)
    (hp : replayEvent b n st e = .ok st') : Refines st'.scope a := by
  cases e with
  | enter f r nf =>
    simp only [replayEvent, Run.map_ok] at hp
    obtain ⟨p, h1, rfl⟩ := hp
    exact (parseOpt_on (On.refl h) h1).table
  | skip f r nf =>
    simp only [replayEvent, Run.map_ok] at hp
    obtain ⟨p, h1, rfl⟩ := hp
    exact (parseOpt_on (On.refl h) h1).table
  | cmd c => exact absurd rfl (he c)

theorem replay_table {b : Env} {n : Nat} : ∀ (es : List Event) {st st' : State} {a : Stack}, (.cmd .reset) ∉ es → Refines st.scope a →
    replay b n es st = .ok st' → ∃ a', Bindings b n es st a st' a' ∧ Refines st'.scope a'
  | [], st, st', a, _, h, hp => by simp only [replay] at hp; cases hp; exact ⟨a, .nil _ _, h⟩
  | e :: es, st, st', a, hr, h, hp => by
    simp only [replay, Run.bind_ok] at hp
    obtain ⟨s1, h1, h2⟩ := hp
    have hr' : (.cmd .reset) ∉ es := fun h => hr (by simp [h])
    by_cases he : ∃ c, e = .cmd c
    · obtain ⟨c, rfl⟩ := he
      obtain ⟨a1, h3, h4⟩ := exec_effect (c := c) (by rintro rfl; exact hr (by simp)) h h1
      obtain ⟨a', h5, h6⟩ := replay_table es hr' h4 h2
      exact ⟨a', .cmd _ _ _ _ _ _ _ _ h1 h3 h5, h6⟩
    · have he' : ∀ c, e ≠ .cmd c := fun c hc => he ⟨c, hc⟩
      obtain ⟨a', h5, h6⟩ := replay_table es hr' (event_table he' h h1) h2
      exact ⟨a', .file _ _ _ _ _ _ _ he' h1 h5, h6⟩

section
variable {b : Env} {n n0 : Nat} {es : List Event} {st : State}

/-! ### C60 -/

/-- **C60**.  In every state reached without `reset`, names resolve and have overloads as the bindings made by the executed
commands say, where a command binds its own name and no other one, `assume-push` opens a scope, `step-pop` closes it, and
parameters, program parameters and the parts of rules leave nothing behind. -/
theorem C60_bindings (hr : .cmd .reset ∉ es) (h : replay b n es (State.init b n0) = .ok st) :
    ∃ a, Bindings b n es (State.init b n0) (builtinNames b) st a ∧ Shows st a := by
  obtain ⟨a, h1, h2⟩ := replay_table es hr (init_table b n0) h
  exact ⟨a, h1, shows_of h2⟩

/-- the effect of one command in such a state -/
theorem C60_effect {c : Cmd} {st' : State} (hr : .cmd .reset ∉ es) (h : replay b n es (State.init b n0) = .ok st) (hc : c ≠ .reset)
    (hx : exec b n st c = .ok st') : ∃ a a', Shows st a ∧ Effect b st a c a' ∧ Shows st' a' := by
  obtain ⟨a, _, h2⟩ := replay_table es hr (init_table b n0) h
  obtain ⟨a', h3, h4⟩ := exec_effect hc h2 hx
  exact ⟨a, a', shows_of h2, h3, shows_of h4⟩

/-- in particular, every name other than that of a declaration keeps its meaning -/
theorem C60_other_names {x y : Name} {ty : SExp} {ps : List SParam} {o : List SAttr} {c : Cmd} {st' : State} (hr : .cmd .reset ∉ es)
    (h : replay b n es (State.init b n0) = .ok st) (hc : c = .declareConst x ty o ∨ c = .declareParam x ps ty o) (hx : exec b n st c = .ok st') (hy : y ≠ x) :
    st'.scope.get y = st.scope.get y ∧ st'.scope.ov y = st.scope.ov y ∧ ∃ i, st.next ≤ i ∧ st'.scope.get x = some (.sym CONST i) := by
  have hn : c ≠ .reset := by rcases hc with rfl | rfl <;> simp
  obtain ⟨a, a', h1, h2, h3⟩ := C60_effect hr h hn hx
  have h4 : ∃ i, st.next ≤ i ∧ a' = a.bind x (.sym CONST i) := by rcases hc with rfl | rfl <;> exact h2
  obtain ⟨i, hi, rfl⟩ := h4
  have hl : ∀ z, (a.bind x (.sym CONST i)).lookup z = if x = z then some (.sym CONST i) else a.lookup z := by
    intro z
    simp only [Stack.lookup]
    rw [all_bind]
    exact lookupIn_cons _ _ _
  refine ⟨?_, ?_, i, hi, ?_⟩
  · rw [h3.1, hl, if_neg (Ne.symm hy), h1.1]
  · rw [h3.2, h1.2]
    have : (a.bind x (.sym CONST i)).cands y = a.cands y := by
      simp only [Stack.cands]
      rw [all_bind]
      have := candsOf_cons (x, .sym CONST i) a.all y
      simp only [candsOf] at this
      rw [this, if_neg (Ne.symm hy)]
    rw [this]
  · rw [h3.1, hl, if_pos rfl]

/-! ### C59 -/

/-- **C59**.  In every state reached without `reset` there are the visible bindings `a` by which names resolve, and an
expression is read as the term `t` exactly if it denotes `t` where these bindings are visible: names denote their innermost
binding, the variables of `let` and of binders are visible in their bodies only, arguments are read in order. -/
theorem C59_denotes (hr : .cmd .reset ∉ es) (h : replay b n es (State.init b n0) = .ok st) :
    ∃ a, Bindings b n es (State.init b n0) (builtinNames b) st a ∧ Shows st a ∧
      ∀ e t, (∃ m st', parseExpr b m e st = .ok (st', t)) ↔ Means b st a e t := by
  obtain ⟨a, h1, h2⟩ := replay_table es hr (init_table b n0) h
  refine ⟨a, h1, shows_of h2, fun e t => ⟨?_, ?_⟩⟩
  · rintro ⟨m, st', hp⟩
    exact parseExpr_means h2 hp
  · rintro ⟨v', he⟩
    obtain ⟨m, st', _, _, hp⟩ := elab_parseExpr e (On.refl h2) rfl he
    exact ⟨m, st', hp m (Nat.le_refl m)⟩

/-- reading an expression leaves every name as it was, and changes nothing else in the state but the marks of overloaded
symbols -/
theorem C59_unchanged (hr : .cmd .reset ∉ es) (h : replay b n es (State.init b n0) = .ok st) {m : Nat} {e : SExp} {st' : State} {t : Term}
    (hp : parseExpr b m e st = .ok (st', t)) :
    (∀ x, st'.scope.get x = st.scope.get x) ∧ (∀ x, st'.scope.ov x = st.scope.ov x) ∧ st' = { st with scope := st'.scope } := by
  obtain ⟨a, _, h2⟩ := replay_table es hr (init_table b n0) h
  have h3 := (parseExpr_elab e (On.refl h2) hp).1
  have h4 := shows_of h3.table
  have h5 := shows_of h2
  exact ⟨fun x => by rw [h4.1, h5.1], fun x => by rw [h4.2, h5.2], h3.same⟩

/-- the outcome does not depend on the bound, once there is one -/
theorem C59_unique (hr : .cmd .reset ∉ es) (h : replay b n es (State.init b n0) = .ok st) {m m' : Nat} {e : SExp} {s1 s2 : State} {t1 t2 : Term}
    (h1 : parseExpr b m e st = .ok (s1, t1)) (h2 : parseExpr b m' e st = .ok (s2, t2)) : t1 = t2 := by
  obtain ⟨a, _, ht⟩ := replay_table es hr (init_table b n0) h
  obtain ⟨k1, u1, _, _, e1⟩ := elab_parseExpr (b := b) e (On.refl ht) rfl (parseExpr_elab e (On.refl ht) h1).2
  obtain ⟨k2, u2, _, _, e2⟩ := elab_parseExpr (b := b) e (On.refl ht) rfl (parseExpr_elab e (On.refl ht) h2).2
  have := (e1 (k1 + k2) (by omega)).symm.trans (e2 (k1 + k2) (by omega))
  injection this with this
  exact congrArg Prod.snd this

end

/-! ### Examples -/

/-- `(let ((x true)) (let ((x false) (y x)) (f x y)))`: the inner `x` is not visible in the term of `y` -/
def letCmds : List Cmd := [
  .declareConst (nm "f") (ap "->" [.bool, .bool, .bool]) [],
  .define (nm "t") [] (.letE [nm "x"] [sy "true"] (.letE [nm "x", nm "y"] [sy "false", sy "x"] (ap "f" [sy "x", sy "y"]))) [] ]
example : runEx letCmds "t" = .ok (some (.node APPLY [.node APPLY [.sym CONST 10, tFalse], tTrue]), .correct) := by decide +kernel
example : runEx letCmds "x" = .ok (none, .correct) := by decide +kernel
example : Event.cmd .reset ∉ letCmds.map .cmd := by simp [letCmds]

/-- the term denoted, in the bindings `f ↦ g`, by `(let ((x true)) (f x f))` with `g` a constant without attribute -/
example (E : Vis → Env) (g t : Term) (m : Term → Option Name)
    (h : Denotes (E ⟨[(nm "x", tTrue), (nm "f", g)], m⟩) g [tTrue, g] t) (hg : g.kind ≠ BUILTIN_CONST) :
    Elab E ⟨[(nm "f", g)], m⟩ (.letE [nm "x"] [.lit (.bool true)] (ap "f" [sy "x", sy "f"])) t ⟨[(nm "f", g)], m⟩ := by
  have hm : (⟨[(nm "f", g)], m⟩ : Vis).addAll [(nm "x", tTrue)] = ⟨[(nm "x", tTrue), (nm "f", g)], m⟩ := by
    have h0 : (⟨[(nm "f", g)], m⟩ : Vis).find (nm "x") = none := by
      simp [Vis.find, List.find?_cons, show nm "f" ≠ nm "x" by decide]
    simp [Vis.addAll, Vis.add, h0]
  have hx : (⟨[(nm "x", tTrue), (nm "f", g)], m⟩ : Vis).find (nm "x") = some tTrue := by simp [Vis.find, List.find?_cons]
  have hf : (⟨[(nm "x", tTrue), (nm "f", g)], m⟩ : Vis).find (nm "f") = some g := by
    simp [Vis.find, List.find?_cons, show nm "x" ≠ nm "f" by decide]
  refine .letE _ _ _ [tTrue] _ _ _ ⟨[(nm "x", tTrue), (nm "f", g)], m⟩ (.cons _ _ _ _ _ _ _ (.lit _ _) (.nil _)) ?_
  have hz : [nm "x"].zip [tTrue] = [(nm "x", tTrue)] := rfl
  rw [hz, hm]
  refine .app _ _ g _ [tTrue, g] _ _ hf (.cons _ _ _ _ _ _ _ (.sym _ _ _ hx (by decide)) (.cons _ _ _ _ _ _ _ (.sym _ _ _ hf hg) (.nil _))) h ?_
  intro _ a ha
  cases ha
  exact id

/-- two declarations of `f` in an assumption scope: the second one is gone when the scope is closed -/
def scopeCmds : List Cmd := [
  .declareConst (nm "f") .bool [],
  .declareRule { name := nm "r", params := [{ name := nm "F", type := .bool }], assumption := some (sy "F"), premises := .each [], args := [], conc := sy "F" },
  .assumePush (nm "h") (sy "f"),
  .declareConst (nm "f") (ap "->" [.bool, .bool]) [] ]
def scopeStep : Cmd := .step { name := nm "s", rule := nm "r", isPop := true }
example : (runEx scopeCmds "f").map (·.1) = .ok (some (.sym CONST 15)) := by decide +kernel
example : (runEx (scopeCmds ++ [scopeStep]) "f").map (·.1) = .ok (some (.sym CONST 10)) := by decide +kernel
example : (runEx (scopeCmds ++ [scopeStep]) "s").map (·.1) = .ok (some (mkProof (.sym CONST 10))) := by decide +kernel

end Ethos.Props
