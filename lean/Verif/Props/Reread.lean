import Verif.Lemmas.Reread
/-
C69: what is printed for a term is read as this term.
-/
namespace Ethos.Props
open Ethos Spec Kind

variable {b : Env} {n n0 : Nat} {es : List Event} {st : State}

theorem below_child {P : PrintEnv} {t u c : Term} (h : Below P t u) (hc : c ∈ printChildren P u) : Below P t c := by
  induction h with
  | refl t => exact .child _ _ _ hc (.refl c)
  | child t d u hd _ ih => exact .child _ _ _ hd (ih hc)

/-- only what occurs in the printed term is shared -/
theorem letLoop_below {P : PrintEnv} {t : Term} : ∀ (f : Nat) (visit visited llv : List Term) (lcount : List (Term × Nat)) (r : List Term × List (Term × Nat)),
    letLoop P f visit visited llv lcount = .ok r → (∀ u ∈ visit, Below P t u) → (∀ u ∈ llv, Below P t u) → ∀ u ∈ r.1, Below P t u
  | f, [], visited, llv, lcount, r, h, _, hl => by
    have : (llv, lcount) = r := by cases f <;> simpa [letLoop] using h
    subst this
    exact hl
  | 0, _ :: _, _, _, _, _, h, _, _ => by simp [letLoop] at h
  | f + 1, cur :: visit, visited, llv, lcount, r, h, hv, hl => by
    simp only [letLoop] at h
    have hc := hv cur (by simp)
    split at h
    · exact letLoop_below f _ _ _ _ _ h (fun u hu => hv u (by simp [hu])) hl
    · split at h
      · refine letLoop_below f _ _ _ _ _ h (fun u hu => ?_) hl
        simp only [List.mem_append, List.mem_reverse, List.mem_cons] at hu
        rcases hu with hu | rfl | hu
        · exact below_child hc hu
        · exact hc
        · exact hv u (by simp [hu])
      · refine letLoop_below f _ _ _ _ _ h (fun u hu => hv u (by simp [hu])) fun u hu => ?_
        split at hu
        · rcases List.mem_append.1 hu with hu | hu
          · exact hl u hu
          · have : u = cur := by simpa using hu
            exact this ▸ hc
        · exact hl u hu

theorem computeLetBinding_below {P : PrintEnv} {t : Term} {f : Nat} {ll : List Term} (h : computeLetBinding P f t = .ok ll) : ∀ u ∈ ll, Below P t u := by
  unfold computeLetBinding at h
  cases hr : letLoop P f [t] [] [] [] with
  | ok r =>
    rw [hr] at h
    have h : keepShared r.1 r.2 = ll := by simpa [Run.map] using h
    subst h
    intro u hu
    refine letLoop_below f _ _ _ _ _ hr (fun u hu => ?_) (by simp) u (List.mem_filter.1 hu).1
    have : u = t := by simpa using hu
    exact this ▸ .refl u
  | _ => rw [hr] at h; simp [Run.map] at h

/-- what is printed in a term that can be read back can be read back, if it has children -/
theorem stable_below {fl : LexFlags} {o : ReadOpts} {P : PrintEnv} {E : Vis → Env} {v : Vis} {t u : Term} (hb : Below P t u) :
    Stable fl o P E v t → printChildren P u ≠ [] → Stable fl o P E v u := by
  induction hb with
  | refl t => intro h _; exact h
  | child t c u hc hb ih =>
    intro hs hu
    have hcl : printChildren P c ≠ [] := fun e => hu (by rw [below_leaf hb e, e])
    refine ih ?_ hu
    cases hs with
    | lit => simp [printChildren] at hc
    | tt => simp [printChildren, tTrue] at hc
    | ff => simp [printChildren, tFalse] at hc
    | type => simp [printChildren, tType] at hc
    | bool => simp [printChildren, tBool] at hc
    | empty => simp [printChildren] at hc
    | sym k i _ h => rw [sym_leaf i h] at hc; cases hc
    | app _ x hd cs hsh hf hcs hd =>
      cases hsh with
      | app k i cs _ h2 =>
        rcases List.mem_cons.1 hc with rfl | hc
        · exact absurd (sym_leaf i h2) hcl
        · exact hcs c hc
      | opaq k i cs _ h2 =>
        rcases List.mem_cons.1 hc with rfl | hc
        · exact absurd (sym_leaf i h2) hcl
        · exact hcs c hc
      | apply f cs => exact hcs c hc
      | as f cs => exact hcs c hc
      | node k d cs => exact hcs c hc
      | var i => exact hcs c (by simp only [printChildren, List.mem_singleton] at hc; simp [hc])

theorem printLoop_mono {P : PrintEnv} {lb : List (Term × Nat)} : ∀ {f f' : Nat} {visit : List (Term × Nat)} {os r : List Piece}, printLoop P lb f visit os = .ok r → f ≤ f' →
    printLoop P lb f' visit os = .ok r
  | _, f', [], _, _, h, _ => by cases f' <;> simpa [printLoop] using h
  | 0, _, _ :: _, _, _, h, _ => by simp [printLoop] at h
  | f + 1, 0, _ :: _, _, _, _, hf => by omega
  | f + 1, f' + 1, (t, 0) :: visit, os, r, h, hf => by
    simp only [printLoop] at h ⊢
    split at h
    · exact printLoop_mono (f := f) (f' := f') h (by omega)
    · split at h <;> exact printLoop_mono (f := f) (f' := f') h (by omega)
  | f + 1, f' + 1, (t, i + 1) :: visit, os, r, h, hf => by
    simp only [printLoop] at h ⊢
    split at h <;> exact printLoop_mono (f := f) (f' := f') h (by omega)

theorem letLoop_mono {P : PrintEnv} : ∀ {f f' : Nat} {visit visited llv : List Term} {lc : List (Term × Nat)} {r}, letLoop P f visit visited llv lc = .ok r → f ≤ f' →
    letLoop P f' visit visited llv lc = .ok r
  | _, f', [], _, _, _, _, h, _ => by cases f' <;> simpa [letLoop] using h
  | 0, _, _ :: _, _, _, _, _, h, _ => by simp [letLoop] at h
  | f + 1, 0, _ :: _, _, _, _, _, _, hf => by omega
  | f + 1, f' + 1, cur :: visit, visited, llv, lc, r, h, hf => by
    simp only [letLoop] at h ⊢
    by_cases h1 : printChildren P cur = []
    · rw [if_pos h1] at h ⊢
      exact letLoop_mono (f := f) (f' := f') h (by omega)
    · rw [if_neg h1] at h ⊢
      by_cases h2 : cur ∉ visited
      · rw [if_pos h2] at h ⊢
        exact letLoop_mono (f := f) (f' := f') h (by omega)
      · rw [if_neg h2] at h ⊢
        exact letLoop_mono (f := f) (f' := f') h (by omega)

theorem printBindings_mono {P : PrintEnv} {lb : List (Term × Nat)} {f f' : Nat} (hf : f ≤ f') : ∀ {ll : List Term} {r}, printBindings P f lb ll = .ok r →
    printBindings P f' lb ll = .ok r
  | [], _, h => h
  | l :: ll, r, h => by
    simp only [printBindings] at h ⊢
    cases h1 : printLoop P (lb.filter (·.1 ≠ l)) f [(l, 0)] [] with
    | ok d =>
      cases h2 : printBindings P f lb ll with
      | ok ds =>
        rw [printLoop_mono h1 hf, printBindings_mono hf h2]
        rwa [h1, h2] at h
      | _ => rw [h1, h2] at h; simp [Run.bind, Run.map] at h
    | _ => rw [h1] at h; simp [Run.bind] at h

/-- what is printed does not depend on the bound on the iterations -/
theorem printTerm_mono {P : PrintEnv} {dag : Bool} {f : Nat} {t : Term} {p} (h : printTerm P dag f t = .ok p) (f' : Nat) (hf : f ≤ f') :
    printTerm P dag f' t = .ok p := by
  have body : ∀ {lb : List (Term × Nat)} {α : Type} {g : List Piece → α} {x}, (printLoop P lb f [(t, 0)] []).map g = .ok x → (printLoop P lb f' [(t, 0)] []).map g = .ok x := by
    intro lb α g x h
    cases h1 : printLoop P lb f [(t, 0)] [] with
    | ok d => rw [printLoop_mono h1 hf]; rwa [h1] at h
    | _ => rw [h1] at h; simp [Run.map] at h
  cases dag with
  | false =>
    simp only [printTerm, Bool.false_eq_true, if_false] at h ⊢
    exact body h
  | true =>
    simp only [printTerm, if_true, computeLetBinding] at h ⊢
    cases h1 : letLoop P f [t] [] [] [] with
    | ok r =>
      rw [letLoop_mono h1 hf]
      rw [h1] at h
      simp only [Run.map, Run.bind] at h ⊢
      cases h2 : printBindings P f (letBinding (keepShared r.1 r.2)) (keepShared r.1 r.2) with
      | ok ds =>
        rw [printBindings_mono hf h2]
        rw [h2] at h
        exact body h
      | _ => rw [h2] at h; simp at h
    | _ => rw [h1] at h; simp [Run.map, Run.bind] at h

/-- the definitions and the body printed for a term are read back -/
theorem print_back {fl : LexFlags} {o : ReadOpts} {P : PrintEnv} {E : Vis → Env} {v : Vis} {t : Term} (hw : Printable P)
    (hE : ∀ v x t, v.find x = none → E (v.add (x, t)) = E v) (hs : Stable fl o P E v t) (dag : Bool)
    (hd : dag = true → ∀ j, v.find (defName j) = none) :
    ∃ k, ∀ f, k ≤ f → ∃ p, printTerm P dag f t = .ok p ∧ Back fl o E v (writeTerm 0 p.1 p.2) t := by
  cases dag with
  | false =>
    obtain ⟨k, h⟩ := printLoop_done hw [] t
    refine ⟨k, fun f hf => ⟨([], pieces hw [] t), by simp [printTerm, h f hf, Run.map], ?_⟩⟩
    simp only [writeTerm]
    exact back_pieces hw (by simp [List.lookup]) ⟨fun _ _ h => h, rfl⟩ hs (by simp [List.lookup])
  | true =>
    have hd := hd rfl
    obtain ⟨n1, ll, h1, hnd, hne, llv, ⟨p, hp⟩, hnv, ho⟩ := computeLetBinding_done hw t
    obtain ⟨n2, h2⟩ := printBindings_done hw (letBinding ll) ll
    obtain ⟨n3, h3⟩ := printLoop_done hw (letBinding ll) t
    refine ⟨n1 + n2 + n3, fun f hf => ⟨(ll.map fun l => pieces hw ((letBinding ll).filter (·.1 ≠ l)) l, pieces hw (letBinding ll) t),
      by simp only [printTerm, if_true, h1 f (by omega), Run.bind, h2 f (by omega), h3 f (by omega), Run.map], ?_⟩⟩
    have hst : ∀ l ∈ ll, Stable fl o P E v l := fun l hl => stable_below (computeLetBinding_below (h1 _ (Nat.le_refl _)) l hl) hs (hne l hl)
    have hlk : ∀ u j, (letBinding ll).lookup u = some j → ll[j]? = some u := fun u j hj => by
      obtain ⟨i, rfl, hi⟩ := lookup_zipIdx hj
      rwa [Nat.zero_add]
    refine back_defs hE (v0 := v) ll _ 0 v (by simp) ⟨fun _ _ h => h, rfl⟩ (fun j _ => hd j) ?_ ?_
    · intro i l d hl hdl v' hv' _ hr
      simp only [Nat.zero_add] at hr
      have hml : l ∈ ll := List.mem_of_getElem? hl
      have hd' : pieces hw ((letBinding ll).filter (·.1 ≠ l)) l = d := by
        simpa [List.getElem?_map, hl] using hdl
      subst hd'
      refine back_pieces hw (fun u j hj => hne u (List.mem_of_getElem? (hlk u j (lookup_filter hj).2))) hv' (hst l hml) fun u j hu hj => ?_
      obtain ⟨hul, hj⟩ := lookup_filter hj
      have hju := hlk u j hj
      have hmu : u ∈ ll := List.mem_of_getElem? hju
      refine hr j u ?_ hju
      -- `u` comes before `l`
      obtain ⟨a, c, e⟩ : ∃ a c, ll = a ++ l :: c ∧ a.length = i := by
        obtain ⟨hi, rfl⟩ := List.getElem?_eq_some_iff.1 hl
        exact ⟨ll.take i, ll.drop (i + 1), by rw [← List.drop_eq_getElem_cons hi, List.take_append_drop], by simp; omega⟩
      have hsplit : ∃ a' b', llv = a' ++ l :: b' ∧ a'.filter p = a := by
        have e1 := e.1
        rw [hp, List.filter_eq_append_iff] at e1
        obtain ⟨a', b', e1, e2, e3⟩ := e1
        rw [List.filter_eq_cons_iff] at e3
        obtain ⟨b1, b2, e4, e5, e6, e7⟩ := e3
        refine ⟨a' ++ b1, b2, by rw [e1, e4]; simp, ?_⟩
        rw [List.filter_append, e2, List.filter_eq_nil_iff.mpr e5, List.append_nil]
      obtain ⟨a', b', e1, e2⟩ := hsplit
      have hua : u ∈ a' := below_before ho hu a' b' e1 hul (hne u hmu)
      have hpu : p u = true := by rw [hp] at hmu; exact (List.mem_filter.mp hmu).2
      have hud : u ∈ a := by rw [← e2]; exact List.mem_filter.mpr ⟨hua, hpu⟩
      refine Decidable.byContradiction fun hge => ?_
      rw [e.1, List.getElem?_append_right (by omega)] at hju
      have h2 : u ∈ l :: c := List.mem_of_getElem? hju
      rw [e.1, List.nodup_append] at hnd
      exact hnd.2.2 u hud u h2 rfl
    · intro v' hv' _ hr
      simp only [Nat.zero_add] at hr
      exact back_pieces hw (fun u j hj => hne u (List.mem_of_getElem? (hlk u j hj))) hv' hs fun u j _ hj => hr j u (hlk u j hj)

/-- **C69**.  In every state reached without `reset`, a term all of whose printed parts have the same meaning where they are read (`Stable`)
is printed as a text that is read as exactly this term, whatever follows: with definitions for shared terms, if no visible name looks
like one of a definition, and without. -/
theorem C69_reread_partial (hr : .cmd .reset ∉ es) (h : replay b n es (State.init b n0) = .ok st) :
    ∃ a, Bindings b n es (State.init b n0) (builtinNames b) st a ∧ Shows st a ∧
      ∀ (fl : LexFlags) (o : ReadOpts) (P : PrintEnv) (t : Term) (dag : Bool), Printable P → Stable fl o P (envAt b st) (visible a st) t →
      (dag = true → ∀ j, a.lookup (defName j) = none) →
      ∃ k, ∀ f, k ≤ f → ∃ p ts m, printTerm P dag f t = .ok p ∧
        (∀ signed interactive size, 0 < size → lexInput fl (.init signed interactive size (writeTerm 0 p.1 p.2)) = .ok ts) ∧
        ∀ m', m ≤ m' → ∀ rest, ∃ st', readExpr b m' o (ts ++ rest) st = .ok (rest, st', t) := by
  obtain ⟨a, h1, h2⟩ := replay_table es hr (init_table b n0) h
  refine ⟨a, h1, shows_of h2, fun fl o P t dag hw hs hd => ?_⟩
  obtain ⟨k, hk⟩ := print_back hw (fun v x t hx => envAt_add hx) hs dag hd
  refine ⟨k, fun f hf => ?_⟩
  obtain ⟨p, hp, e, ts, hwr, _, hel, hby, hlx⟩ := hk f hf
  obtain ⟨m, st', _, _, hm⟩ := elab_parseExpr e (On.refl h2) rfl hel
  refine ⟨p, ts, m, hp, fun g i size hn => ?_, fun m' hm' rest => ⟨st', readExpr_iff.2 ⟨e, ts, rfl, hwr, hm m' hm'⟩⟩⟩
  have := hlx [] [] (by intro b hb; cases hb) (.done _ (.inl .nil))
  rw [List.append_nil, List.append_nil] at this
  exact C58_reads hn (fun b hb => ⟨by have := hby b hb; omega, fun _ _ => by have := hby b hb; omega⟩) this

/-! ### Plain terms -/

theorem denotes_op {env : Env} {u : Term} {ai : AppInfo} {k : Kind} {cs : List Term} {t : Term} (h : env.appInfo u = some ai) (hk : ai.kind = k) (h0 : k ≠ NONE)
    (hf : k ≠ FUNCTION_TYPE) (ha : k ≠ APPLY) {n : Nat} (hn : mkExpr env (ops env (n + 1)) n k cs = .ok t) : Denotes env u cs t := by
  subst hk
  refine ⟨n + 1, ?_⟩
  simp only [mkExpr, mkExprStep, if_true, mkApp, h]
  rw [if_pos h0, if_neg hf, if_neg ha]
  exact hn

/-- plain terms are read as they are printed -/
theorem plain_stable {fl : LexFlags} {o : ReadOpts} {P : PrintEnv} {E : Vis → Env} {v : Vis} {t : Term} (h : PlainTerm fl o P E v t) : Stable fl o P E v t := by
  have two : ∀ {a c : Term}, Stable fl o P E v a → Stable fl o P E v c → ∀ d ∈ [a, c], Stable fl o P E v d := by
    intro a c ha hc d hd
    simp only [List.mem_cons, List.not_mem_nil, or_false] at hd
    rcases hd with rfl | rfl
    · exact ha
    · exact hc
  induction h with
  | lit l h => exact .lit l h
  | tt h => exact .tt h
  | ff h => exact .ff h
  | type h => exact .type h
  | bool => exact .bool
  | empty ho h1 =>
    obtain ⟨u, ai, h2, h3, h4⟩ := h1
    refine .empty u ho h2 (denotes_op h3 h4 (by decide) (by decide) (by decide) (n := 1) ?_)
    have he : (ops (E v) 2).evalOp EVAL_TO_BIN [.lit (.num 0), .lit (.num 0)] = .ok (some (.lit (.bin ⟨0, 0⟩))) := rfl
    simp [mkExpr, mkExprStep, isLiteralOp, mkLitOp, isNaryLiteralOp, checkArity, evaluateLiteralOp, he, Out.map]
  | sym k i h1 h2 h3 h4 => exact .sym k i h1 h2 h3 h4
  | app1 i a h1 h2 h3 _ ih =>
    refine .app _ _ (.sym CONST i) [a] (.app CONST i [a] rfl (by decide) h1) h2 (by simpa using ih) ⟨1, ?_⟩
    simp [mkExpr, mkExprStep, mkApp, h3, mkPlainApp, Term.kind, mkApply]
  | app f a h1 h2 _ _ ih1 ih2 =>
    obtain ⟨u, ai, g1, g2, g3⟩ := h2
    refine .app _ _ u [f, a] (.apply f [a] h1) g1 (two ih1 ih2) ⟨1, ?_⟩
    simp [mkExpr, mkExprStep, mkApp, g2, g3, mkApply]
  | arrow a r h1 _ _ ih1 ih2 =>
    obtain ⟨u, ai, g1, g2, g3⟩ := h1
    refine .app _ _ u [a, r] (.node FUNCTION_TYPE a [r] (by decide) (by decide) ?_) g1 (two ih1 ih2) ⟨1, ?_⟩
    · exact simpleName_of (by rcases fl with ⟨_ | _, _ | _⟩ <;> decide)
    · simp [mkExpr, mkExprStep, mkApp, g2, g3, mkFunctionType]
  | var i h1 h2 h3 h4 h5 h6 _ ih =>
    obtain ⟨u, ai, g1, g2, g3⟩ := h2
    have hs : Stable fl o P E v (.lit (.str (P.name VARIABLE i))) := by
      refine .lit _ (.str _ (fun c hc => by have := h1 c hc; omega) fun h => (h1 34 h).2.2.1 rfl)
    refine .app _ _ u _ (.var i h1) g1 (two hs ih) ?_
    obtain ⟨n, hn⟩ := h4
    cases n with
    | zero => cases hn
    | succ n =>
      refine denotes_op g2 g3 (by decide) (by decide) (by decide) (n := n + 1) ?_
      have : opStep (E v) (ops (E v) (n + 1)) EVAL_VAR [.lit (.str (P.name VARIABLE i)), P.varType i] = .ok (some (.sym VARIABLE i)) := by
        simp only [opStep, List.any_cons, List.any_nil, h5]
        have hl : (Term.lit (Lit.str (P.name VARIABLE i))).ground = true := by unfold Term.ground; rfl
        simp [hl, evalGround, argO, h6, hn, Out.bind, tType, Term.kind, toString_printable h1, h3]
      have he : (ops (E v) (n + 1 + 1)).evalOp EVAL_VAR [.lit (.str (P.name VARIABLE i)), P.varType i] = .ok (some (.sym VARIABLE i)) := this
      simp [mkExpr, mkExprStep, isLiteralOp, mkLitOp, isNaryLiteralOp, checkArity, evaluateLiteralOp, he, Out.map]

/-- **C69** for plain terms: literals, visible symbols, curried applications of constants without attributes, function types and variables. -/
theorem C69_plain_partial (hr : .cmd .reset ∉ es) (h : replay b n es (State.init b n0) = .ok st) :
    ∃ a, Bindings b n es (State.init b n0) (builtinNames b) st a ∧ Shows st a ∧
      ∀ (fl : LexFlags) (o : ReadOpts) (P : PrintEnv) (t : Term) (dag : Bool), Printable P → PlainTerm fl o P (envAt b st) (visible a st) t →
      (dag = true → ∀ j, a.lookup (defName j) = none) →
      ∃ k, ∀ f, k ≤ f → ∃ p ts m, printTerm P dag f t = .ok p ∧
        (∀ signed interactive size, 0 < size → lexInput fl (.init signed interactive size (writeTerm 0 p.1 p.2)) = .ok ts) ∧
        ∀ m', m ≤ m' → ∀ rest, ∃ st', readExpr b m' o (ts ++ rest) st = .ok (rest, st', t) := by
  obtain ⟨a, h1, h2, h3⟩ := C69_reread_partial hr h
  exact ⟨a, h1, h2, fun fl o P t dag hw hs hd => h3 fl o P t dag hw (plain_stable hs) hd⟩

/-- Different terms are printed as different texts, also if one is printed with definitions and the other one without. -/
theorem C69_injective_partial (hr : .cmd .reset ∉ es) (h : replay b n es (State.init b n0) = .ok st) :
    ∃ a, Bindings b n es (State.init b n0) (builtinNames b) st a ∧ Shows st a ∧
      ∀ (fl : LexFlags) (o : ReadOpts) (P : PrintEnv) (t t' : Term) (dag dag' : Bool), Printable P →
      Stable fl o P (envAt b st) (visible a st) t → Stable fl o P (envAt b st) (visible a st) t' → (∀ j, a.lookup (defName j) = none) →
      ∀ f f' p p', printTerm P dag f t = .ok p → printTerm P dag' f' t' = .ok p' → writeTerm 0 p.1 p.2 = writeTerm 0 p'.1 p'.2 → t = t' := by
  obtain ⟨a, h1, h2, h3⟩ := C69_reread_partial hr h
  refine ⟨a, h1, h2, fun fl o P t t' dag dag' hw hs hs' hd f f' p p' hp hp' he => ?_⟩
  obtain ⟨k, hk⟩ := h3 fl o P t dag hw hs fun _ => hd
  obtain ⟨k', hk'⟩ := h3 fl o P t' dag' hw hs' fun _ => hd
  obtain ⟨q, ts, m, g1, g2, g3⟩ := hk (k + f) (by omega)
  obtain ⟨q', ts', m', g1', g2', g3'⟩ := hk' (k' + f') (by omega)
  have e1 : p = q := by
    have := printTerm_mono hp (k + f) (by omega)
    rw [g1] at this
    exact (Run.ok.inj this).symm
  have e2 : p' = q' := by
    have := printTerm_mono hp' (k' + f') (by omega)
    rw [g1'] at this
    exact (Run.ok.inj this).symm
  subst e1 e2
  have e3 := g2 true false 1 (by decide)
  rw [he, g2' true false 1 (by decide)] at e3
  have e3 : ts' = ts := Run.ok.inj e3
  subst e3
  obtain ⟨s1, r1⟩ := g3 (m + m') (by omega) []
  obtain ⟨s2, r2⟩ := g3' (m + m') (by omega) []
  rw [r1] at r2
  cases r2
  rfl

/-! ### An example -/

/-- `(declare-const f (-> Bool Bool Bool)) (declare-const c Bool)` -/
def backCmds : List Cmd := [.declareConst (nm "f") (ap "->" [.bool, .bool, .bool]) [], .declareConst (nm "c") .bool []]

def backP : PrintEnv where
  varType := fun _ => tBool
  name := fun _ i => if i = 10 then nm "f" else nm "c"
  ambiguous := fun _ => false

def backFlags : LexFlags := ⟨true, false⟩

theorem backP_printable : Printable backP := by
  have hb : Acc (fun c t => c ∈ printChildren backP t) tBool := ⟨_, fun c hc => by simp [printChildren, tBool] at hc⟩
  refine ⟨fun t => ?_⟩
  induction t using Term.induct with
  | hsym k i =>
    refine ⟨_, fun c hc => ?_⟩
    cases k <;> simp [printChildren] at hc
    subst hc
    exact hb
  | hlit l => exact ⟨_, fun c hc => by simp [printChildren] at hc⟩
  | hnode k cs ih => exact ⟨_, fun c hc => ih c hc⟩

/-- a term in which the application `f c c` occurs twice -/
def backTerm : Term :=
  .node APPLY [.node APPLY [.sym CONST 10, .node APPLY [.node APPLY [.sym CONST 10, .sym CONST 11], .sym CONST 11]],
    .node APPLY [.node APPLY [.sym CONST 10, .sym CONST 11], .sym CONST 11]]

-- it is printed as follows
example : (printTerm backP true 100 backTerm).map (fun p => writeTerm 0 p.1 p.2) =
    .ok (bytes "(eo::define ((_v0 (_ (f c) c))) (_ (f _v0) _v0))") := by decide +kernel

theorem lookup_defName {a : Stack} (h : ∀ p ∈ a.all, p.1.take 2 ≠ bytes "_v") (j : Nat) : a.lookup (defName j) = none := by
  simp only [Stack.lookup, Option.map_eq_none_iff, List.find?_eq_none, decide_eq_true_eq]
  intro p hp e
  refine h p hp ?_
  rw [e]
  rfl

/-- in the state after `backCmds` the hypotheses of C69 are met by `backTerm` -/
theorem backTerm_plain : ∃ st, exRun backCmds = .ok st ∧ ∀ a, Bindings exB 10 (backCmds.map .cmd) (State.init exB 10) (builtinNames exB) st a → Shows st a →
    PlainTerm backFlags readOpts backP (envAt exB st) (visible a st) backTerm ∧ ∀ j, a.lookup (defName j) = none := by
  have h : (exRun backCmds).map (fun st => (st.scope.get (nm "f"), st.scope.get (nm "c"), st.scope.get (nm "_"),
      st.decls.appInfo st.scope.mark (.sym CONST 10) |>.isNone, (st.decls.appInfo st.scope.mark (builtinSym 1)).map (·.kind))) =
      .ok (some (.sym CONST 10), some (.sym CONST 11), some (builtinSym 1), true, some APPLY) := by decide +kernel
  simp only [Run.map_ok] at h
  obtain ⟨st, h1, h2⟩ := h
  simp only [Prod.mk.injEq] at h2
  obtain ⟨g1, g2, g3, g4, g5⟩ := h2
  refine ⟨st, h1, fun a hb hs => ⟨?_, ?_⟩⟩
  · have f1 : (visible a st).find (nm "f") = some (.sym CONST 10) := (hs.1 _).symm.trans g1
    have f2 : (visible a st).find (nm "c") = some (.sym CONST 11) := (hs.1 _).symm.trans g2
    have f3 : (visible a st).find (bytes "_") = some (builtinSym 1) := (hs.1 _).symm.trans g3
    have hn : ∀ x : Nat, x < 124 → 96 < x → tokenizeCurrentSymbol backFlags [x] = .SYMBOL → PlainName backFlags [x] := fun x h1 h2 h3 =>
      { chars := by simp; omega
        bars := by simp only [List.mem_singleton]; omega
        word := by rw [← h3]; exact symbolClass_sound _ _ _ (by simp)
        eo := fun h => by simp [bytes] at h }
    have p1 : PlainName backFlags (nm "f") := hn 102 (by decide) (by decide) (by decide)
    have p2 : PlainName backFlags (nm "c") := hn 99 (by decide) (by decide) (by decide)
    have ho : OpVisible (envAt exB st) (visible a st) (bytes "_") APPLY := by
      cases h : st.decls.appInfo st.scope.mark (builtinSym 1) with
      | none => rw [h] at g5; simp at g5
      | some ai => rw [h] at g5; exact ⟨_, ai, f3, h, by simpa using g5⟩
    have hc : PlainTerm backFlags readOpts backP (envAt exB st) (visible a st) (.sym CONST 11) := .sym CONST 11 rfl (by decide) p2 f2
    have hf : ∀ u, PlainTerm backFlags readOpts backP (envAt exB st) (visible a st) u →
        PlainTerm backFlags readOpts backP (envAt exB st) (visible a st) (.node APPLY [.sym CONST 10, u]) := fun u hu =>
      .app1 10 u p1 f1 (Option.isNone_iff_eq_none.1 g4) hu
    have hu := PlainTerm.app _ _ (by simp [Term.children]) ho (hf _ hc) hc
    exact .app _ _ (by simp [Term.children]) ho (hf _ hu) hu
  · refine lookup_defName ?_
    cases hb with
    | file _ _ _ _ _ _ _ h => exact absurd rfl (h _)
    | cmd _ _ _ _ _ _ _ _ _ e1 hb =>
      cases hb with
      | file _ _ _ _ _ _ _ h => exact absurd rfl (h _)
      | cmd _ _ _ _ _ _ _ _ _ e2 hb =>
        cases hb with
        | nil =>
          obtain ⟨i, _, rfl⟩ := e1
          obtain ⟨j, _, rfl⟩ := e2
          have hB : ∀ p ∈ (builtinNames exB).all, p.1.take 2 ≠ bytes "_v" := by decide +kernel
          simp only [all_bind]
          intro p hp
          simp only [List.mem_cons] at hp
          rcases hp with rfl | rfl | hp
          · exact (by decide : (nm "c").take 2 ≠ bytes "_v")
          · exact (by decide : (nm "f").take 2 ≠ bytes "_v")
          · exact hB p hp

-- so the printed text, with definitions, is read back
example : ∃ st, exRun backCmds = .ok st ∧ ∃ k, ∀ f, k ≤ f → ∃ p ts m, printTerm backP true f backTerm = .ok p ∧
    (∀ signed interactive size, 0 < size → lexInput backFlags (.init signed interactive size (writeTerm 0 p.1 p.2)) = .ok ts) ∧
    ∀ m', m ≤ m' → ∀ rest, ∃ st', readExpr exB m' readOpts (ts ++ rest) st = .ok (rest, st', backTerm) := by
  obtain ⟨st, h1, h2⟩ := backTerm_plain
  obtain ⟨a, g1, g2, g3⟩ := C69_plain_partial (es := backCmds.map .cmd) (by simp [backCmds]) h1
  obtain ⟨e1, e2⟩ := h2 a g1 g2
  exact ⟨st, h1, g3 backFlags readOpts backP backTerm true backP_printable e1 fun _ => e2⟩

/-! ### Terms that are not read back -/

/-- print a term, split the text into tokens and read them -/
def printRead (P : PrintEnv) (o : ReadOpts) (st : State) (t : Term) : Run Term :=
  (printTerm P true 100 t).bind fun p => (lexInput backFlags (.init true false 8 (writeTerm 0 p.1 p.2))).bind fun ts => (readExpr exB 20 o ts st).map (·.2.2)

-- the empty binary constant
example : ((exRun backCmds).bind fun st => printRead backP readOpts st (.lit (.bin ⟨0, 0⟩))) = .ok (.lit (.bin ⟨0, 0⟩)) := by decide +kernel

-- the term of the example
example : ((exRun backCmds).bind fun st => printRead backP readOpts st backTerm) = .ok backTerm := by decide +kernel

/-- as `backCmds`, with `:right-assoc-nil false` for `f` -/
def nilCmds : List Cmd := [.declareConst (nm "f") (ap "->" [.bool, .bool, .bool]) [⟨.RIGHT_ASSOC_NIL, some (sy "false"), none⟩], .declareConst (nm "c") .bool []]

/-- The statement fails for applications of operators with attributes: `f c c` is printed as `(_ (f c) c)`, and here `(f c)` is read as
the list `(f c false)` of one element. -/
theorem C69_attribute_refuted :
    (printTerm backP true 100 (.node APPLY [.node APPLY [.sym CONST 10, .sym CONST 11], .sym CONST 11])).map (fun p => writeTerm 0 p.1 p.2) =
      .ok (bytes "(_ (f c) c)") ∧
    ((exRun nilCmds).bind fun st => printRead backP readOpts st (.node APPLY [.node APPLY [.sym CONST 10, .sym CONST 11], .sym CONST 11])) =
      .ok (.node APPLY [.node APPLY [.node APPLY [.sym CONST 10, .sym CONST 11], tFalse], .sym CONST 11]) := by decide +kernel

/-- It fails for decimals, which are printed as rationals, for hexadecimal constants with leading zeros, which are not printed, and for
strings with a double quote, which is not doubled. -/
theorem C69_literal_refuted :
    ((exRun backCmds).bind fun st => printRead backP readOpts st (.lit (.dec (1/2)))) = .ok (.lit (.rat (1/2))) ∧
    ((exRun backCmds).bind fun st => printRead backP { readOpts with normHex := false } st (.lit (.hex ⟨8, 5⟩))) = .ok (.lit (.hex ⟨4, 5⟩)) ∧
    ((exRun backCmds).bind fun st => printRead backP readOpts st (.lit (.str [34]))) = .err := by decide +kernel

/-- It fails for applications of variables, which are printed as `((eo::var "c" Bool) c)`, and this is no expression. -/
theorem C69_variable_refuted :
    (printTerm backP true 100 (.node APPLY [.sym VARIABLE 6, .sym CONST 11])).map (fun p => writeTerm 0 p.1 p.2) =
      .ok (bytes "((eo::var \"c\" Bool) c)") ∧
    ((exRun backCmds).bind fun st => printRead backP readOpts st (.node APPLY [.sym VARIABLE 6, .sym CONST 11])) = .err := by decide +kernel

end Ethos.Props
