import Verif.Lemmas.Safety
import Verif.Lemmas.Typing
/-
No undefined behaviour in one step of evaluation and typing, given that the nested calls have none.
-/
namespace Ethos.Props
open Ethos Kind Spec

/-- the nested calls have no undefined behaviour and give terms formed as required -/
structure OpsSafe (o : Ops) : Prop where
  evaluate : ∀ t ctx, Shaped t → CtxGood Shaped ctx → Out.Safe Shaped (o.evaluate t ctx)
  evalOp : ∀ k args, isLiteralOp k = true → args.length = opArity k → (∀ a ∈ args, Shaped a) → Out.Safe ShapedOpt (o.evalOp k args)
  getType : ∀ t, Shaped t → Out.Safe ShapedOpt (o.getType t)
  parts : ∀ t r, o.getType t = .ok (some r) → typesOf o t.children ≠ .ok none

theorem argO_safe {args : List Term} {i : Nat} {Q : Term → Prop} (h : i < args.length) (hq : ∀ a ∈ args, Q a) : Out.Safe Q (argO args i) := by
  unfold argO
  rw [List.getElem?_eq_getElem h]
  exact hq _ (List.getElem_mem h)

theorem ofRes_safe {α : Type} {r : Res α} {Q : α → Prop} (h : r ≠ .ub) (hq : ∀ a, r = .val a → Q a) : Out.Safe (fun x => ∀ v, x = some v → Q v) (Out.ofRes r) := by
  cases r with
  | val a => intro v hv; cases hv; exact hq a rfl
  | null => intro v hv; cases hv
  | ub => exact absurd rfl h

/-! ### Matching -/

theorem ctx_cons {ctx : Ctx} {a b : Term} (hc : CtxGood Shaped ctx) (hb : Shaped b) : CtxGood Shaped ((a, b) :: ctx) := by
  intro x v h
  simp only [Ctx.find, List.lookup] at h
  split at h
  · cases h; exact hb
  · exact hc x v h

theorem ctx_nil : CtxGood Shaped [] := by
  intro x v h; simp [Ctx.find] at h

theorem matchLoop_shaped : ∀ (n : Nat) (st vis : List (Term × Term)) (ctx ctx' : Ctx) (r : Bool), (∀ q ∈ st, Shaped q.2) → CtxGood Shaped ctx →
    matchLoop n st vis ctx = some (r, ctx') → CtxGood Shaped ctx' := by
  intro n
  induction n with
  | zero =>
    intro st vis ctx ctx' r hs hc h
    cases st with
    | nil => simp only [matchLoop, Option.some.injEq, Prod.mk.injEq] at h; rw [← h.2]; exact hc
    | cons p st => simp [matchLoop] at h
  | succ n ih =>
    intro st vis ctx ctx' r hs hc h
    cases st with
    | nil => simp only [matchLoop, Option.some.injEq, Prod.mk.injEq] at h; rw [← h.2]; exact hc
    | cons p st =>
      obtain ⟨a, b⟩ := p
      have hst : ∀ q ∈ st, Shaped q.2 := fun q hq => hs q (by simp [hq])
      have hb : Shaped b := hs (a, b) (by simp)
      have stop : ∀ {c : Bool}, some (c, ctx) = some (r, ctx') → CtxGood Shaped ctx' := by
        intro c h
        simp only [Option.some.injEq, Prod.mk.injEq] at h
        rw [← h.2]; exact hc
      rw [matchLoop] at h
      split at h
      · split at h
        · exact ih _ _ _ _ _ hst hc h
        · exact stop h
      · split at h
        · exact ih _ _ _ _ _ hst hc h
        · split at h
          · split at h
            · split at h
              · exact ih _ _ _ _ _ hst (ctx_cons hc hb) h
              · split at h
                · exact stop h
                · exact ih _ _ _ _ _ hst hc h
            · exact stop h
          · split at h
            · exact stop h
            · refine ih _ _ _ _ _ ?_ hc h
              intro q hq
              rcases List.mem_append.1 hq with hq | hq
              · have := List.of_mem_zip (List.mem_reverse.1 hq)
                exact hb.parts _ this.2
              · exact hst q hq

theorem matchArgs_shaped : ∀ (ps ts : List Term) (ctx ctx' : Ctx), (∀ t ∈ ts, Shaped t) → CtxGood Shaped ctx → matchArgs ps ts ctx = some ctx' →
    CtxGood Shaped ctx'
  | [], ts, ctx, ctx', _, hc, h => by simp only [matchArgs, Option.some.injEq] at h; rw [← h]; exact hc
  | p :: ps, [], ctx, ctx', _, hc, h => by simp only [matchArgs, Option.some.injEq] at h; rw [← h]; exact hc
  | p :: ps, t :: ts, ctx, ctx', ht, hc, h => by
    rw [matchArgs] at h
    split at h
    · rename_i c1 h1
      exact matchArgs_shaped ps ts c1 ctx' (fun x hx => ht x (by simp [hx]))
        (matchLoop_shaped _ _ _ _ _ _ (by simpa using ht t (by simp)) hc h1) h
    · cases h

/-- the result of a program: a body and its context -/
def CallOk (r : Option (Term × Ctx)) : Prop := ∀ body ctx, r = some (body, ctx) → Shaped body ∧ CtxGood Shaped ctx

theorem callOk_none : CallOk none := by intro b c h; cases h

theorem runCases_safe {children : List Term} (hc : ∀ c ∈ children, Shaped c) : ∀ cases : List Term,
    (∀ c ∈ cases, ∃ pat body r, c.children = pat :: body :: r ∧ Shaped body) → Out.Safe CallOk (runCases children cases)
  | [], _ => callOk_none
  | c :: cs, h => by
    obtain ⟨pat, body, r, he, hb⟩ := h c (by simp)
    unfold runCases
    rw [he]
    simp only
    split
    · exact callOk_none
    · split
      · rename_i ctx hm
        intro b' c' e
        cases e
        exact ⟨hb, matchArgs_shaped _ _ _ _ (fun t ht => hc t (List.mem_of_mem_tail ht)) ctx_nil hm⟩
      · exact runCases_safe hc cs fun c hc => h c (by simp [hc])

theorem evalProgram_safe {env : Env} (hE : ShapedEnv env) {children : List Term} (hne : children ≠ []) (hc : ∀ c ∈ children, Shaped c) :
    Out.Safe CallOk (evalProgram env children) := by
  unfold evalProgram
  split
  · exact callOk_none
  · split
    · exact callOk_none
    · split
      · exact absurd rfl hne
      · split
        · exact callOk_none
        · rename_i prog hp
          exact runCases_safe hc _ (hE.program _ _ hp)

/-! ### Types -/

section
variable {env : Env} {o : Ops} (hE : ShapedEnv env) (ho : OpsSafe o)

theorem typesOf_safe (ho : OpsSafe o) : ∀ cs : List Term, (∀ c ∈ cs, Shaped c) →
    Out.Safe (fun r => ∀ ts, r = some ts → ts.length = cs.length ∧ ∀ t ∈ ts, Shaped t) (typesOf o cs)
  | [], _ => by intro ts h; cases h; simp
  | c :: cs, h => by
    rw [typesOf]
    refine (ho.getType c (h c (by simp))).bind fun t ht => ?_
    cases t with
    | none => intro ts h; cases h
    | some t =>
      refine (typesOf_safe ho cs fun c hc => h c (by simp [hc])).map fun r hr => ?_
      intro ts e
      cases r with
      | none => cases e
      | some r =>
        cases e
        obtain ⟨h1, h2⟩ := hr r rfl
        exact ⟨by simp [h1], by simpa using ⟨ht t rfl, h2⟩⟩

theorem appPairs_safe (ho : OpsSafe o) : ∀ (ds cs : List Term), (∀ d ∈ ds, Shaped d) → (∀ c ∈ cs, Shaped c) → (∀ c ∈ cs, o.getType c ≠ .ok none) →
    Out.Safe (fun r => ∀ q ∈ r.1, Shaped q.2) (appPairs o ds cs)
  | [], _, _, _, _ => by simp [appPairs, Out.Safe]
  | _ :: _, [], _, _, _ => by simp [appPairs, Out.Safe]
  | d :: ds, c :: cs, hd, hc, hn => by
    have ih := appPairs_safe ho ds cs (fun x hx => hd x (by simp [hx])) (fun x hx => hc x (by simp [hx])) (fun x hx => hn x (by simp [hx]))
    have hct : Out.Safe (fun t => ShapedOpt t ∧ t ≠ none) (o.getType c) := by
      have h1 := ho.getType c (hc c (by simp))
      have h2 := hn c (by simp)
      refine Out.Safe.of h1.ne fun t e => ⟨h1.ok e, ?_⟩
      rintro rfl; exact h2 e
    unfold appPairs
    split
    · rename_i hk
      have hf := (hd d (by simp)).formed (by rintro l rfl; cases l <;> simp [Term.kind, Lit.kind] at hk)
      have hl := hf.app (by simp [hk])
      refine (argO_safe hl (hd d (by simp)).parts).bind fun q hq => ?_
      refine hct.bind fun t ht => ?_
      refine (ho.getType q hq).bind fun cte _ => ?_
      cases t with
      | none => exact absurd rfl ht.2
      | some t =>
        simp only
        split
        · exact ih.map fun r hr => by
            simp only [List.mem_cons, forall_eq_or_imp]; exact ⟨hc c (by simp), hr⟩
        · simp [Out.Safe]
    · refine hct.bind fun t ht => ?_
      cases t with
      | none => exact absurd rfl ht.2
      | some t =>
        refine ih.map fun r hr => ?_
        simp only [List.mem_cons, forall_eq_or_imp]; exact ⟨ht.1 t rfl, hr⟩

theorem typeApp_safe (ho : OpsSafe o) {cs : List Term} (hne : cs ≠ []) (hc : ∀ c ∈ cs, Shaped c) (hn : ∀ c ∈ cs, o.getType c ≠ .ok none) :
    Out.Safe (fun r => ShapedOpt r.1 ∧ CtxGood Shaped r.2) (typeApp o cs) := by
  cases cs with
  | nil => exact absurd rfl hne
  | cons hd cs =>
    have h1 := ho.getType hd (hc hd (by simp))
    have h2 := hn hd (by simp)
    have hnone : ∀ {ctx : Ctx}, CtxGood Shaped ctx → Out.Safe (fun r => ShapedOpt r.1 ∧ CtxGood Shaped r.2) (.ok ((none : Option Term), ctx)) :=
      fun h => ⟨(by intro v e; cases e), h⟩
    unfold typeApp
    simp only [argO, List.getElem?_cons_zero, Out.bind]
    cases hg : o.getType hd with
    | ub => exact absurd hg h1.ne
    | fuel => trivial
    | ok r =>
      cases r with
      | none => exact absurd hg h2
      | some ty =>
        have hty := h1.ok hg ty rfl
        simp only
        split
        · exact hnone ctx_nil
        · split
          · exact hnone ctx_nil
          · rename_i _ hlen
            refine (appPairs_safe ho _ _ (fun d hd => hty.parts d (List.dropLast_subset _ hd)) (fun c h => hc c (by simp_all)) (fun c h => hn c (by simp_all))).bind fun r hr => ?_
            split
            · rename_i hm
              obtain ⟨r', hr'⟩ := matchLoop_total (Term.sizes (r.1.map Prod.fst)) r.1 [] [] (Nat.le_refl _)
              rw [hr'] at hm; cases hm
            · rename_i ctx hm
              exact hnone (matchLoop_shaped _ _ _ _ _ _ hr ctx_nil hm)
            · rename_i ctx hm
              have hctx := matchLoop_shaped _ _ _ _ _ _ hr ctx_nil hm
              split
              · split
                · rename_i hl
                  rw [List.getLast?_eq_none_iff] at hl
                  rw [hl] at hlen
                  simp at hlen
                · rename_i ret hl
                  refine (ho.evaluate ret ctx (hty.parts _ (List.mem_of_getLast? hl)) hctx).map fun t ht => ⟨?_, hctx⟩
                  intro v e; cases e; exact ht
              · exact hnone hctx

include hE ho in
theorem litType_safe (k : Kind) (self : Option Term) (hs : ∀ t, self = some t → Shaped t) : Out.Safe ShapedOpt (litType env o k self) := by
  unfold litType
  have hr : Shaped ((env.litRule k).getD tAny) := by
    cases h : env.litRule k with
    | none => exact shaped_any
    | some t => exact hE.litRule _ _ h
  simp only
  split
  · intro v e; cases e; exact hr
  · refine (ho.evaluate _ _ hr (ctx_cons ctx_nil ?_)).map fun t ht => ?_
    · cases self with
      | none => exact shaped_any
      | some t => exact hs t rfl
    · intro v e; cases e; exact ht

theorem someArg_safe {args : List Term} {i : Nat} (h : i < args.length) (hq : ∀ a ∈ args, Shaped a) : Out.Safe ShapedOpt ((argO args i).map some) :=
  (argO_safe h hq).map fun t ht => by intro v e; cases e; exact ht

theorem safe_some {t : Term} (h : Shaped t) : Out.Safe ShapedOpt (.ok (some t)) := by intro v e; cases e; exact h
theorem safe_none : Out.Safe ShapedOpt (.ok none) := by intro v e; cases e

include hE ho in
theorem litOpType_safe {k : Kind} {children ctypes : List Term} (hk : children.length = opArity k) (hl : ctypes.length = children.length)
    (hc : ∀ c ∈ children, Shaped c) (ht : ∀ t ∈ ctypes, Shaped t) : Out.Safe ShapedOpt (litOpType env o k children ctypes) := by
  have hL := fun k => litType_safe hE ho k none (by simp)
  unfold litOpType
  split
  · exact safe_none
  · split
    all_goals first
      | exact safe_none
      | exact hL _
      | exact safe_some shaped_type
      | exact safe_some shaped_bool
      | exact safe_some hE.listType
      | exact someArg_safe (by rw [hl, hk]; decide) ht
      | exact someArg_safe (by rw [hk]; decide) hc

include hE ho in
theorem typeInternal_safe {e : Term} {ctypes : List Term} (he : Shaped e) (hts : typesOf o e.children = .ok (some ctypes)) (hnl : ∀ k i, e ≠ .sym k i) :
    Out.Safe ShapedOpt (typeInternal env o e ctypes) := by
  obtain ⟨hlen, hct⟩ := (typesOf_safe ho _ he.parts).ok hts ctypes rfl
  have hn : ∀ c ∈ e.children, o.getType c ≠ .ok none := by
    intro c hc
    obtain ⟨t, h⟩ := typesOf_spec hts c hc
    rw [h]; simp
  cases e with
  | sym k i => exact absurd rfl (hnl k i)
  | lit l =>
    have := litType_safe hE ho (Term.lit l).kind (some (.lit l)) (by intro t h; cases h; exact .lit l)
    unfold typeInternal
    cases l <;> first
      | exact this
      | exact safe_some shaped_bool
  | node k cs =>
    have hf : Formed k cs.length := he.formed (by simp)
    have happ : k = APPLY ∨ k = APPLY_OPAQUE → Out.Safe ShapedOpt ((typeApp o cs).map Prod.fst) := by
      intro hk
      have hl := hf.app (by rcases hk with h | h <;> simp [h])
      refine (typeApp_safe ho (by rintro rfl; simp at hl) he.parts hn).map fun r hr => hr.1
    unfold typeInternal
    simp only [Term.kind, Term.children] at *
    split
    · exact happ (.inl rfl)
    · exact happ (.inr rfl)
    · -- LAMBDA
      have hl := hf.body (by simp)
      match cs, hl with
      | vars :: body :: r, _ =>
        obtain ⟨tv, htv⟩ := typesOf_spec hts vars (by simp)
        have hp := ho.parts vars tv htv
        have hs := typesOf_safe ho vars.children (he.parts vars (by simp [Term.children])).parts
        refine (argO_safe (Q := (· = vars)) (args := [vars]) (i := 0) (by simp) (by simp)).bind fun vars' hvars => ?_
        subst hvars
        refine (Out.Safe.of (Q := fun ts => (∀ l, ts = some l → ∀ t ∈ l, Shaped t) ∧ ts ≠ none) hs.ne
          fun ts e => ⟨fun l h => (hs.ok e l h).2, by rintro rfl; exact hp e⟩).bind fun ts hv => ?_
        cases ts with
        | none => exact absurd rfl hv.2
        | some ts =>
            have h1 : 1 < ctypes.length := by rw [hlen]; simp
            refine (argO_safe (Q := Shaped) h1 hct).map fun ret hret => ?_
            intro v e; cases e
            have := hv.1 ts rfl
            unfold mkFunctionType
            clear hv
            induction ts with
            | nil => exact hret
            | cons a ts ih =>
              refine .node _ _ (.of rfl (by simp)) ?_
              simp only [List.mem_cons, List.not_mem_nil, or_false, forall_eq_or_imp, forall_eq]
              exact ⟨this a (by simp), ih fun t ht => this t (by simp [ht])⟩
    · exact safe_some shaped_type
    · exact safe_some shaped_type
    · exact safe_some shaped_type
    · exact safe_some shaped_type
    · exact safe_some shaped_type
    · -- PROOF
      have hl := hf.app (by simp)
      refine (argO_safe (Q := Shaped) (by omega) hct).bind fun t _ => ?_
      by_cases hb : t.kind = BOOL_TYPE
      · have := safe_some hE.proofType
        cases t <;> simp_all [Term.kind]
      · have := safe_none
        cases t <;> simp_all [Term.kind]
    · exact safe_some shaped_any
    · exact safe_some shaped_any
    · exact safe_some shaped_bool
    any_goals exact litType_safe hE ho _ _ (by intro t h; cases h; exact he)
    · exact safe_none
    · exact safe_none
    · have hl := hf.body (by simp)
      exact someArg_safe (by omega) hct
    · split
      · rename_i hop
        exact litOpType_safe hE ho (hf.op hop) hlen he.parts hct
      · exact safe_none

include hE ho in
theorem typeStep_safe {e : Term} (he : Shaped e) : Out.Safe ShapedOpt (typeStep env o e) := by
  have hmain : (∀ k i, e ≠ .sym k i) → Out.Safe ShapedOpt ((typesOf o e.children).bind fun cts =>
      match cts with
      | none => .ok none
      | some ctypes =>
        (typeInternal env o e ctypes).map fun r =>
          match r with
          | none => none
          | some t => if t.ground && t.evaluatable then none else some t) := by
    intro hnl
    have hs := typesOf_safe ho _ he.parts
    cases hv : typesOf o e.children with
    | ub => exact absurd hv hs.ne
    | fuel => trivial
    | ok ts =>
      cases ts with
      | none => exact safe_none
      | some ts =>
        simp only [Out.bind]
        refine (typeInternal_safe hE ho he hv hnl).map fun r hr => ?_
        intro v e
        cases r with
        | none => cases e
        | some t =>
          simp only at e
          split at e
          · cases e
          · cases e; exact hr v rfl
  unfold typeStep
  split
  · intro v h; exact hE.symType _ _ h
  · rename_i hns
    exact hmain hns

/-! ### Operators -/

include ho in
theorem consTerm_safe {ai : AppInfo} {children : List Term} (hcons : ∀ c, ai.cons = some c → Shaped c) (hne : children ≠ []) (hc : ∀ c ∈ children, Shaped c) :
    Out.Safe ShapedOpt (consTerm o ai children) := by
  unfold consTerm
  split
  · exact safe_none
  · rename_i ct hct
    have hs := hcons ct hct
    split
    · exact safe_some hs
    · rename_i hk
      have hk : ct.kind = PARAMETERIZED := by simpa using hk
      have hf := (hs.formed (by rintro l rfl; cases l <;> simp [Term.kind, Lit.kind] at hk)).body (by simp [hk])
      split
      · exact absurd rfl hne
      · exact safe_none
      · rename_i hd c1 r
        split
        · exact safe_none
        · have h0 := ho.getType hd (hc hd (by simp))
          have h1 := ho.getType c1 (hc c1 (by simp))
          cases e0 : o.getType hd with
          | ub => exact absurd e0 h0.ne
          | fuel => trivial
          | ok t0 =>
            cases t0 with
            | none => exact safe_none
            | some t0 =>
              cases e1 : o.getType c1 with
              | ub => exact absurd e1 h1.ne
              | fuel => simp only [Out.bind, e1]; trivial
              | ok t1 =>
                cases t1 with
                | none => simp only [Out.bind, e1]; exact safe_none
                | some t1 =>
                  simp only [Out.bind, e1]
                  refine (typeApp_safe ho (cs := [hd, c1]) (by simp) (by simpa using ⟨hc hd (by simp), hc c1 (by simp)⟩) (by simp [e0, e1])).bind fun r hr => ?_
                  split
                  · rename_i ps body rest he
                    split
                    · refine (ho.evaluate body r.2 (hs.parts body (by simp [he])) hr.2).map fun t ht => ?_
                      intro v e; cases e; exact ht
                    · exact safe_none
                  · rename_i hno
                    match hcs : ct.children, hf with
                    | ps :: body :: rest, _ => exact absurd hcs (hno ps body rest)

theorem allLits_length : ∀ {args : List Term} {ls : List Lit}, allLits args = some ls → ls.length = args.length
  | [], ls, h => by cases h; rfl
  | t :: ts, ls, h => by
    rw [allLits] at h
    split at h
    · rw [Option.map_eq_some_iff] at h
      obtain ⟨r, hr, rfl⟩ := h
      simp [allLits_length hr]
    · cases h

include hE ho in
theorem evalList_safe {k : Kind} {args : List Term} (hl : args.length = opArity k) (hk : isListLiteralOp k = true) (hc : ∀ c ∈ args, Shaped c) :
    Out.Safe ShapedOpt (evalList env o k args) := by
  have h2 : 2 ≤ args.length := by
    rw [hl]
    unfold opArity
    split <;> first | omega | simp [isListLiteralOp] at hk
  match args, h2 with
  | a0 :: a1 :: r, _ =>
    have hs0 := hc a0 (by simp)
    have hop : Out.Safe Shaped (if a0.kind = PARAMETERIZED then argO a0.children 1 else .ok a0) := by
      split
      · rename_i hp
        have hf := (hs0.formed (by rintro l rfl; cases l <;> simp [Term.kind, Lit.kind] at hp)).body (by simp [hp])
        exact argO_safe hf hs0.parts
      · exact hs0
    unfold evalList
    simp only [argO, List.getElem?_cons_zero, List.getElem?_cons_succ] at hop ⊢
    refine hop.bind fun op hop => ?_
    split
    · exact safe_none
    · rename_i ai hai
      have hcons := fun c h => hE.cons op ai c hai h
      split
      · exact safe_none
      · split
        · refine consTerm_safe ho hcons (children := [a0, env.tmp a1]) (by simp) ?_
          simp only [List.mem_cons, List.not_mem_nil, or_false, forall_eq_or_imp, forall_eq]
          exact ⟨hs0, hE.tmp _ (hc a1 (by simp))⟩
        · refine (consTerm_safe ho hcons (children := [a0, a1]) (by simp) (by simpa using ⟨hs0, hc a1 (by simp)⟩)).bind fun nil hnil => ?_
          cases nil with
          | none => exact safe_none
          | some nil =>
            exact ofRes_safe (evalListOp_ne hl) fun a h => evalListOp_keeps shaped_closed hop (hnil nil rfl) hc h

include hE ho in
theorem evalValues_safe {k : Kind} {args : List Term} (hl : args.length = opArity k) (hc : ∀ c ∈ args, Shaped c) : Out.Safe ShapedOpt (evalValues env o k args) := by
  unfold evalValues
  split
  · rename_i ls hls
    split
    · exact safe_none
    · refine (ofRes_safe (Q := fun _ => True) (evaluate_ne (by rw [allLits_length hls]; exact hl)) (by simp)).map fun r _ => ?_
      intro v e
      rw [Option.map_eq_some_iff] at e
      obtain ⟨l, _, rfl⟩ := e
      exact .lit l
  · split
    · exact safe_none
    · rename_i hk
      exact evalList_safe hE ho hl (by simpa using hk) hc

include hE in
theorem dtSelectors_safe {a : Term} (ha : Shaped a) : Out.Safe ShapedOpt (dtSelectors env a) := by
  unfold dtSelectors
  have : Out.Safe Shaped (if a.kind = APPLY_OPAQUE then argO a.children 0 else .ok a) := by
    split
    · rename_i hp
      have hf := (ha.formed (by rintro l rfl; cases l <;> simp [Term.kind, Lit.kind] at hp)).app (by simp [hp])
      exact argO_safe hf ha.parts
    · exact ha
  refine this.bind fun s _ => ?_
  split
  · rename_i ai hai
    split
    · intro v e; exact hE.cons s ai v hai e
    · exact safe_none
  · exact safe_none

include hE ho in
theorem dtConstructors_safe {a : Term} (ha : Shaped a) : Out.Safe ShapedOpt (dtConstructors env o a) := by
  unfold dtConstructors
  have : Out.Safe (fun _ => True) (if a.kind = APPLY then (o.getType a).map fun t => decide (t = some tType) else .ok false) := by
    split
    · exact (ho.getType a ha).map fun _ _ => trivial
    · trivial
  refine this.bind fun p _ => ?_
  split
  · rename_i ai hai
    split
    · rename_i hd
      split
      · obtain ⟨l, hl⟩ := hE.datatype _ ai hai hd
        rw [hl]
        refine safe_some ?_
        have hl := hE.cons _ ai l hai hl
        have hcs := (naryLoop_keeps shaped_closed env.listCons false l hl).1
        revert hcs
        unfold mkListTerm
        induction (naryLoop env.listCons false l).1 with
        | nil => intro _; exact hE.listNil
        | cons c cs ih =>
          intro hcs
          refine .app2 hE.listCons ?_ (ih fun c hc => hcs c (by simp [hc]))
          have hc := hcs c (by simp)
          simp only
          split
          · split
            · refine .node _ _ ⟨by simp [isLiteralOp], by simp, by simp⟩ (by simpa using ⟨hc, ha⟩)
            · exact hc
          · exact hc
      · intro v e; exact hE.cons _ ai v hai e
    · exact safe_none
  · exact safe_none

include hE ho in
theorem evalGround_safe {k : Kind} {args : List Term} (hl : args.length = opArity k) (hc : ∀ c ∈ args, Shaped c) : Out.Safe ShapedOpt (evalGround env o k args) := by
  have hv := evalValues_safe hE ho hl hc
  have hb : ∀ b, Out.Safe ShapedOpt (.ok (some (mkBool b))) := fun b => safe_some (.lit _)
  unfold evalGround
  split
  all_goals try exact hv
  all_goals
    first
    | obtain ⟨a, rfl⟩ := length1 hl
    | obtain ⟨a, b, rfl⟩ := length2 hl
  all_goals simp only [argO, List.getElem?_cons_zero, List.getElem?_cons_succ, Out.bind, Out.map]
  all_goals try exact hb _
  · split <;> exact hb _
  · split
    · exact safe_none
    · split
      · exact safe_none
      · exact hb _
  · split
    · exact safe_none
    · exact safe_some (.lit _)
  · split
    · exact safe_none
    · split
      · exact safe_none
      · exact hb _
  · split
    · exact hv
    · refine (ho.getType a (hc a (by simp))).bind fun t ht => ?_
      cases t with
      | none => exact safe_none
      | some t =>
        simp only
        split
        · exact safe_some (ht t rfl)
        · exact hv
  · split
    · exact safe_some (.lit _)
    · exact hv
  · split
    · split
      · exact hv
      · refine (ho.getType b (hc b (by simp))).bind fun t ht => ?_
        cases t with
        | none => exact hv
        | some t =>
          simp only
          split
          · exact safe_some (hE.boundVar _ _ (hc b (by simp)))
          · exact hv
    · exact hv
  · exact dtSelectors_safe hE (hc a (by simp))
  · exact dtConstructors_safe hE ho (hc a (by simp))

include hE ho in
theorem opStep_safe {k : Kind} {args : List Term} (hl : args.length = opArity k) (hc : ∀ c ∈ args, Shaped c) : Out.Safe ShapedOpt (opStep env o k args) := by
  unfold opStep
  split
  · obtain ⟨a, b, c, rfl⟩ := length3 hl
    simp only [argO, List.getElem?_cons_zero, Out.bind]
    split
    · rename_i v
      cases v
      · exact safe_some (hc c (by simp))
      · exact safe_some (hc b (by simp))
    · exact safe_none
  · obtain ⟨a, b, c, rfl⟩ := length3 hl
    simp only [argO, List.getElem?_cons_zero, List.getElem?_cons_succ, Out.bind, Out.map]
    split
    · split
      · exact safe_some (hc c (by simp))
      · exact safe_none
    · exact safe_none
  · split
    · exact safe_none
    · exact evalGround_safe hE ho hl hc
end

end Ethos.Props
