import Verif.Lemmas.SafetyMach
import Verif.Model.Desugar
/-
No undefined behaviour when applications are built.
-/
namespace Ethos.Props
open Ethos Kind Spec Term

theorem shaped_apply {cs : List Term} (hne : cs ≠ []) (hc : ∀ c ∈ cs, Shaped c) : Shaped (.node APPLY cs) :=
  .node _ _ (.apply (List.length_pos_iff.2 hne)) hc

theorem mkApply_shaped {cs : List Term} (hne : cs ≠ []) (hc : ∀ c ∈ cs, Shaped c) : Shaped (mkApply cs) := by
  unfold mkApply
  split
  · rename_i hd a b r
    unfold mkApplyInternal
    have h0 : Shaped hd := hc hd (by simp)
    have : ∀ x ∈ a :: b :: r, Shaped x := fun x hx => hc x (by simp at hx ⊢; exact .inr hx)
    generalize a :: b :: r = l at this
    clear hc hne
    induction l generalizing hd with
    | nil => exact h0
    | cons x l ih =>
      refine ih _ (shaped_apply (by simp) ?_) fun y hy => this y (by simp [hy])
      simp only [List.mem_cons, List.not_mem_nil, or_false, forall_eq_or_imp, forall_eq]
      exact ⟨h0, this x (by simp)⟩
  · exact shaped_apply hne hc

theorem formed_op {k : Kind} {n : Nat} (hk : isLiteralOp k = true) (hn : n = opArity k) : Formed k n where
  op _ := hn
  app h := by rcases h with h | h | h | h <;> (subst h; exact absurd hk (by decide))
  body h := by rcases h with h | h <;> (subst h; exact absurd hk (by decide))

theorem shaped_op {k : Kind} {cs : List Term} (hk : isLiteralOp k = true) (hn : cs.length = opArity k) (hc : ∀ c ∈ cs, Shaped c) : Shaped (.node k cs) :=
  .node _ _ (formed_op hk hn) hc

theorem mem2 {a b : Term} (ha : Shaped a) (hb : Shaped b) : ∀ c ∈ [a, b], Shaped c := by
  simp only [List.mem_cons, List.not_mem_nil, or_false, forall_eq_or_imp, forall_eq]; exact ⟨ha, hb⟩
theorem mem3 {a b c : Term} (ha : Shaped a) (hb : Shaped b) (hc : Shaped c) : ∀ x ∈ [a, b, c], Shaped x := by
  simp only [List.mem_cons, List.not_mem_nil, or_false, forall_eq_or_imp, forall_eq]; exact ⟨ha, hb, hc⟩
theorem mem_cons {a : Term} {l : List Term} (ha : Shaped a) (hl : ∀ c ∈ l, Shaped c) : ∀ c ∈ a :: l, Shaped c := by
  simp only [List.mem_cons, forall_eq_or_imp]; exact ⟨ha, hl⟩

section
variable {env : Env} {mk : Kind → List Term → Out Term}

/-- the recursive call has no undefined behaviour -/
def MkSafe (env : Env) (mk : Kind → List Term → Out Term) : Prop := ∀ k cs, Applied env k cs → (∀ c ∈ cs, Shaped c) → Out.Safe Shaped (mk k cs)

theorem applied_op {k : Kind} {cs : List Term} (hk : isLiteralOp k = true) (hn : cs.length = opArity k) : Applied env k cs where
  args := ⟨fun _ => .inl hn, fun h => by rcases h with h | h | h | h | h | h <;> (subst h; exact absurd hk (by decide)),
    fun h => by rcases h with h | h <;> (subst h; exact absurd hk (by decide))⟩
  head h := by subst h; exact absurd hk (by decide)

theorem applied_plain {hd : Term} {args : List Term} (h : ∀ ai, env.appInfo hd = some ai → ai.kind = NONE) : Applied env APPLY (hd :: args) where
  args := ⟨fun h => absurd h (by decide), fun _ => by simp, fun h => by simp at h⟩
  head _ hd' args' ai e ha hk := by
    cases e
    exact absurd (h ai ha) hk

theorem assocStep_shaped {hd next : Term} {isNil isLeft : Bool} {st : Term × Nat} (hh : Shaped hd) (hs : Shaped st.1) (hn : Shaped next) :
    Shaped (assocStep env hd isNil isLeft st next).1 := by
  unfold assocStep
  split
  · refine shaped_op rfl ?_ ?_
    · cases isLeft <;> rfl
    · cases isLeft
      · exact mem3 hh hn hs
      · exact mem3 hh hs hn
  · cases isLeft
    · exact hh.app2 hn hs
    · exact hh.app2 hs hn

theorem assocFold_shaped {hd : Term} {isNil isLeft : Bool} (hh : Shaped hd) : ∀ (l : List Term) (st : Term × Nat), Shaped st.1 → (∀ c ∈ l, Shaped c) →
    Shaped (l.foldl (assocStep env hd isNil isLeft) st).1
  | [], _, hs, _ => hs
  | x :: l, st, hs, hl => assocFold_shaped hh l _ (assocStep_shaped hh hs (hl x (by simp))) fun c hc => hl c (by simp [hc])

theorem mkAssoc_safe (hm : MkSafe env mk) {attr : Attr} {hd : Term} {args : List Term} {c : Option Term} (hh : Shaped hd) (ha : ∀ a ∈ args, Shaped a) (hc : ShapedOpt c) :
    Out.Safe ShapedOpt (mkAssoc env mk attr hd args c) := by
  unfold mkAssoc
  split
  · exact hc
  · rename_i a1 r
    simp only
    have hl : ∀ x ∈ (if decide (attr = .LEFT_ASSOC ∨ attr = .LEFT_ASSOC_NIL ∨ attr = .LEFT_ASSOC_NS_NIL) = true then a1 :: r else (a1 :: r).reverse), Shaped x := by
      intro x hx
      split at hx
      · exact ha x hx
      · exact ha x (List.mem_reverse.1 hx)
    split
    · rename_i he
      exfalso
      split at he
      · cases he
      · simp at he
    · rename_i first rest he
      rw [he] at hl
      have hn : Shaped (c.getD (.node EVAL_NIL [hd, .node EVAL_TYPE_OF [a1]])) := by
        cases c with
        | some c => exact hc c rfl
        | none => exact shaped_op rfl rfl (mem2 hh (shaped_op rfl rfl (by simpa using ha a1 (by simp))))
      have key : ∀ p : Term × Nat, Shaped p.1 → ∀ q : Bool, Out.Safe ShapedOpt (if q && decide (p.2 < 2) then (mk EVAL_LIST_SINGLETON_ELIM [hd, p.1]).map some else .ok (some p.1)) := by
        intro p hp q
        split
        · exact (hm _ _ (applied_op rfl rfl) (mem2 hh hp)).map fun t ht => by intro v e; cases e; exact ht
        · exact safe_some hp
      split
      · exact key _ (assocFold_shaped hh _ _ hn hl) _
      · exact key _ (assocFold_shaped hh _ _ (hl first (by simp)) fun c hc => hl c (by simp [hc])) _

theorem chainPairs_shaped {hd : Term} (hh : Shaped hd) : ∀ {l : List Term}, (∀ c ∈ l, Shaped c) → ∀ c ∈ chainPairs hd l, Shaped c
  | [], _ => by simp [chainPairs]
  | [a], _ => by simp [chainPairs]
  | a :: b :: r, h => by
    rw [chainPairs]
    exact mem_cons (hh.app2 (h a (by simp)) (h b (by simp))) (chainPairs_shaped hh fun c hc => h c (by simp at hc ⊢; exact .inr hc))

theorem allPairs_shaped {hd : Term} (hh : Shaped hd) : ∀ {l : List Term}, (∀ c ∈ l, Shaped c) → ∀ c ∈ allPairs hd l, Shaped c
  | [], _ => by simp [allPairs]
  | a :: r, h => by
    rw [allPairs]
    intro c hc
    rcases List.mem_append.1 hc with hc | hc
    · obtain ⟨b, hb, rfl⟩ := List.mem_map.1 hc
      exact hh.app2 (h a (by simp)) (h b (by simp [hb]))
    · exact allPairs_shaped hh (fun c hc => h c (by simp [hc])) c hc

theorem combine_safe (hm : MkSafe env mk) {c : Term} {apps : List Term} (hc : Shaped c) (hn : ∀ ai, env.appInfo c = some ai → ai.kind = NONE) (ha : ∀ a ∈ apps, Shaped a) :
    Out.Safe ShapedOpt (combine mk (some c) apps) := by
  unfold combine
  split
  · exact safe_some (ha _ (by simp))
  · exact (hm _ _ (applied_plain hn) (mem_cons hc ha)).map fun t ht => by intro v e; cases e; exact ht

theorem mkOpaque_safe {hd : Term} {args : List Term} {z : Int} (hh : Shaped hd) (ha : ∀ a ∈ args, Shaped a) : Out.Safe ShapedOpt (mkOpaque hd args (some (.lit (.num z)))) := by
  have hop : ∀ (l : List Term) (h : Term), Shaped h → (∀ a ∈ l, Shaped a) → Shaped (l.foldl (fun curr a => Term.node APPLY_OPAQUE [curr, a]) h) := by
    intro l
    induction l with
    | nil => intro h hh _; exact hh
    | cons a l ih =>
      intro h hh ha
      exact ih _ (.node _ _ ⟨fun h => absurd h (by decide), by simp, fun h => by simp at h⟩ (mem2 hh (ha a (by simp)))) fun a hx => ha a (by simp [hx])
  unfold mkOpaque
  simp only
  split
  · exact safe_none
  · have := hop (args.take (Integer.toUnsignedInt z)) hd hh fun a h => ha a (List.mem_of_mem_take h)
    split
    · exact safe_some this
    · exact safe_some (mkApply_shaped (by simp) (mem_cons this fun a h => ha a (List.mem_of_mem_drop h)))

/-- the constructor term of an operator that is combined with another one -/
theorem consTerm_plain {o : Ops} {ai : AppInfo} {c : Term} {children : List Term} (h : ai.cons = some c) (hk : c.kind ≠ PARAMETERIZED) :
    consTerm o ai children = .ok (some c) := by
  simp [consTerm, h, hk]

theorem mkApplyAttr_safe (hE : BuildEnv env) (hm : MkSafe env mk) {t : Term} {ai : AppInfo} (hai : env.appInfo t = some ai) {o : Ops} (ho : OpsSafe o) {hd : Term} {args children : List Term}
    (hh : Shaped hd) (ha : ∀ a ∈ args, Shaped a) (hne : children ≠ []) (hch : ∀ c ∈ children, Shaped c) :
    Out.Safe ShapedOpt ((consTerm o ai children).bind fun c => mkApplyAttr env mk ai hd args c) := by
  have hcs := consTerm_safe ho (ai := ai) (fun c h => hE.cons t ai c hai h) hne hch
  by_cases hcomb : ai.attr = .CHAINABLE ∨ ai.attr = .PAIRWISE ∨ ai.attr = .ARG_LIST
  · obtain ⟨c, h1, h2, h3⟩ := hE.combining t ai hai hcomb
    have hc := hE.cons t ai c hai h1
    rw [consTerm_plain h1 h2]
    simp only [Out.bind]
    unfold mkApplyAttr
    rcases hcomb with h | h | h
    · rw [h]
      exact combine_safe hm hc h3 (chainPairs_shaped hh ha)
    · rw [h]
      exact combine_safe hm hc h3 (allPairs_shaped hh ha)
    · rw [h]
      simp only [isAssocAttr, Bool.false_eq_true, if_false]
      have : Out.Safe Shaped (if args.length = 1 ∧ args.map env.constructorKind = [Attr.LIST] then argO args 0 else mk APPLY (c :: args)) := by
        split
        · rename_i hl
          exact argO_safe (by omega) ha
        · exact hm _ _ (applied_plain h3) (mem_cons hc ha)
      exact this.map fun l hl => by
        intro v e; cases e
        exact shaped_apply (by simp) (mem2 hh hl)
  · refine hcs.bind fun c hc => ?_
    unfold mkApplyAttr
    split
    · exact mkAssoc_safe hm hh ha hc
    · split
      · rename_i h; exact absurd (.inl h) hcomb
      · rename_i h; exact absurd (.inr (.inl h)) hcomb
      · rename_i h; exact absurd (.inr (.inr h)) hcomb
      · rename_i h
        obtain ⟨z, hz⟩ := hE.opaq t ai hai h
        rw [hz]
        exact mkOpaque_safe hh ha
      · exact safe_none

theorem overloadApp_safe (hE : BuildEnv env) (hm : MkSafe env mk) {o : Ops} (ho : OpsSafe o) {children : List Term} {f : Term} (hf : Shaped f) (hne : children ≠ [])
    (hc : ∀ c ∈ children, Shaped c) : Out.Safe Shaped (overloadApp env o mk children f) := by
  have ht : ∀ c ∈ children.tail, Shaped c := fun c h => hc c (List.mem_of_mem_tail h)
  have : Out.Safe ShapedOpt (match env.appInfo f with
    | none => Out.ok none
    | some ai => (consTerm o ai children).bind fun c => mkApplyAttr env mk ai f children.tail c) := by
    split
    · exact safe_none
    · rename_i ai hai
      exact mkApplyAttr_safe hE hm hai ho hf ht hne hc
  unfold overloadApp
  refine this.map fun x hx => ?_
  cases x with
  | none => exact mkApply_shaped (by simp) (mem_cons hf ht)
  | some x => exact hx x rfl

theorem overloadLoop_safe (hE : BuildEnv env) (hm : MkSafe env mk) {o : Ops} (ho : OpsSafe o) {children : List Term} (hne : children ≠ [])
    (hc : ∀ c ∈ children, Shaped c) (ret : Option Term) (app : Bool) : ∀ fs : List Term, (∀ f ∈ fs, Shaped f) → Out.Safe ShapedOpt (overloadLoop env o mk children ret app fs)
  | [], _ => safe_none
  | f :: fs, h => by
    have ih := overloadLoop_safe hE hm ho hne hc ret app fs fun f hf => h f (by simp [hf])
    rw [overloadLoop]
    refine (overloadApp_safe hE hm ho (h f (by simp)) hne hc).bind fun x hx => ?_
    refine (ho.getType x hx).bind fun t _ => ?_
    split
    · split
      · refine safe_some ?_
        split
        · exact hx
        · exact h f (by simp)
      · exact ih
    · exact ih

theorem zip_ctx {ps args : List Term} (ha : ∀ a ∈ args, Shaped a) : CtxGood Shaped (ps.zip args).reverse := by
  intro x v h
  have : (x, v) ∈ (ps.zip args).reverse := by
    unfold Ctx.find at h
    generalize (ps.zip args).reverse = l at h
    induction l with
    | nil => cases h
    | cons p l ih =>
      obtain ⟨a, b⟩ := p
      simp only [List.lookup] at h
      split at h
      · rename_i he
        have : x = a := by simpa using he
        cases h; subst this; simp
      · simp [ih h]
  exact ha v (List.of_mem_zip (List.mem_reverse.1 this)).2

theorem mkPlainApp_safe (hE : BuildEnv env) (m : Nat) {hd : Term} {args : List Term} (hh : Shaped hd) (ha : ∀ a ∈ args, Shaped a) :
    Out.Safe Shaped (mkPlainApp env (ops env m) hd args) := by
  have ho := ops_safe hE.toShapedEnv m
  have hcur : Shaped (if hd.kind ≠ PROGRAM_CONST ∧ hd.kind ≠ PROOF_RULE then mkApply (hd :: args) else .node APPLY (hd :: args)) := by
    split
    · exact mkApply_shaped (by simp) (mem_cons hh ha)
    · exact shaped_apply (by simp) (mem_cons hh ha)
  unfold mkPlainApp
  simp only
  generalize (if hd.kind ≠ PROGRAM_CONST ∧ hd.kind ≠ PROOF_RULE then mkApply (hd :: args) else .node APPLY (hd :: args)) = cur at hcur
  split
  · rename_i hk
    have hf := (hh.formed (by rintro l rfl; cases l <;> simp [Term.kind, Lit.kind] at hk)).body (by simp [hk])
    refine (argO_safe (Q := Shaped) (by omega) hh.parts).bind fun vs _ => ?_
    refine (argO_safe (Q := Shaped) (by omega) hh.parts).bind fun body hb => ?_
    split
    · exact ho.evaluate body _ hb (zip_ctx ha)
    · exact hcur
  · split
    · rename_i hk
      split
      · rename_i hck
        obtain ⟨i, hi, ty, hty⟩ := hE.programs hd hk hck
        have hg : Out.Safe (fun t => t ≠ none) ((ops env m).getType hd) := by
          cases m with
          | zero => trivial
          | succ m =>
            subst hi
            simp only [ops, typeStep]
            rw [hty]
            simp [Out.Safe]
        refine hg.bind fun t ht => ?_
        cases t with
        | none => exact absurd rfl ht
        | some t =>
          simp only
          split
          · refine (evalProgram_safe hE.toShapedEnv (by simp) (mem_cons hh ha)).bind fun r hr => ?_
            cases r with
            | none => exact hcur
            | some p => exact ho.evaluate p.1 p.2 (hr p.1 p.2 rfl).1 (hr p.1 p.2 rfl).2
          · exact hcur
      · exact hcur
    · exact hcur

theorem mkFunctionType_shaped {l : List Term} {r : Term} (hl : ∀ c ∈ l, Shaped c) (hr : Shaped r) : Shaped (mkFunctionType l r) := by
  unfold mkFunctionType
  induction l with
  | nil => exact hr
  | cons a l ih => exact .node _ _ (.of rfl (by simp)) (mem2 (hl a (by simp)) (ih fun c hc => hl c (by simp [hc])))

theorem mkApp_safe (hE : BuildEnv env) (hm : MkSafe env mk) (m : Nat) {hd : Term} {args : List Term} (h : Applied env APPLY (hd :: args)) (hh : Shaped hd)
    (ha : ∀ a ∈ args, Shaped a) : Out.Safe Shaped (mkApp env (ops env m) mk hd args) := by
  have ho := ops_safe hE.toShapedEnv m
  have hp := mkPlainApp_safe hE m hh ha
  unfold mkApp
  split
  · exact hp
  · rename_i ai hai
    split
    · rename_i hk
      have hA := h.head rfl hd args ai rfl hai hk
      split
      · rename_i hf
        have := hA.some (by simp [hf])
        split
        · rename_i hl
          rw [List.getLast?_eq_none_iff] at hl
          simp [hl] at this
        · rename_i ret hl
          exact mkFunctionType_shaped (fun c hc => ha c (List.dropLast_subset _ hc)) (ha ret (List.mem_of_getLast? hl))
      · split
        · rename_i hf
          have := hA.some (by simp [hf])
          exact mkApply_shaped (by rintro rfl; simp at this) ha
        · rename_i hf
          exact hm _ _ ⟨hA, fun h => absurd h hf⟩ ha
    · have hov : Out.Safe ShapedOpt (match ai.overload with
        | none => Out.ok none
        | some name => getOverload env (ops env m) mk (env.overloads name) (hd :: args) none true) := by
        split
        · exact safe_none
        · rename_i name _
          exact overloadLoop_safe hE hm ho (by simp) (mem_cons hh ha) _ _ _ fun f hf => hE.overloads name f (List.mem_reverse.1 hf)
      refine hov.bind fun r hr => ?_
      cases r with
      | some t => exact hr t rfl
      | none =>
        simp only
        have := mkApplyAttr_safe hE hm hai ho hh ha (children := hd :: args) (by simp) (mem_cons hh ha)
        have hb : ∀ {α β γ : Type} (x : Out α) (f : α → Out β) (g : β → Out γ), (x.bind fun a => (f a).bind g) = (x.bind f).bind g := by
          intro α β γ x f g; cases x <;> rfl
        rw [hb]
        refine this.bind fun r hr => ?_
        cases r with
        | some t => exact hr t rfl
        | none => exact hp

theorem arity_two {k : Kind} (h : isNaryLiteralOp k = true) : opArity k = 2 ∧ isLiteralOp k = true := by
  unfold isNaryLiteralOp at h
  split at h <;> first | exact ⟨rfl, rfl⟩ | cases h

theorem evaluateLiteralOp_safe {o : Ops} (ho : OpsSafe o) {k : Kind} {cs : List Term} (hk : isLiteralOp k = true) (hl : cs.length = opArity k) (hc : ∀ c ∈ cs, Shaped c) :
    Out.Safe Shaped (evaluateLiteralOp o k cs) := by
  unfold evaluateLiteralOp
  refine (ho.evalOp k cs hk hl hc).map fun r hr => ?_
  cases r with
  | none => exact shaped_op hk hl hc
  | some v => exact hr v rfl

theorem mkLitOp_safe (hm : MkSafe env mk) {o : Ops} (ho : OpsSafe o) {k : Kind} {cs : List Term} (hk : isLiteralOp k = true) (h : ArgsFor k cs.length) (hc : ∀ c ∈ cs, Shaped c) :
    Out.Safe Shaped (mkLitOp o mk k cs) := by
  have plain : cs.length = opArity k → Out.Safe Shaped (if checkArity k cs.length then evaluateLiteralOp o k cs else .ok (.node k cs)) := by
    intro hl
    split
    · exact evaluateLiteralOp_safe ho hk hl hc
    · exact shaped_op hk hl hc
  unfold mkLitOp
  split
  · rename_i a b c r hn
    obtain ⟨h2, _⟩ := arity_two hn
    have step : ∀ x y, Shaped x → Shaped y → Out.Safe Shaped (mk k [x, y]) := fun x y hx hy => hm _ _ (applied_op hk (by simp [h2])) (mem2 hx hy)
    have : ∀ (l : List Term) (s : Out Term), Out.Safe Shaped s → (∀ c ∈ l, Shaped c) → Out.Safe Shaped (l.foldl (fun curr x => curr.bind fun t => mk k [t, x]) s) := by
      intro l
      induction l with
      | nil => intro s hs _; exact hs
      | cons x l ih => intro s hs hl; exact ih _ (hs.bind fun t ht => step t x ht (hl x (by simp))) fun c hc => hl c (by simp [hc])
    exact this (c :: r) _ (step a b (hc a (by simp)) (hc b (by simp))) fun x hx => hc x (by simp at hx ⊢; exact .inr (.inr hx))
  · rename_i cs _ _ hno
    refine plain ?_
    rcases h.op hk with h | ⟨hn, h⟩
    · exact h
    · rw [(arity_two hn).1]
      cases cs with
      | nil => simp at h
      | cons a l =>
        cases l with
        | nil => simp at h
        | cons b l =>
          cases l with
          | nil => rfl
          | cons c r => exact absurd rfl (hno a b c r hn)

theorem functionTypeLoop_shaped (q : Bool) (t : Term) (h : Shaped t) : (∀ c ∈ (functionTypeLoop q t).1, Shaped c) ∧ Shaped (functionTypeLoop q t).2 := by
  fun_induction functionTypeLoop q t with
  | case1 _ a r as t e ih =>
    have := ih (h.parts r (by simp [Term.children]))
    rw [e] at this
    exact ⟨mem_cons (h.parts a (by simp [Term.children])) this.1, this.2⟩
  | case2 a b r ih => exact ih (h.parts r (by simp [Term.children]))
  | case3 => exact ⟨by simp, h⟩

theorem mkAs_safe (hE : BuildEnv env) (hm : MkSafe env mk) {o : Ops} (ho : OpsSafe o) {t ty : Term} (ht : Shaped t) (hty : Shaped ty) : Out.Safe Shaped (mkAs env o mk t ty) := by
  have hft := functionTypeLoop_shaped false ty hty
  unfold mkAs
  simp only
  have hd : ∀ d ∈ (getFunctionType ty).1.zipIdx.map fun p => env.dummy p.2 p.1, Shaped d := by
    intro d hd
    obtain ⟨p, hp, rfl⟩ := List.mem_map.1 hd
    exact hE.dummy _ _ (hft.1 _ (List.fst_mem_of_mem_zipIdx hp))
  have hov : ∀ f ∈ (match (env.appInfo t).bind (·.overload) with | some name => env.overloads name | none => [t]), Shaped f := by
    intro f hf
    split at hf
    · exact hE.overloads _ f hf
    · simp only [List.mem_singleton] at hf; subst hf; exact ht
  refine (overloadLoop_safe hE hm ho (children := ty :: _) (by simp) (mem_cons hty hd) _ _ _ fun f hf => hov f (List.mem_reverse.1 hf)).map fun r hr => ?_
  cases r with
  | none => exact .node _ _ (.of rfl (by simp)) (mem2 ht hty)
  | some v => exact hr v rfl

theorem mkExprStep_safe (hE : BuildEnv env) (hm : MkSafe env mk) (m : Nat) : MkSafe env (mkExprStep env (ops env m) mk) := by
  intro k cs h hc
  have ho := ops_safe hE.toShapedEnv m
  unfold mkExprStep
  split
  · rename_i hk
    subst hk
    split
    · exact absurd (h.args.some (by simp)) (by simp)
    · rename_i hd args
      exact mkApp_safe hE hm m h (hc hd (by simp)) fun a ha => hc a (by simp [ha])
  · split
    · rename_i hk
      exact mkLitOp_safe hm ho hk h.args hc
    · split
      · rename_i hk
        split
        · exact absurd (h.args.some (by simp [hk])) (by simp)
        · rename_i c t
          split
          · refine hm _ _ ⟨⟨fun h => absurd h (by decide), fun _ => by simp, fun h => by simp at h⟩, fun h => absurd h (by decide)⟩ hc
          · exact .node _ _ (.of rfl (by simp)) hc
        · exact .node _ _ (.of rfl (by simp)) hc
      · split
        · split
          · rename_i t ty
            exact mkAs_safe hE hm ho (hc t (by simp)) (hc ty (by simp))
          · exact .node _ _ (.of rfl (by simp)) hc
        · rename_i hk1 hk2 _ _
          refine .node _ _ ⟨fun h => absurd h hk2, fun h' => h.args.some ?_, fun h' => h.args.both h'⟩ hc
          rcases h' with h' | h' | h' | h' <;> simp [h']

theorem mkExpr_safe (hE : BuildEnv env) (n : Nat) : ∀ m, MkSafe env (mkExpr env (ops env n) m)
  | 0 => fun _ _ _ _ => trivial
  | m+1 => mkExprStep_safe hE (mkExpr_safe hE n m) n
end

end Ethos.Props
