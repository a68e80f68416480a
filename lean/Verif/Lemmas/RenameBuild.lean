import Verif.Lemmas.RenameEval
/-
Building terms commutes with an exchange of symbols (C78).
-/

namespace Ethos.Props
open Ethos Kind Spec Term

section
variable (ρ : Renaming)

theorem ren_mkApplyInternal (hd : Term) (args : List Term) : mkApplyInternal (ρ.term hd) (ρ.rens args) = ρ.term (mkApplyInternal hd args) := by
  unfold mkApplyInternal Renaming.rens
  induction args generalizing hd with
  | nil => rfl
  | cons a l ih =>
    have := ih (.node APPLY [hd, a])
    rw [ren_node] at this
    exact this

theorem ren_mkApply (cs : List Term) : mkApply (ρ.rens cs) = ρ.term (mkApply cs) := by
  match cs with
  | [] => exact (ren_node ρ APPLY []).symm
  | [a] => exact (ren_node ρ APPLY [a]).symm
  | [a, b] => exact (ren_node ρ APPLY [a, b]).symm
  | hd :: a :: b :: r => exact ren_mkApplyInternal ρ hd (a :: b :: r)

theorem ren_functionTypeLoop (b : Bool) (t : Term) : functionTypeLoop b (ρ.term t) = (ρ.rens (functionTypeLoop b t).1, ρ.term (functionTypeLoop b t).2) := by
  fun_induction functionTypeLoop b t with
  | case1 b a r as t h ih =>
    rw [ren_node]
    simp only [List.map_cons, List.map_nil, functionTypeLoop, ih, h]
    rfl
  | case2 a a' r ih =>
    rw [ren_node]
    simp only [List.map_cons, List.map_nil, functionTypeLoop, ih]
  | case3 b t h1 h2 =>
    cases t with
    | sym => simp [ren_sym, functionTypeLoop, Renaming.rens]
    | lit => simp [ren_lit, functionTypeLoop, Renaming.rens]
    | node k cs =>
      rw [ren_node, functionTypeLoop]
      · rfl
      · intro a r e
        simp only [Term.node.injEq] at e
        obtain ⟨rfl, e⟩ := e
        match cs, e with
        | [x, y], _ => exact h1 x y rfl
      · intro x y z hb e
        simp only [Term.node.injEq] at e
        obtain ⟨rfl, e⟩ := e
        match cs, e with
        | [x, y, z], _ => exact h2 x y z hb rfl

variable {ρ}

theorem out_bind2 {α β γ δ : Type} {f : α → β} {g : γ → δ} {x : Out α} {x' : Out β} {k : α → Out γ} {k' : β → Out δ} (hx : x' = x.map f)
    (h : ∀ a, k' (f a) = (k a).map g) : x'.bind k' = (x.bind k).map g := by
  rw [hx]; exact out_bind _ _ h

theorem ren_chainPairs (hd : Term) : ∀ args : List Term, chainPairs (ρ.term hd) (ρ.rens args) = ρ.rens (chainPairs hd args)
  | [] => rfl
  | [_] => rfl
  | a :: b :: r => by
    have := ren_chainPairs hd (b :: r)
    simp only [Renaming.rens, List.map_cons, chainPairs, ren_app2] at this ⊢
    rw [this]

theorem ren_allPairs (hd : Term) : ∀ args : List Term, allPairs (ρ.term hd) (ρ.rens args) = ρ.rens (allPairs hd args)
  | [] => rfl
  | a :: r => by
    have := ren_allPairs hd r
    simp only [Renaming.rens, List.map_cons, allPairs, List.map_append, List.map_map] at this ⊢
    rw [this]
    simp only [Function.comp_def, ren_app2]

theorem ren_assocStep (env : Env) (hd : Term) (isNil isLeft : Bool) (st : Term × Nat) (next : Term) :
    assocStep (ρ.env env) (ρ.term hd) isNil isLeft (ρ.term st.1, st.2) (ρ.term next) = (ρ.term (assocStep env hd isNil isLeft st next).1, (assocStep env hd isNil isLeft st next).2) := by
  unfold assocStep
  rw [env_constructorKind]
  split
  · cases isLeft <;> simp [ren_node]
  · cases isLeft <;> simp [ren_app2]

theorem ren_assocFold (env : Env) (hd : Term) (isNil isLeft : Bool) : ∀ (l : List Term) (st : Term × Nat),
    (ρ.rens l).foldl (assocStep (ρ.env env) (ρ.term hd) isNil isLeft) (ρ.term st.1, st.2) = (ρ.term (l.foldl (assocStep env hd isNil isLeft) st).1, (l.foldl (assocStep env hd isNil isLeft) st).2)
  | [], _ => rfl
  | a :: l, st => by
    have := ren_assocFold env hd isNil isLeft l (assocStep env hd isNil isLeft st a)
    simp only [Renaming.rens, List.map_cons, List.foldl_cons] at this ⊢
    rw [ren_assocStep, this]

variable {mk mk' : Kind → List Term → Out Term} (hM : ∀ k cs, mk' k (ρ.rens cs) = (mk k cs).map ρ.term)

include hM in
theorem ren_mkAssoc (env : Env) (attr : Attr) (hd : Term) (args : List Term) (consT : Option Term) :
    mkAssoc (ρ.env env) mk' attr (ρ.term hd) (ρ.rens args) (ρ.opt consT) = (mkAssoc env mk attr hd args consT).map ρ.opt := by
  cases args with
  | nil => rfl
  | cons a1 as =>
    have hn : (ρ.opt consT).getD (.node EVAL_NIL [ρ.term hd, .node EVAL_TYPE_OF [ρ.term a1]]) = ρ.term (consT.getD (.node EVAL_NIL [hd, .node EVAL_TYPE_OF [a1]])) := by
      cases consT <;> simp [Renaming.opt, ren_node]
    have hl : ∀ b : Bool, (if b then ρ.rens (a1 :: as) else (ρ.rens (a1 :: as)).reverse) = ρ.rens (if b then a1 :: as else (a1 :: as).reverse) := by
      intro b; cases b <;> simp [Renaming.rens]
    have hs : ρ.rens (a1 :: as) = ρ.term a1 :: ρ.rens as := rfl
    unfold mkAssoc
    rw [hs]
    simp only
    rw [← hs, hl]
    generalize (if decide (attr = .LEFT_ASSOC ∨ attr = .LEFT_ASSOC_NIL ∨ attr = .LEFT_ASSOC_NS_NIL) = true then a1 :: as else (a1 :: as).reverse) = l
    cases l with
    | nil => rfl
    | cons first rest =>
      have hs : ρ.rens (first :: rest) = ρ.term first :: ρ.rens rest := rfl
      rw [hs]
      simp only
      rw [← hs, env_constructorKind, hn]
      generalize decide (attr = .LEFT_ASSOC ∨ attr = .LEFT_ASSOC_NIL ∨ attr = .LEFT_ASSOC_NS_NIL) = isLeft
      generalize decide (attr = .RIGHT_ASSOC_NS_NIL ∨ attr = .LEFT_ASSOC_NS_NIL) = isNs
      generalize decide (attr = .RIGHT_ASSOC_NIL ∨ attr = .LEFT_ASSOC_NIL) = isNl
      have h1 := ren_assocFold (ρ := ρ) env hd (isNs || isNl) isLeft (first :: rest) (consT.getD (.node EVAL_NIL [hd, .node EVAL_TYPE_OF [a1]]), 0)
      have h2 := ren_assocFold (ρ := ρ) env hd (isNs || isNl) isLeft rest (first, 0)
      simp only at h1 h2
      rw [h1, h2]
      by_cases hc : ((isNs || isNl) && decide (env.constructorKind first ≠ .LIST)) = true
      · simp only [if_pos hc]
        refine out_ite _ ?_ rfl
        have := hM EVAL_LIST_SINGLETON_ELIM [hd, ((first :: rest).foldl (assocStep env hd (isNs || isNl) isLeft) (consT.getD (.node EVAL_NIL [hd, .node EVAL_TYPE_OF [a1]]), 0)).1]
        exact (congrArg _ this).trans (out_map _ _ fun t => rfl)
      · simp only [if_neg hc]
        refine out_ite _ ?_ rfl
        have := hM EVAL_LIST_SINGLETON_ELIM [hd, (rest.foldl (assocStep env hd (isNs || isNl) isLeft) (first, 0)).1]
        exact (congrArg _ this).trans (out_map _ _ fun t => rfl)

include hM in
theorem ren_combine (consT : Option Term) (apps : List Term) : combine mk' (ρ.opt consT) (ρ.rens apps) = (combine mk consT apps).map ρ.opt := by
  have other : ∀ apps : List Term, (match ρ.opt consT with
      | none => .ub
      | some c => (mk' APPLY (c :: ρ.rens apps)).map some : Out (Option Term)) = Out.map ρ.opt (match consT with
      | none => .ub
      | some c => (mk APPLY (c :: apps)).map some) := fun apps => by
    cases consT with
    | none => rfl
    | some c => exact (congrArg (Out.map some) (hM APPLY (c :: apps))).trans (out_map ρ.term ρ.opt fun t => rfl)
  match apps with
  | [] => exact other []
  | [_] => rfl
  | a :: b :: r => exact other (a :: b :: r)

theorem ren_opaqueFold (hd : Term) (l : List Term) : (ρ.rens l).foldl (fun curr a => Term.node APPLY_OPAQUE [curr, a]) (ρ.term hd) = ρ.term (l.foldl (fun curr a => Term.node APPLY_OPAQUE [curr, a]) hd) := by
  unfold Renaming.rens
  induction l generalizing hd with
  | nil => rfl
  | cons a l ih =>
    have := ih (.node APPLY_OPAQUE [hd, a])
    rw [ren_node] at this
    exact this

theorem ren_mkOpaque (hd : Term) (args : List Term) (cons : Option Term) : mkOpaque (ρ.term hd) (ρ.rens args) (ρ.opt cons) = (mkOpaque hd args cons).map ρ.opt := by
  match cons with
  | none => rfl
  | some (.sym _ _) => simp only [Renaming.opt, Option.map_some, ren_sym]; rfl
  | some (.node _ _) => simp only [Renaming.opt, Option.map_some, ren_node]; rfl
  | some (.lit l) =>
    simp only [Renaming.opt, Option.map_some, ren_lit]
    cases l with
    | num z =>
      simp only [mkOpaque, show (ρ.rens args).length = args.length by simp [Renaming.rens]]
      refine out_ite _ rfl ?_
      rw [show (ρ.rens args).take (Integer.toUnsignedInt z) = ρ.rens (args.take (Integer.toUnsignedInt z)) by simp [Renaming.rens, List.map_take],
        show (ρ.rens args).drop (Integer.toUnsignedInt z) = ρ.rens (args.drop (Integer.toUnsignedInt z)) by simp [Renaming.rens, List.map_drop], ren_opaqueFold]
      refine out_ite _ rfl ?_
      exact congrArg (fun x => Out.ok (some x)) (ren_mkApply ρ (_ :: _))
    | _ => rfl

include hM in
theorem ren_mkApplyAttr (env : Env) (ai : AppInfo) (hd : Term) (args : List Term) (consT : Option Term) :
    mkApplyAttr (ρ.env env) mk' (ρ.info ai) (ρ.term hd) (ρ.rens args) (ρ.opt consT) = (mkApplyAttr env mk ai hd args consT).map ρ.opt := by
  have ha : (ρ.info ai).attr = ai.attr := rfl
  unfold mkApplyAttr
  rw [ha]
  refine out_ite _ (ren_mkAssoc hM env _ hd args consT) ?_
  split
  · rw [ren_chainPairs]; exact ren_combine hM _ _
  · rw [ren_allPairs]; exact ren_combine hM _ _
  · have h1 : (ρ.rens args).map (ρ.env env).constructorKind = args.map env.constructorKind := by
      simp only [Renaming.rens, List.map_map]
      exact List.map_congr_left fun a _ => env_constructorKind ρ env a
    have h0 : (ρ.rens args).length = args.length := by simp [Renaming.rens]
    rw [h1, h0]
    have : (if args.length = 1 ∧ args.map env.constructorKind = [Attr.LIST] then argO (ρ.rens args) 0
        else match ρ.opt consT with
          | none => Out.ub
          | some c => mk' APPLY (c :: ρ.rens args)) = (if args.length = 1 ∧ args.map env.constructorKind = [Attr.LIST] then argO args 0
        else match consT with
          | none => Out.ub
          | some c => mk APPLY (c :: args)).map ρ.term := by
      refine out_ite _ (ren_argO _ _) ?_
      cases consT with
      | none => rfl
      | some c => exact hM APPLY (c :: args)
    refine (congrArg _ this).trans (out_map _ _ fun t => ?_)
    simp [Renaming.opt, ren_node]
  · exact ren_mkOpaque hd args ai.cons
  · rfl

variable {o o' : Ops} (H : RenOps ρ o o')

include H hM in
theorem ren_overloadApp (env : Env) (cs : List Term) (f : Term) : overloadApp (ρ.env env) o' mk' (ρ.rens cs) (ρ.term f) = (overloadApp env o mk cs f).map ρ.term := by
  unfold overloadApp
  have : (match (ρ.env env).appInfo (ρ.term f) with
      | none => Out.ok none
      | some ai => (consTerm o' ai (ρ.rens cs)).bind fun c => mkApplyAttr (ρ.env env) mk' ai (ρ.term f) (ρ.rens cs).tail c) = (match env.appInfo f with
      | none => Out.ok none
      | some ai => (consTerm o ai cs).bind fun c => mkApplyAttr env mk ai f cs.tail c).map ρ.opt := by
    rw [env_appInfo]
    cases env.appInfo f with
    | none => rfl
    | some ai =>
      simp only [Option.map_some]
      rw [ren_consTerm H]
      refine out_bind _ _ fun c => ?_
      rw [show (ρ.rens cs).tail = ρ.rens cs.tail by simp [Renaming.rens, List.map_tail]]
      exact ren_mkApplyAttr hM env ai f cs.tail c
  refine (congrArg _ this).trans (out_map _ _ fun x => ?_)
  cases x with
  | some x => rfl
  | none =>
    rw [show (ρ.rens cs).tail = ρ.rens cs.tail by simp [Renaming.rens, List.map_tail]]
    exact ren_mkApply ρ (f :: cs.tail)

include H hM in
theorem ren_overloadLoop (env : Env) (cs : List Term) (ret : Option Term) (b : Bool) : ∀ fs : List Term,
    overloadLoop (ρ.env env) o' mk' (ρ.rens cs) (ρ.opt ret) b (ρ.rens fs) = (overloadLoop env o mk cs ret b fs).map ρ.opt
  | [] => rfl
  | f :: fs => by
    have ih := ren_overloadLoop env cs ret b fs
    rw [show ρ.rens (f :: fs) = ρ.term f :: ρ.rens fs from rfl, overloadLoop, overloadLoop, ren_overloadApp hM H]
    refine out_bind _ _ fun x => ?_
    rw [H.getType]
    refine out_bind _ _ fun t => ?_
    cases t with
    | none => exact ih
    | some t =>
      have hn : (ρ.opt ret = none ∨ ρ.opt ret = some (ρ.term t)) ↔ (ret = none ∨ ret = some t) := by
        have := ren_opt_inj ρ (a := ret) (b := some t)
        rw [← show ρ.opt (some t) = some (ρ.term t) from rfl]
        refine or_congr ?_ this
        cases ret <;> simp [Renaming.opt]
      refine (if_iff hn _ _).trans (out_ite _ ?_ ih)
      cases b <;> rfl

include H hM in
theorem ren_getOverload (env : Env) (fs cs : List Term) (ret : Option Term) (b : Bool) :
    getOverload (ρ.env env) o' mk' (ρ.rens fs) (ρ.rens cs) (ρ.opt ret) b = (getOverload env o mk fs cs ret b).map ρ.opt := by
  unfold getOverload
  rw [show (ρ.rens fs).reverse = ρ.rens fs.reverse by simp [Renaming.rens]]
  exact ren_overloadLoop hM H env cs ret b fs.reverse

include H in
theorem ren_mkPlainApp (env : Env) (hd : Term) (args : List Term) : mkPlainApp (ρ.env env) o' (ρ.term hd) (ρ.rens args) = (mkPlainApp env o hd args).map ρ.term := by
  have h0 : (ρ.rens args).length = args.length := by simp [Renaming.rens]
  have hc : (if (ρ.term hd).kind ≠ PROGRAM_CONST ∧ (ρ.term hd).kind ≠ PROOF_RULE then mkApply (ρ.term hd :: ρ.rens args) else .node APPLY (ρ.term hd :: ρ.rens args)) =
      ρ.term (if hd.kind ≠ PROGRAM_CONST ∧ hd.kind ≠ PROOF_RULE then mkApply (hd :: args) else .node APPLY (hd :: args)) := by
    rw [ren_kind]
    split
    · exact ren_mkApply ρ (hd :: args)
    · rw [ren_node]; rfl
  unfold mkPlainApp
  simp only [hc]
  generalize (if hd.kind ≠ PROGRAM_CONST ∧ hd.kind ≠ PROOF_RULE then mkApply (hd :: args) else .node APPLY (hd :: args)) = curried
  rw [ren_kind, ren_children, env_constructorKind, show hd.children.map ρ.term = ρ.rens hd.children from rfl, ren_argO]
  refine out_ite _ ?_ (out_ite _ (out_ite _ ?_ rfl) rfl)
  · refine out_bind _ _ fun vs => ?_
    rw [ren_argO]
    refine out_bind _ _ fun body => ?_
    rw [ren_children, List.length_map, h0]
    refine out_ite _ ?_ rfl
    rw [← H.evaluate]
    congr 1
    simp only [Renaming.ctx, Renaming.rens, List.map_reverse]
    rw [List.zip_map]
    rfl
  · rw [H.getType]
    refine out_bind _ _ fun t => ?_
    cases t with
    | none => rfl
    | some t =>
      simp only [Renaming.opt, Option.map_some, ren_children, List.length_map, h0]
      refine out_ite _ ?_ rfl
      rw [show ρ.term hd :: ρ.rens args = ρ.rens (hd :: args) from rfl, ren_evalProgram]
      refine out_bind _ _ fun r => ?_
      cases r with
      | none => rfl
      | some r => exact H.evaluate r.1 r.2

include H hM in
theorem ren_mkApp (env : Env) (hd : Term) (args : List Term) : mkApp (ρ.env env) o' mk' (ρ.term hd) (ρ.rens args) = (mkApp env o mk hd args).map ρ.term := by
  unfold mkApp
  rw [env_appInfo]
  cases env.appInfo hd with
  | none => exact ren_mkPlainApp H env hd args
  | some ai =>
    simp only [Option.map_some]
    have hk : (ρ.info ai).kind = ai.kind := rfl
    have ho : (ρ.info ai).overload = ai.overload := rfl
    have hh : ρ.term hd :: ρ.rens args = ρ.rens (hd :: args) := rfl
    rw [hk, ho]
    refine out_ite _ (out_ite _ ?_ (out_ite _ ?_ (hM _ _))) ?_
    · rw [show (ρ.rens args).getLast? = args.getLast?.map ρ.term by simp [Renaming.rens, List.getLast?_map],
        show (ρ.rens args).dropLast = ρ.rens args.dropLast by simp [Renaming.rens, List.map_dropLast]]
      cases args.getLast? with
      | none => rfl
      | some r => exact congrArg Out.ok (ren_mkFunctionType _ _)
    · exact congrArg Out.ok (ren_mkApply ρ args)
    · refine out_bind2 (f := ρ.opt) ?_ fun r => ?_
      · cases ai.overload with
        | none => rfl
        | some name => exact ren_getOverload hM H env (env.overloads name) (hd :: args) none true
      cases r with
      | some t => rfl
      | none =>
        simp only [Renaming.opt, Option.map_none]
        rw [hh, ren_consTerm H]
        refine out_bind _ _ fun c => ?_
        rw [ren_mkApplyAttr hM]
        refine out_bind _ _ fun r => ?_
        cases r with
        | some t => rfl
        | none => exact ren_mkPlainApp H env hd args

include hM in
theorem ren_naryFold (k : Kind) : ∀ (l : List Term) (x x' : Out Term), x' = x.map ρ.term →
    (ρ.rens l).foldl (fun curr x => curr.bind fun t => mk' k [t, x]) x' = (l.foldl (fun curr x => curr.bind fun t => mk k [t, x]) x).map ρ.term
  | [], _, _, h => h
  | a :: l, x, x', h => by
    simp only [Renaming.rens, List.map_cons, List.foldl_cons]
    refine ren_naryFold k l _ _ ?_
    rw [h]
    exact out_bind _ _ fun t => hM k [t, a]

include H in
theorem ren_evaluateLiteralOp (k : Kind) (cs : List Term) : evaluateLiteralOp o' k (ρ.rens cs) = (evaluateLiteralOp o k cs).map ρ.term := by
  unfold evaluateLiteralOp
  rw [H.evalOp]
  refine out_map _ _ fun r => ?_
  cases r with
  | none => exact (ren_node ρ k cs).symm
  | some r => rfl

include H hM in
theorem ren_mkLitOp (k : Kind) (cs : List Term) : mkLitOp o' mk' k (ρ.rens cs) = (mkLitOp o mk k cs).map ρ.term := by
  have other : ∀ cs : List Term, (if checkArity k (ρ.rens cs).length then evaluateLiteralOp o' k (ρ.rens cs) else .ok (.node k (ρ.rens cs))) =
      (if checkArity k cs.length then evaluateLiteralOp o k cs else .ok (.node k cs)).map ρ.term := fun cs => by
    rw [show (ρ.rens cs).length = cs.length by simp [Renaming.rens]]
    refine out_ite _ (ren_evaluateLiteralOp H k cs) ?_
    rw [Out.map, ren_node]; rfl
  unfold mkLitOp
  cases isNaryLiteralOp k with
  | false => exact other cs
  | true =>
    match cs with
    | [] => exact other []
    | [a] => exact other [a]
    | [a, b] => exact other [a, b]
    | a :: b :: c :: r => exact ren_naryFold hM k (c :: r) _ _ (hM k [a, b])

include H hM in
theorem ren_mkAs (env : Env) (t ty : Term) : mkAs (ρ.env env) o' mk' (ρ.term t) (ρ.term ty) = (mkAs env o mk t ty).map ρ.term := by
  unfold mkAs getFunctionType
  rw [ren_functionTypeLoop, env_appInfo]
  simp only
  have h1 : ((ρ.rens (functionTypeLoop false ty).1).zipIdx.map fun p => (ρ.env env).dummy p.2 p.1) = ρ.rens ((functionTypeLoop false ty).1.zipIdx.map fun p => env.dummy p.2 p.1) := by
    simp only [Renaming.rens, List.zipIdx_map, List.map_map]
    exact List.map_congr_left fun p _ => env_dummy ρ env p.2 p.1
  have h2 : ((env.appInfo t).map ρ.info).bind (·.overload) = (env.appInfo t).bind (·.overload) := by
    cases env.appInfo t <;> rfl
  rw [h1, h2]
  have fin : ∀ fs : List Term, (getOverload (ρ.env env) o' mk' (ρ.rens fs) (ρ.rens (ty :: (functionTypeLoop false ty).1.zipIdx.map fun p => env.dummy p.2 p.1)) (ρ.opt (some (functionTypeLoop false ty).2)) false).map
      (fun r => r.getD (.node AS [ρ.term t, ρ.term ty])) = ((getOverload env o mk fs (ty :: (functionTypeLoop false ty).1.zipIdx.map fun p => env.dummy p.2 p.1) (some (functionTypeLoop false ty).2) false).map
      fun r => r.getD (.node AS [t, ty])).map ρ.term := fun fs => by
    rw [ren_getOverload hM H]
    refine out_map _ _ fun r => ?_
    cases r with
    | none => simp [Renaming.opt, ren_node]
    | some r => rfl
  cases (env.appInfo t).bind (·.overload) with
  | none => exact fin [t]
  | some name => exact fin (env.overloads name)

include H hM in
theorem ren_mkExprStep (env : Env) (k : Kind) (cs : List Term) : mkExprStep (ρ.env env) o' mk' k (ρ.rens cs) = (mkExprStep env o mk k cs).map ρ.term := by
  have hn : ∀ (k : Kind) (cs : List Term), (.ok (.node k (ρ.rens cs)) : Out Term) = Out.map ρ.term (.ok (.node k cs)) := fun k cs => by rw [Out.map, ren_node]; rfl
  unfold mkExprStep
  refine out_ite _ ?_ (out_ite _ (ren_mkLitOp hM H k cs) (out_ite _ ?_ (out_ite _ ?_ (hn k cs))))
  · cases cs with
    | nil => rfl
    | cons hd args => exact ren_mkApp hM H env hd args
  · match cs with
    | [] => rfl
    | [c] => exact hn AS_RETURN [c]
    | [c, t] =>
      simp only [Renaming.rens, List.map_cons, List.map_nil, env_constructorKind]
      exact out_ite _ (hM APPLY_OPAQUE [c, t]) (hn AS_RETURN [c, t])
    | a :: b :: c :: l => exact hn AS_RETURN (a :: b :: c :: l)
  · match cs with
    | [] => exact hn AS []
    | [c] => exact hn AS [c]
    | [t, ty] => exact ren_mkAs hM H env t ty
    | a :: b :: c :: l => exact hn AS (a :: b :: c :: l)

include H in
theorem ren_mkExpr (env : Env) : ∀ (n : Nat) (k : Kind) (cs : List Term), mkExpr (ρ.env env) o' n k (ρ.rens cs) = (mkExpr env o n k cs).map ρ.term
  | 0, _, _ => rfl
  | n+1, k, cs => ren_mkExprStep (ren_mkExpr env n) H env k cs
end

end Ethos.Props
