import Verif.Lemmas.AppForm
/-
C23-C26, C52: the terms denoted by parsed applications.
-/
namespace Ethos.Props
open Ethos Kind Spec

variable {env : Env}

/-! ### C23 -/

theorem denotes_app {f t : Term} {args : List Term} :
    Denotes env f args t ↔ ∃ n, mkApp env (ops env n) (mkExpr env (ops env n) n) f args = .ok t := by
  unfold Denotes
  rw [Builds.step]
  simp [mkExprStep]

theorem mkPlainApp_curry {o : Ops} {f : Term} {args : List Term} (hne : args ≠ []) (h1 : f.kind ≠ LAMBDA) (h2 : f.kind ≠ PROGRAM_CONST)
    (h3 : f.kind ≠ PROOF_RULE) : mkPlainApp env o f args = .ok (mkApplyInternal f args) := by
  simp [mkPlainApp, h1, h2, h3, mkApply_eq hne]

/-- **C23**.  An application of a declared operator denotes the term documented for its attribute, for any number of
arguments. -/
theorem C23_desugar {f t : Term} {a : Attr} {c : Option Term} {args : List Term} (ha : HasAttr env f a c)
    (h : AppForm env f a c args t) : Denotes env f args t := by
  obtain ⟨n, ct, h1, h2⟩ := appForm_spec (ai := ⟨a, c, NONE, none⟩) (hd := f) h (.inl rfl)
  rw [denotes_app]
  refine ⟨n, ?_⟩
  unfold mkApp
  rw [ha]
  simp only [ne_eq, not_true_eq_false, if_false, Out.bind, h1]
  rcases h2 with h2 | ⟨_, h2, hne, k1, k2, k3, rfl⟩
  · rw [h2]
  · rw [h2]; exact mkPlainApp_curry hne k1 k2 k3

/-- the denoted term is unique -/
theorem C23_unique {f t t' : Term} {args : List Term} (h : Denotes env f args t) (h' : Denotes env f args t') : t = t' :=
  Builds.det h h'

/-- a function symbol without attribute is applied to its arguments one by one -/
theorem C23_plain {f t : Term} {args : List Term} (ha : env.appInfo f = none) (hne : args ≠ []) (h1 : f.kind ≠ LAMBDA)
    (h2 : f.kind ≠ PROGRAM_CONST) (h3 : f.kind ≠ PROOF_RULE) (h : Curry f args t) : Denotes env f args t := by
  rw [denotes_app]
  refine ⟨0, ?_⟩
  unfold mkApp
  rw [ha, (curry_iff _ _ _).mp h]
  exact mkPlainApp_curry hne h1 h2 h3

theorem rightNest_total (f : Term) : ∀ {args : List Term}, args ≠ [] → ∃ t, RightNest f args t
  | [t], _ => ⟨t, .last t⟩
  | t :: u :: r, _ => by
    obtain ⟨v, h⟩ := rightNest_total f (args := u :: r) (by simp)
    exact ⟨_, .cons _ _ _ h⟩

theorem leftNest_llist (f t : Term) (ts : List Term) : LeftNest f (t :: ts) (llistFrom f t ts) := by
  have key : ∀ (ts pre : List Term) (u : Term), LeftNest f pre u → LeftNest f (pre ++ ts) (llistFrom f u ts) := by
    intro ts
    induction ts with
    | nil => intro pre u h; rw [List.append_nil]; exact h
    | cons x xs ih =>
      intro pre u h
      have := ih (pre ++ [x]) (bin f u x) (.snoc _ _ _ h)
      simpa [llistFrom] using this
  exact key ts [t] t (.first t)

theorem rightNil_total (f nil : Term) : ∀ {args : List Term}, args ≠ [] → ∃ t, RightNil env f nil args t
  | [t], _ => by
    by_cases h : IsListParam env t
    · exact ⟨_, .lastList t h⟩
    · exact ⟨_, .last t h⟩
  | t :: u :: r, _ => by
    obtain ⟨v, hv⟩ := rightNil_total f nil (args := u :: r) (by simp)
    by_cases h : IsListParam env t
    · exact ⟨_, .list _ _ _ h hv⟩
    · exact ⟨_, .elem _ _ _ h hv⟩

theorem leftNil_total (f nil : Term) {args : List Term} (hne : args ≠ []) : ∃ t, LeftNil env f nil args t := by
  have key : ∀ (r : List Term), r ≠ [] → ∃ t, LeftNil env f nil r.reverse t := by
    intro r
    induction r with
    | nil => intro h; exact absurd rfl h
    | cons x xs ih =>
      intro _
      cases xs with
      | nil =>
        by_cases h : IsListParam env x
        · exact ⟨_, .firstList x h⟩
        · exact ⟨_, .first x h⟩
      | cons y ys =>
        obtain ⟨u, hu⟩ := ih (by simp)
        rw [List.reverse_cons]
        by_cases h : IsListParam env x
        · exact ⟨_, .list _ _ _ h hu⟩
        · exact ⟨_, .elem _ _ _ h hu⟩
  simpa using key args.reverse (by simpa using hne)

/-- `(f t1 … tn)` for `:right-assoc` is `(f t1 (f t2 … tn))` -/
theorem C23_right_assoc {f : Term} {args : List Term} (ha : HasAttr env f .RIGHT_ASSOC none) (hne : args ≠ []) :
    ∃ t, RightNest f args t ∧ Denotes env f args t := by
  obtain ⟨t, h⟩ := rightNest_total f hne
  exact ⟨t, h, C23_desugar ha (.rightAssoc _ _ h)⟩

/-- `(f t1 … tn)` for `:left-assoc` is `(f … (f t1 t2) … tn)` -/
theorem C23_left_assoc {f t : Term} {ts : List Term} (ha : HasAttr env f .LEFT_ASSOC none) :
    Denotes env f (t :: ts) (llistFrom f t ts) :=
  C23_desugar ha (.leftAssoc _ _ (leftNest_llist f t ts))

/-- `(f t1 … tn)` for `:right-assoc-nil` -/
theorem C23_right_nil {f ct t1 nil : Term} {ts : List Term} (ha : HasAttr env f .RIGHT_ASSOC_NIL (some ct))
    (hn : Terminator env f t1 ct nil) : ∃ t, RightNil env f nil (t1 :: ts) t ∧ Denotes env f (t1 :: ts) t := by
  obtain ⟨t, h⟩ := rightNil_total (env := env) f nil (args := t1 :: ts) (by simp)
  exact ⟨t, h, C23_desugar ha (.rightNil _ _ _ _ _ hn h)⟩

/-- `(f t1 … tn)` for `:left-assoc-nil` -/
theorem C23_left_nil {f ct t1 nil : Term} {ts : List Term} (ha : HasAttr env f .LEFT_ASSOC_NIL (some ct))
    (hn : Terminator env f t1 ct nil) : ∃ t, LeftNil env f nil (t1 :: ts) t ∧ Denotes env f (t1 :: ts) t := by
  obtain ⟨t, h⟩ := leftNil_total (env := env) f nil (args := t1 :: ts) (by simp)
  exact ⟨t, h, C23_desugar ha (.leftNil _ _ _ _ _ hn h)⟩

/-! ### C24 -/

theorem rightNil_rlist {f nil : Term} : ∀ {args : List Term}, args ≠ [] → (∀ t ∈ args, ¬ IsListParam env t) →
    RightNil env f nil args (rlist f nil args)
  | [t], _, h => .last t (h t (by simp))
  | t :: u :: r, _, h => .elem _ _ _ (h t (by simp)) (rightNil_rlist (by simp) fun x hx => h x (by simp [List.mem_cons.mp hx]))

theorem leftNil_llist {f nil : Term} {args : List Term} (hne : args ≠ []) (h : ∀ t ∈ args, ¬ IsListParam env t) :
    LeftNil env f nil args (llist f nil args) := by
  have key : ∀ (ts pre : List Term) (u : Term), (∀ t ∈ ts, ¬ IsListParam env t) → LeftNil env f nil pre u →
      LeftNil env f nil (pre ++ ts) (llistFrom f u ts) := by
    intro ts
    induction ts with
    | nil => intro pre u _ h; rw [List.append_nil]; exact h
    | cons x xs ih =>
      intro pre u hl h
      have := ih (pre ++ [x]) (bin f u x) (fun t ht => hl t (by simp [ht])) (.elem _ _ _ (hl x (by simp)) h)
      simpa [llistFrom] using this
  match args, hne with
  | t :: ts, _ => exact key ts [t] _ (fun x hx => h x (by simp [hx])) (.first t (h t (by simp)))

/-- **C24**.  Without arguments marked `:list`, `(f t1 … tn)` is the f-list with children `t1 … tn`. -/
theorem C24_list {f ct t1 nil : Term} {ts : List Term} (ha : HasAttr env f .RIGHT_ASSOC_NIL (some ct))
    (hn : Terminator env f t1 ct nil) (hl : ∀ t ∈ t1 :: ts, ¬ IsListParam env t) :
    Denotes env f (t1 :: ts) (rlist f nil (t1 :: ts)) :=
  C23_desugar ha (.rightNil _ _ _ _ _ hn (rightNil_rlist (by simp) hl))

theorem C24_list_left {f ct t1 nil : Term} {ts : List Term} (ha : HasAttr env f .LEFT_ASSOC_NIL (some ct))
    (hn : Terminator env f t1 ct nil) (hl : ∀ t ∈ t1 :: ts, ¬ IsListParam env t) :
    Denotes env f (t1 :: ts) (llist f nil (t1 :: ts)) :=
  C23_desugar ha (.leftNil _ _ _ _ _ hn (leftNil_llist (by simp) hl))

theorem eval_bin {ctx : Ctx} {f a b v w : Term} (hf : f.children = []) (hfp : ¬ IsParam f) (hpr : ¬ IsProg f)
    (ha : EvaluatesTo env ctx a v) (hb : EvaluatesTo env ctx b w) : EvaluatesTo env ctx (bin f a b) (bin f v w) := by
  rw [evaluatesTo_iff] at *
  have h1 : Eval (OpResult env) (ProgResult env) ctx (.node APPLY [f, a]) (.node APPLY [f, v]) :=
    .app _ _ _ f [v] (.inl rfl) (.cons _ _ _ _ _ (.leaf _ _ hfp hf) (.cons _ _ _ _ _ ha (.nil _))) hpr
  refine .app _ _ _ (.node APPLY [f, v]) [w] (.inl rfl) (.cons _ _ _ _ _ h1 (.cons _ _ _ _ _ hb (.nil _))) ?_
  rintro ⟨h, _⟩; simp [Term.kind] at h

theorem rlist_append (f nil : Term) (xs : List Term) (x : Term) : rlist f nil (x :: xs) = bin f x (rlist f nil xs) := rfl

theorem closed_bin {f a b : Term} (hf : Closed f) (ha : Closed a) (hb : Closed b) : Closed (bin f a b) := by
  rw [closed_iff] at *
  simp [bin, ground_node_cons, hf, ha, hb]

theorem closed_rlist {f nil : Term} (hf : Closed f) (hn : Closed nil) : ∀ {xs : List Term}, (∀ x ∈ xs, Closed x) → Closed (rlist f nil xs)
  | [], _ => hn
  | x :: _, h => closed_bin hf (h x (by simp)) (closed_rlist hf hn fun y hy => h y (by simp [hy]))

/-- **C24**.  Under bindings that make the arguments closed and the `:list` arguments f-lists, the term denoted by
`(f t1 … tn)` evaluates to the f-list of all contributed elements in order.  `nil'` is the terminator in the denoted
term, whose value is `nil`. -/
theorem C24_splice {f ct nil nil' : Term} {a : Attr} {ctx : Ctx} {args : List Term} {t : Term} (ha : Declared env f a ct) (hr : NilAttr a false)
    (hf : f.children = []) (hfl : ∀ l, f ≠ .lit l) (hfk : f.kind ≠ PARAMETERIZED) (hfp : ¬ IsProg f) (hfc : Closed f) (hna : NotApp f nil)
    (hnc : Closed nil) (hnil : EvaluatesTo env ctx nil' nil)
    (hn : ∀ xs, (∀ x ∈ xs, Closed x) → NilFor env f (rlist f nil xs) ct nil)
    (h : RightNil env f nil' args t) (parts : List (List Term)) (hl : parts.length = args.length)
    (hp : ∀ (i : Nat) (x : Term) (xs : List Term), args[i]? = some x → parts[i]? = some xs → Contributes env ctx f nil x xs ∧ ∀ y ∈ xs, Closed y) :
    EvaluatesTo env ctx t (rlist f nil parts.flatten) := by
  have hparam : ¬ IsParam f := (hfc f (.refl f)).1
  induction h generalizing parts with
  | lastList t ht =>
    match parts, hl with
    | [xs], _ =>
      obtain ⟨h1, _⟩ := hp 0 t xs rfl rfl
      cases h1 with
      | list _ _ h => simpa using h
      | elem _ h _ => exact absurd ht h
  | last t ht =>
    match parts, hl with
    | [xs], _ =>
      obtain ⟨h1, _⟩ := hp 0 t xs rfl rfl
      cases h1 with
      | list _ h _ => exact absurd h ht
      | elem v _ h => exact eval_bin hf hparam hfp h hnil
  | list t ts u ht _ ih =>
    match parts, hl with
    | xs :: ps, hl =>
      obtain ⟨h1, h2⟩ := hp 0 t xs rfl rfl
      have h3 := ih ps (by simpa using hl) fun i x ys hx hy => hp (i+1) x ys hx hy
      have hps : ∀ y ∈ ps.flatten, Closed y := by
        intro y hy
        rw [List.mem_flatten] at hy
        obtain ⟨l, hl1, hl2⟩ := hy
        obtain ⟨i, hi, rfl⟩ := List.getElem_of_mem hl1
        have hlen : i < ts.length := by simp at hl; omega
        exact (hp (i+1) ts[i] ps[i] (by simp [hlen]) (by simp [hi])).2 y hl2
      cases h1 with
      | elem _ h _ => exact absurd ht h
      | list _ _ h =>
        rw [evaluatesTo_iff] at h h3 ⊢
        refine .op _ _ _ [f, rlist f nil xs, rlist f nil ps.flatten] _ rfl (by simp) (by simp)
          (.cons _ _ _ _ _ (.leaf _ _ hparam hf) (.cons _ _ _ _ _ h (.cons _ _ _ _ _ h3 (.nil _)))) ?_
        refine C15_op_concat (.plain hfk) hfl ha hr hna xs ps.flatten (hn xs h2) ?_
        intro y hy
        simp only [List.mem_cons, List.not_mem_nil, or_false] at hy
        rcases hy with rfl | rfl | rfl
        · exact hfc
        · exact closed_rlist hfc hnc h2
        · exact closed_rlist hfc hnc hps
  | elem t ts u ht _ ih =>
    match parts, hl with
    | xs :: ps, hl =>
      obtain ⟨h1, h2⟩ := hp 0 t xs rfl rfl
      have h3 := ih ps (by simpa using hl) fun i x ys hx hy => hp (i+1) x ys hx hy
      cases h1 with
      | list _ h _ => exact absurd h ht
      | elem v _ h => exact eval_bin hf hparam hfp h h3

/-- **C24** for a terminator without parameters -/
theorem C24_splice_const {f nil : Term} {ctx : Ctx} {args : List Term} (ha : HasAttr env f .RIGHT_ASSOC_NIL (some nil))
    (hf : f.children = []) (hfl : ∀ l, f ≠ .lit l) (hfk : f.kind ≠ PARAMETERIZED) (hfp : ¬ IsProg f) (hfc : Closed f) (hna : NotApp f nil)
    (hnk : nil.kind ≠ PARAMETERIZED) (hnv : IsValue nil) (hne : args ≠ []) (parts : List (List Term)) (hl : parts.length = args.length)
    (hp : ∀ (i : Nat) (x : Term) (xs : List Term), args[i]? = some x → parts[i]? = some xs → Contributes env ctx f nil x xs ∧ ∀ y ∈ xs, Closed y) :
    ∃ t, Denotes env f args t ∧ EvaluatesTo env ctx t (rlist f nil parts.flatten) := by
  obtain ⟨t1, ts, rfl⟩ := List.exists_cons_of_ne_nil hne
  obtain ⟨t, h1, h2⟩ := C23_right_nil (ts := ts) ha (.known nil (.const nil hnk) : Terminator env f t1 nil nil)
  exact ⟨t, h2, C24_splice ⟨_, _, ha⟩ .right hf hfl hfk hfp hfc hna (value_closed hnv) (value_eval env ctx nil hnv)
    (fun _ _ => .const _ hnk) h1 parts hl hp⟩

/-! ### C23: chainable, pairwise and argument-list operators -/

/-- the pairs conjoined for a chainable operator are the neighbours -/
theorem C23_neighbours (ts : List Term) (i : Nat) (a b : Term) :
    (neighbours ts)[i]? = some (a, b) ↔ ts[i]? = some a ∧ ts[i+1]? = some b := by
  rw [neighbours, List.getElem?_zip_eq_some]
  simp [List.tail_drop]

/-- the pairs conjoined for a pairwise operator are all pairs in order -/
theorem C23_pairs (ts : List Term) (a b : Term) :
    (a, b) ∈ pairs ts ↔ ∃ i j : Nat, i < j ∧ ts[i]? = some a ∧ ts[j]? = some b := by
  induction ts with
  | nil => simp [pairs]
  | cons t ts ih =>
    simp only [pairs, List.mem_append, List.mem_map, Prod.mk.injEq, ih]
    constructor
    · rintro (⟨u, hu, rfl, rfl⟩ | ⟨i, j, hij, h1, h2⟩)
      · obtain ⟨j, hj⟩ := List.getElem?_of_mem hu
        exact ⟨0, j+1, by omega, rfl, hj⟩
      · exact ⟨i+1, j+1, by omega, h1, h2⟩
    · rintro ⟨i, j, hij, h1, h2⟩
      cases j with
      | zero => omega
      | succ j =>
        cases i with
        | zero =>
          simp at h1 h2
          exact .inl ⟨b, List.mem_of_getElem? h2, h1, rfl⟩
        | succ i => exact .inr ⟨i, j, by omega, h1, h2⟩

theorem C23_pairs_count (ts : List Term) : 2 * (pairs ts).length = ts.length * (ts.length - 1) := by
  induction ts with
  | nil => rfl
  | cons t ts ih =>
    simp only [pairs, List.length_append, List.length_map, List.length_cons, Nat.add_sub_cancel]
    cases h : ts.length with
    | zero => rw [h] at ih; simp at ih ⊢; omega
    | succ n =>
      rw [h] at ih
      simp only [Nat.add_sub_cancel] at ih
      have e1 : (n + 1) * n = n * n + n := by rw [Nat.add_mul]; omega
      have e2 : (n + 1 + 1) * (n + 1) = n * n + n + n + n + 2 := by simp [Nat.add_mul, Nat.mul_add]; omega
      rw [e2]; rw [e1] at ih
      omega

/-- `(f t1 … tn)` for a chainable operator combined by the nil-terminated operator `c` (e.g. `and`): the c-list of the
applications to neighbours; for two arguments the application itself -/
theorem C23_chainable {f c nil : Term} {args : List Term} (ha : HasAttr env f .CHAINABLE (some c)) (hc : HasAttr env c .RIGHT_ASSOC_NIL (some nil))
    (hck : c.kind ≠ PARAMETERIZED) (hnk : nil.kind ≠ PARAMETERIZED) (hl : ∀ a b, ¬ IsListParam env (bin f a b)) (h3 : 3 ≤ args.length) :
    Denotes env f args (rlist c nil ((neighbours args).map fun p => bin f p.1 p.2)) := by
  refine C23_desugar ha (.chain _ _ _ hck (by omega) ?_)
  match args, h3 with
  | a :: b :: d :: r, _ =>
    refine C24_list hc (.known _ (.const _ hnk)) ?_
    intro t ht
    rw [List.mem_cons] at ht
    rcases ht with rfl | ht
    · exact hl _ _
    · obtain ⟨p, _, rfl⟩ := List.mem_map.mp ht
      exact hl _ _

theorem C23_pairwise {f c nil : Term} {args : List Term} (ha : HasAttr env f .PAIRWISE (some c)) (hc : HasAttr env c .RIGHT_ASSOC_NIL (some nil))
    (hck : c.kind ≠ PARAMETERIZED) (hnk : nil.kind ≠ PARAMETERIZED) (hl : ∀ a b, ¬ IsListParam env (bin f a b)) (h3 : 3 ≤ args.length) :
    Denotes env f args (rlist c nil ((pairs args).map fun p => bin f p.1 p.2)) := by
  refine C23_desugar ha (.pairwise _ _ _ hck (by omega) ?_)
  match args, h3 with
  | a :: b :: d :: r, _ =>
    simp only [pairs, List.map_cons, List.cons_append]
    refine C24_list hc (.known _ (.const _ hnk)) ?_
    intro t ht
    simp only [List.mem_cons, List.mem_map] at ht
    rcases ht with rfl | rfl | ⟨p, _, rfl⟩ <;> exact hl _ _

theorem C23_binary {f c a b : Term} (hck : c.kind ≠ PARAMETERIZED) (ha : HasAttr env f .CHAINABLE (some c) ∨ HasAttr env f .PAIRWISE (some c)) :
    Denotes env f [a, b] (bin f a b) := by
  rcases ha with ha | ha
  · exact C23_desugar ha (.chain2 _ _ _ hck)
  · exact C23_desugar ha (.pair2 _ _ _ hck)

/-- `(f t1 … tn)` for an `:arg-list` operator: `f` applied to the list of the arguments -/
theorem C23_arg_list {f c t1 nil : Term} {ts : List Term} (ha : HasAttr env f .ARG_LIST (some c)) (hc : HasAttr env c .RIGHT_ASSOC_NIL (some nil))
    (hck : c.kind ≠ PARAMETERIZED) (hnk : nil.kind ≠ PARAMETERIZED) (hl : ∀ t ∈ t1 :: ts, ¬ IsListParam env t) :
    Denotes env f (t1 :: ts) (.node APPLY [f, rlist c nil (t1 :: ts)]) := by
  refine C23_desugar ha (.argList _ _ _ hck ?_ (C24_list hc (.known _ (.const _ hnk)) hl))
  rintro ⟨x, h1, h2⟩
  exact hl x (by rw [h1]; simp) h2

/-! ### C25 -/

theorem builds_op {k : Kind} {cs : List Term} {r : Option Term} (hk : isLiteralOp k = true) (hn : isNaryLiteralOp k = false ∨ cs.length ≤ 2)
    (ha : checkArity k cs.length = true) (h : OpResult env k cs r) : Builds env k cs (r.getD (.node k cs)) := by
  obtain ⟨n, h⟩ := h
  rw [Builds.step]
  refine ⟨n, ?_⟩
  have hk' : k ≠ APPLY := by rintro rfl; simp [isLiteralOp] at hk
  unfold mkExprStep
  rw [if_neg hk', if_pos hk]
  unfold mkLitOp
  split
  · rename_i h1
    rcases hn with hn | hn
    · simp [hn] at h1
    · simp at hn
  · rw [if_pos ha, evaluateLiteralOp, h]; rfl

/-- two or more elements: the f-list ending in nil -/
theorem C25_two {f ct t1 nil : Term} {ts : List Term} (ha : HasAttr env f .RIGHT_ASSOC_NS_NIL (some ct)) (hn : Terminator env f t1 ct nil)
    (hts : ts ≠ []) (hl : ∀ t ∈ t1 :: ts, ¬ IsListParam env t) : Denotes env f (t1 :: ts) (rlist f nil (t1 :: ts)) := by
  obtain ⟨t2, ts, rfl⟩ := List.exists_cons_of_ne_nil hts
  exact C23_desugar ha (.rightNs _ _ _ _ _ hn (rightNil_rlist (by simp) hl)
    ⟨0, 1, t1, t2, by omega, rfl, rfl, hl t1 (by simp), hl t2 (by simp)⟩)

theorem C25_two_left {f ct t1 nil : Term} {ts : List Term} (ha : HasAttr env f .LEFT_ASSOC_NS_NIL (some ct)) (hn : Terminator env f t1 ct nil)
    (hts : ts ≠ []) (hl : ∀ t ∈ t1 :: ts, ¬ IsListParam env t) : Denotes env f (t1 :: ts) (llist f nil (t1 :: ts)) := by
  obtain ⟨t2, ts, rfl⟩ := List.exists_cons_of_ne_nil hts
  exact C23_desugar ha (.leftNs _ _ _ _ _ hn (leftNil_llist (by simp) hl)
    ⟨0, 1, t1, t2, by omega, rfl, rfl, hl t1 (by simp), hl t2 (by simp)⟩)

theorem not_two {t : Term} : ¬ TwoElems env [t] := by
  rintro ⟨i, j, a, b, hij, _, hb, _⟩
  cases j with
  | zero => omega
  | succ j => simp at hb

theorem singleton_elim_op {f ct t nil : Term} {a : Attr} {left : Bool} (hd : Declared env f a ct) (ha : NilAttr a left)
    (hfl : ∀ l, f ≠ .lit l) (hfk : f.kind ≠ PARAMETERIZED) (hna : NotApp f nil)
    (hn : NilFor env f (if left then llist f nil [t] else rlist f nil [t]) ct nil)
    (hg : ∀ x ∈ [f, if left then llist f nil [t] else rlist f nil [t]], Closed x) :
    OpResult env EVAL_LIST_SINGLETON_ELIM [f, if left then llist f nil [t] else rlist f nil [t]] (some t) := by
  refine list_value rfl (by simp) (.plain hfk) hfl hd ha hn hg ?_
  have h1 := C14_left f nil hna [t]
  have h2 := C14_children f nil hna [t]
  cases left
  · simp [evalListOp, argAt, Res.bind, h2]
  · simp [evalListOp, argAt, Res.bind] at h1 ⊢
    simp [h1]

/-- one closed element: the element itself -/
theorem C25_one {f ct t nil : Term} (ha : HasAttr env f .RIGHT_ASSOC_NS_NIL (some ct)) (hn : NilFor env f t ct nil)
    (hn' : NilFor env f (bin f t nil) ct nil)
    (hl : ¬ IsListParam env t) (hfl : ∀ l, f ≠ .lit l) (hfk : f.kind ≠ PARAMETERIZED) (hna : NotApp f nil)
    (hf : Closed f) (ht : Closed t) (hnc : Closed nil) : Denotes env f [t] t := by
  refine C23_desugar ha (.rightElim _ _ _ nil (bin f t nil) _ (.known _ hn) (.last t hl) not_two ?_)
  refine builds_op rfl (.inl rfl) rfl (singleton_elim_op (left := false) ⟨_, _, ha⟩ .rightNs hfl hfk hna hn' ?_)
  intro x hx
  simp only [List.mem_cons, List.not_mem_nil, or_false] at hx
  rcases hx with rfl | rfl
  · exact hf
  · exact closed_bin hf ht hnc

theorem C25_one_left {f ct t nil : Term} (ha : HasAttr env f .LEFT_ASSOC_NS_NIL (some ct)) (hn : NilFor env f t ct nil)
    (hn' : NilFor env f (bin f nil t) ct nil)
    (hl : ¬ IsListParam env t) (hfl : ∀ l, f ≠ .lit l) (hfk : f.kind ≠ PARAMETERIZED) (hna : NotApp f nil)
    (hf : Closed f) (ht : Closed t) (hnc : Closed nil) : Denotes env f [t] t := by
  refine C23_desugar ha (.leftElim _ _ _ nil (bin f nil t) _ (.known _ hn) (.first t hl) not_two ?_)
  refine builds_op rfl (.inl rfl) rfl (singleton_elim_op (left := true) ⟨_, _, ha⟩ .leftNs hfl hfk hna hn' ?_)
  intro x hx
  simp only [List.mem_cons, List.not_mem_nil, or_false] at hx
  rcases hx with rfl | rfl
  · exact hf
  · exact closed_bin hf hnc ht

/-- one element with parameters: a term that evaluates to the value of the element once it is closed -/
theorem C25_one_open {f ct t v nil : Term} {ctx : Ctx} (ha : HasAttr env f .RIGHT_ASSOC_NS_NIL (some ct)) (hn : NilFor env f t ct nil)
    (hn' : NilFor env f (bin f v nil) ct nil)
    (hl : ¬ IsListParam env t) (hf0 : f.children = []) (hfp : ¬ IsProg f) (hfl : ∀ l, f ≠ .lit l) (hfk : f.kind ≠ PARAMETERIZED) (hna : NotApp f nil)
    (hf : Closed f) (ht : ¬ Closed t) (hnv : IsValue nil) (hv : Closed v) (he : EvaluatesTo env ctx t v) :
    ∃ u, Denotes env f [t] u ∧ EvaluatesTo env ctx u v := by
  refine ⟨.node EVAL_LIST_SINGLETON_ELIM [f, bin f t nil], ?_, ?_⟩
  · refine C23_desugar ha (.rightElim _ _ _ nil (bin f t nil) _ (.known _ hn) (.last t hl) not_two ?_)
    refine builds_op (r := none) rfl (.inl rfl) rfl ⟨1, ?_⟩
    have : (bin f t nil).ground = false := by
      rw [closed_iff] at ht
      simp [bin, ground_node_cons, ht]
    simp [ops, opStep, this]
  · have h1 := eval_bin (env := env) hf0 (hf f (.refl f)).1 hfp he (value_eval env ctx nil hnv)
    have h2 := singleton_elim_op (t := v) (left := false) ⟨_, _, ha⟩ .rightNs hfl hfk hna hn' (by
      intro x hx
      simp only [List.mem_cons, List.not_mem_nil, or_false] at hx
      rcases hx with rfl | rfl
      · exact hf
      · exact closed_bin hf hv (value_closed hnv))
    rw [evaluatesTo_iff] at h1 ⊢
    exact .op _ _ _ _ _ rfl (by simp) (by simp) (.cons _ _ _ _ _ (.leaf _ _ (hf f (.refl f)).1 hf0) (.cons _ _ _ _ _ h1 (.nil _))) h2

/-! ### C26 -/

theorem builds_binary {k : Kind} {a b : Term} {n : Nat} {t : Term} (hk : isNaryLiteralOp k = true)
    (h : mkExpr env (ops env n) n k [a, b] = .ok t) :
    (∃ r, OpResult env k [a, b] r ∧ t = r.getD (.node k [a, b])) := by
  have hl : isLiteralOp k = true ∧ k ≠ APPLY ∧ checkArity k 2 = true := by
    cases k <;> first | exact ⟨rfl, by simp, rfl⟩ | (simp [isNaryLiteralOp] at hk)
  cases n with
  | zero => simp [mkExpr] at h
  | succ n =>
    simp [mkExpr, mkExprStep, hl, mkLitOp] at h
    unfold evaluateLiteralOp at h
    cases h1 : (ops env (n+1)).evalOp k [a, b] with
    | ok r => rw [h1] at h; simp [Out.map] at h; exact ⟨r, ⟨_, h1⟩, h.symm⟩
    | ub => rw [h1] at h; simp [Out.map] at h
    | fuel => rw [h1] at h; simp [Out.map] at h

theorem nary_nonlit {k : Kind} {a b : Term} (hk : isNaryLiteralOp k = true) (ha : ∀ l, a ≠ .lit l) : OpResult env k [a, b] none := by
  refine nonlit_result env k [a, b] (fun o => ?_) ?_ ?_ ?_ ?_
  · cases k <;> first | rfl | (simp [isNaryLiteralOp] at hk)
  · rintro rfl; simp [isNaryLiteralOp] at hk
  · rintro rfl; simp [isNaryLiteralOp] at hk
  · cases k <;> first | rfl | (simp [isNaryLiteralOp] at hk)
  · cases a with
    | lit l => exact absurd rfl (ha l)
    | sym => rfl
    | node => rfl

theorem leftFold_nonlit {k : Kind} {a : Term} {r : List Term} {l : Lit} (hk : isNaryLiteralOp k = true) (ha : ∀ l, a ≠ .lit l) :
    ¬ LeftFold env k a r (.lit l) := by
  intro h
  cases h with
  | nil => exact ha l rfl
  | cons _ b c d r h _ => cases OpResult.det _ _ _ _ h (nary_nonlit hk ha)

theorem fold_not_ok {k : Kind} {mk : Kind → List Term → Out Term} : ∀ (r : List Term) (x : Out Term) (t : Term),
    r.foldl (fun curr x => curr.bind fun t => mk k [t, x]) x = .ok t → ∃ u, x = .ok u
  | [], _, _, h => ⟨_, h⟩
  | _ :: r, x, t, h => by
    obtain ⟨u, hu⟩ := fold_not_ok r _ t h
    cases x with
    | ok u => exact ⟨u, rfl⟩
    | ub => simp [Out.bind] at hu
    | fuel => simp [Out.bind] at hu

theorem fold_leftFold {k : Kind} (hk : isNaryLiteralOp k = true) (n : Nat) (l : Lit) : ∀ (r : List Term) (a : Term),
    r.foldl (fun (curr : Out Term) x => curr.bind fun t => mkExpr env (ops env n) n k [t, x]) (.ok a) = .ok (.lit l) →
    LeftFold env k a r (.lit l)
  | [], a, h => by simp at h; subst h; exact .nil _
  | b :: r, a, h => by
    rw [List.foldl_cons] at h
    obtain ⟨u, hu⟩ := fold_not_ok r _ _ h
    rw [hu] at h
    have ih := fold_leftFold hk n l r u h
    obtain ⟨res, h1, h2⟩ := builds_binary hk hu
    cases res with
    | some c => simp at h2; subst h2; exact .cons _ _ _ _ _ h1 ih
    | none => simp at h2; subst h2; exact absurd ih (leftFold_nonlit hk (by simp))

theorem leftFold_fold {k : Kind} (hk : isNaryLiteralOp k = true) {a d : Term} {r : List Term} (h : LeftFold env k a r d) :
    ∃ n0, ∀ n, n0 ≤ n → r.foldl (fun (curr : Out Term) x => curr.bind fun t => mkExpr env (ops env n) n k [t, x]) (.ok a) = .ok d := by
  have hl : isLiteralOp k = true ∧ k ≠ APPLY ∧ checkArity k 2 = true := by
    cases k <;> first | exact ⟨rfl, by simp, rfl⟩ | (simp [isNaryLiteralOp] at hk)
  induction h with
  | nil a => exact ⟨0, fun _ _ => rfl⟩
  | cons a b c d r h1 _ ih =>
    obtain ⟨n0, h2⟩ := ih
    obtain ⟨m, h1⟩ := builds_op (cs := [_, _]) hl.1 (.inr (Nat.le_refl 2)) hl.2.2 h1
    refine ⟨max n0 m, fun n hn => ?_⟩
    rw [List.foldl_cons]
    have h3 : mkExpr env (ops env n) n k [a, b] = .ok c :=
      (mkExpr_mono (ops_mono env (by omega : m ≤ n)) m n (by omega) k [a, b]).ok h1
    simp only [Out.bind, h3]
    exact h2 n (by omega)

/-- **C26**.  An n-ary computational operator on two or more terms gives the literal `l` exactly when applying the
binary operator from the left does, every intermediate application evaluating. -/
theorem C26_fold {k : Kind} (hk : isNaryLiteralOp k = true) (a b : Term) (r : List Term) (l : Lit) :
    Builds env k (a :: b :: r) (.lit l) ↔ LeftFold env k a (b :: r) (.lit l) := by
  have hl : isLiteralOp k = true ∧ k ≠ APPLY ∧ checkArity k 2 = true := by
    cases k <;> first | exact ⟨rfl, by simp, rfl⟩ | (simp [isNaryLiteralOp] at hk)
  cases r with
  | nil =>
    constructor
    · rintro ⟨n, h⟩
      obtain ⟨res, h1, h2⟩ := builds_binary hk h
      cases res with
      | some c => simp at h2; subst h2; exact .cons _ _ _ _ _ h1 (.nil _)
      | none => simp at h2
    · intro h
      cases h with
      | cons _ _ c _ _ h1 h2 =>
        cases h2
        exact builds_op (cs := [_, _]) hl.1 (.inr (Nat.le_refl 2)) hl.2.2 h1
  | cons c r =>
    rw [Builds.step]
    have e : ∀ n, mkExprStep env (ops env n) (mkExpr env (ops env n) n) k (a :: b :: c :: r) =
        (b :: c :: r).foldl (fun (curr : Out Term) x => curr.bind fun t => mkExpr env (ops env n) n k [t, x]) (.ok a) := by
      intro n
      simp [mkExprStep, hl, mkLitOp, hk, Out.bind]
    simp only [e]
    constructor
    · rintro ⟨n, h⟩; exact fold_leftFold hk n l _ _ h
    · intro h
      obtain ⟨n, h⟩ := leftFold_fold hk h
      exact ⟨n, h n (Nat.le_refl n)⟩

/-- the parsed application `(eo::add t1 … tn)` etc. -/
theorem C26_parsed {k : Kind} {f : Term} {a : Attr} {c : Option Term} {ov : Option (List Nat)} (hk : isNaryLiteralOp k = true)
    (hf : env.appInfo f = some ⟨a, c, k, ov⟩) (args : List Term) (t : Term) : Denotes env f args t ↔ Builds env k args t := by
  rw [denotes_app]
  have h1 : k ≠ NONE ∧ k ≠ FUNCTION_TYPE ∧ k ≠ APPLY := by
    cases k <;> first | (simp [isNaryLiteralOp] at hk; done) | exact ⟨by simp, by simp, by simp⟩
  simp only [mkApp, hf, ne_eq, h1, not_false_eq_true, if_true, if_false]
  exact Iff.rfl

/-! ### C52 -/

/-- **C52**.  A curried application determines its head (which is not itself an application) and its arguments. -/
theorem C52_curry_injective {f g t : Term} {ts us : List Term} (hf : ∀ a b, f ≠ .node APPLY [a, b]) (hg : ∀ a b, g ≠ .node APPLY [a, b])
    (h : Curry f ts t) (h' : Curry g us t) : f = g ∧ ts = us := by
  induction h generalizing us with
  | nil =>
    cases h' with
    | nil => exact ⟨rfl, rfl⟩
    | snoc ts u w _ => exact absurd rfl (hf _ _)
  | snoc ts x u _ ih =>
    cases h' with
    | nil => exact absurd rfl (hg _ _)
    | snoc us y w h' =>
      obtain ⟨rfl, rfl⟩ := ih h'
      exact ⟨rfl, rfl⟩

/-- every term is a curried application in exactly this one way -/
theorem C52_curry_total (t : Term) : ∃ f ts, (∀ a b, f ≠ .node APPLY [a, b]) ∧ Curry f ts t := by
  by_cases h : ∃ a b, t = .node APPLY [a, b]
  · obtain ⟨a, b, rfl⟩ := h
    obtain ⟨f, ts, h1, h2⟩ := C52_curry_total a
    exact ⟨f, ts ++ [b], h1, .snoc _ _ _ h2⟩
  · exact ⟨t, [], fun a b h' => h ⟨a, b, h'⟩, .nil⟩
termination_by t.size
decreasing_by subst_vars; simp [Term.size, Term.sizes]; omega

/-- applications of different symbols, or of a symbol to different arguments, are different terms -/
theorem C52_denotes_injective {f g t : Term} {ts us : List Term} (hf : env.appInfo f = none) (hg : env.appInfo g = none)
    (hkf : f.kind = CONST) (hkg : g.kind = CONST) (hts : ts ≠ []) (hus : us ≠ [])
    (h : Denotes env f ts t) (h' : Denotes env g us t) : f = g ∧ ts = us := by
  have e1 := C23_unique h (C23_plain hf hts (by simp [hkf]) (by simp [hkf]) (by simp [hkf]) ((curry_iff _ _ _).mpr rfl))
  have e2 := C23_unique h' (C23_plain hg hus (by simp [hkg]) (by simp [hkg]) (by simp [hkg]) ((curry_iff _ _ _).mpr rfl))
  refine C52_curry_injective ?_ ?_ ((curry_iff _ _ _).mpr e1) ((curry_iff _ _ _).mpr e2)
  · rintro a b rfl; simp [Term.kind] at hkf
  · rintro a b rfl; simp [Term.kind] at hkg

/-- `(_ f t1 … tn)` is the curried application, whatever the attributes of `f` -/
theorem C52_explicit {u f : Term} {a : Attr} {c : Option Term} {ov : Option (List Nat)} (hu : env.appInfo u = some ⟨a, c, APPLY, ov⟩)
    (args : List Term) (hne : args ≠ []) (t : Term) : Denotes env u (f :: args) t ↔ Curry f args t := by
  rw [denotes_app, curry_iff]
  simp [mkApp, hu, mkApply_eq hne, eq_comm]

/-- the return type does not continue the function type -/
def PlainRet (ret : Term) : Prop := (∀ a b, ret ≠ .node FUNCTION_TYPE [a, b]) ∧ ∀ a b c, ret ≠ .node EVAL_REQUIRES [a, b, c]

theorem functionTypeLoop_plain {ret : Term} (h : PlainRet ret) (b : Bool) : functionTypeLoop b ret = ([], ret) := by
  unfold functionTypeLoop
  split
  · exact absurd rfl (h.1 _ _)
  · exact absurd rfl (h.2 _ _ _)
  · rfl

theorem functionTypeLoop_mk {ret : Term} (h : PlainRet ret) : ∀ (b : Bool) (args : List Term),
    functionTypeLoop b (mkFunctionType args ret) = (args, ret)
  | b, [] => functionTypeLoop_plain h b
  | b, a :: args => by
    have := functionTypeLoop_mk h true args
    simp only [mkFunctionType, List.foldr_cons] at this ⊢
    rw [functionTypeLoop]
    rw [this]

/-- **C52**.  Decomposing a function type gives the argument types and the return type it was built from. -/
theorem C52_function_type {f ret : Term} {a : Attr} {c : Option Term} {ov : Option (List Nat)} (hf : env.appInfo f = some ⟨a, c, FUNCTION_TYPE, ov⟩)
    (args : List Term) (hr : PlainRet ret) : ∃ t, Denotes env f (args ++ [ret]) t ∧ getFunctionType t = (args, ret) := by
  refine ⟨mkFunctionType args ret, ?_, functionTypeLoop_mk hr false args⟩
  rw [denotes_app]
  exact ⟨0, by simp [mkApp, hf]⟩

/-! ### Examples -/

def xL : Term := .sym PARAM 40
def fPlus : Term := .sym CONST 41
def fMinus : Term := .sym CONST 42
def fEq : Term := .sym CONST 43
def fDistinct : Term := .sym CONST 44
def fAnd : Term := .sym CONST 45
def fNs : Term := .sym CONST 46
def fAdd : Term := .sym CONST 47
/-- `or` is `:right-assoc-nil false`, `=` chainable and `distinct` pairwise by `and`, `xL` is marked `:list` -/
def exSugEnv : Env := { exOpEnv with
  appInfo := fun t =>
    if t = xL then some ⟨.LIST, none, NONE, none⟩
    else if t = fPlus then some ⟨.RIGHT_ASSOC, none, NONE, none⟩
    else if t = fMinus then some ⟨.LEFT_ASSOC, none, NONE, none⟩
    else if t = fEq then some ⟨.CHAINABLE, some fAnd, NONE, none⟩
    else if t = fDistinct then some ⟨.PAIRWISE, some fAnd, NONE, none⟩
    else if t = fAnd then some ⟨.RIGHT_ASSOC_NIL, some (.lit (.bool true)), NONE, none⟩
    else if t = fNs then some ⟨.RIGHT_ASSOC_NS_NIL, some (.lit (.bool true)), NONE, none⟩
    else if t = fAdd then some ⟨.NONE, none, EVAL_ADD, none⟩
    else exOpEnv.appInfo t }

/-- `(+ a b c)` is `(+ a (+ b c))` -/
example : Denotes exSugEnv fPlus [tA, tB, tC] (bin fPlus tA (bin fPlus tB tC)) := by
  obtain ⟨t, h1, h2⟩ := C23_right_assoc (env := exSugEnv) (f := fPlus) (args := [tA, tB, tC]) rfl (by simp)
  cases h1 with
  | cons _ _ _ h => cases h with
    | cons _ _ _ h => cases h with
      | last => exact h2
      | cons _ _ _ h => cases h
/-- `(- a b c)` is `(- (- a b) c)` -/
example : Denotes exSugEnv fMinus [tA, tB, tC] (bin fMinus (bin fMinus tA tB) tC) := C23_left_assoc rfl
/-- `(= a b c)` is `(and (= a b) (and (= b c) true))` -/
example : Denotes exSugEnv fEq [tA, tB, tC] (bin fAnd (bin fEq tA tB) (bin fAnd (bin fEq tB tC) (.lit (.bool true)))) :=
  C23_chainable (env := exSugEnv) (c := fAnd) rfl rfl (by decide) (by decide) (by rintro a b ⟨ai, h, _⟩; simp [exSugEnv, exOpEnv, bin, xL, fPlus, fMinus, fEq, fDistinct, fAnd, fNs, fAdd, fOr, fCat] at h) (by simp)
/-- `(distinct a b c)` is the conjunction of three disequalities -/
example : Denotes exSugEnv fDistinct [tA, tB, tC] (rlist fAnd (.lit (.bool true)) [bin fDistinct tA tB, bin fDistinct tA tC, bin fDistinct tB tC]) :=
  C23_pairwise (env := exSugEnv) (c := fAnd) rfl rfl (by decide) (by decide) (by rintro a b ⟨ai, h, _⟩; simp [exSugEnv, exOpEnv, bin, xL, fPlus, fMinus, fEq, fDistinct, fAnd, fNs, fAdd, fOr, fCat] at h) (by simp)
/-- `(or a xL b)` under `xL = (or c d)` evaluates to `(or a c d b)` -/
example : ∃ t, Denotes exSugEnv fOr [tA, xL, tB] t ∧
    EvaluatesTo exSugEnv [(xL, rlist fOr tNil [tC, tD])] t (rlist fOr tNil [tA, tC, tD, tB]) := by
  have hv : ∀ x ∈ [tA, tB, tC, tD, fOr], Closed x := by
    intro x hx
    simp only [List.mem_cons, List.not_mem_nil, or_false] at hx
    rw [closed_iff]
    rcases hx with rfl | rfl | rfl | rfl | rfl <;> rfl
  have hn : ∀ x ∈ [tA, tB], ¬ IsListParam exSugEnv x := by
    intro x hx
    simp only [List.mem_cons, List.not_mem_nil, or_false] at hx
    rw [isListParam_iff]
    rcases hx with rfl | rfl <;> decide
  refine C24_splice_const (env := exSugEnv) (nil := tNil) (show HasAttr exSugEnv fOr _ _ from rfl) rfl (by simp [fOr]) (by decide) (by simp [IsProg, fOr, Term.kind]) (hv _ (by simp)) notApp_ex
    (by decide) (lit_value _) (by simp) [[tA], [tC, tD], [tB]] rfl ?_
  intro i x xs hx hxs
  match i with
  | 0 => simp at hx hxs; subst hx; subst hxs; exact ⟨.elem _ _ (hn _ (by simp)) ⟨20, rfl⟩, by simpa using hv tA (by simp)⟩
  | 1 =>
    simp at hx hxs; subst hx; subst hxs
    exact ⟨.list _ _ ⟨_, rfl, rfl⟩ ⟨20, rfl⟩, by simpa using ⟨hv tC (by simp), hv tD (by simp)⟩⟩
  | 2 => simp at hx hxs; subst hx; subst hxs; exact ⟨.elem _ _ (hn _ (by simp)) ⟨20, rfl⟩, by simpa using hv tB (by simp)⟩
  | i + 3 => simp at hx
/-- `(ns a)` is `a` -/
example : Denotes exSugEnv fNs [tA] tA :=
  C25_one (env := exSugEnv) (ct := .lit (.bool true)) rfl (.const _ (by decide)) (.const _ (by decide)) (by rw [isListParam_iff]; decide)
    (by simp [fNs]) (by decide) (by intro x y r1 r2 h; simp at h) ((closed_iff _).mpr rfl) ((closed_iff _).mpr rfl) ((closed_iff _).mpr rfl)
/-- `(eo::add 1 2 3)` is `6` -/
example : Denotes exSugEnv fAdd [.lit (.num 1), .lit (.num 2), .lit (.num 3)] (.lit (.num 6)) := by
  rw [C26_parsed (k := EVAL_ADD) rfl rfl, C26_fold rfl]
  exact .cons _ _ (.lit (.num 3)) _ _ ⟨1, rfl⟩ (.cons _ _ _ _ _ ⟨1, rfl⟩ (.nil _))
/-- `(eo::add 1 "a" 3)` does not evaluate -/
example (l : Lit) : ¬ Denotes exSugEnv fAdd [.lit (.num 1), .lit (.str [97]), .lit (.num 3)] (.lit l) := by
  rw [C26_parsed (k := EVAL_ADD) rfl rfl, C26_fold rfl]
  intro h
  cases h with
  | cons _ _ _ _ _ h _ => cases OpResult.det _ _ _ _ h ⟨1, rfl⟩

/-- For a `:left-assoc-nil` operator splicing does not keep the order: `eo::list_concat` appends the second list in
reverse (see `C15`), so `(or b xL)` under `xL = (or c d)` evaluates to `(or b d c)`. -/
theorem C24_left_splice_refuted : ∃ (env : Env) (f nil x : Term) (ctx : Ctx) (t : Term), HasAttr env f .LEFT_ASSOC_NIL (some nil) ∧ IsListParam env x ∧
    EvaluatesTo env ctx x (llist f nil [tC, tD]) ∧ Denotes env f [tB, x] t ∧ EvaluatesTo env ctx t (llist f nil [tB, tD, tC]) := by
  refine ⟨{ exSugEnv with appInfo := fun t => if t = xL then some ⟨.LIST, none, NONE, none⟩ else if t = fOr then some ⟨.LEFT_ASSOC_NIL, some tNil, NONE, none⟩ else none },
    fOr, tNil, xL, [(xL, llist fOr tNil [tC, tD])], _, rfl, ⟨_, rfl, rfl⟩, ⟨20, rfl⟩, ⟨20, rfl⟩, ⟨60, rfl⟩⟩

end Ethos.Props
