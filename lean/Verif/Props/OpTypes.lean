import Verif.Props.Ops
/-
C55: the type of an application of a builtin operator and the type of its value.
-/
namespace Ethos.Props
open Ethos Kind Spec

/-- the type of an application of a builtin operator is given by `getLiteralOpType` -/
theorem op_type {env : Env} {k : Kind} {cs : List Term} {ty : Term} (hk : isLiteralOp k = true)
    (h : TypeResult env (.node k cs) (some ty)) :
    ∃ n cts, typesOf (ops env n) cs = .ok (some cts) ∧ litOpType env (ops env n) k cs cts = .ok (some ty) ∧
      ¬ (ty.ground = true ∧ ty.evaluatable = true) := by
  obtain ⟨n, cts, h1, h2, h3⟩ := typeResult_node h
  refine ⟨n, cts, h1, ?_, h3⟩
  have : typeInternal env (ops env n) (.node k cs) cts = litOpType env (ops env n) k cs cts := by
    cases k <;> first | rfl | (exact absurd hk (by simp [isLiteralOp]))
  rw [← this]; exact h2

theorem typesOf_get {o : Ops} : ∀ {cs ts : List Term} {i : Nat} {t : Term}, typesOf o cs = .ok (some ts) → ts[i]? = some t →
    ∃ c, cs[i]? = some c ∧ o.getType c = .ok (some t)
  | [], ts, i, t, h, ht => by
    simp [typesOf] at h; subst h; simp at ht
  | c :: cs, ts, i, t, h, ht => by
    rw [typesOf] at h
    obtain ⟨u, h1, h2⟩ := bind_ok h
    cases u with
    | none => simp at h2
    | some u =>
      obtain ⟨r, h3, h4⟩ := map_ok h2
      cases r with
      | none => simp at h4
      | some r =>
        simp only [Option.map_some, Option.some.injEq] at h4
        subst h4
        cases i with
        | zero => simp at ht; subst ht; exact ⟨c, rfl, h1⟩
        | succ i => simp only [List.getElem?_cons_succ] at ht ⊢; exact typesOf_get h3 ht

theorem typesOf_length {o : Ops} : ∀ {cs ts : List Term}, typesOf o cs = .ok (some ts) → ts.length = cs.length
  | [], ts, h => by simp [typesOf] at h; subst h; rfl
  | c :: cs, ts, h => by
    rw [typesOf] at h
    obtain ⟨u, h1, h2⟩ := bind_ok h
    cases u with
    | none => simp at h2
    | some u =>
      obtain ⟨r, h3, h4⟩ := map_ok h2
      cases r with
      | none => simp at h4
      | some r =>
        simp only [Option.map_some, Option.some.injEq] at h4
        subst h4
        simp [typesOf_length h3]

theorem argO_ok {l : List Term} {i : Nat} {t : Term} (h : argO l i = .ok t) : l[i]? = some t := by
  unfold argO at h
  split at h
  · rename_i u hu; simp only [Out.ok.injEq] at h; rw [hu, h]
  · simp at h

/-- **C55** `eo::requires`: the value has the type of the application. -/
theorem C55_requires {env : Env} {a b c v ty : Term} (ht : TypeResult env (.node EVAL_REQUIRES [a, b, c]) (some ty))
    (hv : OpResult env EVAL_REQUIRES [a, b, c] (some v)) : TypeResult env v (some ty) := by
  obtain ⟨n, cts, h1, h2, _⟩ := op_type rfl ht
  have hv' : v = c := by
    obtain ⟨m, hm⟩ := hv
    cases m with
    | zero => simp [ops] at hm
    | succ m =>
      simp only [ops, opStep, argO, List.getElem?_cons_zero, List.getElem?_cons_succ, Out.bind, Out.map] at hm
      split at hm
      · split at hm
        · simp at hm; exact hm.symm
        · simp at hm
      · simp at hm
  simp only [litOpType] at h2
  split at h2
  · simp at h2
  · obtain ⟨t, h3, h4⟩ := map_ok h2
    obtain ⟨c', h5, h6⟩ := typesOf_get h1 (argO_ok h3)
    simp at h5 h4
    subst h5; subst h4; subst hv'
    exact ⟨n, h6⟩

/-- **C55** `eo::ite` with a true condition: the value has the type of the application. -/
theorem C55_ite_partial {env : Env} {a b v ty : Term}
    (ht : TypeResult env (.node EVAL_IF_THEN_ELSE [boolVal true, a, b]) (some ty))
    (hv : OpResult env EVAL_IF_THEN_ELSE [boolVal true, a, b] (some v)) : TypeResult env v (some ty) := by
  obtain ⟨n, cts, h1, h2, _⟩ := op_type rfl ht
  have hv' : v = a := by
    obtain ⟨m, hm⟩ := hv
    cases m with
    | zero => simp [ops] at hm
    | succ m =>
      simp [ops, opStep, argO, boolVal, Out.bind, Out.map] at hm
      exact hm.symm
  simp only [litOpType] at h2
  split at h2
  · simp at h2
  · obtain ⟨t, h3, h4⟩ := map_ok h2
    obtain ⟨c', h5, h6⟩ := typesOf_get h1 (argO_ok h3)
    simp at h5 h4
    subst h5; subst h4; subst hv'
    exact ⟨n, h6⟩

/-- **C55** fails for `eo::ite`: with a false condition the value can have another type than the application. -/
theorem C55_ite_refuted : ∃ (env : Env) (a b v ty ty' : Term),
    TypeResult env (.node EVAL_IF_THEN_ELSE [boolVal false, a, b]) (some ty) ∧
    OpResult env EVAL_IF_THEN_ELSE [boolVal false, a, b] (some v) ∧ TypeResult env v (some ty') ∧ ty ≠ ty' :=
  ⟨exTyEnv, cA, cB, cB, tyInt, tyReal, ⟨5, rfl⟩, ⟨5, rfl⟩, ⟨5, rfl⟩, by decide⟩

/-- the operators that return a Boolean -/
def BoolResultOp (k : Kind) : Prop :=
  k ∈ [EVAL_IS_OK, EVAL_IS_EQ, EVAL_EQ, EVAL_IS_NEG, EVAL_COMPARE, EVAL_IS_Z, EVAL_IS_Q, EVAL_IS_BIN,
    EVAL_IS_STR, EVAL_IS_BOOL, EVAL_IS_VAR, EVAL_GT, EVAL_LIST_MINCLUDE, EVAL_LIST_MEQ]

theorem eval_neg_bool {ls : List Lit} {l : Lit} (h : Lit.evaluate EVAL_IS_NEG ls = .val l) : ∃ b, l = .bool b := by
  unfold Lit.evaluate at h
  split at h
  · simp at h
  · split at h
    · simp at h
    · simp only at h
      split at h <;> first | (simp at h; exact ⟨_, h.symm⟩) | (simp at h)

theorem eval_gt_bool {ls : List Lit} {l : Lit} (h : Lit.evaluate EVAL_GT ls = .val l) : ∃ b, l = .bool b := by
  unfold Lit.evaluate at h
  split at h
  · simp at h
  · split at h
    · simp at h
    · simp only at h
      split at h <;> first | (simp at h; exact ⟨_, h.symm⟩) | (simp at h)

theorem ofRes_some {α : Type} {x : Res α} {a : α} (h : Out.ofRes x = .ok (some a)) : x = .val a := by
  cases x <;> simp [Out.ofRes] at h
  rw [h]

/-- an evaluated literal operator -/
theorem values_lit {env : Env} {o : Ops} {k : Kind} {args : List Term} {v : Term} (hk : isListLiteralOp k = false)
    (h : evalValues env o k args = .ok (some v)) :
    ∃ ls l, allLits args = some ls ∧ Lit.evaluate k ls = .val l ∧ v = .lit l := by
  unfold evalValues at h
  cases hl : allLits args with
  | none => rw [hl] at h; simp [hk] at h
  | some ls =>
    rw [hl] at h
    simp only at h
    split at h
    · simp at h
    · obtain ⟨x, h1, h2⟩ := map_ok h
      cases x with
      | none => simp at h2
      | some l =>
        simp only [Option.map_some, Option.some.injEq] at h2
        exact ⟨ls, l, rfl, ofRes_some h1, h2.symm⟩

theorem ite_bool {c : Prop} [Decidable c] {x y : Res Term} {v : Term} (hx : x = .val v → ∃ r, v = boolVal r)
    (hy : y = .val v → ∃ r, v = boolVal r) (h : (if c then x else y) = .val v) : ∃ r, v = boolVal r := by
  by_cases hc : c
  · rw [if_pos hc] at h; exact hx h
  · rw [if_neg hc] at h; exact hy h

theorem mpred_bool {e : Bool} {f nil : Term} {l : Bool} {a b v : Term} (h : listMPred e f nil l a b = .val v) :
    ∃ r, v = boolVal r := by
  have lit : ∀ b : Bool, Res.val (Term.lit (Lit.bool b)) = .val v → ∃ r, v = boolVal r := by
    intro b hb; simp only [Res.val.injEq] at hb; exact ⟨b, hb.symm⟩
  unfold listMPred at h
  cases h1 : getNAryChildren f nil l a with
  | none => rw [h1] at h; simp at h
  | some x =>
    cases h2 : getNAryChildren f nil l b with
    | none => rw [h1, h2] at h; simp at h
    | some y =>
      rw [h1, h2] at h
      exact ite_bool (lit _) (ite_bool (lit _) (ite_bool (lit _) (lit _))) h

theorem values_mpred {env : Env} {o : Ops} {k : Kind} {args : List Term} {v : Term}
    (hk : k = EVAL_LIST_MINCLUDE ∨ k = EVAL_LIST_MEQ) (h : evalValues env o k args = .ok (some v)) : ∃ r, v = boolVal r := by
  unfold evalValues at h
  cases hl : allLits args with
  | some ls =>
    rw [hl] at h
    simp only at h
    split at h
    · simp at h
    · obtain ⟨x, h1, h2⟩ := map_ok h
      exfalso
      cases x with
      | none => simp at h2
      | some l =>
        have h1 := ofRes_some h1
        rcases hk with rfl | rfl <;>
        · unfold Lit.evaluate at h1
          split at h1
          · simp at h1
          · split at h1 <;> simp at h1
  | none =>
    rw [hl] at h
    have hk' : isListLiteralOp k = true := by rcases hk with rfl | rfl <;> rfl
    simp only [hk', Bool.not_true, Bool.false_eq_true, if_false] at h
    unfold evalList at h
    obtain ⟨a0, _, h⟩ := bind_ok h
    obtain ⟨f, _, h⟩ := bind_ok h
    split at h
    · simp at h
    · split at h
      · simp at h
      · simp only at h
        rw [if_neg (by rcases hk with rfl | rfl <;> simp)] at h
        split at h
        · simp at h
        · obtain ⟨nl, _, h⟩ := bind_ok h
          cases nl with
          | none => simp at h
          | some nl =>
            have h := ofRes_some h
            have arg : ∀ {l : List Term} {i : Nat} {F : Term → Res Term} {x : Term}, (argAt l i).bind F = .val x → ∃ y, F y = .val x := by
              intro l i F x hx
              cases hy : argAt l i with
              | val y => rw [hy] at hx; exact ⟨y, hx⟩
              | null => rw [hy] at hx; simp [Res.bind] at hx
              | ub => rw [hy] at hx; simp [Res.bind] at hx
            rcases hk with rfl | rfl <;>
            · simp only [evalListOp] at h
              obtain ⟨_, h⟩ := arg h
              obtain ⟨_, h⟩ := arg h
              exact mpred_bool h

/-- **C55** Boolean operators: the application has type Bool and its value is a Boolean. -/
theorem C55_bool {env : Env} {k : Kind} {args : List Term} {v ty : Term} (hk : BoolResultOp k)
    (ht : TypeResult env (.node k args) (some ty)) (hv : OpResult env k args (some v)) :
    ty = tBool ∧ (∃ b, v = boolVal b) ∧ TypeResult env v (some ty) := by
  have hb : ∃ b, v = boolVal b := by
    obtain ⟨m, hm⟩ := hv
    cases m with
    | zero => simp [ops] at hm
    | succ m =>
      replace hm : opStep env (ops env m) k args = .ok (some v) := hm
      simp only [BoolResultOp, List.mem_cons, List.not_mem_nil, or_false] at hk
      have hg : evalGround env (ops env m) k args = .ok (some v) := by
        rcases hk with rfl | rfl | rfl | rfl | rfl | rfl | rfl | rfl | rfl | rfl | rfl | rfl | rfl | rfl <;>
        · simp only [opStep] at hm
          split at hm
          · simp at hm
          · exact hm
      rcases hk with rfl | rfl | rfl | rfl | rfl | rfl | rfl | rfl | rfl | rfl | rfl | rfl | rfl | rfl
      · obtain ⟨_, _, h⟩ := map_ok hg; simp [mkBool] at h; exact ⟨_, h.symm⟩
      · obtain ⟨_, _, h⟩ := bind_ok hg
        split at h
        · simp [mkBool] at h; exact ⟨_, h.symm⟩
        · obtain ⟨_, _, h⟩ := map_ok h; simp [mkBool] at h; exact ⟨_, h.symm⟩
      · obtain ⟨_, _, h⟩ := bind_ok hg
        split at h
        · simp at h
        · obtain ⟨_, _, h⟩ := map_ok h
          split at h
          · simp at h
          · simp [mkBool] at h; exact ⟨_, h.symm⟩
      · obtain ⟨ls, l, _, h1, rfl⟩ := values_lit rfl hg
        obtain ⟨b, rfl⟩ := eval_neg_bool h1
        exact ⟨b, rfl⟩
      · obtain ⟨_, _, h⟩ := bind_ok hg
        split at h
        · simp at h
        · obtain ⟨_, _, h⟩ := map_ok h
          split at h
          · simp at h
          · simp [mkBool] at h; exact ⟨_, h.symm⟩
      · obtain ⟨_, _, h⟩ := map_ok hg; simp [mkBool] at h; exact ⟨_, h.symm⟩
      · obtain ⟨_, _, h⟩ := map_ok hg; simp [mkBool] at h; exact ⟨_, h.symm⟩
      · obtain ⟨_, _, h⟩ := map_ok hg; simp [mkBool] at h; exact ⟨_, h.symm⟩
      · obtain ⟨_, _, h⟩ := map_ok hg; simp [mkBool] at h; exact ⟨_, h.symm⟩
      · obtain ⟨_, _, h⟩ := map_ok hg; simp [mkBool] at h; exact ⟨_, h.symm⟩
      · obtain ⟨_, _, h⟩ := map_ok hg; simp [mkBool] at h; exact ⟨_, h.symm⟩
      · obtain ⟨ls, l, _, h1, rfl⟩ := values_lit rfl hg
        obtain ⟨b, rfl⟩ := eval_gt_bool h1
        exact ⟨b, rfl⟩
      · exact values_mpred (.inl rfl) hg
      · exact values_mpred (.inr rfl) hg
  have hty : ty = tBool := by
    simp only [BoolResultOp, List.mem_cons, List.not_mem_nil, or_false] at hk
    obtain ⟨n, cts, h1, h2, _⟩ := op_type (by
      rcases hk with rfl | rfl | rfl | rfl | rfl | rfl | rfl | rfl | rfl | rfl | rfl | rfl | rfl | rfl <;> rfl) ht
    rcases hk with rfl | rfl | rfl | rfl | rfl | rfl | rfl | rfl | rfl | rfl | rfl | rfl | rfl | rfl <;>
    · simp only [litOpType] at h2
      split at h2
      · simp at h2
      · simp at h2; exact h2.symm
  refine ⟨hty, hb, ?_⟩
  obtain ⟨b, rfl⟩ := hb
  exact ⟨1, by rw [hty]; rfl⟩

/-- the type of a literal whose category has a closed type rule -/
theorem lit_type {env : Env} {l : Lit} {tp : Term} (hl : l.kind ≠ BOOLEAN) (hr : env.litRule l.kind = some tp) (hc : Closed tp)
    (hv : IsValue tp) : TypeResult env (.lit l) (some tp) := by
  refine ⟨1, ?_⟩
  have hg := (closed_iff tp).mp hc
  have he := (value_of_closed hc).mp hv
  cases l <;> simp_all [Lit.kind, ops, typeStep, Term.children, typesOf, Out.bind, typeInternal, Term.kind, litType, Out.map]

theorem lit_type_only {env : Env} {l : Lit} {tp ty : Term} (hl : l.kind ≠ BOOLEAN) (hr : env.litRule l.kind = some tp)
    (hc : Closed tp) (h : TypeResult env (.lit l) (some ty)) : ty = tp ∧ IsValue tp := by
  obtain ⟨n, hn⟩ := h
  have hg := (closed_iff tp).mp hc
  rw [value_of_closed hc]
  cases n with
  | zero => simp [ops] at hn
  | succ n =>
    cases he : tp.evaluatable <;>
    cases l <;> simp_all [Lit.kind, ops, typeStep, Term.children, typesOf, Out.bind, typeInternal, Term.kind, litType, Out.map]

theorem bool_type (env : Env) (b : Bool) : TypeResult env (.lit (.bool b)) (some tBool) := ⟨1, rfl⟩

theorem allLits_get : ∀ {args : List Term} {ls : List Lit}, allLits args = some ls → args = ls.map Term.lit
  | [], ls, h => by simp [allLits] at h; subst h; rfl
  | t :: ts, ls, h => by
    rw [allLits] at h
    cases t with
    | lit l =>
      simp only [asLit] at h
      cases hr : allLits ts with
      | none => rw [hr] at h; simp at h
      | some r =>
        rw [hr] at h; simp at h; subst h
        simp [← allLits_get hr]
    | sym k i => simp [asLit] at h
    | node k cs => simp [asLit] at h

/-- operators whose result has the category of their first argument -/
def SameOp (k : Kind) : Prop := k ∈ [EVAL_ADD, EVAL_MUL, EVAL_NEG, EVAL_AND, EVAL_OR, EVAL_XOR, EVAL_NOT, EVAL_CONCAT]

theorem evaluate_same {k : Kind} {a l : Lit} {as : List Lit} (hk : SameOp k) (h : Lit.evaluate k (a :: as) = .val l) :
    l.kind = a.kind := by
  have nary : ∀ k, Lit.evalNary k a as = .val l → l.kind = a.kind := by
    intro k h
    have oo : ∀ {α : Type} {f : α → Lit} {o : Option α}, Lit.ofOpt f o = .val l → ∃ x, l = f x := by
      intro α f o h
      cases o with
      | none => simp [Lit.ofOpt] at h
      | some x => simp [Lit.ofOpt] at h; exact ⟨x, h.symm⟩
    unfold Lit.evalNary at h
    cases a with
    | bool b => obtain ⟨x, rfl⟩ := oo h; rfl
    | num b => obtain ⟨x, rfl⟩ := oo h; rfl
    | dec b => obtain ⟨x, rfl⟩ := oo h; rfl
    | rat b => obtain ⟨x, rfl⟩ := oo h; rfl
    | hex b =>
      simp only at h
      split at h
      · simp at h
      · obtain ⟨x, rfl⟩ := oo h; rfl
    | bin b =>
      simp only at h
      split at h
      · simp at h
      · obtain ⟨x, rfl⟩ := oo h; rfl
    | str b =>
      simp only at h
      split at h
      · simp at h; rw [← h]; rfl
      · simp at h
  simp only [SameOp, List.mem_cons, List.not_mem_nil, or_false] at hk
  rcases hk with rfl | rfl | rfl | rfl | rfl | rfl | rfl | rfl <;>
  · unfold Lit.evaluate at h
    simp only at h
    split at h
    · simp at h
    · first
      | exact nary _ h
      | (cases a <;> simp at h <;> (subst h; rfl))

/-- **C55** for arithmetic, Boolean and bit-vector operators: if the literal categories have closed type rules, the value
has the type of the application. -/
theorem C55_same_partial {env : Env} {k : Kind} {args : List Term} {v ty : Term} (hk : SameOp k)
    (hrule : ∀ l : Lit, l.kind ≠ BOOLEAN → ∃ tp, env.litRule l.kind = some tp ∧ Closed tp)
    (ht : TypeResult env (.node k args) (some ty)) (hv : OpResult env k args (some v)) : TypeResult env v (some ty) := by
  obtain ⟨m, hm⟩ := hv
  have hkk := hk
  simp only [SameOp, List.mem_cons, List.not_mem_nil, or_false] at hk
  cases m with
  | zero => simp [ops] at hm
  | succ m =>
    replace hm : opStep env (ops env m) k args = .ok (some v) := hm
    have hg : evalValues env (ops env m) k args = .ok (some v) := by
      rcases hk with rfl | rfl | rfl | rfl | rfl | rfl | rfl | rfl <;>
      · simp only [opStep] at hm
        split at hm
        · simp at hm
        · exact hm
    obtain ⟨ls, l, h1, h2, rfl⟩ := values_lit (by rcases hk with rfl | rfl | rfl | rfl | rfl | rfl | rfl | rfl <;> rfl) hg
    have hargs := allLits_get h1
    cases ls with
    | nil => simp [Lit.evaluate] at h2
    | cons a as =>
      have hkind := evaluate_same hkk h2
      have hta : TypeResult env (.lit a) (some ty) := by
        obtain ⟨n, cts, h3, h4, _⟩ := op_type (by rcases hk with rfl | rfl | rfl | rfl | rfl | rfl | rfl | rfl <;> rfl) ht
        have : (argO cts 0).map some = .ok (some ty) := by
          rcases hk with rfl | rfl | rfl | rfl | rfl | rfl | rfl | rfl <;>
          · simp only [litOpType] at h4
            split at h4
            · simp at h4
            · exact h4
        obtain ⟨t, h5, h6⟩ := map_ok this
        simp at h6; subst h6
        obtain ⟨c, h7, h8⟩ := typesOf_get h3 (argO_ok h5)
        rw [hargs] at h7
        simp at h7
        subst h7
        exact ⟨n, h8⟩
      by_cases hb : a.kind = BOOLEAN
      · cases a <;> simp [Lit.kind] at hb
        cases l <;> simp [Lit.kind] at hkind
        have := TypeResult.det hta (bool_type env _)
        rw [this]; exact bool_type env _
      · obtain ⟨tp, h9, h10⟩ := hrule a hb
        obtain ⟨rfl, h11⟩ := lit_type_only hb h9 h10 hta
        exact lit_type (by rw [hkind]; exact hb) (by rw [hkind]; exact h9) h10 h11

/-- **C55** fails for `eo::concat` when the type of a bit-vector literal depends on its width, as in the SMT-LIB signature
(`(declare-consts <binary> (BitVec (eo::len eo::self)))`): the application has the type of its first argument. -/
def exBvEnv : Env := { exTyEnv with
  symType := fun t => if t = .sym CONST 30 then some (.node FUNCTION_TYPE [.sym CONST 31, tType])
    else if t = .sym PARAM 0 then some tAny else if t = .sym CONST 31 then some tType else none
  litRule := fun k => if k = BINARY then some (.node APPLY [.sym CONST 30, .node EVAL_LENGTH [.sym PARAM 0]])
    else some (.sym CONST 31) }

theorem C55_concat_refuted : ∃ (env : Env) (a b v : Lit) (ty ty' : Term),
    TypeResult env (.node EVAL_CONCAT [.lit a, .lit b]) (some ty) ∧
    OpResult env EVAL_CONCAT [.lit a, .lit b] (some (.lit v)) ∧ TypeResult env (.lit v) (some ty') ∧ ty ≠ ty' :=
  ⟨exBvEnv, .bin ⟨1, 0⟩, .bin ⟨1, 1⟩, .bin ⟨2, 1⟩, .node APPLY [.sym CONST 30, .lit (.num 1)],
    .node APPLY [.sym CONST 30, .lit (.num 2)], ⟨30, by rfl⟩, ⟨30, by rfl⟩, ⟨30, by rfl⟩, by decide⟩

/-- **C55** fails for `eo::zdiv` on bit-vectors: the application has the type of numerals, the value is a bit-vector. -/
theorem C55_zdiv_refuted : ∃ (env : Env) (a b v : Lit) (ty ty' : Term),
    TypeResult env (.node EVAL_INT_DIV [.lit a, .lit b]) (some ty) ∧
    OpResult env EVAL_INT_DIV [.lit a, .lit b] (some (.lit v)) ∧ TypeResult env (.lit v) (some ty') ∧ ty ≠ ty' :=
  ⟨exBvEnv, .bin ⟨2, 2⟩, .bin ⟨2, 1⟩, .bin ⟨2, 2⟩, .sym CONST 31,
    .node APPLY [.sym CONST 30, .lit (.num 2)], ⟨30, by rfl⟩, ⟨30, by rfl⟩, ⟨30, by rfl⟩, by decide⟩

/-- operators whose result always has one category of literals -/
def fixedKind : Kind → Option Kind
  | EVAL_TO_INT | EVAL_LENGTH | EVAL_FIND => some NUMERAL
  | EVAL_RAT_DIV | EVAL_TO_RAT => some RATIONAL
  | EVAL_TO_STRING => some STRING
  | EVAL_TO_BIN => some BINARY
  | _ => none

theorem evaluate_fixed {k K : Kind} {ls : List Lit} {l : Lit} (hk : fixedKind k = some K)
    (h : Lit.evaluate k ls = .val l) : l.kind = K := by
  have hcases : (k = EVAL_TO_INT ∧ K = NUMERAL) ∨ (k = EVAL_LENGTH ∧ K = NUMERAL) ∨ (k = EVAL_FIND ∧ K = NUMERAL) ∨
      (k = EVAL_RAT_DIV ∧ K = RATIONAL) ∨ (k = EVAL_TO_RAT ∧ K = RATIONAL) ∨ (k = EVAL_TO_STRING ∧ K = STRING) ∨
      (k = EVAL_TO_BIN ∧ K = BINARY) := by
    unfold fixedKind at hk
    split at hk <;> simp_all
  unfold Lit.evaluate at h
  cases ls with
  | nil => simp at h
  | cons a as =>
    simp only at h
    by_cases hc : k ≠ EVAL_EXTRACT ∧ k ≠ EVAL_TO_BIN ∧ Lit.allSameKind (a :: as) = NONE
    · rw [if_pos hc] at h; simp at h
    · rw [if_neg hc] at h
      rcases hcases with ⟨rfl, rfl⟩ | ⟨rfl, rfl⟩ | ⟨rfl, rfl⟩ | ⟨rfl, rfl⟩ | ⟨rfl, rfl⟩ | ⟨rfl, rfl⟩ | ⟨rfl, rfl⟩ <;>
      · simp only [Lit.evalToString] at h
        repeat' split at h
        all_goals first | (simp at h; done) | (simp only [Res.val.injEq] at h; subst h; rfl)

/-- **C55** for the conversions, `eo::len`, `eo::find` and `eo::qdiv`: if the category of the result has a closed type rule,
the value has the type of the application. -/
theorem C55_fixed_partial {env : Env} {k K : Kind} {args : List Term} {v ty tp : Term} (hk : fixedKind k = some K)
    (hr : env.litRule K = some tp) (hc : Closed tp)
    (ht : TypeResult env (.node k args) (some ty)) (hv : OpResult env k args (some v)) :
    TypeResult env v (some ty) ∧ ty = tp := by
  have hks : k ∈ [EVAL_TO_INT, EVAL_LENGTH, EVAL_FIND, EVAL_RAT_DIV, EVAL_TO_RAT, EVAL_TO_STRING, EVAL_TO_BIN] := by
    unfold fixedKind at hk
    split at hk <;> simp_all
  have hK : K ≠ BOOLEAN := by
    unfold fixedKind at hk
    split at hk <;> simp_all <;> (subst hk; decide)
  simp only [List.mem_cons, List.not_mem_nil, or_false] at hks
  obtain ⟨m, hm⟩ := hv
  cases m with
  | zero => simp [ops] at hm
  | succ m =>
    replace hm : opStep env (ops env m) k args = .ok (some v) := hm
    have hg : evalValues env (ops env m) k args = .ok (some v) := by
      rcases hks with rfl | rfl | rfl | rfl | rfl | rfl | rfl <;>
      · simp only [opStep] at hm
        split at hm
        · simp at hm
        · exact hm
    obtain ⟨ls, l, h1, h2, rfl⟩ := values_lit (by rcases hks with rfl | rfl | rfl | rfl | rfl | rfl | rfl <;> rfl) hg
    have hl := evaluate_fixed hk h2
    obtain ⟨n, cts, h3, h4, h5⟩ := op_type (by rcases hks with rfl | rfl | rfl | rfl | rfl | rfl | rfl <;> rfl) ht
    have h6 : litType env (ops env n) K none = .ok (some ty) := by
      rcases hks with rfl | rfl | rfl | rfl | rfl | rfl | rfl <;>
      · simp only [fixedKind, Option.some.injEq] at hk
        subst hk
        simp only [litOpType] at h4
        split at h4
        · simp at h4
        · exact h4
    have hgr := (closed_iff tp).mp hc
    rw [litType, hr] at h6
    simp [hgr] at h6
    subst h6
    have hval : IsValue tp := by
      rw [value_of_closed hc]
      cases he : tp.evaluatable with
      | false => rfl
      | true => exact absurd ⟨hgr, he⟩ h5
    exact ⟨lit_type (by rw [hl]; exact hK) (by rw [hl]; exact hr) hc hval, rfl⟩

/-- **C55** for `eo::hash` and `eo::nameof`: if the category of the result has a closed type rule, the value has the type of the
application. -/
theorem C55_symbol_partial {env : Env} {k K : Kind} {args : List Term} {v ty tp : Term} (hk : (k = EVAL_HASH ∧ K = NUMERAL) ∨ (k = EVAL_NAME_OF ∧ K = STRING))
    (hr : env.litRule K = some tp) (hc : Closed tp)
    (ht : TypeResult env (.node k args) (some ty)) (hv : OpResult env k args (some v)) :
    TypeResult env v (some ty) ∧ ty = tp := by
  have hl : ∃ l : Lit, v = .lit l ∧ l.kind = K := by
    obtain ⟨m, hm⟩ := hv
    cases m with
    | zero => simp [ops] at hm
    | succ m =>
      replace hm : opStep env (ops env m) k args = .ok (some v) := hm
      rcases hk with ⟨rfl, rfl⟩ | ⟨rfl, rfl⟩
      all_goals
        simp only [opStep] at hm
        split at hm
        · simp at hm
      · simp only [evalGround] at hm
        obtain ⟨a, _, h2⟩ := map_ok hm
        split at h2
        · simp at h2
        · simp only [Option.some.injEq] at h2
          exact ⟨_, h2.symm, rfl⟩
      · simp only [evalGround] at hm
        obtain ⟨a, _, h2⟩ := bind_ok hm
        split at h2
        · simp only [Out.ok.injEq, Option.some.injEq] at h2
          exact ⟨_, h2.symm, rfl⟩
        · obtain ⟨ls, l, h3, h4, rfl⟩ := values_lit rfl h2
          unfold Lit.evaluate at h4
          split at h4
          · simp at h4
          · split at h4 <;> simp at h4
  obtain ⟨l, rfl, hl⟩ := hl
  have hlit : isLiteralOp k = true := by rcases hk with ⟨rfl, -⟩ | ⟨rfl, -⟩ <;> rfl
  obtain ⟨n, cts, h3, h4, h5⟩ := op_type hlit ht
  have h6 : litType env (ops env n) K none = .ok (some ty) := by
    rcases hk with ⟨rfl, rfl⟩ | ⟨rfl, rfl⟩ <;>
    · simp only [litOpType] at h4
      split at h4
      · simp at h4
      · exact h4
  have hgr := (closed_iff tp).mp hc
  rw [litType, hr] at h6
  simp [hgr] at h6
  subst h6
  have hval : IsValue tp := by
    rw [value_of_closed hc]
    cases he : tp.evaluatable with
    | false => rfl
    | true => exact absurd ⟨hgr, he⟩ h5
  have hK : K ≠ BOOLEAN := by rcases hk with ⟨-, rfl⟩ | ⟨-, rfl⟩ <;> decide
  exact ⟨lit_type (by rw [hl]; exact hK) (by rw [hl]; exact hr) hc hval, rfl⟩

/-- **C55** for `eo::var`, in an environment in which a variable of type `T` has this type -/
theorem C55_var_partial {env : Env} {x T v ty : Term} (hb : ∀ x, env.symType (env.boundVar x T) = some T ∧ ∃ i, env.boundVar x T = .sym VARIABLE i)
    (ht : TypeResult env (.node EVAL_VAR [x, T]) (some ty)) (hv : OpResult env EVAL_VAR [x, T] (some v)) :
    TypeResult env v (some ty) ∧ ty = T := by
  obtain ⟨n, cts, h3, h4, h5⟩ := op_type rfl ht
  have hT : ty = T := by
    simp only [litOpType] at h4
    split at h4
    · simp at h4
    · simp [argO, Out.map] at h4
      exact h4.symm
  subst hT
  refine ⟨?_, rfl⟩
  obtain ⟨m, hm⟩ := hv
  cases m with
  | zero => simp [ops] at hm
  | succ m =>
    replace hm : opStep env (ops env m) EVAL_VAR [x, ty] = .ok (some v) := hm
    have var : ∀ x, TypeResult env (env.boundVar x ty) (some ty) := by
      intro x
      obtain ⟨h8, i, h9⟩ := hb x
      refine ⟨1, ?_⟩
      rw [h9] at h8 ⊢
      simp only [ops, typeStep, h8]
    have lit : evalValues env (ops env m) EVAL_VAR [x, ty] ≠ .ok (some v) := by
      intro h
      obtain ⟨ls, l, h3, h4, rfl⟩ := values_lit rfl h
      unfold Lit.evaluate at h4
      split at h4
      · simp at h4
      · split at h4 <;> simp at h4
    simp only [opStep] at hm
    split at hm
    · simp at hm
    · simp only [evalGround] at hm
      obtain ⟨a, h6, hm⟩ := bind_ok hm
      split at hm
      · obtain ⟨t, h7, hm⟩ := bind_ok hm
        have : t = ty := by simpa [argO] using h7.symm
        subst this
        split at hm
        · exact absurd hm lit
        · obtain ⟨tt, _, hm⟩ := bind_ok hm
          split at hm
          · split at hm
            · cases hm
              exact var _
            · exact absurd hm lit
          · exact absurd hm lit
      · exact absurd hm lit

/- the hypotheses of the theorems above are met -/
example : TypeResult exTyEnv (.node EVAL_REQUIRES [boolVal true, boolVal true, cA]) (some tyInt) ∧
    OpResult exTyEnv EVAL_REQUIRES [boolVal true, boolVal true, cA] (some cA) := ⟨⟨5, rfl⟩, ⟨5, rfl⟩⟩
example : TypeResult exTyEnv (.node EVAL_IS_EQ [cA, cB]) (some tBool) ∧
    OpResult exTyEnv EVAL_IS_EQ [cA, cB] (some (boolVal false)) := ⟨⟨5, rfl⟩, ⟨5, rfl⟩⟩
/-- an environment in which every literal has the type `Int` -/
def exLitEnv : Env := { exTyEnv with litRule := fun _ => some tyInt }
example : ∀ l : Lit, l.kind ≠ BOOLEAN → ∃ tp, exLitEnv.litRule l.kind = some tp ∧ Closed tp :=
  fun _ _ => ⟨tyInt, rfl, (closed_iff _).mpr rfl⟩
example : TypeResult exLitEnv (.node EVAL_ADD [.lit (.num 1), .lit (.num 2)]) (some tyInt) ∧
    OpResult exLitEnv EVAL_ADD [.lit (.num 1), .lit (.num 2)] (some (.lit (.num 3))) := ⟨⟨5, rfl⟩, ⟨5, rfl⟩⟩
example : TypeResult exLitEnv (.node EVAL_LENGTH [.lit (.str [1, 2])]) (some tyInt) ∧
    OpResult exLitEnv EVAL_LENGTH [.lit (.str [1, 2])] (some (.lit (.num 2))) := ⟨⟨5, rfl⟩, ⟨5, rfl⟩⟩
example : TypeResult exLitEnv (.node EVAL_HASH [cA]) (some tyInt) ∧ OpResult exLitEnv EVAL_HASH [cA] (some (.lit (.num 0))) := ⟨⟨5, rfl⟩, ⟨5, rfl⟩⟩
example : TypeResult exLitEnv (.node EVAL_NAME_OF [cA]) (some tyInt) ∧ OpResult exLitEnv EVAL_NAME_OF [cA] (some (.lit (.str []))) := ⟨⟨5, rfl⟩, ⟨5, rfl⟩⟩

/-- an environment with variables of the type `Int` -/
def exVarEnv : Env := { exLitEnv with
  boundVar := fun _ _ => .sym VARIABLE 50
  symType := fun t => if t = .sym VARIABLE 50 then some tyInt else exTyEnv.symType t }
example : (∀ x, exVarEnv.symType (exVarEnv.boundVar x tyInt) = some tyInt ∧ ∃ i, exVarEnv.boundVar x tyInt = .sym VARIABLE i) ∧
    TypeResult exVarEnv (.node EVAL_VAR [.lit (.str [97]), tyInt]) (some tyInt) ∧
    OpResult exVarEnv EVAL_VAR [.lit (.str [97]), tyInt] (some (.sym VARIABLE 50)) := ⟨fun _ => ⟨rfl, _, rfl⟩, ⟨5, rfl⟩, ⟨5, rfl⟩⟩

/-- **C55** fails for `eo::nil`: the application has the type that is written in it, the value is the terminator -/
theorem C55_nil_refuted : ∃ (env : Env) (f T v ty ty' : Term), TypeResult env (.node EVAL_NIL [f, T]) (some ty) ∧
    OpResult env EVAL_NIL [f, T] (some v) ∧ TypeResult env v (some ty') ∧ ty ≠ ty' :=
  ⟨{ exTyEnv with appInfo := fun t => if t = cP then some ⟨.RIGHT_ASSOC_NIL, some cA, NONE, none⟩ else none }, cP, tyReal, cA, tyReal, tyInt,
    ⟨5, rfl⟩, ⟨5, rfl⟩, ⟨5, rfl⟩, by decide⟩

end Ethos.Props
