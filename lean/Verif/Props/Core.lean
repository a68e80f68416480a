import Verif.Props.Eval
import Verif.Props.Conversions
/-
C11: eo::eq, eo::is_eq, eo::is_ok, eo::requires.  C12: category testers.
-/
namespace Ethos.Props
open Ethos Kind Spec

/-- a term without parameters and unknowns -/
def Closed (t : Term) : Prop := ∀ s, Sub s t → ¬ IsParam s ∧ ¬ IsAny s

theorem closed_iff (t : Term) : Closed t ↔ t.ground = true := (ground_iff t).symm

theorem value_closed {t : Term} (h : IsValue t) : Closed t := fun s hs => ⟨(h s hs).1, (h s hs).2.1⟩

/-- for closed terms, values are the terms that are not evaluatable -/
theorem value_of_closed {t : Term} (h : Closed t) : IsValue t ↔ t.evaluatable = false := by
  rw [isValue_iff, (closed_iff t).mp h]; simp

/-- **C11** `eo::is_ok` on a closed term says whether it is a value. -/
theorem C11_is_ok (env : Env) (a : Term) (ha : Closed a) :
    ∃ b, OpResult env EVAL_IS_OK [a] (some (boolVal b)) ∧ (b = true ↔ IsValue a) := by
  have hg := (closed_iff a).mp ha
  refine ⟨!a.evaluatable, ⟨1, ?_⟩, ?_⟩
  · simp [ops, opStep, hg, evalGround, argO, Out.map, mkBool, boolVal]
  · rw [value_of_closed ha]; simp

/-- **C11** `eo::eq` decides syntactic equality of values. -/
theorem C11_eq_values (env : Env) (a b : Term) (ha : IsValue a) (hb : IsValue b) :
    OpResult env EVAL_EQ [a, b] (some (boolVal (decide (a = b)))) := by
  obtain ⟨h1, h2⟩ := (isValue_iff a).mp ha
  obtain ⟨h3, h4⟩ := (isValue_iff b).mp hb
  exact ⟨1, by simp [ops, opStep, evalGround, h1, h2, h3, h4, argO, Out.map, Out.bind, mkBool, boolVal]⟩

/-- **C11** `eo::eq` does not evaluate unless both arguments are values. -/
theorem C11_eq_else (env : Env) (a b : Term) (h : ¬ (IsValue a ∧ IsValue b)) : OpResult env EVAL_EQ [a, b] none := by
  rw [isValue_iff, isValue_iff] at h
  refine ⟨1, ?_⟩
  cases h1 : a.ground <;> cases h2 : a.evaluatable <;> cases h3 : b.ground <;> cases h4 : b.evaluatable <;>
    simp_all [ops, opStep, evalGround, argO, Out.map, Out.bind]

/-- **C11** `eo::is_eq` on closed arguments is true exactly for two equal values. -/
theorem C11_is_eq (env : Env) (a b : Term) (ha : Closed a) (hb : Closed b) :
    ∃ r, OpResult env EVAL_IS_EQ [a, b] (some (boolVal r)) ∧ (r = true ↔ IsValue a ∧ a = b) := by
  have hga := (closed_iff a).mp ha
  have hgb := (closed_iff b).mp hb
  rw [value_of_closed ha]
  cases h : a.evaluatable with
  | true =>
    exact ⟨false, ⟨1, by simp [ops, opStep, evalGround, hga, hgb, argO, Out.bind, h, mkBool, boolVal]⟩, by simp⟩
  | false =>
    refine ⟨!b.evaluatable && decide (a = b),
      ⟨1, by simp [ops, opStep, evalGround, hga, hgb, argO, Out.bind, Out.map, h, mkBool, boolVal]⟩, ?_⟩
    simp only [Bool.and_eq_true, Bool.not_eq_true', decide_eq_true_eq, true_and]
    constructor
    · exact fun h => h.2
    · rintro rfl; exact ⟨h, rfl⟩

/-- **C11** `eo::is_eq` does not evaluate on arguments with parameters. -/
theorem C11_is_eq_open (env : Env) (a b : Term) (h : ¬ (Closed a ∧ Closed b)) : OpResult env EVAL_IS_EQ [a, b] none := by
  rw [closed_iff, closed_iff] at h
  refine ⟨1, ?_⟩
  cases h1 : a.ground <;> cases h3 : b.ground <;> simp_all [ops, opStep]

/-- **C11** `eo::requires` returns its third argument (any term) exactly when the first two are the same
value, and does not evaluate otherwise. -/
theorem C11_requires (env : Env) (a b c : Term) :
    (IsValue a ∧ a = b → OpResult env EVAL_REQUIRES [a, b, c] (some c)) ∧
    (¬ (IsValue a ∧ a = b) → OpResult env EVAL_REQUIRES [a, b, c] none) := by
  constructor
  · rintro ⟨h, rfl⟩
    obtain ⟨h1, h2⟩ := (isValue_iff a).mp h
    exact ⟨1, by simp [ops, opStep, argO, Out.bind, Out.map, h1, h2]⟩
  · intro h
    rw [isValue_iff] at h
    refine ⟨1, ?_⟩
    by_cases hab : a = b
    · subst hab
      cases h1 : a.ground <;> cases h2 : a.evaluatable <;> simp_all [ops, opStep, argO, Out.bind, Out.map]
    · cases h1 : a.ground <;> cases h2 : a.evaluatable <;> simp_all [ops, opStep, argO, Out.bind, Out.map]

/-- **C11** `eo::requires` agrees with `eo::is_eq` (the manual's definition) on closed arguments. -/
theorem C11_requires_is_eq (env : Env) (a b c : Term) (ha : Closed a) (hb : Closed b) :
    OpResult env EVAL_REQUIRES [a, b, c] (some c) ↔ OpResult env EVAL_IS_EQ [a, b] (some (boolVal true)) := by
  obtain ⟨r, h1, h2⟩ := C11_is_eq env a b ha hb
  obtain ⟨h3, h4⟩ := C11_requires env a b c
  by_cases hv : IsValue a ∧ a = b
  · have := h2.mpr hv; subst this
    exact ⟨fun _ => h1, fun _ => h3 hv⟩
  · constructor
    · intro h; have := OpResult.det _ _ _ _ h (h4 hv); simp at this
    · intro h
      have := OpResult.det _ _ _ _ h h1
      simp only [Option.some.injEq, boolVal, Term.lit.injEq, Lit.bool.injEq] at this
      exact absurd (h2.mp this.symm) hv

/-- `a` and `b` are values, `(f a b)` is one, `(eo::neg x)` is not closed, `(p a)` is closed but not a value -/
example : IsValue (fapp sA sB) ∧ Closed (.node APPLY [sP, sA]) ∧ ¬ IsValue (.node APPLY [sP, sA]) ∧
    ¬ Closed (.node EVAL_NEG [sX]) := by
  rw [isValue_iff, isValue_iff, closed_iff, closed_iff]; decide

/-! ## C12 -/

/-- evaluation of a builtin operator applied to values -/
theorem op_on_values (env : Env) (ctx : Ctx) (k : Kind) (args : List Term) (hk : isLiteralOp k = true)
    (hite : k ≠ EVAL_IF_THEN_ELSE) (hne : args ≠ []) (hv : ∀ a ∈ args, IsValue a) :
    (∀ v, OpResult env k args (some v) → EvaluatesTo env ctx (.node k args) v) ∧
    (OpResult env k args none → EvaluatesTo env ctx (.node k args) (.node k args)) := by
  have hL := evalList_values (O := OpResult env) (P := ProgResult env) ctx args hv
  constructor
  · intro v h
    rw [evaluatesTo_iff]; exact .op _ _ _ _ _ hk hite hne hL h
  · intro h
    rw [evaluatesTo_iff]; exact .opStuck _ _ _ _ hk hite hne hL h

theorem value_eval (env : Env) (ctx : Ctx) (t : Term) (h : IsValue t) : EvaluatesTo env ctx t t := by
  obtain ⟨h1, h2⟩ := (isValue_iff t).mp h
  rw [evaluatesTo_iff]; exact Eval.self _ _ h2 (.inl h1)

theorem lit_value (l : Lit) : IsValue (.lit l) := by
  rw [isValue_iff]; exact ⟨by rw [ground_leaf _ rfl]; simp [Term.kind, Lit.kind_not_nonground], by rw [evaluatable_leaf _ rfl]; simp [Term.kind, Lit.kind_not_eval]⟩

/-- the result of a tester -/
theorem tester_result (env : Env) (k : Kind) (t : Term) (hk : k = EVAL_IS_Z ∨ k = EVAL_IS_Q ∨ k = EVAL_IS_BIN ∨ k = EVAL_IS_STR ∨
    k = EVAL_IS_BOOL ∨ k = EVAL_IS_VAR) (ht : Closed t) :
    OpResult env k [t] (some (boolVal (decide (t.kind = testerKind k)))) := by
  have hg := (closed_iff t).mp ht
  rcases hk with rfl | rfl | rfl | rfl | rfl | rfl <;>
    exact ⟨1, by simp [ops, opStep, evalGround, hg, argO, Out.map, mkBool, boolVal]⟩

/-- an operator on literals whose operands are all literals -/
theorem litop_result (env : Env) (k : Kind) (ls : List Lit) (r : Option Lit)
    (hk : ∀ o, evalGround env o k (ls.map Term.lit) = evalValues env o k (ls.map Term.lit))
    (hk1 : k ≠ EVAL_IF_THEN_ELSE) (hk2 : k ≠ EVAL_REQUIRES) (ha : checkArity k ls.length = true)
    (he : Lit.evaluate k ls = match r with | some l => .val l | none => .null) :
    OpResult env k (ls.map Term.lit) (r.map Term.lit) := by
  refine ⟨1, ?_⟩
  show opStep env (ops env 0) k _ = _
  have hg : ((ls.map Term.lit).any fun e => !e.ground) = false := by
    rw [List.any_eq_false]
    intro e hm
    obtain ⟨l, _, rfl⟩ := List.mem_map.mp hm
    simp [((isValue_iff _).mp (lit_value l)).1]
  have hall : allLits (ls.map Term.lit) = some ls := by
    clear hk ha he hg
    induction ls with
    | nil => rfl
    | cons l ls ih => simp [allLits, asLit, ih]
  have hs : opStep env (ops env 0) k (ls.map Term.lit) = evalGround env (ops env 0) k (ls.map Term.lit) := by
    unfold opStep
    split
    · exact absurd rfl hk1
    · exact absurd rfl hk2
    · rw [hg]; rfl
  rw [hs, hk, evalValues]
  simp only [hall, List.length_map, ha]
  rw [he]
  cases r <;> rfl

/-- an operator that is not a list operator does not evaluate if some argument is a value but not a literal -/
theorem nonlit_result (env : Env) (k : Kind) (args : List Term)
    (hk : ∀ o, evalGround env o k args = evalValues env o k args)
    (hk1 : k ≠ EVAL_IF_THEN_ELSE) (hk2 : k ≠ EVAL_REQUIRES) (hl : isListLiteralOp k = false) (hn : allLits args = none) :
    OpResult env k args none := by
  refine ⟨1, ?_⟩
  show opStep env (ops env 0) k _ = _
  unfold opStep
  split
  · exact absurd rfl hk1
  · exact absurd rfl hk2
  · split
    · rfl
    · rw [hk, evalValues, hn]
      simp [hl]

/-- evaluation of `(eo::is_eq (k t) t)` for a value `t`, where `(k t)` gives `r` -/
theorem is_eq_derived (env : Env) (ctx : Ctx) (c : Term) (c' t : Term) (ht : IsValue t)
    (hc : EvaluatesTo env ctx c c') (hcl : Closed c') :
    ∃ r, EvaluatesTo env ctx (.node EVAL_IS_EQ [c, t]) (boolVal r) ∧ (r = true ↔ c' = t) := by
  obtain ⟨r, h1, h2⟩ := C11_is_eq env c' t hcl (value_closed ht)
  refine ⟨r, ?_, ?_⟩
  · exact (C31_operator env ctx EVAL_IS_EQ [(c, c'), (t, t)] rfl (by simp) (by simp)
      (by simp only [List.mem_cons, List.not_mem_nil, or_false, forall_eq_or_imp, forall_eq]; exact ⟨hc, value_eval _ _ _ ht⟩) _).mpr (.inl h1)
  · rw [h2]
    constructor
    · exact fun h => h.2
    · rintro rfl; exact ⟨ht, rfl⟩

theorem asLit_none {t : Term} (h : ∀ l, t ≠ .lit l) : allLits [t] = none := by
  cases t with
  | lit l => exact absurd rfl (h l)
  | sym => rfl
  | node => rfl

theorem kind_lit {t : Term} {l : Lit} : t = .lit l → t.kind = l.kind := by rintro rfl; rfl

/-- a value of a literal kind is a literal (literal kinds occur as literals only) -/
def LitKinds (t : Term) : Prop := (t.kind = NUMERAL ∨ t.kind = RATIONAL ∨ t.kind = BINARY ∨ t.kind = STRING ∨ t.kind = BOOLEAN) →
  ∃ l, t = .lit l

theorem not_value_node (k : Kind) (args : List Term) (hk : isLiteralOp k = true) (hne : args ≠ []) : ¬ IsValue (.node k args) :=
  fun h => (h _ (.refl _)).2.2 (.inr ⟨hk, hne⟩)

/-- shape shared by `is_z`, `is_q` and `is_str` -/
theorem unary_tester (env : Env) (ctx : Ctx) (kt kc : Kind) (t : Term) (ht : IsValue t) (hlk : LitKinds t)
    (hkt : kt = EVAL_IS_Z ∨ kt = EVAL_IS_Q ∨ kt = EVAL_IS_BIN ∨ kt = EVAL_IS_STR ∨ kt = EVAL_IS_BOOL ∨ kt = EVAL_IS_VAR)
    (hcat : testerKind kt = NUMERAL ∨ testerKind kt = RATIONAL ∨ testerKind kt = BINARY ∨ testerKind kt = STRING ∨ testerKind kt = BOOLEAN)
    (hlit : isLiteralOp kc = true)
    (hk : ∀ o args, evalGround env o kc args = evalValues env o kc args)
    (hk1 : kc ≠ EVAL_IF_THEN_ELSE) (hk2 : kc ≠ EVAL_REQUIRES) (hl : isListLiteralOp kc = false)
    (ha : checkArity kc 1 = true)
    (hval : ∀ l, ∃ r : Option Lit, (Lit.evaluate kc [l] = match r with | some l => .val l | none => .null) ∧
      (r = some l ↔ l.kind = testerKind kt)) :
    ∃ b, OpResult env kt [t] (some (boolVal b)) ∧
      EvaluatesTo env ctx (.node EVAL_IS_EQ [.node kc [t], t]) (boolVal b) := by
  refine ⟨_, tester_result env kt t hkt (value_closed ht), ?_⟩
  have hcon : ∀ c', EvaluatesTo env ctx (.node kc [t]) c' → Closed c' → (c' = t ↔ t.kind = testerKind kt) →
      EvaluatesTo env ctx (.node EVAL_IS_EQ [.node kc [t], t]) (boolVal (decide (t.kind = testerKind kt))) := by
    intro c' h1 h2 h3
    obtain ⟨r, h4, h5⟩ := is_eq_derived env ctx _ c' t ht h1 h2
    have : r = decide (t.kind = testerKind kt) := by
      rw [Bool.eq_iff_iff, h5, h3]; simp
    rw [← this]; exact h4
  by_cases hlit' : ∃ l, t = .lit l
  · obtain ⟨l, rfl⟩ := hlit'
    obtain ⟨r, h1, h2⟩ := hval l
    have hr := litop_result env kc [l] r (fun o => hk o _) hk1 hk2 ha h1
    obtain ⟨h3, h4⟩ := op_on_values env ctx kc [.lit l] hlit hk1 (by simp) (by simp [lit_value])
    cases r with
    | none =>
      refine hcon _ (h4 hr) ?_ ?_
      · rw [closed_iff, ground_inner _ (by simp [Term.children])]
        simp [Term.children, ((isValue_iff _).mp (lit_value l)).1]
      · simp only [reduceCtorEq, false_iff] at h2
        simp only [reduceCtorEq, false_iff]
        exact h2
    | some l' =>
      refine hcon _ (h3 _ hr) (value_closed (lit_value l')) ?_
      simp only [Option.some.injEq] at h2
      simp only [Term.lit.injEq]
      exact h2
  · have hno : ∀ l, t ≠ .lit l := fun l h => hlit' ⟨l, h⟩
    have hr := nonlit_result env kc [t] (fun o => hk o _) hk1 hk2 hl (asLit_none hno)
    obtain ⟨_, h4⟩ := op_on_values env ctx kc [t] hlit hk1 (by simp) (by simpa using ht)
    refine hcon _ (h4 hr) ?_ ?_
    · rw [closed_iff, ground_inner _ (by simp [Term.children])]
      simp [Term.children, ((isValue_iff _).mp ht).1]
    · constructor
      · intro h
        have := not_value_node kc [t] hlit (by simp)
        rw [h] at this
        exact absurd ht this
      · intro h
        refine absurd (hlk ?_) hlit'
        rw [h]; exact hcat

/-- **C12** `eo::is_z` is its derived definition `(eo::is_eq (eo::to_z t) t)`, for every value `t`. -/
theorem C12_is_z (env : Env) (ctx : Ctx) (t : Term) (ht : IsValue t) (hlk : LitKinds t) :
    ∃ b, OpResult env EVAL_IS_Z [t] (some (boolVal b)) ∧
      EvaluatesTo env ctx (.node EVAL_IS_EQ [.node EVAL_TO_INT [t], t]) (boolVal b) := by
  refine unary_tester env ctx EVAL_IS_Z EVAL_TO_INT t ht hlk (by simp) (by simp [testerKind]) rfl (fun _ _ => rfl) (by simp)
    (by simp) rfl rfl ?_
  intro l
  cases l with
  | num z => exact ⟨some (.num z), by simp [Lit.evaluate, Lit.allSameKind, Lit.kind], by simp [Lit.kind, testerKind]⟩
  | dec q => exact ⟨some (.num (Rational.floor q)), by simp [Lit.evaluate, Lit.allSameKind, Lit.kind], by simp [Lit.kind, testerKind]⟩
  | rat q => exact ⟨some (.num (Rational.floor q)), by simp [Lit.evaluate, Lit.allSameKind, Lit.kind], by simp [Lit.kind, testerKind]⟩
  | bin b => exact ⟨some (.num b.value), by simp [Lit.evaluate, Lit.allSameKind, Lit.kind], by simp [Lit.kind, testerKind]⟩
  | hex b => exact ⟨none, by simp [Lit.evaluate, Lit.allSameKind, Lit.kind], by simp [Lit.kind, testerKind]⟩
  | bool b => exact ⟨none, by simp [Lit.evaluate, Lit.allSameKind, Lit.kind], by simp [Lit.kind, testerKind]⟩
  | str s =>
    match s with
    | [] => exact ⟨none, by simp [Lit.evaluate, Lit.allSameKind, Lit.kind], by simp [Lit.kind, testerKind]⟩
    | [c] => exact ⟨some (.num c), by simp [Lit.evaluate, Lit.allSameKind, Lit.kind], by simp [Lit.kind, testerKind]⟩
    | _ :: _ :: _ => exact ⟨none, by simp [Lit.evaluate, Lit.allSameKind, Lit.kind], by simp [Lit.kind, testerKind]⟩

/-- **C12** `eo::is_q` is its derived definition `(eo::is_eq (eo::to_q t) t)`, for every value `t`. -/
theorem C12_is_q (env : Env) (ctx : Ctx) (t : Term) (ht : IsValue t) (hlk : LitKinds t) :
    ∃ b, OpResult env EVAL_IS_Q [t] (some (boolVal b)) ∧
      EvaluatesTo env ctx (.node EVAL_IS_EQ [.node EVAL_TO_RAT [t], t]) (boolVal b) := by
  refine unary_tester env ctx EVAL_IS_Q EVAL_TO_RAT t ht hlk (by simp) (by simp [testerKind]) rfl (fun _ _ => rfl) (by simp)
    (by simp) rfl rfl ?_
  intro l
  cases l with
  | num z => exact ⟨some (.rat z), by simp [Lit.evaluate, Lit.allSameKind, Lit.kind], by simp [Lit.kind, testerKind]⟩
  | dec q => exact ⟨some (.rat q), by simp [Lit.evaluate, Lit.allSameKind, Lit.kind], by simp [Lit.kind, testerKind]⟩
  | rat q => exact ⟨some (.rat q), by simp [Lit.evaluate, Lit.allSameKind, Lit.kind], by simp [Lit.kind, testerKind]⟩
  | bin b => exact ⟨none, by simp [Lit.evaluate, Lit.allSameKind, Lit.kind], by simp [Lit.kind, testerKind]⟩
  | hex b => exact ⟨none, by simp [Lit.evaluate, Lit.allSameKind, Lit.kind], by simp [Lit.kind, testerKind]⟩
  | bool b => exact ⟨none, by simp [Lit.evaluate, Lit.allSameKind, Lit.kind], by simp [Lit.kind, testerKind]⟩
  | str s => exact ⟨none, by simp [Lit.evaluate, Lit.allSameKind, Lit.kind], by simp [Lit.kind, testerKind]⟩

/-- **C12** `eo::is_str` is its derived definition `(eo::is_eq (eo::to_str t) t)`, for every value `t`. -/
theorem C12_is_str (env : Env) (ctx : Ctx) (t : Term) (ht : IsValue t) (hlk : LitKinds t) :
    ∃ b, OpResult env EVAL_IS_STR [t] (some (boolVal b)) ∧
      EvaluatesTo env ctx (.node EVAL_IS_EQ [.node EVAL_TO_STRING [t], t]) (boolVal b) := by
  refine unary_tester env ctx EVAL_IS_STR EVAL_TO_STRING t ht hlk (by simp) (by simp [testerKind]) rfl (fun _ _ => rfl) (by simp)
    (by simp) rfl rfl ?_
  intro l
  have he : Lit.evaluate EVAL_TO_STRING [l] = Lit.evalToString l := by
    cases l <;> simp [Lit.evaluate, Lit.allSameKind, Lit.kind]
  rw [he]
  cases l with
  | num z =>
    by_cases hz : Integer.fitsUnsignedInt z = true ∧ Integer.toUnsignedInt z < Str.numCodes
    · exact ⟨some (.str [Integer.toUnsignedInt z]), by simp [Lit.evalToString, hz], by simp [Lit.kind, testerKind]⟩
    · exact ⟨some (.str (Str.toInternal (Lit.toString (.num z)) false)), by
        simp only [Lit.evalToString]; rw [if_neg hz], by simp [Lit.kind, testerKind]⟩
  | dec q => exact ⟨some (.str _), rfl, by simp [Lit.kind, testerKind]⟩
  | rat q => exact ⟨some (.str _), rfl, by simp [Lit.kind, testerKind]⟩
  | bin b => exact ⟨some (.str _), rfl, by simp [Lit.kind, testerKind]⟩
  | hex b => exact ⟨some (.str _), rfl, by simp [Lit.kind, testerKind]⟩
  | bool b => exact ⟨none, rfl, by simp [Lit.kind, testerKind]⟩
  | str s => exact ⟨some (.str s), rfl, by simp [Lit.kind, testerKind]⟩

/-- `(eo::to_bin (eo::len t) t)` for a value `t` -/
theorem to_bin_derived (env : Env) (ctx : Ctx) (t : Term) (ht : IsValue t) (hlk : LitKinds t)
    (hwf : ∀ l, t = .lit l → WfLit l) :
    ∃ c, EvaluatesTo env ctx (.node EVAL_TO_BIN [.node EVAL_LENGTH [t], t]) c ∧ Closed c ∧ (c = t ↔ t.kind = BINARY) := by
  have hstuck : ∀ a, IsValue a ∨ a = .node EVAL_LENGTH [t] → EvaluatesTo env ctx (.node EVAL_LENGTH [t]) a →
      OpResult env EVAL_TO_BIN [a, t] none → t.kind ≠ BINARY →
      ∃ c, EvaluatesTo env ctx (.node EVAL_TO_BIN [.node EVAL_LENGTH [t], t]) c ∧ Closed c ∧ (c = t ↔ t.kind = BINARY) := by
    intro a hav ha hn hk
    refine ⟨.node EVAL_TO_BIN [a, t], ?_, ?_, ?_⟩
    · exact (C31_operator env ctx EVAL_TO_BIN [(.node EVAL_LENGTH [t], a), (t, t)] rfl (by simp) (by simp)
        (by simp only [List.mem_cons, List.not_mem_nil, or_false, forall_eq_or_imp, forall_eq]; exact ⟨ha, value_eval _ _ _ ht⟩) _).mpr
        (.inr ⟨hn, rfl⟩)
    · have hga : a.ground = true := by
        rcases hav with h | rfl
        · exact ((isValue_iff _).mp h).1
        · rw [ground_inner _ (by simp [Term.children])]
          simp [Term.children, ((isValue_iff _).mp ht).1]
      rw [closed_iff, ground_inner _ (by simp [Term.children])]
      simp [Term.children, hga, ((isValue_iff _).mp ht).1]
    · constructor
      · intro h
        have := not_value_node EVAL_TO_BIN [a, t] rfl (by simp)
        rw [h] at this
        exact absurd ht this
      · intro h; exact absurd h hk
  obtain ⟨h3, h4⟩ := op_on_values env ctx EVAL_LENGTH [t] rfl (by simp) (by simp) (by simpa using ht)
  by_cases hlit : ∃ l, t = .lit l
  · obtain ⟨l, rfl⟩ := hlit
    have hlen : ∀ r, (Lit.evaluate EVAL_LENGTH [l] = match r with | some l => .val l | none => .null) →
        OpResult env EVAL_LENGTH [.lit l] (r.map Term.lit) :=
      fun r h => litop_result env EVAL_LENGTH [l] r (fun o => rfl) (by simp) (by simp) rfl h
    have hnone : l.kind ≠ BINARY → Lit.evaluate EVAL_LENGTH [l] = .null →
        ∃ c, EvaluatesTo env ctx (.node EVAL_TO_BIN [.node EVAL_LENGTH [.lit l], .lit l]) c ∧ Closed c ∧
          (c = .lit l ↔ (Term.lit l).kind = BINARY) := by
      intro hk he
      exact hstuck _ (.inr rfl) (h4 (hlen none he)) (nonlit_result env EVAL_TO_BIN _ (fun _ => rfl) (by simp) (by simp) rfl rfl) hk
    cases l with
    | bin b =>
      have hw : b.size < 2^32 ∧ b.value < 2^b.size := (hwf _ rfl).symm
      have hl := h3 _ (hlen (some (.num b.size)) (by simp [Lit.evaluate, Lit.allSameKind, Lit.kind]))
      have hb : BV.mk' b.size b.value = b := by
        obtain ⟨w, v⟩ := b
        rw [mk'_eq]
        simp only [bvOf, BV.mk.injEq, true_and]
        have := hw.2
        simp only at this
        simp [Nat.mod_eq_of_lt this]
      have hf : Integer.fitsUnsignedInt (b.size : Int) = true ∧ Integer.toUnsignedInt (b.size : Int) = b.size := by
        have := hw.1
        constructor
        · simp [Integer.fitsUnsignedInt]; omega
        · simp [Integer.toUnsignedInt]; omega
      have hr := litop_result env EVAL_TO_BIN [.num b.size, .bin b] (some (.bin b)) (fun o => rfl) (by simp) (by simp) rfl
        (by simp [Lit.evaluate, hf, hb])
      refine ⟨.lit (.bin b), ?_, value_closed (lit_value _), by simp [Term.kind, Lit.kind]⟩
      exact (C31_operator env ctx EVAL_TO_BIN [(.node EVAL_LENGTH [.lit (.bin b)], .lit (.num b.size)), (.lit (.bin b), .lit (.bin b))]
        rfl (by simp) (by simp)
        (by simp only [List.mem_cons, List.not_mem_nil, or_false, forall_eq_or_imp, forall_eq]; exact ⟨hl, value_eval _ _ _ ht⟩) _).mpr
        (.inl hr)
    | str s =>
      have hl := h3 _ (hlen (some (.num (u32 s.length))) (by simp [Lit.evaluate, Lit.allSameKind, Lit.kind]))
      refine hstuck _ (.inl (lit_value _)) hl ?_ (by simp [Term.kind, Lit.kind])
      refine litop_result env EVAL_TO_BIN [.num (u32 s.length), .str s] none (fun o => rfl) (by simp) (by simp) rfl ?_
      simp only [Lit.evaluate]
      split <;> simp
    | num z => exact hnone (by simp [Lit.kind]) (by simp [Lit.evaluate, Lit.allSameKind, Lit.kind])
    | dec z => exact hnone (by simp [Lit.kind]) (by simp [Lit.evaluate, Lit.allSameKind, Lit.kind])
    | rat z => exact hnone (by simp [Lit.kind]) (by simp [Lit.evaluate, Lit.allSameKind, Lit.kind])
    | hex z => exact hnone (by simp [Lit.kind]) (by simp [Lit.evaluate, Lit.allSameKind, Lit.kind])
    | bool z => exact hnone (by simp [Lit.kind]) (by simp [Lit.evaluate, Lit.allSameKind, Lit.kind])
  · have hno : ∀ l, t ≠ .lit l := fun l h => hlit ⟨l, h⟩
    have hr := nonlit_result env EVAL_LENGTH [t] (fun _ => rfl) (by simp) (by simp) rfl (asLit_none hno)
    exact hstuck _ (.inr rfl) (h4 hr) (nonlit_result env EVAL_TO_BIN _ (fun _ => rfl) (by simp) (by simp) rfl rfl)
      (fun h => hlit (hlk (by simp [h])))

/-- **C12** `eo::is_bin` is its derived definition `(eo::is_eq (eo::to_bin (eo::len t) t) t)`, for every value `t`
(bit-vector literals being well-formed, which C07 shows of every reachable literal). -/
theorem C12_is_bin (env : Env) (ctx : Ctx) (t : Term) (ht : IsValue t) (hlk : LitKinds t) (hwf : ∀ l, t = .lit l → WfLit l) :
    ∃ b, OpResult env EVAL_IS_BIN [t] (some (boolVal b)) ∧
      EvaluatesTo env ctx (.node EVAL_IS_EQ [.node EVAL_TO_BIN [.node EVAL_LENGTH [t], t], t]) (boolVal b) := by
  refine ⟨_, tester_result env EVAL_IS_BIN t (by simp) (value_closed ht), ?_⟩
  obtain ⟨c, h1, h2, h3⟩ := to_bin_derived env ctx t ht hlk hwf
  obtain ⟨r, h4, h5⟩ := is_eq_derived env ctx _ c t ht h1 h2
  have : r = decide (t.kind = testerKind EVAL_IS_BIN) := by
    rw [Bool.eq_iff_iff, h5, h3, decide_eq_true_iff]; rfl
  rw [← this]; exact h4

/-- **C12** `eo::is_bool` is its derived definition `(eo::or (eo::is_eq t true) (eo::is_eq t false))`. -/
theorem C12_is_bool (env : Env) (ctx : Ctx) (t : Term) (ht : IsValue t) (hlk : LitKinds t) :
    ∃ b, OpResult env EVAL_IS_BOOL [t] (some (boolVal b)) ∧
      EvaluatesTo env ctx (.node EVAL_OR [.node EVAL_IS_EQ [t, boolVal true], .node EVAL_IS_EQ [t, boolVal false]]) (boolVal b) := by
  refine ⟨_, tester_result env EVAL_IS_BOOL t (by simp) (value_closed ht), ?_⟩
  obtain ⟨r1, h1, h2⟩ := is_eq_derived env ctx t t (boolVal true) (lit_value _) (value_eval _ _ _ ht) (value_closed ht)
  obtain ⟨r2, h3, h4⟩ := is_eq_derived env ctx t t (boolVal false) (lit_value _) (value_eval _ _ _ ht) (value_closed ht)
  have hr := litop_result env EVAL_OR [.bool r1, .bool r2] (some (.bool (r1 || r2))) (fun o => rfl) (by simp) (by simp) rfl
    (by simp [Lit.evaluate, Lit.allSameKind, Lit.kind, Lit.evalNary, Lit.ofOpt, Lit.foldOpt, Lit.boolStep, Lit.asBool])
  have hb : (r1 || r2) = decide (t.kind = testerKind EVAL_IS_BOOL) := by
    rw [Bool.eq_iff_iff]
    rw [Bool.or_eq_true, h2, h4, decide_eq_true_iff]
    show _ ↔ t.kind = BOOLEAN
    constructor
    · rintro (rfl | rfl) <;> rfl
    · intro h
      obtain ⟨l, rfl⟩ := hlk (by simp [h])
      cases l <;> simp_all [Term.kind, Lit.kind, boolVal]
  rw [← hb]
  exact (C31_operator env ctx EVAL_OR [(_, boolVal r1), (_, boolVal r2)] rfl (by simp) (by simp)
    (by simp only [List.mem_cons, List.not_mem_nil, or_false, forall_eq_or_imp, forall_eq]; exact ⟨h1, h3⟩) _).mpr (.inl hr)

/-- the hypotheses of the C12 theorems hold of a well-formed literal and of a non-literal value -/
example : (IsValue (.lit (.bin ⟨4, 9⟩)) ∧ LitKinds (.lit (.bin ⟨4, 9⟩)) ∧ WfLit (.bin ⟨4, 9⟩)) ∧
    IsValue (fapp sA sB) ∧ LitKinds (fapp sA sB) := by
  refine ⟨⟨lit_value _, fun _ => ⟨_, rfl⟩, by simp [WfLit]⟩, by rw [isValue_iff]; decide, ?_⟩
  intro h; exact absurd h (by decide)

/-- both answers occur -/
example : OpResult env0 EVAL_IS_BIN [.lit (.bin ⟨4, 9⟩)] (some (boolVal true)) ∧
    OpResult env0 EVAL_IS_BIN [fapp sA sB] (some (boolVal false)) :=
  ⟨tester_result env0 _ _ (by simp) (value_closed (lit_value _)),
   tester_result env0 _ _ (by simp) ((closed_iff _).mpr (by decide))⟩

/-! ## C54 -/

/-- truth value of an n-ary Boolean operator on a list of Booleans -/
inductive BoolOp | conj | disj | parity

def BoolOp.kind : BoolOp → Kind
  | .conj => EVAL_AND
  | .disj => EVAL_OR
  | .parity => EVAL_XOR

/-- what each operator means, as a statement about the arguments -/
def BoolOp.Holds : BoolOp → List Bool → Prop
  | .conj, bs => ∀ b ∈ bs, b = true
  | .disj, bs => ∃ b ∈ bs, b = true
  | .parity, bs => bs.count true % 2 = 1

theorem foldOpt_bool (o : BoolOp) : ∀ (bs : List Bool) (a : Bool),
    ∃ r, Lit.foldOpt (Lit.boolStep o.kind) a bs = some r ∧ (r = true ↔ o.Holds (a :: bs)) := by
  intro bs
  induction bs with
  | nil => intro a; refine ⟨a, rfl, ?_⟩; cases o <;> cases a <;> simp [BoolOp.Holds]
  | cons b bs ih =>
    intro a
    cases o with
    | conj =>
      obtain ⟨r, h1, h2⟩ := ih (a && b)
      exact ⟨r, h1, by rw [h2]; cases a <;> cases b <;> simp [BoolOp.Holds]⟩
    | disj =>
      obtain ⟨r, h1, h2⟩ := ih (a || b)
      exact ⟨r, h1, by rw [h2]; cases a <;> cases b <;> simp [BoolOp.Holds]⟩
    | parity =>
      obtain ⟨r, h1, h2⟩ := ih (a != b)
      refine ⟨r, h1, ?_⟩
      rw [h2]
      cases a <;> cases b <;> simp [BoolOp.Holds] <;> omega

theorem allSame_bool (a : Bool) (bs : List Bool) : Lit.allSameKind ((a :: bs).map Lit.bool) = BOOLEAN := by
  simp [Lit.allSameKind, Lit.kind]

theorem map_asBool (bs : List Bool) : (bs.map Lit.bool).map Lit.asBool = bs := by
  induction bs with
  | nil => rfl
  | cons b bs ih => simpa [Lit.asBool] using ih

/-- **C54** `eo::and`, `eo::or`, `eo::xor` on Booleans are conjunction, disjunction and parity, for any number
of arguments. -/
theorem C54_nary (o : BoolOp) (a : Bool) (bs : List Bool) :
    ∃ r, Lit.evaluate o.kind ((a :: bs).map Lit.bool) = .val (.bool r) ∧ (r = true ↔ o.Holds (a :: bs)) := by
  obtain ⟨r, h1, h2⟩ := foldOpt_bool o bs a
  refine ⟨r, ?_, h2⟩
  have hs := allSame_bool a bs
  cases o <;>
    simp only [BoolOp.kind, List.map_cons, Lit.evaluate] at hs h1 ⊢ <;>
    rw [if_neg (by simp [hs])] <;>
    simp only [Lit.evalNary, map_asBool, h1, Lit.ofOpt]

/-- **C54** `eo::not` on a Boolean is negation. -/
theorem C54_not (b : Bool) : Lit.evaluate EVAL_NOT [.bool b] = .val (.bool (!b)) := by
  simp [Lit.evaluate, Lit.allSameKind, Lit.kind]

/-- **C54** a Boolean mixed with a literal of another category does not evaluate. -/
theorem C54_no_mix (o : BoolOp) (args : List Lit) (b : Bool) (l : Lit) (hb : .bool b ∈ args) (hl : l ∈ args)
    (hk : l.kind ≠ BOOLEAN) : Lit.evaluate o.kind args = .null := by
  have hs : Lit.allSameKind args = NONE := by
    cases args with
    | nil => simp at hb
    | cons a as =>
      simp only [Lit.allSameKind]
      rw [if_neg]
      intro h
      rw [List.all_eq_true] at h
      have hall : ∀ x ∈ a :: as, x.kind = a.kind := by
        intro x hx
        rcases List.mem_cons.mp hx with rfl | hx
        · rfl
        · simpa using h x hx
      apply hk
      rw [hall l hl, ← hall _ hb]; rfl
  cases args with
  | nil => simp at hb
  | cons a as => cases o <;> simp [Lit.evaluate, BoolOp.kind, hs]

/-- the term built for `(op a b1 ... bn)`: state.cpp:759-772 nests n-ary operators to the left -/
def naryTerm (k : Kind) : Term → List Term → Term
  | t, [] => t
  | t, s :: ss => naryTerm k (.node k [t, s]) ss

theorem nested_bool (env : Env) (ctx : Ctx) (o : BoolOp) : ∀ (bs : List Bool) (t : Term) (a : Bool),
    EvaluatesTo env ctx t (boolVal a) →
    ∃ r, EvaluatesTo env ctx (naryTerm o.kind t (bs.map boolVal)) (boolVal r) ∧ (r = true ↔ o.Holds (a :: bs)) := by
  intro bs
  induction bs with
  | nil => intro t a h; refine ⟨a, h, ?_⟩; cases o <;> cases a <;> simp [BoolOp.Holds]
  | cons b bs ih =>
    intro t a h
    obtain ⟨r, h1, h2⟩ := C54_nary o a [b]
    have hr := litop_result env o.kind [.bool a, .bool b] (some (.bool r)) (fun _ => by cases o <;> rfl)
      (by cases o <;> simp [BoolOp.kind]) (by cases o <;> simp [BoolOp.kind]) (by cases o <;> rfl) h1
    have he : EvaluatesTo env ctx (.node o.kind [t, boolVal b]) (boolVal r) :=
      (C31_operator env ctx o.kind [(t, boolVal a), (boolVal b, boolVal b)] (by cases o <;> rfl)
        (by cases o <;> simp [BoolOp.kind]) (by simp)
        (by simp only [List.mem_cons, List.not_mem_nil, or_false, forall_eq_or_imp, forall_eq]
            exact ⟨h, value_eval _ _ _ (lit_value _)⟩) _).mpr (.inl hr)
    obtain ⟨r', h3, h4⟩ := ih _ r he
    refine ⟨r', h3, ?_⟩
    rw [h4]
    clear h4 h3 he hr h1 h ih
    cases o <;> cases a <;> cases b <;> cases r <;> simp [BoolOp.Holds] at h2 ⊢ <;> omega

/-- **C54** through the evaluator: `(op a b1 ... bn)`, as the parser builds it, evaluates to the truth value. -/
theorem C54_evaluates (env : Env) (ctx : Ctx) (o : BoolOp) (a : Bool) (bs : List Bool) :
    ∃ r, EvaluatesTo env ctx (naryTerm o.kind (boolVal a) (bs.map boolVal)) (boolVal r) ∧ (r = true ↔ o.Holds (a :: bs)) :=
  nested_bool env ctx o bs _ a (value_eval _ _ _ (lit_value _))

example : BoolOp.parity.Holds [true, true, true] ∧ ¬ BoolOp.parity.Holds [true, false, true] := by
  simp [BoolOp.Holds]

end Ethos.Props
