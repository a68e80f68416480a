import Verif.Props.Core
/-
C13 for the operators: eo::cmp and eo::hash as evaluated.  `env.hash` is the number the state gives to a term;
`Props/Store.lean` shows that these numbers are stable and pairwise different.
-/
namespace Ethos.Props
open Ethos Kind Spec

theorem cmp_eval (env : Env) (a b : Term) (ha : IsValue a) (hb : IsValue b) :
    OpResult env EVAL_COMPARE [a, b] (some (boolVal (decide (env.hash a > env.hash b)))) := by
  obtain ⟨h1, h2⟩ := (isValue_iff a).mp ha
  obtain ⟨h3, h4⟩ := (isValue_iff b).mp hb
  exact ⟨1, by simp [ops, opStep, evalGround, h1, h2, h3, h4, argO, Out.map, Out.bind, mkBool, boolVal]⟩

theorem cmp_iff (env : Env) {a b : Term} (ha : IsValue a) (hb : IsValue b) (r : Bool) :
    OpResult env EVAL_COMPARE [a, b] (some (boolVal r)) ↔ (r = true ↔ env.hash a > env.hash b) := by
  constructor
  · intro h
    have := OpResult.det _ _ _ _ h (cmp_eval env a b ha hb)
    simp only [Option.some.injEq, boolVal, Term.lit.injEq, Lit.bool.injEq] at this
    rw [this]; simp
  · intro h
    have : r = decide (env.hash a > env.hash b) := by rw [Bool.eq_iff_iff, h]; simp
    rw [this]; exact cmp_eval env a b ha hb

/-- **C13**.  On values, `eo::cmp` evaluates to a Boolean, false on equal terms. -/
theorem C13_op_irreflexive (env : Env) (a : Term) (ha : IsValue a) :
    OpResult env EVAL_COMPARE [a, a] (some (boolVal false)) := by
  rw [cmp_iff env ha ha]; simp

/-- **C13**.  If the state gives different numbers to different terms, exactly one of `(eo::cmp a b)` and `(eo::cmp b a)`
is true for different values. -/
theorem C13_op_total (env : Env) (a b : Term) (hinj : env.hash a = env.hash b → a = b) (ha : IsValue a)
    (hb : IsValue b) (hne : a ≠ b) :
    ∃ r, OpResult env EVAL_COMPARE [a, b] (some (boolVal r)) ∧ OpResult env EVAL_COMPARE [b, a] (some (boolVal (!r))) := by
  refine ⟨_, cmp_eval env a b ha hb, ?_⟩
  rw [cmp_iff env hb ha]
  have : env.hash a ≠ env.hash b := fun h => hne (hinj h)
  simp; omega

/-- **C13**.  `eo::cmp` is transitive on values. -/
theorem C13_op_transitive (env : Env) (a b c : Term) (ha : IsValue a) (hb : IsValue b) (hc : IsValue c)
    (hab : OpResult env EVAL_COMPARE [a, b] (some (boolVal true)))
    (hbc : OpResult env EVAL_COMPARE [b, c] (some (boolVal true))) :
    OpResult env EVAL_COMPARE [a, c] (some (boolVal true)) := by
  rw [cmp_iff env ha hb] at hab
  rw [cmp_iff env hb hc] at hbc
  rw [cmp_iff env ha hc]
  simp at hab hbc ⊢; omega

/-- **C13**.  `eo::cmp` does not evaluate unless both arguments are values. -/
theorem C13_op_else (env : Env) (a b : Term) (h : ¬ (IsValue a ∧ IsValue b)) : OpResult env EVAL_COMPARE [a, b] none := by
  rw [isValue_iff, isValue_iff] at h
  refine ⟨1, ?_⟩
  cases h1 : a.ground <;> cases h2 : a.evaluatable <;> cases h3 : b.ground <;> cases h4 : b.evaluatable <;>
    simp_all [ops, opStep, evalGround, argO, Out.map, Out.bind]

theorem hash_eval (env : Env) (a : Term) (ha : IsValue a) :
    OpResult env EVAL_HASH [a] (some (.lit (.num (u32 (env.hash a))))) := by
  obtain ⟨h1, h2⟩ := (isValue_iff a).mp ha
  exact ⟨1, by simp [ops, opStep, evalGround, h1, h2, argO, Out.map]⟩

/-- **C13**, for numbers below 2^32: `eo::hash` gives the same numeral to two values exactly if they are equal.  Missing: larger
numbers (`C13_fails_collision`). -/
theorem C13_op_hash_partial (env : Env) (a b : Term) (hinj : env.hash a = env.hash b → a = b)
    (h1 : env.hash a < 2 ^ 32) (h2 : env.hash b < 2 ^ 32) (ha : IsValue a) (hb : IsValue b) :
    ∃ x y, OpResult env EVAL_HASH [a] (some (.lit (.num x))) ∧ OpResult env EVAL_HASH [b] (some (.lit (.num y))) ∧
      (x = y ↔ a = b) := by
  refine ⟨_, _, hash_eval env a ha, hash_eval env b hb, ?_⟩
  have e1 : u32 (env.hash a) = env.hash a := by unfold u32; omega
  have e2 : u32 (env.hash b) = env.hash b := by unfold u32; omega
  rw [e1, e2]
  constructor
  · intro h; exact hinj (by omega)
  · rintro rfl; rfl

/-- **C13**.  `eo::cmp` agrees with its derived definition
`(eo::is_neg (eo::add (eo::neg (eo::hash t1)) (eo::hash t2)))`, for numbers below 2^32. -/
theorem C13_cmp_derived_partial (env : Env) (ctx : Ctx) (a b : Term)
    (h1 : env.hash a < 2 ^ 32) (h2 : env.hash b < 2 ^ 32) (ha : IsValue a) (hb : IsValue b) :
    ∃ r, OpResult env EVAL_COMPARE [a, b] (some (boolVal r)) ∧
      EvaluatesTo env ctx (.node EVAL_IS_NEG [.node EVAL_ADD [.node EVAL_NEG [.node EVAL_HASH [a]], .node EVAL_HASH [b]]])
        (boolVal r) := by
  refine ⟨_, cmp_eval env a b ha hb, ?_⟩
  have e1 : u32 (env.hash a) = env.hash a := by unfold u32; omega
  have e2 : u32 (env.hash b) = env.hash b := by unfold u32; omega
  have r1 := (op_on_values env ctx EVAL_HASH [a] rfl (by simp) (by simp) (by simpa using ha)).1 _ (hash_eval env a ha)
  have r2 := (op_on_values env ctx EVAL_HASH [b] rfl (by simp) (by simp) (by simpa using hb)).1 _ (hash_eval env b hb)
  rw [e1] at r1
  rw [e2] at r2
  have r3 : EvaluatesTo env ctx (.node EVAL_NEG [.node EVAL_HASH [a]]) (.lit (.num (-(env.hash a : Int)))) :=
    (C31_operator env ctx EVAL_NEG [(_, _)] rfl (by simp) (by simp) (by simpa using r1) _).mpr
      (.inl (litop_result env EVAL_NEG [.num (env.hash a)] (some (.num (-(env.hash a : Int)))) (fun o => rfl) (by simp) (by simp)
        rfl (by simp [Lit.evaluate, Lit.allSameKind, Lit.kind])))
  have r4 : EvaluatesTo env ctx (.node EVAL_ADD [.node EVAL_NEG [.node EVAL_HASH [a]], .node EVAL_HASH [b]])
      (.lit (.num (-(env.hash a : Int) + env.hash b))) :=
    (C31_operator env ctx EVAL_ADD [(_, _), (_, _)] rfl (by simp) (by simp) (by simpa using ⟨r3, r2⟩) _).mpr
      (.inl (litop_result env EVAL_ADD [.num (-(env.hash a : Int)), .num (env.hash b)] (some (.num _)) (fun o => rfl) (by simp)
        (by simp) rfl (by simp [Lit.evaluate, Lit.allSameKind, Lit.kind, Lit.evalNary, Lit.ofOpt, Lit.foldOpt, Lit.intStep, Lit.asInt])))
  have hneg : decide (env.hash a > env.hash b) = decide (-(env.hash a : Int) + env.hash b < 0) := by
    rw [Bool.eq_iff_iff]; simp; omega
  rw [hneg]
  exact (C31_operator env ctx EVAL_IS_NEG [(_, _)] rfl (by simp) (by simp) (by simpa using r4) _).mpr
      (.inl (litop_result env EVAL_IS_NEG [.num _] (some (.bool _)) (fun o => rfl) (by simp) (by simp)
        rfl (by
          simp only [Lit.evaluate, Lit.allSameKind, Lit.kind]
          simp [Int.sign_eq_neg_one_iff_neg])))

/-- `a` was hashed after `b` -/
example : let env := { env0 with hash := fun t => if t = sA then 2 else 1 }
    OpResult env EVAL_COMPARE [sA, sB] (some (boolVal true)) ∧ OpResult env EVAL_COMPARE [sB, sA] (some (boolVal false)) ∧
    OpResult env EVAL_HASH [sA] (some (.lit (.num 2))) ∧ IsValue sA ∧ IsValue sB ∧ sA ≠ sB :=
  ⟨⟨1, rfl⟩, ⟨1, rfl⟩, ⟨1, rfl⟩, (isValue_iff _).mpr (by decide), (isValue_iff _).mpr (by decide), by decide⟩

end Ethos.Props
