import Verif.Spec.Literal
/-
Property theorems about literals: C01-C07.
-/
namespace Ethos.Props
open Ethos Kind Lit Spec

/-! ## C01 integer division -/

/-- C01: `(eo::zdiv a d)` and `(eo::zmod a d)` are Euclidean quotient and remainder. -/
theorem C01_zdiv_zmod (a d : Int) (hd : d ≠ 0) :
    ∃ q r, evaluate EVAL_INT_DIV [num a, num d] = .val (num q)
      ∧ evaluate EVAL_INT_MOD [num a, num d] = .val (num r)
      ∧ a = d * q + r ∧ 0 ≤ r ∧ r < (d.natAbs : Int) := by
  refine ⟨(Integer.euclidianQR a d).1, (Integer.euclidianQR a d).2, ?_, ?_, ?_⟩
  · simp [evaluate, allSameKind, kind, asInt, hd, Integer.euclidianDivideQuotient]
  · simp [evaluate, allSameKind, kind, asInt, hd, Integer.euclidianDivideRemainder]
  · have hdiv := Int.mul_fdiv_add_fmod a d
    unfold Integer.euclidianQR
    rcases Int.lt_or_gt_of_ne hd with hneg | hpos
    · have h1 : a.fmod d ≤ 0 := by
        have := (Int.fmod_eq_emod (a := a) (b := d))
        have h2 := Int.emod_lt_of_neg a hneg
        have h3 := Int.emod_nonneg a hd
        have hnd : ¬ (0 ≤ d) := by omega
        simp only [hnd, false_or] at this
        split at this
        · rename_i hdvd
          have := Int.emod_eq_zero_of_dvd hdvd
          omega
        · omega
      have h2 : d < a.fmod d := by
        have := (Int.fmod_eq_emod (a := a) (b := d))
        have h3 := Int.emod_nonneg a hd
        have hnd : ¬ (0 ≤ d) := by omega
        simp only [hnd, false_or] at this
        split at this
        · omega
        · rename_i hdvd
          have : a % d ≠ 0 := fun h => hdvd (Int.dvd_of_emod_eq_zero h)
          omega
      simp only
      split
      · split
        · omega
        · simp only
          refine ⟨?_, ?_, ?_⟩
          · rw [Int.mul_add]; omega
          · omega
          · omega
      · simp only; refine ⟨by omega, by omega, by omega⟩
    · have h1 := Int.fmod_nonneg_of_pos a hpos
      have h2 := Int.fmod_lt_of_pos a hpos
      simp only
      split
      · omega
      · simp only; refine ⟨by omega, by omega, by omega⟩

/-- C01: the quotient and remainder are determined: no other pair satisfies the equation and bounds. -/
theorem C01_unique (a d q r q' r' : Int) (h : a = d * q + r) (hr : 0 ≤ r ∧ r < (d.natAbs : Int))
    (h' : a = d * q' + r') (hr' : 0 ≤ r' ∧ r' < (d.natAbs : Int)) : q = q' ∧ r = r' := by
  have hd : d ≠ 0 := by intro h0; subst h0; simp at hr; omega
  have hq : d * (q - q') = r' - r := by rw [Int.mul_sub]; omega
  have hlt : (d * (q - q')).natAbs < d.natAbs := by rw [hq]; omega
  rw [Int.natAbs_mul] at hlt
  have : (q - q').natAbs = 0 := by
    rcases Nat.eq_zero_or_pos (q - q').natAbs with h0 | h0
    · exact h0
    · have := Nat.le_mul_of_pos_right d.natAbs h0
      omega
  have hqq : q - q' = 0 := by omega
  rw [hqq] at hq
  constructor <;> simp at hq <;> omega

/-- C01: division by zero does not evaluate. -/
theorem C01_zero (a : Int) :
    evaluate EVAL_INT_DIV [num a, num 0] = .null ∧ evaluate EVAL_INT_MOD [num a, num 0] = .null := by
  simp [evaluate, allSameKind, kind, asInt]

/-- the hypotheses of C01 are met by a negative divisor, where floor division would differ -/
example : evaluate EVAL_INT_DIV [num (-7), num (-2)] = .val (num 4)
    ∧ evaluate EVAL_INT_MOD [num (-7), num (-2)] = .val (num 1)
    ∧ evaluate EVAL_INT_DIV [num 7, num (-2)] = .val (num (-3)) := by decide

/-- The manual (user_manual.md, `eo::zdiv`) says "integer division (floor)"; the code computes the
Euclidean quotient, which differs from the floor for negative divisors. -/
theorem C01_floor_refuted :
    ¬ ∀ a d : Int, d ≠ 0 → evaluate EVAL_INT_DIV [num a, num d] = .val (num (Int.fdiv a d)) := by
  intro h
  have := h 7 (-2) (by decide)
  revert this
  decide

/-! ## C02 arithmetic -/

private theorem sgn_ne_zero (q : Rat) : Rational.sgn q ≠ 0 ↔ q ≠ 0 := by
  unfold Rational.sgn
  rw [ne_eq, Int.sign_eq_zero_iff_zero, Rat.num_eq_zero]

private theorem sgn_neg (q : Rat) : Rational.sgn q = -1 ↔ q < 0 := by
  unfold Rational.sgn
  rw [Int.sign_eq_neg_one_iff_neg, ← Rat.not_le, ← Rat.num_nonneg]
  omega

/-- C02 `eo::add`: same category – the exact sum in that category; different categories – no evaluation. -/
theorem C02_add (a b : Lit) (ca cb : Cat) (va vb : Rat)
    (ha : arith a = some (ca, va)) (hb : arith b = some (cb, vb)) :
    (ca = cb → ∃ r, evaluate EVAL_ADD [a, b] = .val r ∧ arith r = some (ca, va + vb))
    ∧ (ca ≠ cb → evaluate EVAL_ADD [a, b] = .null) := by
  cases a <;> cases b <;> simp only [arith, Option.some.injEq, Prod.mk.injEq, reduceCtorEq] at ha hb <;>
    (obtain ⟨rfl, rfl⟩ := ha; obtain ⟨rfl, rfl⟩ := hb) <;>
    simp [evaluate, allSameKind, kind, evalNary, foldOpt, intStep, ratStep, ofOpt, asInt, asRat, arith]

/-- C02 `eo::mul`. -/
theorem C02_mul (a b : Lit) (ca cb : Cat) (va vb : Rat)
    (ha : arith a = some (ca, va)) (hb : arith b = some (cb, vb)) :
    (ca = cb → ∃ r, evaluate EVAL_MUL [a, b] = .val r ∧ arith r = some (ca, va * vb))
    ∧ (ca ≠ cb → evaluate EVAL_MUL [a, b] = .null) := by
  cases a <;> cases b <;> simp only [arith, Option.some.injEq, Prod.mk.injEq, reduceCtorEq] at ha hb <;>
    (obtain ⟨rfl, rfl⟩ := ha; obtain ⟨rfl, rfl⟩ := hb) <;>
    simp [evaluate, allSameKind, kind, evalNary, foldOpt, intStep, ratStep, ofOpt, asInt, asRat, arith]

/-- C02 `eo::neg`. -/
theorem C02_neg (a : Lit) (ca : Cat) (va : Rat) (ha : arith a = some (ca, va)) :
    ∃ r, evaluate EVAL_NEG [a] = .val r ∧ arith r = some (ca, -va) := by
  cases a <;> simp_all [arith] <;> (obtain ⟨rfl, rfl⟩ := ha) <;>
    simp [evaluate, allSameKind, kind]

/-- C02 `eo::qdiv`: a rational; it does not evaluate on a zero divisor or mixed categories. -/
theorem C02_qdiv (a b : Lit) (ca cb : Cat) (va vb : Rat)
    (ha : arith a = some (ca, va)) (hb : arith b = some (cb, vb)) :
    (ca = cb → vb ≠ 0 → ∃ r, evaluate EVAL_RAT_DIV [a, b] = .val r ∧ arith r = some (.rational, va / vb))
    ∧ (ca ≠ cb ∨ vb = 0 → evaluate EVAL_RAT_DIV [a, b] = .null) := by
  have hs : ∀ q : Rat, Rational.sgn q = 0 ↔ q = 0 := fun q => by
    have := sgn_ne_zero q
    constructor
    · intro h; apply Classical.byContradiction; intro h'; exact this.mpr h' h
    · intro h; apply Classical.byContradiction; intro h'; exact this.mp h' h
  cases a <;> cases b <;> simp only [arith, Option.some.injEq, Prod.mk.injEq, reduceCtorEq] at ha hb <;>
    (obtain ⟨rfl, rfl⟩ := ha; obtain ⟨rfl, rfl⟩ := hb) <;>
    simp +contextual [evaluate, allSameKind, kind, asInt, asRat, arith, Rational.mk, hs]

/-- C02 `eo::is_neg` and `eo::gt` decide the order of the mathematical values. -/
theorem C02_is_neg (a : Lit) (ca : Cat) (va : Rat) (ha : arith a = some (ca, va)) :
    evaluate EVAL_IS_NEG [a] = .val (bool (decide (va < 0))) := by
  cases a <;> simp_all [arith] <;> (obtain ⟨rfl, rfl⟩ := ha) <;>
    simp [evaluate, allSameKind, kind, sgn_neg, Int.sign_eq_neg_one_iff_neg, Rat.intCast_neg_iff]

theorem C02_gt (a b : Lit) (ca cb : Cat) (va vb : Rat)
    (ha : arith a = some (ca, va)) (hb : arith b = some (cb, vb)) :
    (ca = cb → evaluate EVAL_GT [a, b] = .val (bool (decide (vb < va))))
    ∧ (ca ≠ cb → evaluate EVAL_GT [a, b] = .null) := by
  cases a <;> cases b <;> simp only [arith, Option.some.injEq, Prod.mk.injEq, reduceCtorEq] at ha hb <;>
    (obtain ⟨rfl, rfl⟩ := ha; obtain ⟨rfl, rfl⟩ := hb) <;>
    simp [evaluate, allSameKind, kind, asInt, asRat, Rat.intCast_lt_intCast]

/-- C02: an arithmetic value and a value that is not arithmetic never evaluate together. -/
theorem C02_no_mix (k : Kind) (hk : k = EVAL_ADD ∨ k = EVAL_MUL ∨ k = EVAL_RAT_DIV ∨ k = EVAL_GT ∨ k = EVAL_INT_DIV ∨ k = EVAL_INT_MOD)
    (a b : Lit) (h : (arith a).isSome ≠ (arith b).isSome) : evaluate k [a, b] = .null := by
  rcases hk with rfl | rfl | rfl | rfl | rfl | rfl <;>
  cases a <;> cases b <;> simp_all [arith, evaluate, allSameKind, kind]

/-- `arith` determines the literal, so the theorems above determine the result. -/
theorem C02_arith_injective (a b : Lit) (v : Cat × Rat) (ha : arith a = some v) (hb : arith b = some v) : a = b := by
  cases a <;> cases b <;> simp_all [arith] <;> (subst hb; simp_all)

example : arith (rat (mkRat 1 2)) = some (.rational, mkRat 1 2)
    ∧ evaluate EVAL_ADD [rat (mkRat 1 2), rat (mkRat 1 3)] = .val (rat (mkRat 5 6))
    ∧ evaluate EVAL_ADD [num 2, rat (mkRat 1 3)] = .null
    ∧ evaluate EVAL_RAT_DIV [num 7, num 2] = .val (rat (mkRat 7 2))
    ∧ evaluate EVAL_RAT_DIV [num 7, num 0] = .null := by decide +kernel

end Ethos.Props
