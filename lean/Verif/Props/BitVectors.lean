import Verif.Spec.Literal
/-
Property theorems about bit-vector literals: C03, C04 (binary part), C10.
-/
namespace Ethos.Props
open Ethos Kind Lit Spec

theorem mk'_eq (w : Nat) (v : Int) : BV.mk' w v = bvOf (BitVec.ofInt w v) := by
  unfold BV.mk' bvOf Integer.modByPow2
  rw [BitVec.toNat_ofInt, Int.fmod_eq_emod_of_nonneg]
  · simp
  · exact Int.le_of_lt (Int.pow_pos (by decide))

theorem eval2 (k : Kind) (c : BCat) {w : Nat} (x y z : BitVec w)
    (hf : bvStep k (bvOf x) (bvOf y) = some (bvOf z)) (hk : isNaryLiteralOp k = true) :
    evaluate k [bvLit c x, bvLit c y] = .val (bvLit c z) := by
  have h : allSameBitWidth [bvLit c x, bvLit c y] = true := by
    cases c <;> simp [allSameBitWidth, bvLit, bv, bvOf]
  cases c <;> cases k <;> simp [isNaryLiteralOp] at hk <;>
    simp_all [evaluate, allSameKind, kind, bvLit, evalNary, foldOpt, ofOpt, bv]

/-- C03: addition modulo `2^w`. -/
theorem C03_add (c : BCat) {w : Nat} (x y : BitVec w) :
    evaluate EVAL_ADD [bvLit c x, bvLit c y] = .val (bvLit c (x + y)) := by
  apply eval2 _ _ _ _ _ _ rfl
  simp only [bvStep, BV.add, mk'_eq, bvOf]
  congr 2

theorem C03_mul (c : BCat) {w : Nat} (x y : BitVec w) :
    evaluate EVAL_MUL [bvLit c x, bvLit c y] = .val (bvLit c (x * y)) := by
  apply eval2 _ _ _ _ _ _ rfl
  simp only [bvStep, BV.mul, mk'_eq, bvOf]
  congr 2

theorem C03_and (c : BCat) {w : Nat} (x y : BitVec w) :
    evaluate EVAL_AND [bvLit c x, bvLit c y] = .val (bvLit c (x &&& y)) := by
  apply eval2 _ _ _ _ _ _ rfl
  simp only [bvStep, BV.and, mk'_eq, bvOf]
  congr 2
  rw [BitVec.ofInt_natCast, ← BitVec.toNat_and]; simp

theorem C03_or (c : BCat) {w : Nat} (x y : BitVec w) :
    evaluate EVAL_OR [bvLit c x, bvLit c y] = .val (bvLit c (x ||| y)) := by
  apply eval2 _ _ _ _ _ _ rfl
  simp only [bvStep, BV.or, mk'_eq, bvOf]
  congr 2
  rw [BitVec.ofInt_natCast, ← BitVec.toNat_or]; simp

theorem C03_xor (c : BCat) {w : Nat} (x y : BitVec w) :
    evaluate EVAL_XOR [bvLit c x, bvLit c y] = .val (bvLit c (x ^^^ y)) := by
  apply eval2 _ _ _ _ _ _ rfl
  simp only [bvStep, BV.xor, mk'_eq, bvOf]
  congr 2
  rw [BitVec.ofInt_natCast, ← BitVec.toNat_xor]; simp

theorem not_bvOf {w : Nat} (x : BitVec w) : (bvOf x).not = bvOf (~~~x) := by
  simp only [BV.not, mk'_eq]
  show bvOf (BitVec.ofInt w (-(x.toNat : Int) - 1)) = _
  congr 1
  apply BitVec.eq_of_toNat_eq
  rw [BitVec.toNat_ofInt, BitVec.toNat_not]
  have hx := x.isLt
  rw [show (-(x.toNat : Int) - 1) = ((2^w - 1 - x.toNat : Nat) : Int) + (-1) * ((2^w : Nat) : Int) by omega]
  rw [Int.add_mul_emod_self_right, ← Int.natCast_emod, Int.toNat_natCast, Nat.mod_eq_of_lt]
  omega

theorem C03_not (c : BCat) {w : Nat} (x : BitVec w) :
    evaluate EVAL_NOT [bvLit c x] = .val (bvLit c (~~~x)) := by
  cases c <;> simp [evaluate, allSameKind, kind, bvLit, not_bvOf]

theorem neg_bvOf {w : Nat} (x : BitVec w) : (bvOf x).neg = bvOf (-x) := by
  simp only [BV.neg, not_bvOf]
  simp only [BV.add, mk'_eq]
  rw [BitVec.neg_eq_not_add]
  simp only [bvOf]
  congr 1

theorem C03_neg (c : BCat) {w : Nat} (x : BitVec w) :
    evaluate EVAL_NEG [bvLit c x] = .val (bvLit c (-x)) := by
  cases c <;> simp [evaluate, allSameKind, kind, bvLit, neg_bvOf]

private theorem fdiv_nat (a b : Nat) : Int.fdiv (a : Int) (b : Int) = ((a / b : Nat) : Int) := by
  rw [Int.fdiv_eq_ediv_of_nonneg _ (Int.natCast_nonneg b)]; rfl

private theorem fmod_nat (a b : Nat) : Int.fmod (a : Int) (b : Int) = ((a % b : Nat) : Int) := by
  rw [Int.fmod_eq_emod_of_nonneg _ (Int.natCast_nonneg b)]; rfl

private theorem oneExtendLoop_ones (i n : Nat) :
    Integer.oneExtendLoop (2^i - 1) i n = 2^(i + n) - 1 := by
  induction n generalizing i with
  | zero => rfl
  | succ n ih =>
    simp only [Integer.oneExtendLoop]
    have h : (2^i - 1) ||| 2^i = 2^(i+1) - 1 := by
      have h1 := Nat.two_pow_add_eq_or_of_lt (i := i) (b := 2^i - 1) (by have := Nat.two_pow_pos i; omega) 1
      rw [Nat.mul_one] at h1
      rw [Nat.or_comm, ← h1, Nat.pow_succ]
      have := Nat.two_pow_pos i
      omega
    rw [h, ih, show i + 1 + n = i + (n + 1) by omega]

/-- C03: unsigned division; division by zero gives the maximal value. -/
theorem C03_div (c : BCat) {w : Nat} (hw : w < 2^32) (x y : BitVec w) :
    evaluate EVAL_INT_DIV [bvLit c x, bvLit c y]
      = .val (bvLit c (if y = 0#w then BitVec.allOnes w else x / y)) := by
  have key : (bvOf x).unsignedDivTotal (bvOf y) = bvOf (if y = 0#w then BitVec.allOnes w else x / y) := by
    unfold BV.unsignedDivTotal
    by_cases hy : y = 0#w
    · subst hy
      rw [if_pos (by simp [bvOf]), if_pos rfl]
      simp only [mk'_eq]
      show bvOf (BitVec.ofInt w _) = _
      congr 1
      rw [BitVec.ofInt_natCast]
      apply BitVec.eq_of_toNat_eq
      rw [BitVec.toNat_ofNat, BitVec.toNat_allOnes]
      show Integer.oneExtend 1 1 (u32 ((w : Int) - 1)) % 2^w = _
      unfold Integer.oneExtend
      rcases Nat.eq_zero_or_pos w with rfl | hw0
      · simp [Nat.mod_one]
      · have h1 : u32 (((1 : Nat) : Int) + (u32 ((w : Int) - 1) : Nat)) - 1 = w - 1 := by
          simp only [u32]; omega
        rw [h1]
        have := oneExtendLoop_ones 1 (w - 1)
        simp only [Nat.pow_one, Nat.add_one_sub_one] at this
        rw [this, show 1 + (w - 1) = w by omega]
        apply Nat.mod_eq_of_lt
        have := Nat.two_pow_pos w
        omega
    · have hy' : y.toNat ≠ 0 := fun h => hy (BitVec.eq_of_toNat_eq (by simpa using h))
      simp only [hy, if_false]
      rw [if_neg (show (bvOf y).value ≠ 0 from hy')]
      simp only [mk'_eq]
      show bvOf (BitVec.ofInt w _) = _
      congr 1
      rw [show Int.fdiv ((bvOf x).value : Int) ((bvOf y).value : Int) = ((x.toNat / y.toNat : Nat) : Int) from ?_]
      · rw [BitVec.ofInt_natCast]; apply BitVec.eq_of_toNat_eq; simp
        apply Nat.mod_eq_of_lt; exact Nat.lt_of_le_of_lt (Nat.div_le_self _ _) x.isLt
      · simp only [bvOf]; exact fdiv_nat _ _
  cases c <;> simp [evaluate, allSameKind, kind, bvLit, allSameBitWidth, bv, key] <;> simp [bvOf]

theorem C03_rem (c : BCat) {w : Nat} (x y : BitVec w) :
    evaluate EVAL_INT_MOD [bvLit c x, bvLit c y] = .val (bvLit c (if y = 0#w then x else x % y)) := by
  have key : (bvOf x).unsignedRemTotal (bvOf y) = bvOf (if y = 0#w then x else x % y) := by
    unfold BV.unsignedRemTotal
    by_cases hy : y = 0#w
    · subst hy
      simp [bvOf, mk'_eq]
    · have hy' : y.toNat ≠ 0 := fun h => hy (BitVec.eq_of_toNat_eq (by simpa using h))
      simp only [hy, if_false]
      rw [if_neg (show (bvOf y).value ≠ 0 from hy')]
      simp only [mk'_eq]
      show bvOf (BitVec.ofInt w _) = _
      congr 1
      rw [show Int.fmod ((bvOf x).value : Int) ((bvOf y).value : Int) = ((x.toNat % y.toNat : Nat) : Int) from ?_]
      · rw [BitVec.ofInt_natCast]; apply BitVec.eq_of_toNat_eq; simp
        apply Nat.mod_eq_of_lt; exact Nat.lt_of_le_of_lt (Nat.mod_le _ _) x.isLt
      · simp only [bvOf]; exact fmod_nat _ _
  cases c <;> simp [evaluate, allSameKind, kind, bvLit, allSameBitWidth, bv, key] <;> simp [bvOf]

/-- C03: concatenation, as long as the total width is a 32-bit number. -/
theorem C03_concat_partial (c : BCat) {w v : Nat} (h : w + v < 2^32) (x : BitVec w) (y : BitVec v) :
    evaluate EVAL_CONCAT [bvLit c x, bvLit c y] = .val (bvLit c (x ++ y)) := by
  have key : (bvOf x).concat (bvOf y) = bvOf (x ++ y) := by
    simp only [BV.concat, mk'_eq]
    have hsz : u32 (((bvOf x).size : Int) + (bvOf y).size) = w + v := by
      simp only [bvOf, u32]; omega
    rw [hsz]
    congr 1
    apply BitVec.eq_of_toNat_eq
    rw [BitVec.toNat_append, BitVec.toNat_ofInt]
    have hy := y.isLt
    simp only [bvOf, Integer.multiplyByPow2]
    rw [show ((x.toNat : Int) * 2^v + y.toNat) = ((x.toNat * 2^v + y.toNat : Nat) : Int) by simp]
    rw [← Int.natCast_emod, Int.toNat_natCast, Nat.shiftLeft_eq, Nat.mul_comm, ← Nat.two_pow_add_eq_or_of_lt hy]
    apply Nat.mod_eq_of_lt
    have hx := x.isLt
    rw [Nat.pow_add]
    calc 2 ^ v * x.toNat + y.toNat < 2 ^ v * x.toNat + 2 ^ v := by omega
      _ = (x.toNat + 1) * 2^v := by rw [Nat.add_mul, Nat.mul_comm]; simp
      _ ≤ 2^w * 2^v := Nat.mul_le_mul_right _ hx
  cases c <;> simp [evaluate, allSameKind, kind, bvLit, evalNary, foldOpt, ofOpt, bvStep, bv, key]

/-- C03, what is missing from `C03_concat_partial`: the width of a concatenation is computed in 32-bit
arithmetic, so for a total width of `2^32` or more the result is not the concatenation. -/
theorem C03_concat_refuted : ¬ ∀ (c : BCat) (w v : Nat) (x : BitVec w) (y : BitVec v), w < 2^32 → v < 2^32 →
    evaluate EVAL_CONCAT [bvLit c x, bvLit c y] = .val (bvLit c (x ++ y)) := by
  intro h
  have key : ∀ w v : Nat, w < 2^32 → v < 2^32 → u32 ((w : Int) + v) = w + v := by
    intro w v hw hv
    have := h .binary w v (0#_) (0#_) hw hv
    have e : evaluate EVAL_CONCAT [bvLit BCat.binary 0#w, bvLit BCat.binary 0#v]
        = .val (bin ((bvOf 0#w).concat (bvOf 0#v))) := by
      simp [evaluate, allSameKind, kind, bvLit, evalNary, foldOpt, ofOpt, bvStep, bv]
    rw [e] at this
    simp only [Res.val.injEq, bvLit, Lit.bin.injEq] at this
    exact congrArg BV.size this
  have := key (2^32 - 1) 1 (by decide) (by decide)
  revert this
  decide

/-- C03: bit-vector operators other than concatenation do not evaluate on different widths. -/
theorem C03_width (k : Kind) (hk : k = EVAL_ADD ∨ k = EVAL_MUL ∨ k = EVAL_AND ∨ k = EVAL_OR ∨ k = EVAL_XOR
      ∨ k = EVAL_INT_DIV ∨ k = EVAL_INT_MOD)
    (c : BCat) {w v : Nat} (h : w ≠ v) (x : BitVec w) (y : BitVec v) :
    evaluate k [bvLit c x, bvLit c y] = .null := by
  have h' : ¬ v = w := fun e => h e.symm
  rcases hk with rfl | rfl | rfl | rfl | rfl | rfl | rfl <;> cases c <;>
    simp [evaluate, allSameKind, kind, bvLit, evalNary, allSameBitWidth, bv, bvOf, h']

/-- C03: no operator mixes hexadecimal and binary values (or bitwise and other values), except
`eo::to_bin` and `eo::extract` whose arguments are of different categories by design. -/
theorem C03_no_mix (k : Kind) (h1 : k ≠ EVAL_EXTRACT) (h2 : k ≠ EVAL_TO_BIN) (a b : Lit)
    (h : a.kind ≠ b.kind) : evaluate k [a, b] = .null := by
  have h' : ¬ b.kind = a.kind := fun e => h e.symm
  simp [evaluate, h1, h2, allSameKind, h']

example : evaluate EVAL_INT_DIV [bin ⟨4, 13⟩, bin ⟨4, 0⟩] = .val (bin ⟨4, 15⟩)
    ∧ evaluate EVAL_INT_MOD [bin ⟨4, 13⟩, bin ⟨4, 5⟩] = .val (bin ⟨4, 3⟩)
    ∧ evaluate EVAL_CONCAT [bin ⟨2, 1⟩, bin ⟨3, 5⟩] = .val (bin ⟨5, 13⟩)
    ∧ evaluate EVAL_NEG [hex ⟨8, 1⟩] = .val (hex ⟨8, 255⟩) := by decide
example : bvLit .binary 13#4 = bin ⟨4, 13⟩ := by decide
/-- every well-formed bitwise value is of the form quantified over in C03 -/
theorem C03_cover (b : BV) (h : b.value < 2^b.size) : ∃ x : BitVec b.size, b = bvOf x :=
  ⟨BitVec.ofNat _ b.value, by simp [bvOf, Nat.mod_eq_of_lt h]⟩

end Ethos.Props
