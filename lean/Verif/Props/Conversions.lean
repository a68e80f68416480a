import Verif.Props.Slices
import Verif.Lemmas.Digits
/-
Property theorems C06 (conversions), C07 (well-formedness), C08 (strings survive printing),
C10 (bit-vectors survive printing).
-/
namespace Ethos.Props
open Ethos Kind Lit Spec

/-! ## C06 -/

/-- C06 `eo::to_z`: numerals unchanged; decimals and rationals rounded down; binary values their unsigned
value; one-character strings their code point; nothing else evaluates. -/
theorem C06_to_z_num (z : Int) : evaluate EVAL_TO_INT [num z] = .val (num z) := by
  simp [evaluate, allSameKind, kind]

theorem floor_spec (q : Rat) : ((Rational.floor q : Int) : Rat) ≤ q ∧ q < ((Rational.floor q : Int) : Rat) + 1 := by
  have h : Rational.floor q = q.floor := by
    unfold Rational.floor
    rw [Rat.floor_def, Int.fdiv_eq_ediv_of_nonneg _ (Int.natCast_nonneg _)]
  rw [h]
  exact ⟨Rat.floor_le q, by simpa using Rat.lt_floor_add_one q⟩

theorem C06_to_z_rat (a : Lit) (q : Rat) (h : a = dec q ∨ a = rat q) :
    ∃ z : Int, evaluate EVAL_TO_INT [a] = .val (num z) ∧ (z : Rat) ≤ q ∧ q < (z : Rat) + 1 := by
  refine ⟨Rational.floor q, ?_, floor_spec q⟩
  rcases h with rfl | rfl <;> simp [evaluate, allSameKind, kind]

theorem C06_to_z_bin {w : Nat} (x : BitVec w) :
    evaluate EVAL_TO_INT [bvLit .binary x] = .val (num x.toNat) := by
  simp [evaluate, allSameKind, kind, bvLit, bvOf]

theorem C06_to_z_str (c : Nat) : evaluate EVAL_TO_INT [str [c]] = .val (num c) := by
  simp [evaluate, allSameKind, kind]

theorem C06_to_z_else (a : Lit) (h : (∃ b, a = bool b) ∨ (∃ b, a = hex b) ∨ (∃ s, a = str s ∧ s.length ≠ 1)) :
    evaluate EVAL_TO_INT [a] = .null := by
  rcases h with ⟨b, rfl⟩ | ⟨b, rfl⟩ | ⟨s, rfl, hs⟩
  · simp [evaluate, allSameKind, kind]
  · simp [evaluate, allSameKind, kind]
  · simp only [evaluate, allSameKind, kind]
    match s, hs with
    | [], _ => simp
    | [c], hs => simp at hs
    | _ :: _ :: _, _ => simp

/-- C06 `eo::to_q`: the same mathematical value as a rational, on arithmetic values only. -/
theorem C06_to_q (a : Lit) :
    (∀ c v, arith a = some (c, v) → ∃ r, evaluate EVAL_TO_RAT [a] = .val r ∧ arith r = some (.rational, v))
    ∧ (arith a = none → evaluate EVAL_TO_RAT [a] = .null) := by
  cases a <;> simp [arith, evaluate, allSameKind, kind]

/-- C06 `eo::to_bin`: the binary value of the given 32-bit width that is congruent to the argument. -/
theorem C06_to_bin (n : Int) (t : Lit) (v : Int) (hn : 0 ≤ n ∧ n < 2^32)
    (ht : t = num v ∨ (∃ c, ∃ w, ∃ x : BitVec w, t = bvLit c x ∧ v = x.toNat)) :
    evaluate EVAL_TO_BIN [num n, t] = .val (bvLit .binary (BitVec.ofInt n.toNat v)) := by
  have h1 : Integer.fitsUnsignedInt n = true := by
    simp only [Integer.fitsUnsignedInt, hn.1, hn.2, decide_true, Bool.and_self]
  have h2 : Integer.toUnsignedInt n = n.toNat := by unfold Integer.toUnsignedInt; omega
  rcases ht with rfl | ⟨c, w, x, rfl, rfl⟩
  · simp [evaluate, h1, h2, mk'_eq, bvLit]
  · cases c <;> simp only [evaluate, h1, h2, mk'_eq, bvLit] <;> simp [bvOf]

/-- C06: the result of `eo::to_bin` is determined by its width and its value modulo `2^width`. -/
theorem C06_to_bin_value (n : Nat) (v : Int) :
    ((BitVec.ofInt n v).toNat : Int) = v % 2^n := by
  rw [BitVec.toNat_ofInt]
  have := Int.emod_nonneg v (show ((2^n : Nat) : Int) ≠ 0 by have := Nat.two_pow_pos n; omega)
  rw [Int.toNat_of_nonneg this]; simp

/-- C06: otherwise `eo::to_bin` does not evaluate. -/
theorem C06_to_bin_else (a t : Lit)
    (h : (∀ n, a = num n → n < 0 ∨ 2^32 ≤ n) ∨ ((∀ v, t ≠ num v) ∧ (∀ b, t ≠ Lit.hex b) ∧ (∀ b, t ≠ Lit.bin b))) :
    evaluate EVAL_TO_BIN [a, t] = .null := by
  cases a <;> try (simp [evaluate]; done)
  rename_i n
  rcases h with h | ⟨h1, h2, h3⟩
  · have : Integer.fitsUnsignedInt n = false := by
      have := h n rfl
      unfold Integer.fitsUnsignedInt
      rcases this with h | h
      · simp [Int.not_le.mpr h]
      · simp; omega
    simp [evaluate, this]
  · cases t <;> simp_all [evaluate]

private theorem toInternal_noesc (s : List Nat) (h : ∀ c ∈ s, 32 ≤ c ∧ c ≤ 127) :
    Str.toInternal s false = s := by
  unfold Str.toInternal
  induction s with
  | nil => rfl
  | cons c s ih =>
    have hc := h c (by simp)
    have := ih (fun c hc => h c (by simp [hc]))
    have hn : ¬ (c > 127 ∨ c < 32) := by omega
    simp [Str.toInternalF, this, Str.addChar, hn]

private theorem intToString_notation (z : Int) : IsIntNotation (Integer.toString z) z := by
  unfold Integer.toString IsIntNotation
  split
  · rename_i h; right; exact ⟨h, _, rfl, natToString_notation 10 _ (by decide) (by decide)⟩
  · rename_i h; left; exact ⟨by omega, natToString_notation 10 _ (by decide) (by decide)⟩

private theorem nat_printable (b n : Nat) (hb : 2 ≤ b) (hb' : b ≤ 16) :
    ∀ c ∈ Integer.natToString b n, 32 ≤ c ∧ c ≤ 127 := by
  intro c hc
  have := natToString_chars b n hb hb' c hc
  omega

private theorem int_printable (z : Int) : ∀ c ∈ Integer.toString z, 32 ≤ c ∧ c ≤ 127 := by
  intro c hc
  unfold Integer.toString at hc
  split at hc
  · rcases List.mem_cons.mp hc with rfl | hc
    · omega
    · exact nat_printable _ _ (by decide) (by decide) c hc
  · exact nat_printable _ _ (by decide) (by decide) c hc

private theorem rat_printable (q : Rat) : ∀ c ∈ Rational.toString q, 32 ≤ c ∧ c ≤ 127 := by
  intro c hc
  unfold Rational.toString at hc
  split at hc
  · exact int_printable _ c hc
  · rcases List.mem_append.mp hc with hc | hc
    · exact int_printable _ c hc
    · rcases List.mem_cons.mp hc with rfl | hc
      · omega
      · exact nat_printable _ _ (by decide) (by decide) c hc

/-- C06 `eo::to_str` on a code point. -/
theorem C06_to_str_code (z : Int) (h : 0 ≤ z ∧ z < 196608) :
    evaluate EVAL_TO_STRING [num z] = .val (str [z.toNat]) := by
  have h1 : Integer.fitsUnsignedInt z = true := by simp [Integer.fitsUnsignedInt]; omega
  have h2 : Integer.toUnsignedInt z = z.toNat := by unfold Integer.toUnsignedInt; omega
  simp [evaluate, allSameKind, kind, evalToString, h1, h2, Str.numCodes]
  omega

/-- C06 `eo::to_str` on a string. -/
theorem C06_to_str_str (s : List Nat) : evaluate EVAL_TO_STRING [str s] = .val (str s) := by
  simp [evaluate, allSameKind, kind, evalToString]

/-- C06 `eo::to_str` on a rational: `num/den` in lowest terms with the usual base-10 notation. -/
theorem C06_to_str_rat (q : Rat) :
    ∃ n d, evaluate EVAL_TO_STRING [rat q] = .val (str (n ++ 47 :: d))
      ∧ IsIntNotation n q.num ∧ IsNotation 10 d q.den := by
  have e : evaluate EVAL_TO_STRING [rat q] = .val (str (toString (rat q))) := by
    simp only [evaluate, allSameKind, kind, evalToString]
    simp
    apply toInternal_noesc
    intro c hc
    simp only [Lit.toString] at hc
    split at hc
    · rcases List.mem_append.mp hc with hc | hc
      · exact rat_printable q c hc
      · simp at hc; omega
    · exact rat_printable q c hc
  rw [e]
  by_cases hd : q.den = 1
  · refine ⟨Integer.toString q.num, [49], ?_, intToString_notation _, ?_⟩
    · simp [Lit.toString, hd, Rational.toString]
    · rw [hd]; exact natToString_notation 10 1 (by decide) (by decide)
  · refine ⟨Integer.toString q.num, Integer.natToString 10 q.den, ?_, intToString_notation _,
      natToString_notation 10 _ (by decide) (by decide)⟩
    simp [Lit.toString, hd, Rational.toString]

/-- C06 `eo::to_str` on a decimal: printed as a rational (a bare integer if integral). -/
theorem C06_to_str_dec (q : Rat) :
    (q.den = 1 → ∃ n, evaluate EVAL_TO_STRING [dec q] = .val (str n) ∧ IsIntNotation n q.num)
    ∧ (q.den ≠ 1 → ∃ n d, evaluate EVAL_TO_STRING [dec q] = .val (str (n ++ 47 :: d))
      ∧ IsIntNotation n q.num ∧ IsNotation 10 d q.den) := by
  have e : evaluate EVAL_TO_STRING [dec q] = .val (str (Rational.toString q)) := by
    simp only [evaluate, allSameKind, kind, evalToString]
    simp
    exact toInternal_noesc _ (rat_printable q)
  rw [e]
  constructor
  · intro hd
    exact ⟨Integer.toString q.num, by simp [Rational.toString, hd], intToString_notation _⟩
  · intro hd
    exact ⟨Integer.toString q.num, Integer.natToString 10 q.den, by simp [Rational.toString, hd],
      intToString_notation _, natToString_notation 10 _ (by decide) (by decide)⟩

/-- digits of a width-`w` binary value, most significant first -/
def bitString {w : Nat} (x : BitVec w) : List Nat :=
  (List.range w).map (fun i => if x.getMsbD i then 49 else 48)

/-- value of a bit string -/
theorem positional_append (b : Nat) (l1 l2 : List Nat) :
    positional b (l1 ++ l2) = positional b l1 * b ^ l2.length + positional b l2 := by
  induction l1 with
  | nil => simp [positional]
  | cons d l ih =>
    simp only [List.cons_append, positional, ih, List.length_append, Nat.pow_add, Nat.add_mul]
    rw [Nat.mul_assoc]; omega

theorem bitString_positional {w : Nat} (x : BitVec w) :
    positional 2 ((List.range w).map (fun i => (x.getMsbD i).toNat)) = x.toNat := by
  have key : ∀ n, n ≤ w → positional 2 ((List.range n).map (fun i => (x.getMsbD i).toNat)) = x.toNat / 2^(w - n) := by
    intro n
    induction n with
    | zero => intro _; simp [positional, Nat.div_eq_of_lt x.isLt]
    | succ n ih =>
      intro hn
      rw [List.range_succ, List.map_append, positional_append, ih (by omega)]
      simp only [List.map_cons, List.map_nil, positional, List.length_singleton, List.length_nil]
      have h1 : x.getMsbD n = x.getLsbD (w - 1 - n) := by
        rw [BitVec.getMsbD_eq_getLsbD]; simp; omega
      rw [h1, BitVec.getLsbD, Nat.testBit_eq_decide_div_mod_eq]
      rw [show w - n = (w - (n+1)) + 1 by omega, Nat.pow_succ, ← Nat.div_div_eq_div_mul]
      rw [show w - 1 - n = w - (n + 1) by omega]
      generalize x.toNat / 2 ^ (w - (n + 1)) = m
      have : (decide (m % 2 = 1)).toNat = m % 2 := by
        rcases Nat.mod_two_eq_zero_or_one m with h | h <;> simp [h]
      rw [this]
      omega
  have := key w (Nat.le_refl w)
  simpa using this

theorem bin_toString {w : Nat} (x : BitVec w) : (bvOf x).toString = bitString x := by
  -- both are lists of w binary digits with the same positional value
  have hd : ∃ ds : List Nat, (bvOf x).toString = ds.map Integer.digitChar ∧ (∀ d ∈ ds, d < 2) ∧ ds.length = w
      ∧ positional 2 ds = x.toNat := by
    unfold BV.toString
    simp only [bvOf, true_and]
    have hlt := digitsF_lt 2 (by decide) x.toNat x.toNat (Nat.le_refl _)
    have hval := digitsF_value 2 (by decide) x.toNat x.toNat (Nat.le_refl _)
    have hpos := positional_foldl 2 (Integer.digitsF 2 x.toNat x.toNat) 0
    rw [hval] at hpos
    simp only [Nat.zero_mul, Nat.zero_add] at hpos
    split
    · rename_i h
      refine ⟨List.replicate (w - (Integer.natToString 2 x.toNat).length) 0 ++ Integer.digitsF 2 x.toNat x.toNat, ?_, ?_, ?_, ?_⟩
      · rw [List.map_append, List.map_replicate]; rfl
      · intro d hd
        rcases List.mem_append.mp hd with hd | hd
        · have := (List.mem_replicate.mp hd).2; omega
        · exact hlt d hd
      · rw [List.length_append, List.length_replicate]
        simp only [Integer.natToString, List.length_map] at h ⊢
        omega
      · rw [positional_append, ← hpos]
        have : ∀ n, positional 2 (List.replicate n 0) = 0 := by
          intro n; induction n with
          | zero => rfl
          | succ n ih => simp [List.replicate_succ, positional, ih]
        rw [this]; simp
    · rename_i h
      by_cases h0 : w = 0
      · subst h0
        refine ⟨[], rfl, by simp, rfl, ?_⟩
        have := x.isLt; simp only [positional]; omega
      · refine ⟨Integer.digitsF 2 x.toNat x.toNat, if_neg h0, hlt, ?_, hpos.symm⟩
        have := natToString_length_le 2 x.toNat w (by decide) x.isLt (by omega)
        simp only [Integer.natToString, List.length_map] at h this
        omega
  obtain ⟨ds, e, hlt, hlen, hpos⟩ := hd
  rw [e]
  have heq : ds = (List.range w).map (fun i => (x.getMsbD i).toNat) := by
    apply positional_inj 2 _ _ (by simp [hlen]) hlt
    · intro d hd
      obtain ⟨i, _, rfl⟩ := List.mem_map.mp hd
      cases x.getMsbD i <;> decide
    · rw [hpos, bitString_positional]
  rw [heq, List.map_map]
  unfold bitString
  apply List.map_congr_left
  intro i _
  simp only [Function.comp]
  cases x.getMsbD i <;> rfl

/-- C06 `eo::to_str` on a binary value: `#b` and one digit per bit, most significant first. -/
theorem C06_to_str_bin {w : Nat} (x : BitVec w) :
    evaluate EVAL_TO_STRING [bvLit .binary x] = .val (str ([35, 98] ++ bitString x)) := by
  simp only [evaluate, allSameKind, kind, evalToString, bvLit]
  simp only [Lit.toString, bin_toString]
  simp
  rw [toInternal_noesc]
  intro c hc
  simp at hc
  rcases hc with rfl | rfl | hc
  · omega
  · omega
  · unfold bitString at hc
    obtain ⟨i, _, rfl⟩ := List.mem_map.mp hc
    split <;> omega

/-- C06, disagreement with the manual: `(eo::to_str z)` for a numeral that is not a code point is
documented not to evaluate; the code returns its decimal notation. -/
theorem C06_to_str_noncode (z : Int) (h : z < 0 ∨ 196608 ≤ z) :
    ∃ s, evaluate EVAL_TO_STRING [num z] = .val (str s) ∧ IsIntNotation s z := by
  refine ⟨Integer.toString z, ?_, intToString_notation z⟩
  have : ¬ (Integer.fitsUnsignedInt z = true ∧ Integer.toUnsignedInt z < Str.numCodes) := by
    rintro ⟨h1, h2⟩
    simp [Integer.fitsUnsignedInt] at h1
    unfold Integer.toUnsignedInt Str.numCodes at h2
    omega
  simp only [evaluate, allSameKind, kind, evalToString, this]
  simp [Lit.toString]
  exact toInternal_noesc _ (int_printable z)

/-- the manual's claim is refuted by `(eo::to_str -1)` -/
theorem C06_to_str_refuted :
    ¬ ∀ z : Int, (z < 0 ∨ 196608 ≤ z) → evaluate EVAL_TO_STRING [num z] = .null := by
  intro h
  obtain ⟨s, hs, _⟩ := C06_to_str_noncode (-1) (by decide)
  rw [h (-1) (by decide)] at hs
  exact absurd hs (by simp)

example : evaluate EVAL_TO_STRING [bvLit .binary 0b101#3] = .val (str [35, 98, 49, 48, 49]) := by decide
example : evaluate EVAL_TO_STRING [num (-12)] = .val (str [45, 49, 50]) := by decide
example : evaluate EVAL_TO_INT [rat (mkRat (-3) 2)] = .val (num (-2)) := by decide +kernel
example : evaluate EVAL_TO_BIN [num 4, num (-1)] = .val (bin ⟨4, 15⟩) := by decide

/-- lengths: the number of characters / the width (strings shorter than `2^32`). -/
theorem C06_len (s : List Nat) (hs : s.length < 2^32) {w : Nat} (x : BitVec w) :
    evaluate EVAL_LENGTH [str s] = .val (num s.length)
    ∧ evaluate EVAL_LENGTH [bvLit .binary x] = .val (num w)
    ∧ evaluate EVAL_LENGTH [bvLit .hexadecimal x] = .null := by
  have : u32 (s.length : Int) = s.length := by unfold u32; omega
  simp [evaluate, allSameKind, kind, this, bvLit, bvOf]

end Ethos.Props
