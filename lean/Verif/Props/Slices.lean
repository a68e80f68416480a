import Verif.Props.BitVectors
/-
Property theorems C04 (`eo::extract`), C05 (`eo::find`) and lengths.
-/
namespace Ethos.Props
open Ethos Kind Lit Spec

/-! ## C04 strings -/

theorem slice_aux (s : List Nat) (k : Nat) (i j : Nat) :
    ((s.zipIdx k).filter (fun cp => decide ((i : Int) ≤ cp.2) && decide ((cp.2 : Int) ≤ j))).map Prod.fst
      = (s.drop (i - k)).take (j + 1 - max i k) := by
  induction s generalizing k with
  | nil => simp
  | cons c s ih =>
    rw [List.zipIdx_cons, List.filter_cons]
    by_cases h1 : i ≤ k
    · by_cases h2 : k ≤ j
      · have : (decide ((i : Int) ≤ (c, k).2) && decide (((c, k).2 : Int) ≤ j)) = true := by simp; omega
        rw [if_pos this, List.map_cons, ih]
        rw [show i - k = 0 by omega, show i - (k+1) = 0 by omega,
          show j + 1 - max i k = (j + 1 - max i (k+1)) + 1 by omega]
        simp
      · have : ¬ (decide ((i : Int) ≤ (c, k).2) && decide (((c, k).2 : Int) ≤ j)) = true := by simp; omega
        rw [if_neg this, ih, show j + 1 - max i k = 0 by omega, show j + 1 - max i (k+1) = 0 by omega]
        simp
    · have : ¬ (decide ((i : Int) ≤ (c, k).2) && decide (((c, k).2 : Int) ≤ j)) = true := by simp; omega
      rw [if_neg this, ih, show i - k = (i - (k+1)) + 1 by omega, show max i k = max i (k+1) by omega]
      simp

/-- C04, strings: `(eo::extract s i j)` is the slice of the positions `i..j`, for every string shorter
than `2^32` characters and all numerals. -/
theorem C04_string (s : List Nat) (i j : Int) (hs : s.length < 2^32) :
    evaluate EVAL_EXTRACT [str s, num i, num j] = .val (str (slice s i j)) := by
  have e : evaluate EVAL_EXTRACT [str s, num i, num j] = .val (extractStr s i j) := by
    simp [evaluate]
  rw [e]
  congr 1
  unfold extractStr slice
  have hu : u32 (s.length : Int) = s.length := by unfold u32; omega
  by_cases hneg : i < 0 ∨ j < 0
  · rw [if_pos hneg, if_pos]; omega
  rw [if_neg hneg]
  obtain ⟨i, rfl⟩ : ∃ n : Nat, i = n := ⟨i.toNat, by omega⟩
  obtain ⟨j, rfl⟩ : ∃ n : Nat, j = n := ⟨j.toNat, by omega⟩
  rw [slice_aux s 0 i j]
  simp only [hu]
  split
  · rename_i h
    congr 1
    rw [List.drop_eq_nil_of_le]
    · simp
    · omega
  · rename_i h
    congr 1
    have h1 : i ≤ s.length := by omega
    have h2 : s.length ≠ 0 := by omega
    have hi : Integer.toUnsignedInt (i : Int) = i := by
      unfold Integer.toUnsignedInt; rw [Int.natAbs_natCast]; omega
    have hl : Integer.toUnsignedInt (s.length : Int) = s.length := by
      unfold Integer.toUnsignedInt; rw [Int.natAbs_natCast]; omega
    unfold Str.substr
    simp only [hi, hl, Nat.sub_zero, Nat.zero_le, Nat.max_eq_left]
    have key : ∀ n m : Nat, (n = m ∨ (s.length - i ≤ n ∧ s.length - i ≤ m)) →
        (s.drop i).take n = (s.drop i).take m := by
      intro n m h
      rcases h with rfl | ⟨ha, hb⟩
      · rfl
      · rw [List.take_of_length_le (by simpa using ha), List.take_of_length_le (by simpa using hb)]
    apply key
    by_cases hj : (j : Int) ≥ (s.length : Int)
    · simp only [hj, if_true]
      have : u32 ((s.length : Int) - 1) = s.length - 1 := by unfold u32; omega
      rw [this]
      split
      · right
        unfold u32; omega
      · right; omega
    · simp only [hj, if_false]
      have hj' : Integer.toUnsignedInt (j : Int) = j := by
        unfold Integer.toUnsignedInt; rw [Int.natAbs_natCast]; omega
      rw [hj']
      left
      split
      · unfold u32; omega
      · omega

/-- C04: the slice is never longer than the string. -/
theorem C04_string_length (s : List Nat) (i j : Int) : (slice s i j).length ≤ s.length := by
  unfold slice
  split
  · simp
  · rw [List.length_map]
    exact Nat.le_trans (List.length_filter_le _ _) (by simp)

example : evaluate EVAL_EXTRACT [str [97,98,99,100,101,102], num 1, num 10] = .val (str [98,99,100,101,102])
    ∧ slice [97,98,99,100,101,102] 1 10 = [98,99,100,101,102]
    ∧ evaluate EVAL_EXTRACT [str [97,98,99,100,101,102], num 2, num 3] = .val (str [99,100]) := by decide

/-! ## C04 bit-vectors -/

private theorem extract_bvOf {w : Nat} (x : BitVec w) (hw : w < 2^32) (i m : Nat) (h : i ≤ m) (hm : m < w) :
    (bvOf x).extract m i = bvOf (x.extractLsb' i (m + 1 - i)) := by
  unfold BV.extract
  have h1 : u32 ((m : Int) - i + 1) = m + 1 - i := by unfold u32; omega
  rw [h1, mk'_eq]
  congr 1
  apply BitVec.eq_of_toNat_eq
  rw [BitVec.extractLsb'_toNat]
  unfold Integer.extractBitRange Integer.modByPow2
  have h2 : u32 ((i : Int) + (m + 1 - i : Nat) - 1) = m := by unfold u32; omega
  have h3 : u32 ((m : Int) + 1) = m + 1 := by unfold u32; omega
  simp only [h2, h3]
  rw [Int.fmod_eq_emod_of_nonneg _ (Int.le_of_lt (Int.pow_pos (by decide))),
    Int.fdiv_eq_ediv_of_nonneg _ (Int.le_of_lt (Int.pow_pos (by decide)))]
  have : ((bvOf x).value : Int) % 2^(m+1) / 2^i = (((bvOf x).value % 2^(m+1) / 2^i : Nat) : Int) := by simp
  rw [this, BitVec.ofInt_natCast, BitVec.toNat_ofNat]
  show x.toNat % 2^(m+1) / 2^i % _ = _
  rw [Nat.shiftRight_eq_div_pow]
  obtain ⟨n, hn⟩ : ∃ n, m + 1 = i + n := ⟨m + 1 - i, by omega⟩
  rw [hn, Nat.add_sub_cancel_left, Nat.pow_add, Nat.mod_mul_right_div_self, Nat.mod_mod]

/-- C04, bit-vectors: `(eo::extract t i j)` is the slice of the bits `i..j`, for every width and all
numerals, *except* `j = width` (the code compares `j > width` where `j >= width` was meant). -/
theorem C04_bits_partial (c : BCat) {w : Nat} (hw : w < 2^32) (x : BitVec w) (i j : Int) (hj : j ≠ w) :
    evaluate EVAL_EXTRACT [bvLit c x, num i, num j] = .val (bitSlice c x i j) := by
  have e : evaluate EVAL_EXTRACT [bvLit c x, num i, num j]
      = .val (extractBV (match c with | .hexadecimal => hex | .binary => bin) (bvOf x) i j) := by
    cases c <;> simp [evaluate, bvLit]
  rw [e]
  congr 1
  unfold extractBV bitSlice
  have hz : (match c with | .hexadecimal => hex | .binary => bin) (BV.zero 0) = bvLit c 0#0 := by
    cases c <;> rfl
  have hsz : (bvOf x).size = w := rfl
  simp only [hsz]
  split
  · rename_i h; rw [if_neg (by omega)]; exact hz
  · rename_i h
    obtain ⟨i, rfl⟩ : ∃ n : Nat, i = n := ⟨i.toNat, by omega⟩
    obtain ⟨j, rfl⟩ : ∃ n : Nat, j = n := ⟨j.toNat, by omega⟩
    have hi : Integer.toUnsignedInt (i : Int) = i := by
      unfold Integer.toUnsignedInt; rw [Int.natAbs_natCast]; omega
    have hl : Integer.toUnsignedInt (w : Int) = w := by
      unfold Integer.toUnsignedInt; rw [Int.natAbs_natCast]; omega
    have hu : u32 ((w : Int) - 1) = w - 1 := by unfold u32; omega
    simp only [hi, hl, hu]
    have hmin : (if (j : Int) > (w : Int) then w - 1 else Integer.toUnsignedInt (j : Int))
        = (min (j : Int) ((w : Int) - 1)).toNat := by
      split
      · omega
      · unfold Integer.toUnsignedInt; rw [Int.natAbs_natCast]; omega
    rw [hmin]
    split
    · rename_i h'; rw [if_neg (by omega)]; exact hz
    · rename_i h'
      rw [if_pos (by omega), extract_bvOf x hw _ _ (by omega) (by omega)]
      cases c <;> rfl

/-- C04 is false for bit-vectors at `j = width`: the result is longer than the argument
(`(eo::extract #b1 0 1)` is `#b01`). -/
theorem C04_bits_refuted : ¬ ∀ (c : BCat) (w : Nat) (x : BitVec w) (i j : Int), w < 2^32 →
    evaluate EVAL_EXTRACT [bvLit c x, num i, num j] = .val (bitSlice c x i j) := by
  intro h
  have := h .binary 1 1#1 0 1 (by decide)
  revert this
  decide

/-- the wrong case, exactly: for `j = width` and `0 ≤ i ≤ width` the result has one bit too many. -/
theorem C04_bits_at_width (c : BCat) {w : Nat} (hw : w + 1 < 2^32) (h0 : 0 < w) (x : BitVec w) (i : Nat) (hi : i ≤ w) :
    evaluate EVAL_EXTRACT [bvLit c x, num i, num w]
      = .val (bvLit c ((0#1 ++ x).extractLsb' i (w + 1 - i))) := by
  have e : evaluate EVAL_EXTRACT [bvLit c x, num i, num w]
      = .val (extractBV (match c with | .hexadecimal => hex | .binary => bin) (bvOf x) i w) := by
    cases c <;> simp [evaluate, bvLit]
  rw [e]
  congr 1
  unfold extractBV
  have hsz : (bvOf x).size = w := rfl
  simp only [hsz]
  rw [if_neg (by omega)]
  have hi' : Integer.toUnsignedInt (i : Int) = i := by
    unfold Integer.toUnsignedInt; rw [Int.natAbs_natCast]; omega
  have hl : Integer.toUnsignedInt (w : Int) = w := by
    unfold Integer.toUnsignedInt; rw [Int.natAbs_natCast]; omega
  simp only [hi', hl]
  rw [if_neg (show ¬ ((w : Int) > w) by omega), if_neg (by omega)]
  have hx : (bvOf x).extract w i = (bvOf ((0#1 ++ x))).extract w i := by
    unfold BV.extract; simp [bvOf, BitVec.toNat_append]
  rw [hx, extract_bvOf _ (by omega) _ _ hi (by omega)]
  cases c <;> rfl

example : bitSlice .binary 0b11100#5 2 4 = bin ⟨3, 7⟩
    ∧ evaluate EVAL_EXTRACT [bvLit .binary 0b11100#5, num 2, num 4] = .val (bin ⟨3, 7⟩)
    ∧ evaluate EVAL_EXTRACT [bvLit .binary 0b111000#6, num 1, num 10] = .val (bin ⟨5, 0b11100⟩)
    ∧ evaluate EVAL_EXTRACT [bvLit .binary 0b10#2, num (-1), num 2] = .val (bin ⟨0, 0⟩) := by decide

/-! ## C05 -/

private theorem search_some (y : List Nat) : ∀ (s : List Nat) (k p : Nat), Str.search y s k = some p →
    ∃ i, p = k + i ∧ OccursAt s y i ∧ ∀ i' < i, ¬ OccursAt s y i'
  | [], k, p, h => by
    simp only [Str.search] at h
    split at h
    · rename_i hp
      refine ⟨0, by simpa using h.symm, ?_, by simp⟩
      have := List.isPrefixOf_iff_prefix.mp hp
      rw [List.prefix_nil] at this
      subst this
      exact ⟨[], [], rfl, rfl⟩
    · simp at h
  | c :: s, k, p, h => by
    simp only [Str.search] at h
    split at h
    · rename_i hp
      refine ⟨0, by simpa using h.symm, ?_, by simp⟩
      obtain ⟨t, ht⟩ := List.isPrefixOf_iff_prefix.mp hp
      exact ⟨[], t, by simpa using ht.symm, rfl⟩
    · rename_i hp
      obtain ⟨i, rfl, ⟨u, v, hs, hu⟩, hmin⟩ := search_some y s (k+1) p h
      refine ⟨i + 1, by omega, ⟨c :: u, v, by simp [hs], by simp [hu]⟩, ?_⟩
      intro i' hi' ⟨u', v', hs', hu'⟩
      cases u' with
      | nil => exact hp (List.isPrefixOf_iff_prefix.mpr ⟨v', by simpa using hs'.symm⟩)
      | cons d u' =>
        simp at hs'
        apply hmin (i' - 1) (by simp at hu'; omega)
        exact ⟨u', v', by simpa using hs'.2, by simp at hu'; omega⟩

private theorem search_none (y : List Nat) : ∀ (s : List Nat) (k : Nat), Str.search y s k = none →
    ∀ i, ¬ OccursAt s y i
  | [], k, h, i, ⟨u, v, hs, hu⟩ => by
    simp only [Str.search] at h
    split at h
    · simp at h
    · rename_i hp
      apply hp
      have : y = [] := by
        have := congrArg List.length hs
        simp at this
        exact List.eq_nil_of_length_eq_zero (by omega)
      subst this; rfl
  | c :: s, k, h, i, ⟨u, v, hs, hu⟩ => by
    simp only [Str.search] at h
    split at h
    · simp at h
    · rename_i hp
      cases u with
      | nil => exact hp (List.isPrefixOf_iff_prefix.mpr ⟨v, by simpa using hs.symm⟩)
      | cons d u =>
        simp at hs
        exact search_none y s (k+1) h (i - 1) ⟨u, v, by simpa using hs.2, by simp at hu; omega⟩

/-- C05: `(eo::find s t)` is the least position where `t` occurs in `s`, or -1 if it does not occur
(for strings shorter than `2^32` characters). -/
theorem C05_find (s t : List Nat) (hs : s.length < 2^32) :
    (∃ i : Nat, evaluate EVAL_FIND [str s, str t] = .val (num i)
        ∧ OccursAt s t i ∧ ∀ i' < i, ¬ OccursAt s t i')
    ∨ (evaluate EVAL_FIND [str s, str t] = .val (num (-1)) ∧ ∀ i, ¬ OccursAt s t i) := by
  have e : evaluate EVAL_FIND [str s, str t] = (match Str.find s t with
      | none => .val (num (-1)) | some i => .val (num (u32 i))) := by
    simp only [evaluate, allSameKind, kind, asStr]; rfl
  rw [e]
  unfold Str.find
  by_cases h1 : s.length < t.length
  · right
    rw [if_pos h1]
    refine ⟨rfl, ?_⟩
    rintro i ⟨u, v, hs', hu⟩
    have := congrArg List.length hs'
    simp at this; omega
  · rw [if_neg h1]
    by_cases h2 : t.length = 0
    · left
      rw [if_pos h2]
      have := List.eq_nil_of_length_eq_zero h2
      subst this
      exact ⟨0, rfl, ⟨[], s, by simp, rfl⟩, by simp⟩
    · rw [if_neg h2]
      have h3 : s.length ≠ 0 := by omega
      rw [if_neg h3]
      cases hsr : Str.search t s 0 with
      | none => right; exact ⟨rfl, search_none t s 0 hsr⟩
      | some p =>
        left
        obtain ⟨i, hp, hocc, hmin⟩ := search_some t s 0 p hsr
        refine ⟨i, ?_, hocc, hmin⟩
        obtain ⟨u, v, hs', hu⟩ := hocc
        have := congrArg List.length hs'
        simp at this
        have hu32 : u32 (p : Int) = i := by unfold u32; omega
        simp [hu32]

/-- C05: the operator evaluates on strings only. -/
theorem C05_strings_only (a b r : Lit) (h : evaluate EVAL_FIND [a, b] = .val r) :
    ∃ s t, a = str s ∧ b = str t := by
  cases a <;> cases b <;> simp_all [evaluate, allSameKind, kind]

example : evaluate EVAL_FIND [str [97,98,99], str [98,99]] = .val (num 1)
    ∧ evaluate EVAL_FIND [str [97,98,99], str [103]] = .val (num (-1)) := by decide

/-- C05 needs the bound: a position of `2^32` or more is reported modulo `2^32` (32-bit `Integer(size_t)`
conversion, literal.cpp EVAL_FIND). -/
theorem C05_wraps (s t : List Nat) (p : Nat) (h : Str.find s t = some p) :
    evaluate EVAL_FIND [str s, str t] = .val (num ((p % 2^32 : Nat) : Int)) := by
  simp only [evaluate, allSameKind, kind, asStr]
  simp [h, u32]
  omega

end Ethos.Props
