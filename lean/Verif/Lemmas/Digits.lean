import Verif.Spec.Literal
/-
Helper lemmas on positional notation.
-/
namespace Ethos
open Integer Spec

theorem digitsF_zero (b n : Nat) : digitsF b 0 n = [n] := rfl

theorem digitsF_ne_nil (b f n : Nat) : digitsF b f n ≠ [] := by
  cases f <;> simp [digitsF]; split <;> simp

theorem digitsF_lt (b : Nat) (hb : 2 ≤ b) : ∀ (f n : Nat), n ≤ f → ∀ d ∈ digitsF b f n, d < b
  | 0, n, h, d, hd => by simp [digitsF] at hd; omega
  | f + 1, n, h, d, hd => by
    simp only [digitsF] at hd
    split at hd
    · simp at hd; omega
    · rename_i hn
      rw [List.mem_append] at hd
      rcases hd with hd | hd
      · have : n / b ≤ f := by
          have : n / b < n := Nat.div_lt_self (by omega) hb
          omega
        exact digitsF_lt b hb f (n / b) this d hd
      · simp at hd; subst hd; exact Nat.mod_lt _ (by omega)

theorem foldl_digits_append (b : Nat) (l : List Nat) (d : Nat) (acc : Nat) :
    (l ++ [d]).foldl (fun a c => a * b + c) acc = l.foldl (fun a c => a * b + c) acc * b + d := by
  simp

theorem digitsF_value (b : Nat) (hb : 2 ≤ b) : ∀ (f n : Nat), n ≤ f →
    (digitsF b f n).foldl (fun a c => a * b + c) 0 = n
  | 0, n, h => by simp [digitsF]
  | f + 1, n, h => by
    simp only [digitsF]
    split
    · simp
    · rename_i hn
      rw [foldl_digits_append]
      have : n / b ≤ f := by
        have : n / b < n := Nat.div_lt_self (by omega) hb
        omega
      rw [digitsF_value b hb f (n / b) this]
      rw [Nat.mul_comm]; exact Nat.div_add_mod n b

theorem positional_foldl (b : Nat) (ds : List Nat) (acc : Nat) :
    ds.foldl (fun a c => a * b + c) acc = acc * b ^ ds.length + positional b ds := by
  induction ds generalizing acc with
  | nil => simp [positional]
  | cons d ds ih =>
    simp only [List.foldl_cons, ih, positional, List.length_cons, Nat.pow_succ, Nat.add_mul]
    rw [Nat.mul_assoc, Nat.mul_comm b]; omega

theorem digitsF_head (b : Nat) (hb : 2 ≤ b) : ∀ (f n : Nat), n ≤ f → ∀ d rest,
    digitsF b f n = d :: rest → d = 0 → rest = []
  | 0, n, h, d, rest, e, _ => by simp [digitsF] at e; exact e.2
  | f + 1, n, h, d, rest, e, h0 => by
    simp only [digitsF] at e
    split at e
    · simp at e; exact e.2
    · rename_i hn
      have h1 : n / b < n := Nat.div_lt_self (by omega) hb
      cases hd : digitsF b f (n / b) with
      | nil => exact absurd hd (digitsF_ne_nil _ _ _)
      | cons d' rest' =>
        rw [hd] at e
        simp only [List.cons_append, List.cons.injEq] at e
        have := digitsF_head b hb f (n / b) (by omega) d' rest' hd (by omega)
        subst this
        have hv := digitsF_value b hb f (n / b) (by omega)
        rw [hd] at hv
        simp at hv
        have : 1 ≤ n / b := (Nat.one_le_div_iff (by omega)).mpr (by omega)
        omega

theorem digitValue_digitChar (d : Nat) (h : d < 16) : digitValue (digitChar d) = some d := by
  unfold digitValue digitChar
  by_cases h1 : d < 10
  · simp only [h1, if_true]; rw [if_pos (by omega)]; congr 1; omega
  · simp only [h1, if_false]
    rw [if_neg (by omega), if_pos (by omega)]; congr 1; omega

theorem digitVal_digitChar (d : Nat) (h : d < 16) : digitVal (digitChar d) = d := by
  unfold digitVal digitChar
  by_cases h1 : d < 10
  · simp only [h1, if_true]; rw [if_pos (by omega)]; omega
  · simp only [h1, if_false]
    rw [if_neg (by omega), if_pos (by omega)]; omega

theorem natToString_notation (b n : Nat) (hb : 2 ≤ b) (hb' : b ≤ 16) : IsNotation b (natToString b n) n := by
  refine ⟨digitsF b n n, digitsF_ne_nil _ _ _, ?_, digitsF_lt b hb n n (Nat.le_refl n),
    digitsF_head b hb n n (Nat.le_refl n), ?_⟩
  · unfold natToString
    rw [List.map_map]
    apply List.map_congr_left
    intro d hd
    have := digitsF_lt b hb n n (Nat.le_refl n) d hd
    simp only [Function.comp]
    exact digitValue_digitChar d (by omega)
  · have := positional_foldl b (digitsF b n n) 0
    rw [digitsF_value b hb n n (Nat.le_refl n)] at this
    simp at this; exact this.symm

theorem natOfString_natToString (b n : Nat) (hb : 2 ≤ b) (hb' : b ≤ 16) :
    natOfString b (natToString b n) = n := by
  unfold natOfString natToString
  have hl := digitsF_lt b hb n n (Nat.le_refl n)
  have key : ∀ (l : List Nat) (acc : Nat), (∀ d ∈ l, d < b) →
      (l.map digitChar).foldl (fun acc c => acc * b + digitVal c) acc = l.foldl (fun a c => a * b + c) acc := by
    intro l
    induction l with
    | nil => intro acc _; rfl
    | cons d l ih =>
      intro acc h
      have := h d (by simp)
      simp only [List.map_cons, List.foldl_cons]
      rw [digitVal_digitChar d (by omega)]
      exact ih _ (fun d hd => h d (by simp [hd]))
  rw [key _ _ hl]
  exact digitsF_value b hb n n (Nat.le_refl n)

theorem natToString_length_le (b n k : Nat) (hb : 2 ≤ b) (h : n < b ^ k) (hk : 0 < k) :
    (natToString b n).length ≤ k := by
  unfold natToString
  rw [List.length_map]
  have : ∀ (f n k : Nat), n ≤ f → n < b ^ k → 0 < k → (digitsF b f n).length ≤ k := by
    intro f
    induction f with
    | zero => intro n k _ _ hk; simp [digitsF]; omega
    | succ f ih =>
      intro n k hf h hk
      simp only [digitsF]
      split
      · simp; omega
      · rename_i hn
        rw [List.length_append]
        have h1 : n / b < n := Nat.div_lt_self (by omega) hb
        have hk1 : k ≠ 1 := by rintro rfl; simp at h; omega
        obtain ⟨k', rfl⟩ : ∃ k', k = k' + 1 := ⟨k - 1, by omega⟩
        have := ih (n / b) k' (by omega) (by
          rw [Nat.pow_succ] at h
          exact Nat.div_lt_of_lt_mul (by rw [Nat.mul_comm]; exact h)) (by omega)
        simp; omega
  exact this n n k (Nat.le_refl n) h hk

theorem digitChar_range (d : Nat) (h : d < 16) : (48 ≤ digitChar d ∧ digitChar d ≤ 57) ∨ (97 ≤ digitChar d ∧ digitChar d ≤ 102) := by
  unfold digitChar; split <;> omega

theorem natToString_chars (b n : Nat) (hb : 2 ≤ b) (hb' : b ≤ 16) :
    ∀ c ∈ natToString b n, (48 ≤ c ∧ c ≤ 57) ∨ (97 ≤ c ∧ c ≤ 102) := by
  intro c hc
  unfold natToString at hc
  rw [List.mem_map] at hc
  obtain ⟨d, hd, rfl⟩ := hc
  have := digitsF_lt b hb n n (Nat.le_refl n) d hd
  exact digitChar_range d (by omega)

theorem natToString_ne_nil (b n : Nat) : natToString b n ≠ [] := by
  unfold natToString
  simp [digitsF_ne_nil]

theorem positional_inj (b : Nat) : ∀ (d1 d2 : List Nat), d1.length = d2.length → (∀ d ∈ d1, d < b) →
    (∀ d ∈ d2, d < b) → positional b d1 = positional b d2 → d1 = d2
  | [], [], _, _, _, _ => rfl
  | x :: xs, y :: ys, hl, h1, h2, h => by
    have bnd : ∀ l : List Nat, (∀ d ∈ l, d < b) → positional b l < b ^ l.length := by
      intro l
      induction l with
      | nil => intro _; simp [positional]
      | cons d l ih =>
        intro hd
        have := ih (fun d h => hd d (by simp [h]))
        have hdb := hd d (by simp)
        simp only [positional, List.length_cons, Nat.pow_succ]
        calc d * b ^ l.length + positional b l < d * b ^ l.length + b ^ l.length := by omega
          _ = (d + 1) * b ^ l.length := by rw [Nat.add_mul]; simp
          _ ≤ b * b ^ l.length := Nat.mul_le_mul_right _ hdb
          _ = b ^ l.length * b := Nat.mul_comm _ _
    simp only [List.length_cons, Nat.add_right_cancel_iff] at hl
    have b1 := bnd xs (fun d h => h1 d (by simp [h]))
    have b2 := bnd ys (fun d h => h2 d (by simp [h]))
    simp only [positional] at h
    rw [← hl] at h b2
    have hxy : x = y := by
      rcases Nat.lt_trichotomy x y with hlt | heq | hgt
      · have := Nat.mul_le_mul_right (b ^ xs.length) (show x + 1 ≤ y from hlt)
        rw [Nat.add_mul] at this; omega
      · exact heq
      · have := Nat.mul_le_mul_right (b ^ xs.length) (show y + 1 ≤ x from hgt)
        rw [Nat.add_mul] at this; omega
    subst hxy
    have := positional_inj b xs ys hl (fun d h => h1 d (by simp [h])) (fun d h => h2 d (by simp [h])) (by omega)
    rw [this]

end Ethos
