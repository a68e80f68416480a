import Verif.Spec.Syntax
import Verif.Props.LitWf
import Verif.Props.Lexer
import Verif.Lemmas.Command
/-
Reading literals: the digits, the escape sequences of strings and the literals of tokens.
-/
namespace Ethos.Props
open Ethos Spec

/-! ### Digits -/

theorem _root_.Ethos.Spec.HexDigit.val {c : Nat} (h : HexDigit c) : Integer.digitVal c = digitNum c ∧ digitNum c < 16 ∧ Str.isHexDigit c = true ∧ c ≠ 0 := by
  unfold HexDigit Digit at h
  unfold Integer.digitVal digitNum Str.isHexDigit Str.isDigit
  rcases h with ⟨h1, h2⟩ | ⟨h1, h2⟩ | ⟨h1, h2⟩
  · rw [if_pos ⟨h1, h2⟩, if_pos h2]
    simp [h1, h2]; omega
  · rw [if_neg (by omega), if_pos ⟨h1, h2⟩, if_neg (by omega), if_neg (by omega)]
    simp [h1, h2]; omega
  · rw [if_neg (by omega), if_neg (by omega), if_pos ⟨h1, h2⟩, if_neg (by omega), if_pos (by omega)]
    simp [h1, h2]; omega

theorem _root_.Ethos.Spec.Digit.hex {c : Nat} (h : Digit c) : HexDigit c := .inl h
theorem _root_.Ethos.Spec.Bit.hex {c : Nat} (h : Bit c) : HexDigit c := .inl (by unfold Digit; rcases h with h | h <;> omega)

theorem isHexDigit_iff {c : Nat} : Str.isHexDigit c = true ↔ HexDigit c := by
  simp [Str.isHexDigit, Str.isDigit, HexDigit, Digit]
  omega

theorem natOfString_eq (b : Nat) {ds : List Nat} (h : ∀ d ∈ ds, HexDigit d) : Integer.natOfString b ds = numVal b ds := by
  unfold numVal Integer.natOfString
  have key : ∀ (l : List Nat) (acc : Nat), (∀ d ∈ l, HexDigit d) →
      l.foldl (fun acc c => acc * b + Integer.digitVal c) acc = (l.map digitNum).foldl (fun a c => a * b + c) acc := by
    intro l
    induction l with
    | nil => intro acc _; rfl
    | cons d l ih =>
      intro acc h
      simp only [List.map_cons, List.foldl_cons, (HexDigit.val (h d (by simp))).1]
      exact ih _ fun d hd => h d (by simp [hd])
  rw [key _ _ h, positional_foldl]
  simp

theorem numVal_lt (b : Nat) : ∀ {ds : List Nat}, (∀ d ∈ ds, digitNum d < b) → numVal b ds < b ^ ds.length
  | [], _ => by simp [numVal, positional]
  | d :: ds, h => by
    have ih := numVal_lt b (ds := ds) fun d hd => h d (by simp [hd])
    have hd := h d (by simp)
    simp only [numVal, List.map_cons, positional, List.length_map, List.length_cons, Nat.pow_succ] at ih ⊢
    have := Nat.mul_le_mul_right (b ^ ds.length) (show digitNum d + 1 ≤ b from hd)
    rw [Nat.add_mul] at this
    rw [Nat.mul_comm (b ^ ds.length)]
    omega

theorem _root_.Ethos.Spec.Digit.num {c : Nat} (h : Digit c) : digitNum c < 10 ∧ (digitNum c = 0 ↔ c = 48) := by
  unfold Digit at h
  unfold digitNum
  rw [if_pos h.2]; omega

theorem _root_.Ethos.Spec.Bit.num {c : Nat} (h : Bit c) : digitNum c < 2 := by
  unfold digitNum
  rcases h with rfl | rfl <;> decide

theorem numVal_zero : ∀ {ds : List Nat}, (∀ d ∈ ds, Digit d) → (numVal 10 ds = 0 ↔ ds.all (· = 48) = true)
  | [], _ => by simp [numVal, positional]
  | d :: ds, h => by
    have ih := numVal_zero (ds := ds) fun d hd => h d (by simp [hd])
    have hd := (h d (by simp)).num
    have hp : 0 < 10 ^ ds.length := Nat.pow_pos (by decide)
    simp only [numVal, List.map_cons, positional, List.length_map, List.all_cons, Bool.and_eq_true, decide_eq_true_eq] at ih ⊢
    rw [← ih, ← hd.2]
    constructor
    · intro h'
      have h1 : digitNum d * 10 ^ ds.length = 0 := by omega
      rcases Nat.mul_eq_zero.1 h1 with h1 | h1
      · exact ⟨h1, by omega⟩
      · omega
    · rintro ⟨h1, h2⟩
      simp [h1, h2]

theorem _root_.Ethos.Spec.Digit.isDigitOf {c : Nat} : isDigitOf 10 c = true ↔ Digit c := by
  simp [Ethos.isDigitOf, Digit]; omega

theorem ofDigits_eq {ds : List Nat} (h : Digits ds) : Integer.ofDigits 10 ds = some (numVal 10 ds) := by
  unfold Integer.ofDigits
  rw [if_pos ⟨h.1, List.all_eq_true.2 fun d hd => Digit.isDigitOf.2 (h.2 d hd)⟩, natOfString_eq _ fun d hd => (h.2 d hd).hex]

theorem ofDigits_some {ds : List Nat} {v : Nat} (h : Integer.ofDigits 10 ds = some v) : Digits ds := by
  unfold Integer.ofDigits at h
  split at h
  · next h' => exact ⟨h'.1, fun d hd => Digit.isDigitOf.1 (List.all_eq_true.1 h'.2 d hd)⟩
  · cases h

theorem _root_.Ethos.Spec.Digit.ne {c : Nat} (h : Digit c) : c ≠ 45 ∧ c ≠ 46 ∧ c ≠ 47 ∧ c ≠ 0 := by unfold Digit at h; omega

theorem ofText_eq {sg ds : List Nat} {s : Int} (hs : Sign sg s) (h : Digits ds) : Integer.ofText (sg ++ ds) = some (s * numVal 10 ds) := by
  cases hs with
  | minus => simp [Integer.ofText, ofDigits_eq h]
  | plus =>
    obtain ⟨h0, h1⟩ := h
    cases ds with
    | nil => exact absurd rfl h0
    | cons d ds =>
      have hd := (h1 d (by simp)).ne
      simp only [List.nil_append, Int.one_mul]
      rw [Integer.ofText.eq_2 _ (by intro s he; cases he; exact hd.1 rfl), ofDigits_eq ⟨h0, h1⟩]
      rfl

theorem ofText_some {x : List Nat} {z : Int} (h : Integer.ofText x = some z) : ∃ sg s ds, Sign sg s ∧ Digits ds ∧ x = sg ++ ds ∧ z = s * numVal 10 ds := by
  have : ∃ sg s ds, Sign sg s ∧ Digits ds ∧ x = sg ++ ds := by
    unfold Integer.ofText at h
    split at h
    · next s =>
      obtain ⟨v, h, _⟩ := Option.map_eq_some_iff.1 h
      exact ⟨_, _, s, .minus, ofDigits_some h, rfl⟩
    · obtain ⟨v, h, _⟩ := Option.map_eq_some_iff.1 h
      exact ⟨_, _, x, .plus, ofDigits_some h, rfl⟩
  obtain ⟨sg, s, ds, h1, h2, rfl⟩ := this
  rw [ofText_eq h1 h2] at h
  cases h
  exact ⟨sg, s, ds, h1, h2, rfl, rfl⟩

theorem sign_not {sg : List Nat} {s : Int} (h : Sign sg s) {c : Nat} (hc : c ≠ 45) : c ∉ sg := by
  cases h <;> simp [hc]

theorem takeWhile_ne {a : List Nat} {c : Nat} (h : c ∉ a) (r : List Nat) : (a ++ c :: r).takeWhile (· ≠ c) = a ∧ (a ++ c :: r).dropWhile (· ≠ c) = c :: r := by
  constructor
  · rw [List.takeWhile_append_of_pos (fun x hx => by simpa using fun e : x = c => h (e ▸ hx))]
    simp
  · rw [List.dropWhile_append_of_pos (fun x hx => by simpa using fun e : x = c => h (e ▸ hx))]
    simp

theorem ofText_frac {sg ds sg' es : List Nat} {s s' : Int} (hs : Sign sg s) (h : Digits ds) (hs' : Sign sg' s') (h' : Digits es) (h0 : numVal 10 es ≠ 0) :
    Rational.ofText (sg ++ ds ++ 47 :: (sg' ++ es)) = some (Rational.mk (s * numVal 10 ds) (s' * numVal 10 es)) := by
  have hn : 47 ∉ sg ++ ds := by
    rw [List.mem_append]
    rintro (h1 | h1)
    · exact sign_not hs (by decide) h1
    · exact (h.2 _ h1).ne.2.2.1 rfl
  have ht := takeWhile_ne hn (sg' ++ es)
  unfold Rational.ofText
  rw [if_pos (by simp), ht.1, ht.2, ofText_eq hs h]
  simp only [List.drop_succ_cons, List.drop_zero, Option.bind_some]
  rw [ofText_eq hs' h']
  simp only [Option.bind_some]
  rw [if_neg]
  intro he
  cases hs' <;> omega

theorem ofText_whole {sg ds : List Nat} {s : Int} (hs : Sign sg s) (h : Digits ds) : Rational.ofText (sg ++ ds) = some ((s * numVal 10 ds : Int) : Rat) := by
  have hn : 47 ∉ sg ++ ds := by
    rw [List.mem_append]
    rintro (h1 | h1)
    · exact sign_not hs (by decide) h1
    · exact (h.2 _ h1).ne.2.2.1 rfl
  unfold Rational.ofText
  rw [if_neg hn, ofText_eq hs h]
  rfl

/-! ### Printed numbers are read -/

theorem natToString_digits (v : Nat) : Digits (Integer.natToString 10 v) ∧ numVal 10 (Integer.natToString 10 v) = v := by
  have h1 : ∀ d ∈ Integer.natToString 10 v, Digit d := by
    intro d hd
    unfold Integer.natToString at hd
    obtain ⟨k, hk, rfl⟩ := List.mem_map.1 hd
    have := digitsF_lt 10 (by decide) v v (Nat.le_refl v) k hk
    unfold Integer.digitChar Digit
    rw [if_pos this]; omega
  refine ⟨⟨natToString_ne_nil 10 v, h1⟩, ?_⟩
  rw [← natOfString_eq 10 fun d hd => (h1 d hd).hex, natOfString_natToString 10 v (by decide) (by decide)]

theorem intToString_sign (z : Int) : ∃ sg s ds, Sign sg s ∧ Digits ds ∧ Integer.toString z = sg ++ ds ∧ z = s * numVal 10 ds := by
  obtain ⟨h1, h2⟩ := natToString_digits z.natAbs
  unfold Integer.toString
  split
  · exact ⟨_, _, _, .minus, h1, rfl, by rw [h2]; omega⟩
  · exact ⟨_, _, _, .plus, h1, rfl, by rw [h2]; omega⟩

/-- a printed rational is read again -/
theorem ofText_toString (q : Rat) : Rational.ofText (Rational.toString q) = some q := by
  obtain ⟨sg, s, ds, h1, h2, h3, h4⟩ := intToString_sign q.num
  unfold Rational.toString
  split
  · next hd =>
    rw [h3, ofText_whole h1 h2, ← h4]
    congr 1
    exact Rat.ext (by simp) (by simp [hd])
  · obtain ⟨h5, h6⟩ := natToString_digits q.den
    have hq : numVal 10 (Integer.natToString 10 q.den) ≠ 0 := by rw [h6]; exact q.den_nz
    have := ofText_frac h1 h2 .plus h5 hq
    rw [List.nil_append, ← h3, ← h4, h6] at this
    rw [this]
    congr 1
    unfold Rational.mk
    simp only [Int.one_mul]
    exact (Rat.divInt_eq_div _ _).symm.trans (Rat.num_divInt_den q)

/-! ### Strings -/

theorem addChar_eq {c : Nat} (h1 : 32 ≤ c) (h2 : c ≤ 127) : Str.addChar c = [c] := by unfold Str.addChar; rw [if_neg (by omega)]

theorem _root_.Ethos.Spec.HexDigit.ascii {c : Nat} (h : HexDigit c) : 32 ≤ c ∧ c ≤ 127 ∧ c ≠ 92 ∧ c ≠ 123 ∧ c ≠ 125 := by
  unfold HexDigit Digit at h; omega

/-- what the loop reads -/
structure EscRead (isStart hasBrace : Bool) (hex cache rest : List Nat) (E : Str.Esc) (cs : List Nat) : Prop where
  split : rest = cs ++ E.rest
  cache : E.nonEscCache = cache ++ cs
  plain : 92 ∉ cs
  brace : hasBrace = true → E.isEscapeSequence = true → E.isEnd = true → ∃ ds, cs = ds ++ [125] ∧ E.hexString = hex ++ ds ∧
    (∀ d ∈ ds, HexDigit d) ∧ 1 ≤ (hex ++ ds).length ∧ (hex ++ ds).length ≤ 5
  four : hasBrace = false → isStart = false → E.isEscapeSequence = true → E.isEnd = true → E.hexString = hex ++ cs ∧ (∀ d ∈ cs, HexDigit d) ∧ (hex ++ cs).length = 4

theorem escLoop_read : ∀ (rest : List Nat) (hasBrace : Bool) (hex cache : List Nat), hex.length ≤ (if hasBrace then 5 else 3) →
    ∃ cs, EscRead false hasBrace hex cache rest (Str.escLoop false hasBrace hex cache rest) cs
  | [], hasBrace, hex, cache, hl => ⟨[], by simp [Str.escLoop], by simp [Str.escLoop], by simp, by simp [Str.escLoop], by simp [Str.escLoop]⟩
  | si :: rest, hasBrace, hex, cache, hl => by
    simp only [Str.escLoop, Bool.false_and, Bool.false_eq_true, if_false, Bool.not_false, Bool.true_and, beq_iff_eq]
    split
    · next h125 =>
      subst h125
      refine ⟨[125], rfl, by simp [Str.addChar], by simp, ?_, ?_⟩
      · intro h1 h2 _
        simp only [h1, Bool.true_and, Bool.not_eq_true', List.isEmpty_eq_false_iff] at h2
        refine ⟨[], rfl, by simp, by simp, ?_, ?_⟩
        · cases hex with
          | nil => exact absurd rfl h2
          | cons => simp
        · simpa [h1] using hl
      · intro h1 _ h2
        simp [h1] at h2
    · next h125 =>
      split
      · exact ⟨[], rfl, by simp, by simp, by simp, by simp⟩
      · next hh =>
        simp only [Bool.not_eq_true', Bool.not_eq_false] at hh
        have hd := isHexDigit_iff.1 hh
        have ha := HexDigit.ascii hd
        rw [addChar_eq ha.1 ha.2.1]
        split
        · next h4 =>
          simp only [Bool.and_eq_true, Bool.not_eq_true', beq_iff_eq] at h4
          refine ⟨[si], rfl, rfl, by simp [ha.2.2.1.symm], ?_, ?_⟩
          · intro h1; simp [h4.1] at h1
          · intro _ _ _ _
            exact ⟨rfl, by simpa using hd, h4.2⟩
        · next h4 =>
          split
          · exact ⟨[si], rfl, rfl, by simp [ha.2.2.1.symm], by simp, by simp⟩
          · next h5 =>
            have hl' : (hex ++ [si]).length ≤ (if hasBrace then 5 else 3) := by
              cases hasBrace with
              | true => simp only [Bool.true_and, decide_eq_true_eq] at h5; simp only [if_true]; omega
              | false =>
                simp only [Bool.not_false, Bool.true_and, beq_iff_eq] at h4
                simp only [Bool.false_eq_true, if_false, List.length_append, List.length_cons, List.length_nil] at hl h4 ⊢
                omega
            obtain ⟨cs, h1, h2, h3, h6, h7⟩ := escLoop_read rest hasBrace (hex ++ [si]) (cache ++ [si]) hl'
            refine ⟨si :: cs, congrArg (si :: ·) h1, by rw [h2]; simp, by simp [h3, ha.2.2.1.symm], ?_, ?_⟩
            · intro a1 a2 a3
              obtain ⟨ds, b1, b2, b3, b4, b5⟩ := h6 a1 a2 a3
              refine ⟨si :: ds, by simp [b1], by simp [b2], ?_, by simp; omega, by simpa using b5⟩
              intro d hd'
              rcases List.mem_cons.1 hd' with rfl | hd'
              · exact hd
              · exact b3 d hd'
            · intro a1 a2 a3 a4
              obtain ⟨b1, b2, b3⟩ := h7 a1 a2 a3 a4
              refine ⟨by simp [b1], ?_, by simpa using b3⟩
              intro d hd'
              rcases List.mem_cons.1 hd' with rfl | hd'
              · exact hd
              · exact b2 d hd'

/-- what follows a backslash: an escape sequence, or characters that stand for themselves -/
theorem escape_read (rest : List Nat) : (∃ e c r, Escape (92 :: e) c ∧ rest = e ++ r ∧ Str.escape rest = ([c], r)) ∨
    ∃ cs r, rest = cs ++ r ∧ 92 ∉ cs ∧ Str.escape rest = (92 :: cs, r) := by
  unfold Str.escape
  split
  · next rest' =>
    simp only
    have h0 : Str.addChar 92 ++ Str.addChar 117 = [92, 117] := rfl
    rw [h0]
    have close : ∀ (E : Str.Esc) (cs : List Nat), rest' = cs ++ E.rest → E.nonEscCache = [92, 117] ++ cs → 92 ∉ cs →
        (E.isEscapeSequence = true → E.isEnd = true → ¬ Integer.natOfString 16 E.hexString ≥ Str.numCodes →
          Escape (92 :: 117 :: cs) (Integer.natOfString 16 E.hexString)) →
        (∃ e c r, Escape (92 :: e) c ∧ 117 :: rest' = e ++ r ∧
          (if (E.isEscapeSequence && E.isEnd) = true then
            if Integer.natOfString 16 E.hexString ≥ Str.numCodes then (E.nonEscCache, E.rest) else ([Integer.natOfString 16 E.hexString], E.rest)
          else (E.nonEscCache, E.rest)) = ([c], r)) ∨
        ∃ cs r, 117 :: rest' = cs ++ r ∧ 92 ∉ cs ∧ (if (E.isEscapeSequence && E.isEnd) = true then
            if Integer.natOfString 16 E.hexString ≥ Str.numCodes then (E.nonEscCache, E.rest) else ([Integer.natOfString 16 E.hexString], E.rest)
          else (E.nonEscCache, E.rest)) = (92 :: cs, r) := by
      intro E cs h1 h2 h3 h4
      have hno : ∃ cs r, 117 :: rest' = cs ++ r ∧ 92 ∉ cs ∧ (E.nonEscCache, E.rest) = (92 :: cs, r) :=
        ⟨117 :: cs, E.rest, by rw [h1]; rfl, by simp [h3], by rw [h2]; rfl⟩
      split
      · next hE =>
        simp only [Bool.and_eq_true] at hE
        split
        · exact .inr hno
        · next hv => exact .inl ⟨117 :: cs, _, E.rest, h4 hE.1 hE.2 hv, by rw [h1]; rfl, rfl⟩
      · exact .inr hno
    cases rest' with
    | nil => exact close _ [] (by simp [Str.escLoop]) (by simp [Str.escLoop]) (by simp) (by simp [Str.escLoop])
    | cons si r =>
      simp only [Str.escLoop, Bool.true_and, beq_iff_eq, Bool.not_true, Bool.false_and, Bool.false_eq_true, if_false]
      split
      · next h123 =>
        subst h123
        obtain ⟨cs, h1, h2, h3, h6, h7⟩ := escLoop_read r true [] ([92, 117] ++ Str.addChar 123) (by simp)
        refine close _ (123 :: cs) (by rw [List.cons_append, ← h1]) (by rw [h2]; rfl) (by simp [h3]) ?_
        intro a1 a2 a3
        obtain ⟨ds, b1, b2, b3, b4, b5⟩ := h6 rfl a1 a2
        rw [List.nil_append] at b2 b4 b5
        rw [b2, natOfString_eq 16 b3] at a3 ⊢
        rw [b1]
        exact .braces ds b4 b5 b3 (by unfold Str.numCodes at a3; omega)
      · split
        · exact close _ [] rfl rfl (by simp) (by simp)
        · next hh =>
          simp only [Bool.not_eq_true', Bool.not_eq_false] at hh
          have hd := isHexDigit_iff.1 hh
          have ha := HexDigit.ascii hd
          rw [addChar_eq ha.1 ha.2.1]
          simp only [List.nil_append, List.length_cons, List.length_nil, Nat.zero_add, Bool.not_false, Nat.reduceBEq, Bool.and_false,
            Bool.false_eq_true, if_false]
          obtain ⟨cs, h1, h2, h3, h6, h7⟩ := escLoop_read r false [si] ([92, 117] ++ [si]) (by simp)
          refine close _ (si :: cs) (by rw [List.cons_append, ← h1]) (by rw [h2]; rfl) (by simp [h3, ha.2.2.1.symm]) ?_
          intro a1 a2 a3
          obtain ⟨b1, b2, b3⟩ := h7 rfl rfl a1 a2
          have hall : ∀ d ∈ si :: cs, HexDigit d := by
            intro d hd'
            rcases List.mem_cons.1 hd' with rfl | hd'
            · exact hd
            · exact b2 d hd'
          rw [b1, List.singleton_append, natOfString_eq 16 hall]
          exact .four _ (by simpa using b3) hall
  · exact .inr ⟨[], rest, rfl, by simp, rfl⟩

/-- the digits of an escape sequence in braces -/
theorem escLoop_braces (rest : List Nat) : ∀ (ds hex cache : List Nat), (∀ d ∈ ds, HexDigit d) → hex.length + ds.length ≤ 5 → hex ++ ds ≠ [] →
    ∃ cache', Str.escLoop false true hex cache (ds ++ 125 :: rest) = ⟨true, true, hex ++ ds, cache', rest⟩
  | [], hex, cache, _, _, hne => by
    rw [List.append_nil] at hne
    refine ⟨cache ++ Str.addChar 125, ?_⟩
    simp only [List.nil_append, Str.escLoop, Bool.false_and, Bool.false_eq_true, if_false, Bool.not_false, Bool.true_and, beq_self_eq_true, if_true,
      List.append_nil]
    cases hex with
    | nil => exact absurd rfl hne
    | cons a l => rfl
  | d :: ds, hex, cache, hd, hl, _ => by
    have h1 := hd d (by simp)
    have h2 := HexDigit.ascii h1
    obtain ⟨c', hc⟩ := escLoop_braces rest ds (hex ++ [d]) (cache ++ Str.addChar d) (fun c hc => hd c (by simp [hc]))
      (by simp at hl ⊢; omega) (by simp)
    refine ⟨c', ?_⟩
    rw [List.cons_append, Str.escLoop]
    have hx : ¬ ((hex ++ [d]).length > 5) := by simp at hl ⊢; omega
    simp only [Bool.false_and, Bool.false_eq_true, if_false, Bool.not_false, Bool.true_and, beq_iff_eq, h2.2.2.2.2, isHexDigit_iff.2 h1,
      Bool.not_true, decide_eq_true_eq, hx]
    rw [hc]
    simp

/-- an escape sequence is read -/
theorem escape_eq {e : List Nat} {c : Nat} (h : Escape e c) (r : List Nat) : ∃ e', e = 92 :: e' ∧ Str.escape (e' ++ r) = ([c], r) := by
  cases h with
  | four ds hl hd =>
    refine ⟨117 :: ds, rfl, ?_⟩
    obtain ⟨a, b, c, d, rfl⟩ : ∃ a b c d, ds = [a, b, c, d] := by
      match ds, hl with
      | [a, b, c, d], _ => exact ⟨a, b, c, d, rfl⟩
    have ha := hd a (by simp)
    have hb := hd b (by simp)
    have hc := hd c (by simp)
    have hd' := hd d (by simp)
    have hv : ¬ Integer.natOfString 16 [a, b, c, d] ≥ Str.numCodes := by
      rw [natOfString_eq 16 hd]
      have := numVal_lt 16 (ds := [a, b, c, d]) fun d h => (HexDigit.val (hd d h)).2.1
      simp only [List.length_cons, List.length_nil] at this
      unfold Str.numCodes
      omega
    simp only [List.cons_append, List.nil_append, Str.escape]
    simp [Str.escLoop, isHexDigit_iff.2 ha, isHexDigit_iff.2 hb, isHexDigit_iff.2 hc, isHexDigit_iff.2 hd', (HexDigit.ascii ha).2.2.2.1,
      (HexDigit.ascii hb).2.2.2.2, (HexDigit.ascii hc).2.2.2.2, (HexDigit.ascii hd').2.2.2.2]
    rw [if_neg (by omega), natOfString_eq 16 hd]
  | braces ds h1 h2 hd hv =>
    refine ⟨117 :: 123 :: ds ++ [125], rfl, ?_⟩
    obtain ⟨c', hc⟩ := escLoop_braces r ds [] (Str.addChar 92 ++ Str.addChar 117 ++ Str.addChar 123) hd (by simpa using h2)
      (by cases ds with | nil => simp at h1 | cons => simp)
    have h3 : Str.escLoop true false [] (Str.addChar 92 ++ Str.addChar 117) (123 :: (ds ++ 125 :: r)) = ⟨true, true, ds, c', r⟩ := by
      rw [Str.escLoop.eq_def]
      simp only [beq_self_eq_true, Bool.and_self, if_true]
      exact hc
    simp only [List.cons_append, List.append_assoc, List.nil_append, Str.escape, h3, Bool.and_self, if_true]
    rw [natOfString_eq 16 hd, if_neg (by unfold Str.numCodes; omega)]

theorem escape_shape {e : List Nat} {c : Nat} (h : Escape e c) : ∃ e', e = 92 :: e' := by
  obtain ⟨e', h, _⟩ := escape_eq h []
  exact ⟨e', h⟩

/-- characters without a backslash stand for themselves -/
theorem strVal_plain : ∀ {cs r v : List Nat}, 92 ∉ cs → StrVal (cs ++ r) v → ∃ v', v = cs ++ v' ∧ StrVal r v'
  | [], r, v, _, h => ⟨v, rfl, h⟩
  | c :: cs, r, v, hc, h => by
    have h92 : c ≠ 92 := fun e => hc (by simp [e])
    generalize hs : c :: cs ++ r = s at h
    cases h with
    | nil => cases hs
    | escape e d s v he _ =>
      obtain ⟨e', rfl⟩ := escape_shape he
      simp only [List.cons_append, List.cons.injEq] at hs
      exact absurd hs.1 h92
    | char d s v _ h =>
      simp only [List.cons_append, List.cons.injEq] at hs
      obtain ⟨rfl, rfl⟩ := hs
      obtain ⟨v', rfl, h'⟩ := strVal_plain (fun e => hc (by simp [e])) h
      exact ⟨v', rfl, h'⟩

/-- strings are read as they are meant, if their characters can be printed -/
theorem toInternalF_eq : ∀ (f : Nat) (s v : List Nat), s.length ≤ f → (∀ c ∈ s, 32 ≤ c ∧ c ≤ 127) → StrVal s v → Str.toInternalF true f s = v := by
  intro f
  induction f with
  | zero =>
    intro s v hl hr h
    have : s = [] := List.length_eq_zero_iff.1 (by omega)
    subst this
    generalize hs : ([] : List Nat) = s at h
    cases h with
    | nil => rfl
    | escape e d s v he _ => obtain ⟨e', rfl⟩ := escape_shape he; cases hs
    | char => cases hs
  | succ f ih =>
    intro s v hl hr h
    cases h with
    | nil => rfl
    | escape e c s v he h =>
      obtain ⟨e', rfl, hx⟩ := escape_eq he s
      simp only [List.cons_append, Str.toInternalF, bne_self_eq_false, Bool.not_true, Bool.or_self, Bool.false_eq_true, if_false, hx]
      rw [ih s v (by simp at hl; omega) (fun c hc => hr c (by simp [hc])) h]
      rfl
    | char c s v hn h =>
      have hc := hr c (by simp)
      by_cases h92 : c = 92
      · subst h92
        simp only [Str.toInternalF, bne_self_eq_false, Bool.not_true, Bool.or_self, Bool.false_eq_true, if_false]
        rcases escape_read s with ⟨e, c, r, he, rfl, hx⟩ | ⟨cs, r, rfl, hcs, hx⟩
        · exact absurd ⟨_, _, r, he, rfl⟩ (hn rfl)
        · obtain ⟨v', rfl, h'⟩ := strVal_plain hcs h
          rw [hx]
          simp only [List.cons_append, List.cons.injEq, true_and]
          rw [ih r v' (by simp at hl; omega) (fun c hc => hr c (by simp [hc])) h']
      · have hb : (c != 92) = true := by simp [h92]
        simp only [Str.toInternalF, hb, Bool.true_or, if_true]
        rw [addChar_eq hc.1 hc.2, ih s v (by simpa using hl) (fun c hc => hr c (by simp [hc])) h]
        rfl

theorem strVal_exists : ∀ (n : Nat) (s : List Nat), s.length ≤ n → ∃ v, StrVal s v
  | _, [], _ => ⟨[], .nil⟩
  | 0, c :: s, h => by simp at h
  | n + 1, c :: s, h => by
    by_cases hx : ∃ e d r, Escape e d ∧ c :: s = e ++ r
    · obtain ⟨e, d, r, he, hs⟩ := hx
      obtain ⟨e', rfl⟩ := escape_shape he
      have hl := congrArg List.length hs
      simp at hl h
      obtain ⟨v, hv⟩ := strVal_exists n r (by omega)
      rw [hs]
      exact ⟨_, .escape _ _ _ _ he hv⟩
    · obtain ⟨v, hv⟩ := strVal_exists n s (by simpa using h)
      exact ⟨_, .char c s v (fun _ => hx) hv⟩

/-! ### Literals of tokens -/

theorem orErr_some {α : Type} (a : α) : Run.orErr (some a) = .ok a := rfl

theorem not_null {ds : List Nat} (h : ∀ d ∈ ds, HexDigit d) : 0 ∉ ds := fun h0 => (h 0 h0).val.2.2.2 rfl

theorem sign_null {sg : List Nat} {s : Int} (h : Sign sg s) : 0 ∉ sg := sign_not h (by decide)

theorem norm_iff {a b : Bool} : (!a && b) = true ↔ ¬ (a = true ∨ b = false) := by cases a <;> cases b <;> simp

theorem fromDecimal_eq {sg ds es : List Nat} {s : Int} (hs : Sign sg s) (h : ∀ d ∈ ds, Digit d) (h' : Digits es) :
    Rational.fromDecimal (sg ++ ds ++ 46 :: es) = some (((s * numVal 10 (ds ++ es) : Int) : Rat) / ((10 ^ es.length : Int) : Rat)) := by
  have hn : 46 ∉ sg ++ ds := by
    rw [List.mem_append]
    rintro (h1 | h1)
    · exact sign_not hs (by decide) h1
    · exact (h _ h1).ne.2.1 rfl
  have ht := takeWhile_ne hn es
  unfold Rational.fromDecimal
  rw [if_pos (by simp), ht.1, ht.2]
  simp only [List.drop_succ_cons, List.drop_zero]
  rw [List.append_assoc, ofText_eq hs ⟨by simp [h'.1], fun d hd => (List.mem_append.1 hd).elim (h d) (h'.2 d)⟩]
  rfl

theorem ofString_hex {ds : List Nat} (h : ∀ d ∈ ds, HexDigit d) (hl : ds.length < 2 ^ 30) : BV.ofString ds 16 = ⟨4 * ds.length, numVal 16 ds⟩ := by
  unfold BV.ofString
  rw [natOfString_eq 16 h, if_pos rfl]
  congr 1
  unfold u32; omega

theorem ofString_bin {ds : List Nat} (h : ∀ d ∈ ds, Bit d) (hl : ds.length < 2 ^ 30) : BV.ofString ds 2 = ⟨ds.length, numVal 2 ds⟩ := by
  unfold BV.ofString
  rw [natOfString_eq 2 fun d hd => (h d hd).hex, if_neg (by decide)]
  congr 1
  unfold u32; omega

theorem wf_hex {ds : List Nat} (h : ∀ d ∈ ds, HexDigit d) (hl : ds.length < 2 ^ 30) : WfLit (.hex (BV.ofString ds 16)) := by
  rw [ofString_hex h hl]
  refine ⟨?_, by simp only; omega⟩
  have := numVal_lt 16 (ds := ds) fun d hd => (h d hd).val.2.1
  simp only
  rw [Nat.pow_mul]
  exact this

theorem tokenString_eq {s v : List Nat} (h : ∀ c ∈ s, 32 ≤ c ∧ c ≤ 127) (hv : StrVal s v) : tokenString (34 :: doubled s ++ [34]) = .ok v := by
  have h0 : 0 ∉ 34 :: doubled s ++ [34] := by
    simp only [List.cons_append, List.mem_cons, List.mem_append, List.not_mem_nil, or_false, not_or]
    refine ⟨by decide, fun hm => ?_, by decide⟩
    have := h _ (mem_doubled hm)
    omega
  unfold tokenString
  rw [tokenStr_eq h0]
  unfold unescapeString
  rw [stripQuotes_eq]
  simp only [Run.bind]
  rw [if_pos (List.all_eq_true.2 fun c hc => by simpa using (h c (mem_doubled hc)).2), unescapeLoop_doubled]
  simp only [Run.map]
  rw [Str.toInternal, toInternalF_eq _ _ _ (Nat.le_refl _) h hv]

theorem mem_doubled' {x : List Nat} {c : Nat} (h : c ∈ x) : c ∈ doubled x := by
  simp only [doubled, List.mem_flatMap]
  refine ⟨c, h, ?_⟩
  split <;> simp_all

theorem litOfToken_complete {o : ReadOpts} {tk : Tk} {l : Lit} (h : LitTok o tk l) (hl : tk.2.length < 2 ^ 30) (hp : NoControl tk) :
    litOfToken o tk = .ok l := by
  cases h with
  | num sg s ds hs hd ho =>
    have h0 : 0 ∉ sg ++ ds := by simp [sign_null hs, not_null fun d h => (hd.2 d h).hex]
    simp only [litOfToken, tokenStr_eq h0]
    rw [if_neg (fun hc => norm_iff.1 hc ho), ofText_eq hs hd]
    rfl
  | numRat sg s ds hs hd ho =>
    have h0 : 0 ∉ sg ++ ds := by simp [sign_null hs, not_null fun d h => (hd.2 d h).hex]
    simp only [litOfToken, tokenStr_eq h0]
    rw [if_pos (norm_iff.2 ho), ofText_whole hs hd]
    simp only [Option.bind_some, ofText_toString]
    rfl
  | dec sg s ds es hs hd he ho =>
    have h0 : 0 ∉ sg ++ ds ++ 46 :: es := by simp [sign_null hs, not_null fun d h => (hd d h).hex, not_null fun d h => (he.2 d h).hex]
    simp only [litOfToken, tokenStr_eq h0]
    rw [if_neg (fun hc => norm_iff.1 hc ho), fromDecimal_eq hs hd he]
    rfl
  | decRat sg s ds es hs hd he ho =>
    have h0 : 0 ∉ sg ++ ds ++ 46 :: es := by simp [sign_null hs, not_null fun d h => (hd d h).hex, not_null fun d h => (he.2 d h).hex]
    simp only [litOfToken, tokenStr_eq h0]
    rw [if_pos (norm_iff.2 ho), fromDecimal_eq hs hd he]
    simp only [Option.bind_some, ofText_toString]
    rfl
  | rat sg s ds es hs hd he hz =>
    have h0 : 0 ∉ sg ++ ds ++ 47 :: es := by simp [sign_null hs, not_null fun d h => (hd.2 d h).hex, not_null fun d h => (he.2 d h).hex]
    have hn : 47 ∉ sg ++ ds := by
      rw [List.mem_append]
      rintro (h1 | h1)
      · exact sign_not hs (by decide) h1
      · exact (hd.2 _ h1).ne.2.2.1 rfl
    simp only [litOfToken, tokenStr_eq h0]
    rw [if_neg, ← List.nil_append es, ofText_frac hs hd .plus he hz]
    · simp only [Option.map_some, orErr_some, Rational.mk, Int.one_mul, List.nil_append]
    · rw [(takeWhile_ne hn es).2]
      simp only [List.drop_succ_cons, List.drop_zero]
      intro hc
      exact hz ((numVal_zero he.2).2 hc.2)
  | hex ds hne hd ho =>
    have h0 : 0 ∉ 35 :: 120 :: ds := by simp [not_null hd]
    simp only [litOfToken, tokenStr_eq h0, List.drop_succ_cons, List.drop_zero]
    simp only [List.length_cons] at hl
    rw [if_neg (fun hc => norm_iff.1 hc ho), ofString_hex hd (by omega)]
  | hexBin ds hne hd ho =>
    have h0 : 0 ∉ 35 :: 120 :: ds := by simp [not_null hd]
    simp only [litOfToken, tokenStr_eq h0, List.drop_succ_cons, List.drop_zero]
    simp only [List.length_cons] at hl
    have := C10_normalize ds (wf_hex hd (by omega))
    simp only [Lit.toString] at this
    rw [if_pos (norm_iff.2 ho), this, ofString_hex hd (by omega)]
  | bin ds hne hd =>
    have h0 : 0 ∉ 35 :: 98 :: ds := by simp [not_null fun d h => (hd d h).hex]
    simp only [litOfToken, tokenStr_eq h0, List.drop_succ_cons, List.drop_zero]
    simp only [List.length_cons] at hl
    rw [ofString_bin hd (by omega)]
  | str s v hs hv =>
    have hr : ∀ c ∈ s, 32 ≤ c ∧ c ≤ 127 := fun c hc => ⟨hp rfl c (by simp [mem_doubled' hc]), hs c hc⟩
    have h1 := tokenString_eq hr hv
    simp only [litOfToken, h1, Run.map]
    have hw : WfLit (.str v) := by
      have := C08_reader_wf s
      rwa [Str.toInternal, toInternalF_eq _ _ _ (Nat.le_refl _) hr hv] at this
    have := C08_round_trip v hw
    simp only [Lit.toString] at this
    rw [this]

/-- the code reads a literal from a lexeme only if one is written -/
theorem litOfToken_exists {o : ReadOpts} {fl : LexFlags} {tk : Tk} {la : Option Nat} {l : Lit} (hx : Lexeme fl tk.1 tk.2 la) (h0 : 0 ∉ tk.2)
    (h : litOfToken o tk = .ok l) : ∃ l', LitTok o tk l' := by
  obtain ⟨k, x⟩ := tk
  simp only at hx h0
  have num : ∀ sg s ds, Sign sg s → Digits ds → ∃ l', LitTok o (.INTEGER_LITERAL, sg ++ ds) l' := by
    intro sg s ds h1 h2
    by_cases ho : o.isSig = true ∨ o.normNum = false
    · exact ⟨_, .num sg s ds h1 h2 ho⟩
    · exact ⟨_, .numRat sg s ds h1 h2 ho⟩
  have dec : ∀ sg s ds es, Sign sg s → (∀ d ∈ ds, Digit d) → Digits es → ∃ l', LitTok o (.DECIMAL_LITERAL, sg ++ ds ++ 46 :: es) l' := by
    intro sg s ds es h1 h2 h3
    by_cases ho : o.isSig = true ∨ o.normDec = false
    · exact ⟨_, .dec sg s ds es h1 h2 h3 ho⟩
    · exact ⟨_, .decRat sg s ds es h1 h2 h3 ho⟩
  have rat : ∀ sg s ds es, Sign sg s → (∀ d ∈ ds, Digit d) → Digits es → litOfToken o (.RATIONAL_LITERAL, sg ++ ds ++ 47 :: es) = .ok l →
      ∃ l', LitTok o (.RATIONAL_LITERAL, sg ++ ds ++ 47 :: es) l' := by
    intro sg s ds es h1 h2 h3 h
    have h0 : 0 ∉ sg ++ ds ++ 47 :: es := by simp [sign_null h1, not_null fun d h => (h2 d h).hex, not_null fun d h => (h3.2 d h).hex]
    have hn : 47 ∉ sg ++ ds := by
      rw [List.mem_append]
      rintro (h | h)
      · exact sign_not h1 (by decide) h
      · exact (h2 _ h).ne.2.2.1 rfl
    have ht := takeWhile_ne hn es
    simp only [litOfToken, tokenStr_eq h0, Run.ite_err, Run.orErr_ok, Option.map_eq_some_iff] at h
    obtain ⟨hz, q, hq, _⟩ := h
    unfold Rational.ofText at hq
    rw [if_pos (by simp), ht.1, ht.2] at hq
    simp only [Option.bind_eq_some_iff] at hq
    obtain ⟨p, hq, _⟩ := hq
    obtain ⟨sg', s', ds', g1, g2, g3, _⟩ := ofText_some hq
    have hds : Digits ds := by
      refine ⟨?_, h2⟩
      rintro rfl
      rw [List.append_nil] at g3
      obtain ⟨d, r, hr⟩ : ∃ d r, ds' = d :: r := by
        cases ds' with
        | nil => exact absurd rfl g2.1
        | cons d r => exact ⟨d, r, rfl⟩
      have hd := (g2.2 d (by simp [hr])).ne.1
      subst hr
      cases h1 <;> cases g1 <;> simp at g3
      exact hd g3.1.symm
    refine ⟨_, .rat sg s ds es h1 hds h3 fun h => hz ⟨by simp, ?_⟩⟩
    rw [ht.2]
    simpa using (numVal_zero h3.2).1 h
  cases hx with
  | lparen => cases h
  | rparen => cases h
  | quoted => cases h
  | keyword => cases h
  | string x _ hla =>
    have hs : ∀ c ∈ x, c ≤ 127 := by
      simp only [litOfToken, tokenString, tokenStr_eq h0, unescapeString, stripQuotes_eq, Run.map_ok, Run.bind_ok, Run.ite_err'] at h
      obtain ⟨_, ⟨_, ⟨_, hs, ha, _⟩, _⟩, _⟩ := h
      cases hs
      intro c hc
      simpa using List.all_eq_true.1 ha c (mem_doubled' hc)
    obtain ⟨v, hv⟩ := strVal_exists _ x (Nat.le_refl _)
    exact ⟨_, .str x v hs hv⟩
  | binary ds _ h1 h2 _ => exact ⟨_, .bin ds h1 h2⟩
  | hexadecimal ds _ h1 h2 _ =>
    by_cases ho : o.isSig = true ∨ o.normHex = false
    · exact ⟨_, .hex ds h1 h2 ho⟩
    · exact ⟨_, .hexBin ds h1 h2 ho⟩
  | integer ds _ h1 h2 _ => exact num [] 1 x .plus ⟨h1, h2⟩
  | decimal ds es _ h1 h2 h3 h4 _ => exact dec [] 1 ds es .plus h2 ⟨h3, h4⟩
  | rational ds es _ h1 h2 h3 h4 _ => exact rat [] 1 ds es .plus h2 ⟨h3, h4⟩ h
  | symbol _ c cs _ _ _ _ hc =>
    generalize hx : c :: cs = x at hc h
    cases hc with
    | integer ds h1 h2 => exact num [45] (-1) ds .minus ⟨h1, h2⟩
    | decimal ds es h1 h2 h3 => exact dec [45] (-1) ds es .minus h1 ⟨h2, h3⟩
    | rational ds es h1 h2 h3 => exact rat [45] (-1) ds es .minus h1 ⟨h2, h3⟩ h
    | _ => cases h

theorem litOfToken_iff {o : ReadOpts} {fl : LexFlags} {tk : Tk} {l : Lit} (h : GoodTok fl tk) : litOfToken o tk = .ok l ↔ LitTok o tk l := by
  constructor
  · intro h1
    obtain ⟨la, hx⟩ := h.lexeme
    obtain ⟨l', hl⟩ := litOfToken_exists hx h.null h1
    have := litOfToken_complete hl h.short h.printable
    rw [h1] at this
    cases this
    exact hl
  · exact fun hl => litOfToken_complete hl h.short h.printable

theorem tokenStrToSymbol_iff {fl : LexFlags} {tk : Tk} {x : Name} (h : GoodTok fl tk) : tokenStrToSymbol tk.1 tk.2 = .ok x ↔ SymTok tk x := by
  obtain ⟨⟨la, hx⟩, h0, _, _⟩ := h
  obtain ⟨k, s⟩ := tk
  simp only at hx h0 ⊢
  constructor
  · intro h1
    cases k <;> simp only [tokenStrToSymbol] at h1 <;> try cases h1
    · cases hx with
      | quoted y _ _ =>
        rw [tokenStr_eq h0, stripQuotes_eq] at h1
        cases h1
        exact .quoted _
      | symbol _ c cs _ _ _ _ hc => cases hc
    · rw [tokenStr_eq h0]
      exact .plain s
  · intro h1
    cases h1 with
    | plain => simp only [tokenStrToSymbol, tokenStr_eq h0]
    | quoted => simp only [tokenStrToSymbol, tokenStr_eq h0, stripQuotes_eq]

theorem findAttr_iff {s : List Nat} : (findAttr s).isSome = true ↔ ∃ a ∈ attrNames, s = bytes a := by
  unfold findAttr
  simp only [Option.isSome_map, List.find?_isSome, decide_eq_true_eq]
  simp only [attrTable, attrNames, List.mem_cons, List.not_mem_nil, or_false, Prod.exists, exists_eq_or_imp, exists_eq_left]
  constructor <;> rintro (rfl | rfl | rfl | rfl | rfl | rfl | rfl | rfl | rfl | rfl | rfl | rfl | rfl | rfl | rfl | rfl | rfl | rfl) <;> simp

end Ethos.Props
