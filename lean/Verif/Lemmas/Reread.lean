import Verif.Spec.Reread
import Verif.Props.Reader
import Verif.Props.LitWf
import Verif.Lemmas.Print
/-
Lemmas about reading what is printed.
-/
namespace Ethos.Props
open Ethos Spec Kind

/-! ### Tokens -/

/-- a character after which a token ends -/
def StopAt (la : Option Nat) : Prop := ∀ b, la = some b → b = 32 ∨ b = 41

theorem stop_not_symbol {b : Nat} (h : b = 32 ∨ b = 41) : ¬ SymbolChar b := by
  unfold SymbolChar SymbolStart Digit
  rcases h with rfl | rfl <;> simp [bytes]

theorem stop_not_hex {b : Nat} (h : b = 32 ∨ b = 41) : ¬ HexDigit b := by
  unfold HexDigit Digit; omega

theorem symbolStart_byte {b : Nat} (h : SymbolStart b) : 0 < b ∧ b < 128 := by
  rcases h with h | h | h
  · omega
  · omega
  · simp [bytes] at h; omega

theorem symbolChar_byte {b : Nat} (h : SymbolChar b) : 0 < b ∧ b < 128 := by
  rcases h with h | h | h
  · exact symbolStart_byte h
  · unfold Digit at h; omega
  · omega

/-- the text `s` is one token of the kind `k` -/
structure OneTok (fl : LexFlags) (k : Token) (s : List Nat) : Prop where
  lexeme : ∀ la, StopAt la → Lexeme fl k s la
  byte : ∀ b ∈ s, b < 255

/-- the token that is printed for a name -/
theorem name_token {fl : LexFlags} {x : Name} (h : PlainName fl x) : ∃ k, OneTok fl k (quoteSymbol x) ∧ tokenStrToSymbol k (quoteSymbol x) = .ok x := by
  have hx := h.chars
  have hb := h.bars
  have h0 : 0 ∉ x := fun h => absurd (hx 0 h).1 (Nat.lt_irrefl 0)
  have plain : ∀ {c cs}, x = c :: cs → SymbolStart c → (∀ d ∈ cs, SymbolChar d) → quoteSymbol x = x →
      ∃ k, OneTok fl k (quoteSymbol x) ∧ tokenStrToSymbol k (quoteSymbol x) = .ok x := by
    intro c cs e h1 h2 hq
    rw [hq]
    refine ⟨.SYMBOL, ⟨fun la hla => ?_, fun b hb => (hx b hb).2⟩, by simp [tokenStrToSymbol, tokenStr_eq h0]⟩
    have hc := h.word
    rw [e] at hc ⊢
    exact .symbol _ _ _ _ h1 h2 (fun d hd => stop_not_symbol (hla d hd)) hc
  have quoted : quoteSymbol x = 124 :: x ++ [124] → ∃ k, OneTok fl k (quoteSymbol x) ∧ tokenStrToSymbol k (quoteSymbol x) = .ok x := by
    intro hq
    rw [hq]
    refine ⟨.QUOTED_SYMBOL, ⟨fun la _ => .quoted x _ hb.2, ?_⟩, ?_⟩
    · intro b hb
      simp only [List.cons_append, List.mem_cons, List.mem_append, List.mem_nil_iff, or_false] at hb
      rcases hb with rfl | hb | rfl
      · omega
      · exact (hx b hb).2
      · omega
    · have : 0 ∉ 124 :: x ++ [124] := by simp [h0]
      simp only [tokenStrToSymbol, tokenStr_eq this]
      exact stripQuotes_eq ..
  cases x with
  | nil => exact quoted rfl
  | cons c cs =>
    by_cases he : (c :: cs).take 4 = bytes "eo::"
    · refine plain rfl ?_ (fun d hd => h.eo he d (List.mem_cons_of_mem _ hd)) (by simp only [quoteSymbol, if_pos he]; simp)
      have : c = 101 := by simpa [bytes] using congrArg List.head? he
      subst this
      exact .inl (by omega)
    · by_cases hs : (c :: cs).all isSimpleChar && !Str.isDigit ((c :: cs).headD 0)
      · have hs' := hs
        simp only [Bool.and_eq_true, List.all_eq_true, Bool.not_eq_true', List.headD_cons] at hs'
        refine plain rfl (simple_start (hs'.1 c (List.mem_cons_self ..)) hs'.2) (fun d hd => simple_char (hs'.1 d (List.mem_cons_of_mem _ hd))) ?_
        simp only [quoteSymbol, if_neg he]
        rw [if_neg (by simp), if_pos hs]
      · refine quoted ?_
        have h124 : ¬ ((c :: cs).head? = some 124 ∧ (c :: cs).getLast? = some 124 ∧ (c :: cs).length > 1) := by
          intro h
          have : c = 124 := by simpa using h.1
          exact hb.2 (by simp [this])
        simp only [quoteSymbol, if_neg he, if_neg hs, if_neg h124]
        rw [if_neg (by simp)]
        have : (c :: cs).map (fun c => if c = 92 ∨ c = 124 then 95 else c) = c :: cs := by
          conv => rhs; rw [← List.map_id (c :: cs)]
          refine List.map_congr_left fun d hd => ?_
          rw [if_neg]
          · rfl
          · rintro (rfl | rfl)
            · exact hb.1 hd
            · exact hb.2 hd
        rw [this]; rfl

/-- a simple symbol is a token also before other characters -/
theorem simple_token {fl : LexFlags} {x : Name} (h : SimpleName fl x) : OneTok fl .SYMBOL x ∧ tokenStrToSymbol .SYMBOL x = .ok x := by
  obtain ⟨la, h⟩ := h
  cases h with
  | symbol _ c cs _ h0 h1 h2 h3 =>
    have hb : ∀ b ∈ c :: cs, 0 < b ∧ b < 128 := by
      intro b hb
      rcases List.mem_cons.mp hb with rfl | hb
      · exact symbolStart_byte h0
      · exact symbolChar_byte (h1 b hb)
    refine ⟨⟨fun la hla => .symbol _ _ _ _ h0 h1 (fun d hd => stop_not_symbol (hla d hd)) h3, fun b hx => by have := hb b hx; omega⟩, ?_⟩
    have : 0 ∉ c :: cs := fun h => absurd (hb 0 h).1 (Nat.lt_irrefl 0)
    simp [tokenStrToSymbol, tokenStr_eq this]

theorem defName_simple (fl : LexFlags) (j : Nat) : SimpleName fl (defName j) := by
  obtain ⟨⟨_, hd⟩, _⟩ := natToString_digits j
  refine ⟨none, ?_⟩
  have e : defName j = 95 :: (118 :: Integer.natToString 10 j) := rfl
  rw [e]
  refine .symbol _ _ _ _ (.inr (.inr (by decide))) ?_ (by simp) ?_
  · intro d h
    rcases List.mem_cons.1 h with rfl | h
    · exact .inl (.inl (by omega))
    · exact .inr (.inl (hd d h))
  · refine .symbol _ ?_ (by simp [bytes]) (by simp [bytes]) ?_
    · simp [bytes]
    · intro ds es _ _; simp

theorem digits_byte {ds : List Nat} (h : ∀ d ∈ ds, Digit d) : ∀ d ∈ ds, d < 255 := fun d hd => by have := h d hd; unfold Digit at this; omega

/-- numerals with a sign -/
theorem integer_token {fl : LexFlags} {sg ds : List Nat} {s : Int} (hs : Sign sg s) (hd : Digits ds) : OneTok fl .INTEGER_LITERAL (sg ++ ds) := by
  have hst : ∀ {la : Option Nat}, StopAt la → ∀ c, la = some c → ¬ Digit c ∧ c ≠ 46 ∧ c ≠ 47 := by
    intro la h c hc
    have := h c hc
    unfold Digit; omega
  cases hs with
  | plus => exact ⟨fun la h => .integer _ _ hd.1 hd.2 (hst h), digits_byte hd.2⟩
  | minus =>
    refine ⟨fun la h => .symbol _ 45 _ _ (.inr (.inr (by decide))) (fun d h => .inr (.inl (hd.2 d h))) (fun d hd => stop_not_symbol (h d hd)) (.integer _ hd.1 hd.2), ?_⟩
    intro b hb
    rcases List.mem_cons.1 hb with rfl | hb
    · omega
    · exact digits_byte hd.2 b hb

theorem rational_token {fl : LexFlags} {sg ds es : List Nat} {s : Int} (hs : Sign sg s) (hd : Digits ds) (he : Digits es) :
    OneTok fl .RATIONAL_LITERAL (sg ++ ds ++ 47 :: es) := by
  have hb : ∀ b ∈ ds ++ 47 :: es, b < 255 := by
    intro b hb
    simp only [List.mem_append, List.mem_cons] at hb
    rcases hb with hb | rfl | hb
    · exact digits_byte hd.2 b hb
    · omega
    · exact digits_byte he.2 b hb
  cases hs with
  | plus =>
    refine ⟨fun la h => .rational _ _ _ hd.1 hd.2 he.1 he.2 ?_, hb⟩
    intro c hc
    have := h c hc
    unfold Digit; omega
  | minus =>
    refine ⟨fun la h => ?_, ?_⟩
    · refine .symbol _ 45 (ds ++ 47 :: es) _ (.inr (.inr (by decide))) ?_ (fun d hd => stop_not_symbol (h d hd)) (.rational _ _ hd.2 he.1 he.2)
      intro d h
      simp only [List.mem_append, List.mem_cons] at h
      rcases h with h | rfl | h
      · exact .inr (.inl (hd.2 d h))
      · exact .inl (.inr (.inr (by decide)))
      · exact .inr (.inl (he.2 d h))
    · intro b h
      have h : b = 45 ∨ b ∈ ds ++ 47 :: es := by simpa using h
      rcases h with rfl | h
      · omega
      · exact hb b h

theorem rat_text (q : Rat) : ∃ sg s ds es, Sign sg s ∧ Digits ds ∧ Digits es ∧ numVal 10 es ≠ 0 ∧ Lit.toString (.rat q) = sg ++ ds ++ 47 :: es ∧
    q = ((s * numVal 10 ds : Int) : Rat) / ((numVal 10 es : Int) : Rat) := by
  obtain ⟨sg, s, ds, h1, h2, h3, h4⟩ := intToString_sign q.num
  by_cases hd : q.den = 1
  · refine ⟨sg, s, ds, [49], h1, h2, ⟨by decide, by decide⟩, by decide, ?_, ?_⟩
    · simp only [Lit.toString, if_pos hd, Rational.toString, h3]
    · rw [← h4]
      have e : (numVal 10 [49] : Int) = 1 := by decide
      rw [e]
      have := (Rat.divInt_eq_div q.num 1).symm
      rw [this]
      have h5 := Rat.num_divInt_den q
      rw [hd] at h5
      exact h5.symm
  · obtain ⟨h5, h6⟩ := natToString_digits q.den
    refine ⟨sg, s, ds, _, h1, h2, h5, by rw [h6]; exact q.den_nz, ?_, ?_⟩
    · simp only [Lit.toString, if_neg hd, Rational.toString, h3]
    · rw [← h4, h6]
      exact ((Rat.divInt_eq_div _ _).symm.trans (Rat.num_divInt_den q)).symm

theorem litOfToken_num {o : ReadOpts} {sg ds : List Nat} {s : Int} (hs : Sign sg s) (hd : Digits ds) (ho : o.isSig = true ∨ o.normNum = false) :
    litOfToken o (.INTEGER_LITERAL, sg ++ ds) = .ok (.num (s * numVal 10 ds)) := by
  have h0 : 0 ∉ sg ++ ds := by simp [sign_null hs, not_null fun d h => (hd.2 d h).hex]
  simp only [litOfToken, tokenStr_eq h0]
  rw [if_neg (fun hc => norm_iff.1 hc ho), ofText_eq hs hd]
  rfl

theorem litOfToken_rat {o : ReadOpts} {sg ds es : List Nat} {s : Int} (hs : Sign sg s) (hd : Digits ds) (he : Digits es) (hz : numVal 10 es ≠ 0) :
    litOfToken o (.RATIONAL_LITERAL, sg ++ ds ++ 47 :: es) = .ok (.rat (((s * numVal 10 ds : Int) : Rat) / ((numVal 10 es : Int) : Rat))) := by
  have h0 : 0 ∉ sg ++ ds ++ 47 :: es := by simp [sign_null hs, not_null fun d h => (hd.2 d h).hex, not_null fun d h => (he.2 d h).hex]
  have hn : 47 ∉ sg ++ ds := by
    rw [List.mem_append]
    rintro (h1 | h1)
    · exact sign_not hs (by decide) h1
    · exact (hd.2 _ h1).ne.2.2.1 rfl
  simp only [litOfToken, tokenStr_eq h0]
  rw [if_neg, ← List.nil_append es, ofText_frac hs hd .plus he hz]
  · simp only [Option.map_some, orErr_some, Rational.mk, Int.one_mul, List.nil_append]
  · rw [(takeWhile_ne hn es).2]
    simp only [List.drop_succ_cons, List.drop_zero]
    intro hc
    exact hz ((numVal_zero he.2).2 hc.2)

theorem bin_text {b : BV} (hw : WfLit (.bin b)) : (∀ d ∈ Lit.toString (.bin b), Bit d) ∧ (Lit.toString (.bin b)).length = b.size := by
  obtain ⟨x, hx⟩ := C03_cover b hw.1
  generalize b.size = w at x hx ⊢
  subst hx
  simp only [Lit.toString]
  rw [bin_toString]
  refine ⟨fun d hd => ?_, by simp [bitString]⟩
  simp only [bitString, List.mem_map] at hd
  obtain ⟨i, _, rfl⟩ := hd
  unfold Bit
  cases x.getMsbD i <;> simp

/-- the token that is printed for a literal -/
theorem lit_token {fl : LexFlags} {o : ReadOpts} {P : PrintEnv} {l : Lit} (h : PlainLit o l) :
    ∃ k, OneTok fl k (printLeaf P (.lit l)) ∧ litOfToken o (k, printLeaf P (.lit l)) = .ok l := by
  cases h with
  | num z ho =>
    obtain ⟨sg, s, ds, h1, h2, h3, h4⟩ := intToString_sign z
    refine ⟨.INTEGER_LITERAL, ?_, ?_⟩
    · simp only [printLeaf, Lit.toString, h3]
      exact integer_token h1 h2
    · simp only [printLeaf, Lit.toString, h3]
      exact h4 ▸ litOfToken_num h1 h2 ho
  | rat q =>
    obtain ⟨sg, s, ds, es, h1, h2, h3, h4, h5, h6⟩ := rat_text q
    refine ⟨.RATIONAL_LITERAL, ?_, ?_⟩
    · simp only [printLeaf, h5]
      exact rational_token h1 h2 h3
    · simp only [printLeaf, h5]
      rw [litOfToken_rat h1 h2 h3 h4, ← h6]
  | hex k v ho h1 h2 h3 =>
    have ht := C10_hex_partial k v h1 h2 h3
    have e : Lit.toString (.hex ⟨4 * (k + 1), v⟩) = Integer.natToString 16 v := by simp [Lit.toString, BV.toString]
    have hd : ∀ d ∈ Integer.natToString 16 v, HexDigit d := by
      intro d hd
      rcases natToString_chars 16 v (by decide) (by decide) d hd with h | h
      · exact .inl h
      · exact .inr (.inl h)
    rw [e] at ht
    have e2 : printLeaf P (.lit (.hex ⟨4 * (k + 1), v⟩)) = 35 :: 120 :: Integer.natToString 16 v := by
      simp only [printLeaf, e]; rfl
    rw [e2]
    refine ⟨.HEX_LITERAL, ⟨fun la h => .hexadecimal _ _ (natToString_ne_nil _ _) hd fun c hc => stop_not_hex (h c hc), ?_⟩, ?_⟩
    · intro b hb
      simp only [List.mem_cons] at hb
      rcases hb with rfl | rfl | hb
      · omega
      · omega
      · have := hd b hb
        unfold HexDigit Digit at this; omega
    · have h0 : 0 ∉ 35 :: 120 :: Integer.natToString 16 v := by simp [not_null hd]
      simp only [litOfToken, tokenStr_eq h0, List.drop_succ_cons, List.drop_zero]
      rw [if_neg (fun hc => norm_iff.1 hc ho), ht]
  | bin b hw hb =>
    obtain ⟨h1, h2⟩ := bin_text hw
    have e2 : printLeaf P (.lit (.bin b)) = 35 :: 98 :: Lit.toString (.bin b) := by
      simp only [printLeaf, if_neg (show ¬ b.size = 0 by omega)]; rfl
    rw [e2]
    refine ⟨.BINARY_LITERAL, ⟨fun la h => .binary _ _ (fun e => by rw [e] at h2; simp at h2; omega) h1 fun c hc hb => stop_not_hex (h c hc) hb.hex, ?_⟩, ?_⟩
    · intro b hb
      simp only [List.mem_cons] at hb
      rcases hb with rfl | rfl | hb
      · omega
      · omega
      · rcases h1 b hb with rfl | rfl <;> omega
    · have h0 : 0 ∉ 35 :: 98 :: Lit.toString (.bin b) := by simp [not_null fun d h => (h1 d h).hex]
      simp only [litOfToken, tokenStr_eq h0, List.drop_succ_cons, List.drop_zero]
      rw [C10_binary b hw]
  | str s hw h34 =>
    have ha := C08_ascii s
    have e2 : printLeaf P (.lit (.str s)) = printString s := rfl
    rw [e2]
    refine ⟨.STRING_LITERAL, ⟨fun la h => ?_, ?_⟩, ?_⟩
    · have := Lexeme.string (fl := fl) (Str.toString s) la (fun e => by have := h 34 e; omega)
      rw [doubled_eq (toString_quote h34)] at this
      exact this
    · intro b hb
      have hb : b = 34 ∨ b ∈ Str.toString s ∨ b = 34 := by simpa [printString] using hb
      rcases hb with rfl | hb | rfl
      · omega
      · have := ha b hb; omega
      · omega
    · have := (C08_token_partial (fl := fl) (g := true) (i := false) (n := 1) (s := s) (r := []) (by decide) hw h34 (by intro b hb; cases hb) (by simp)).2
      simp only [litOfToken, this, Run.map]
      have := C08_round_trip s hw
      simp only [Lit.toString] at this
      rw [this]

/-! ### Reading back -/

variable {fl : LexFlags} {o : ReadOpts} {P : PrintEnv} {E : Vis → Env}

/-- the text `s`, followed by a blank, a closing parenthesis or nothing, is an expression that denotes `t` -/
def Back (fl : LexFlags) (o : ReadOpts) (E : Vis → Env) (v : Vis) (s : List Nat) (t : Term) : Prop :=
  ∃ e ts, Written (codeSem o) e ts ∧ ¬ SExp.isQualified e ∧ Elab E v e t v ∧ (∀ b ∈ s, b < 255) ∧
    ∀ r us, StopAt r.head? → Lexes fl r us → Lexes fl (s ++ r) (ts ++ us)

theorem lexes_blank {r : List Nat} {us : List Tk} (h : Lexes fl r us) : Lexes fl (32 :: r) us := by
  have h32 : Space 32 := .inl rfl
  cases h with
  | done w h =>
    refine .done _ ?_
    rcases h with h | ⟨w', c, h1, h2, rfl⟩
    · exact .inl (.space _ _ h32 h)
    · exact .inr ⟨32 :: w', c, .space _ _ h32 h1, h2, rfl⟩
  | token w t x r ts h1 h2 h3 => exact .token (32 :: w) t x r ts (.space _ _ h32 h1) h2 h3

theorem OneTok.lexes {k : Token} {s r : List Nat} {us : List Tk} (h : OneTok fl k s) (hr : StopAt r.head?) (hl : Lexes fl r us) : Lexes fl (s ++ r) ((k, s) :: us) :=
  .token [] k s r us .nil (h.lexeme _ hr) hl

theorem lexes_open {r : List Nat} {us : List Tk} (hl : Lexes fl r us) : Lexes fl (40 :: r) ((.LPAREN, [40]) :: us) := .token [] _ [40] r us .nil (.lparen _) hl
theorem lexes_close {r : List Nat} {us : List Tk} (hl : Lexes fl r us) : Lexes fl (41 :: r) ((.RPAREN, [41]) :: us) := .token [] _ [41] r us .nil (.rparen _) hl

/-- a single token -/
theorem back_tok {v : Vis} {k : Token} {s : List Nat} {e : SExp} {t : Term} (h : OneTok fl k s) (hw : Written (codeSem o) e [(k, s)])
    (hq : ¬ SExp.isQualified e) (he : Elab E v e t v) : Back fl o E v s t :=
  ⟨e, [(k, s)], hw, hq, he, h.byte, fun _ _ hr hl => h.lexes hr hl⟩

/-- the arguments, each after a blank -/
theorem back_args {v : Vis} {text : Term → List Nat} : ∀ (cs : List Term), (∀ c ∈ cs, Back fl o E v (text c) c) →
    ∃ es ws, WrittenAll (codeSem o) es ws ∧ (∀ e ∈ es, ¬ SExp.isQualified e) ∧ Elabs E v es cs v ∧ (∀ b ∈ cs.flatMap (fun c => 32 :: text c), b < 255) ∧
      ∀ r us, StopAt r.head? → Lexes fl r us → Lexes fl (cs.flatMap (fun c => 32 :: text c) ++ r) (ws ++ us) ∧ StopAt (cs.flatMap (fun c => 32 :: text c) ++ r).head?
  | [], _ => ⟨[], [], .nil, by simp, .nil v, by simp, fun r us hr hl => ⟨by simpa using hl, by simpa using hr⟩⟩
  | c :: cs, h => by
    obtain ⟨e, ts, h1, h2, h3, h4, h5⟩ := h c (by simp)
    obtain ⟨es, ws, g1, g2, g3, g4, g5⟩ := back_args cs fun c hc => h c (by simp [hc])
    refine ⟨e :: es, ts ++ ws, .cons _ _ _ _ h1 g1, ?_, .cons _ _ _ _ _ _ _ h3 g3, ?_, fun r us hr hl => ⟨?_, ?_⟩⟩
    · intro e' he'
      rcases List.mem_cons.1 he' with rfl | he'
      · exact h2
      · exact g2 _ he'
    · intro b hb
      simp only [List.flatMap_cons, List.cons_append, List.mem_cons, List.mem_append] at hb
      rcases hb with rfl | hb | hb
      · omega
      · exact h4 b hb
      · exact g4 b hb
    · obtain ⟨g6, g7⟩ := g5 r us hr hl
      simp only [List.flatMap_cons, List.cons_append, List.append_assoc]
      exact lexes_blank (h5 _ _ g7 g6)
    · intro b hb
      simp only [List.flatMap_cons, List.cons_append, List.head?_cons, Option.some.injEq] at hb
      exact .inl hb.symm

/-- an application -/
theorem back_app {v : Vis} {text : Term → List Nat} {k : Token} {s : List Nat} {x : Name} {hd t : Term} {cs : List Term} (h : OneTok fl k s)
    (hx : tokenStrToSymbol k s = .ok x) (hf : v.find x = some hd) (hc : ∀ c ∈ cs, Back fl o E v (text c) c) (ht : Denotes (E v) hd cs t) :
    Back fl o E v (40 :: s ++ cs.flatMap (fun c => 32 :: text c) ++ [41]) t := by
  obtain ⟨es, ws, g1, g2, g3, g4, g5⟩ := back_args cs hc
  refine ⟨.app x es, (.LPAREN, [40]) :: (k, s) :: ws ++ [(.RPAREN, [41])], .app _ _ _ _ _ _ hx g1, by simp [SExp.isQualified], ?_, ?_, ?_⟩
  · refine .app _ _ _ _ _ _ _ hf g3 ht fun _ a ha => ?_
    cases es with
    | nil => cases ha
    | cons e es =>
      simp only [List.head?_cons, Option.some.injEq] at ha
      exact ha ▸ g2 e (by simp)
  · intro b hb
    simp only [List.cons_append, List.mem_cons, List.mem_append, List.not_mem_nil, or_false] at hb
    rcases hb with rfl | (hb | hb) | rfl
    · omega
    · exact h.byte b hb
    · exact g4 b hb
    · omega
  · intro r us hr hl
    obtain ⟨g6, g7⟩ := g5 (41 :: r) _ (by intro b hb; simp only [List.head?_cons, Option.some.injEq] at hb; omega) (lexes_close hl)
    have := lexes_open (h.lexes g7 g6)
    simpa using this

/-- what is visible when the definitions in `lb` have been read -/
structure Reading (E : Vis → Env) (v v' : Vis) : Prop where
  find : ∀ x u, v.find x = some u → v'.find x = some u
  env : E v' = E v

theorem shown_children {t x cs} (h : Shown fl P t x cs) : cs ≠ [] → printChildren P t ≠ [] := by
  cases h <;> simp [printChildren]

theorem shown_kind {t x cs} (h : Shown fl P t x cs) : t.kind ≠ BUILTIN_CONST := by
  cases h with
  | node k c cs h1 h2 h3 =>
    rintro rfl
    obtain ⟨la, h3⟩ := h3
    generalize hx : kindToTerm BUILTIN_CONST = x at h3
    generalize hk : Token.SYMBOL = k at h3
    have hx : x = [91, 93] := by rw [← hx]; rfl
    cases h3 <;> simp at hk hx
    rename_i h0 _ _ _ _
    rw [hx.1] at h0
    revert h0
    unfold SymbolStart
    simp [bytes]
  | _ => simp [Term.kind]

/-- the text of the pieces of an application -/
theorem writePieces_children (hw : Printable P) (lb : List (Term × Nat)) (cs : List Term) :
    writePieces (cs.flatMap fun d => Piece.text [32] :: pieces hw lb d) = cs.flatMap fun d => 32 :: writePieces (pieces hw lb d) := by
  induction cs with
  | nil => rfl
  | cons d cs ih =>
    rw [List.flatMap_cons, writePieces_append, ih, List.flatMap_cons]
    rfl

theorem writePieces_node (hw : Printable P) {lb t c cs} (h : lb.lookup t = none) (hc : printChildren P t = c :: cs) :
    writePieces (pieces hw lb t) = printOpen P t ++ writePieces (pieces hw lb c) ++ (cs.flatMap fun d => 32 :: writePieces (pieces hw lb d)) ++ [41] := by
  rw [pieces_node hw h hc, writePieces_append, writePieces_append, writePieces_children]
  rfl

theorem writePieces_leaf (hw : Printable P) {lb t} (h : lb.lookup t = none) (hc : printChildren P t = []) :
    writePieces (pieces hw lb t) = printLeaf P t := by
  rw [pieces_leaf hw h hc]
  simp [writePieces, Piece.write]

/-- whether a text is a simple symbol -/
def isSimpleName (fl : LexFlags) : List Nat → Bool
  | [] => false
  | c :: cs => charClass c .SYMBOL_START && cs.all (fun d => charClass d .SYMBOL && decide (d < 256)) && decide (tokenizeCurrentSymbol fl (c :: cs) = .SYMBOL)

theorem simpleName_of {fl : LexFlags} : ∀ {s : List Nat}, isSimpleName fl s = true → SimpleName fl s
  | c :: cs, h => by
    simp only [isSimpleName, Bool.and_eq_true, List.all_eq_true, decide_eq_true_eq] at h
    refine ⟨none, .symbol _ _ _ _ ((class_start c).1 h.1.1) (fun d hd => (class_symbol d).1 (h.1.2 d hd).1) (by simp) ?_⟩
    have := symbolClass_sound fl c cs fun d hd => (h.1.2 d hd).2
    rwa [h.2] at this

theorem toString_printable {s : List Nat} (h : ∀ b ∈ s, 32 ≤ b ∧ b ≤ 126 ∧ b ≠ 34 ∧ b ≠ 92) : Str.toString s = s := by
  induction s with
  | nil => rfl
  | cons c s ih =>
    have h1 := h c (by simp)
    have : Str.printChar c = [c] := by
      unfold Str.printChar Str.isPrintable
      rw [if_pos]
      simp; omega
    simp only [Str.toString, List.flatMap_cons, this] at ih ⊢
    rw [ih fun b hb => h b (by simp [hb])]
    rfl

theorem sym_leaf {k : Kind} (i : Nat) (h : k ≠ VARIABLE) : printChildren P (.sym k i) = [] := by
  unfold printChildren
  split
  · next h' => cases h'; exact absurd rfl h
  · rfl
  · rfl
  · next h' => cases h'

theorem reserved {fl : LexFlags} {k : Token} (c : Nat) (cs : List Nat) (h0 : charClass c .SYMBOL_START = true) (h1 : ∀ d ∈ cs, charClass d .SYMBOL = true)
    (h : SymbolClass fl (c :: cs) k) : OneTok fl k (c :: cs) := by
  have h0 := (class_start c).1 h0
  have h1 : ∀ d ∈ cs, SymbolChar d := fun d hd => (class_symbol d).1 (h1 d hd)
  refine ⟨fun la hla => .symbol _ _ _ _ h0 h1 (fun d hd => stop_not_symbol (hla d hd)) h, ?_⟩
  intro b hb
  rcases List.mem_cons.1 hb with rfl | hb
  · have := symbolStart_byte h0; omega
  · have := symbolChar_byte (h1 b hb); omega

/-- what is printed for a term is read as this term -/
theorem back_pieces (hw : Printable P) {lb : List (Term × Nat)} {v v' : Vis} (hl : ∀ u j, lb.lookup u = some j → printChildren P u ≠ []) (hv : Reading E v v')
    {t : Term} (hs : Stable fl o P E v t) :
    (∀ u j, Below P t u → lb.lookup u = some j → v'.find (defName j) = some u) → Back fl o E v' (writePieces (pieces hw lb t)) t := by
  have leaf : ∀ t, printChildren P t = [] → Back fl o E v' (printLeaf P t) t → Back fl o E v' (writePieces (pieces hw lb t)) t := by
    intro t ht h
    have hn : lb.lookup t = none := by
      cases h : lb.lookup t with
      | none => rfl
      | some j => exact absurd ht (hl t j h)
    rw [writePieces_leaf hw hn ht]
    exact h
  have word : ∀ {k : Token} {x : Name} {s : List Nat} {t : Term}, OneTok fl k s → tokenStrToSymbol k s = .ok x → v'.find x = some t → t.kind ≠ BUILTIN_CONST → Back fl o E v' s t :=
    fun h1 h2 h3 h4 => back_tok h1 (.sym _ _ h2) (by simp [SExp.isQualified]) (.sym _ _ _ h3 h4)
  induction hs with
  | lit l hp =>
    intro _
    obtain ⟨k, h1, h2⟩ := lit_token (fl := fl) (P := P) hp
    exact leaf _ rfl (back_tok h1 (.lit _ _ h2) (by simp [SExp.isQualified]) (.lit _ _))
  | tt hf =>
    intro _
    have h := simple_token (simpleName_of (fl := fl) (s := bytes "true") (by rcases fl with ⟨_ | _, _ | _⟩ <;> decide))
    exact leaf _ rfl (word h.1 h.2 (hv.find _ _ hf) (by decide))
  | ff hf =>
    intro _
    have h := simple_token (simpleName_of (fl := fl) (s := bytes "false") (by rcases fl with ⟨_ | _, _ | _⟩ <;> decide))
    exact leaf _ rfl (word h.1 h.2 (hv.find _ _ hf) (by decide))
  | type ht =>
    intro _
    refine leaf _ rfl (back_tok (k := .TYPE) (reserved 84 (bytes "ype") (by decide) (by decide) (.type ht)) (.type _) (by simp [SExp.isQualified]) (.type _))
  | bool =>
    intro _
    refine leaf _ rfl (back_tok (k := .BOOL_TYPE) (reserved 66 (bytes "ool") (by decide) (by decide) .bool) (.bool _) (by simp [SExp.isQualified]) (.bool _))
  | sym k i h1 h2 h3 h4 =>
    intro _
    obtain ⟨k', g1, g2⟩ := name_token h3
    refine leaf _ (sym_leaf i h2) ?_
    simp only [printLeaf, if_pos h1]
    refine word g1 g2 (hv.find _ _ h4) ?_
    simp only [Term.kind]
    rintro rfl
    cases h1
  | empty hd ho hf ht =>
    intro _
    have hz : Back fl o E v' (printLeaf P (.lit (.num 0))) (.lit (.num 0)) := by
      obtain ⟨k, h1, h2⟩ := lit_token (fl := fl) (P := P) (.num 0 ho)
      exact back_tok h1 (.lit _ _ h2) (by simp [SExp.isQualified]) (.lit _ _)
    have h := simple_token (simpleName_of (fl := fl) (s := bytes "eo::to_bin") (by rcases fl with ⟨_ | _, _ | _⟩ <;> decide))
    have := back_app (text := printLeaf P) h.1 h.2 (hv.find _ _ hf) (cs := [.lit (.num 0), .lit (.num 0)]) (by
      intro c hc
      simp only [List.mem_cons, List.not_mem_nil, or_false, or_self] at hc
      exact hc ▸ hz) (hv.env ▸ ht)
    exact leaf _ rfl this
  | app t x hd cs hsh hf hcs ht ih =>
    intro hr
    cases hlt : lb.lookup t with
    | some i =>
      rw [pieces_ref hw hlt]
      have h := simple_token (defName_simple fl i)
      have e : writePieces [Piece.ref i] = defName i := by simp [writePieces, Piece.write, defName]
      rw [e]
      exact word h.1 h.2 (hr t i (.refl t) hlt) (shown_kind hsh)
    | none =>
    have ht' : Denotes (E v') hd cs t := hv.env ▸ ht
    have hf' := hv.find _ _ hf
    -- the children that are printed are read back
    have hch : ∀ c ∈ cs, c ∈ printChildren P t → Back fl o E v' (writePieces (pieces hw lb c)) c :=
      fun c hc hp => ih c hc fun u j hu hj => hr u j (.child _ _ _ hp hu) hj
    have head : ∀ k i, isSymbol k = true → k ≠ VARIABLE → writePieces (pieces hw lb (.sym k i)) = quoteSymbol (P.name k i) := by
      intro k i h1 h2
      have h3 := sym_leaf (P := P) i h2
      have hn : lb.lookup (.sym k i) = none := by
        cases h : lb.lookup (.sym k i) with
        | none => rfl
        | some j => exact absurd h3 (hl _ j h)
      rw [writePieces_leaf hw hn h3]
      simp only [printLeaf, if_pos h1]
    cases hsh with
    | app k i cs h1 h2 h3 =>
      obtain ⟨k', g1, g2⟩ := name_token h3
      rw [writePieces_node hw hlt rfl, head k i h1 h2]
      have e : printOpen P (.node APPLY (.sym k i :: cs)) = [40] := rfl
      rw [e]
      exact back_app g1 g2 hf' (fun c hc => hch c hc (by simp [printChildren, hc])) ht'
    | apply f cs h1 =>
      have h := simple_token (simpleName_of (fl := fl) (s := bytes "_") (by rcases fl with ⟨_ | _, _ | _⟩ <;> decide))
      rw [writePieces_node hw hlt rfl]
      have e : printOpen P (.node APPLY (f :: cs)) = 40 :: bytes "_" ++ [32] := by
        have : f.children.length > 0 := by
          cases hf : f.children with
          | nil => exact absurd hf h1
          | cons => simp
        simp only [printOpen, if_pos this]
        rfl
      rw [e]
      have := back_app h.1 h.2 hf' (fun c hc => hch c hc hc) ht'
      simpa using this
    | opaq k i cs h1 h2 h3 h4 =>
      obtain ⟨k', g1, g2⟩ := name_token h3
      rw [writePieces_node hw hlt rfl, head k i h1 h2]
      have e : printOpen P (.node APPLY_OPAQUE (.sym k i :: cs)) = [40] := by
        simp only [printOpen, h4]
        rfl
      rw [e]
      exact back_app g1 g2 hf' (fun c hc => hch c hc (by simp [printChildren, hc])) ht'
    | as f cs h1 =>
      have h := simple_token (simpleName_of (fl := fl) (s := bytes "as") (by rcases fl with ⟨_ | _, _ | _⟩ <;> decide))
      rw [writePieces_node hw hlt rfl]
      have e : printOpen P (.node APPLY_OPAQUE (f :: cs)) = 40 :: bytes "as" ++ [32] := by
        simp only [printOpen, h1, if_true]
        rfl
      rw [e]
      have := back_app h.1 h.2 hf' (fun c hc => hch c hc hc) ht'
      simpa using this
    | node k c cs h1 h2 h3 =>
      have h := simple_token h3
      rw [writePieces_node hw hlt rfl]
      have e : printOpen P (.node k (c :: cs)) = 40 :: kindToTerm k ++ [32] := by
        unfold printOpen
        split
        · next h => cases h
        · next h => cases h; exact absurd rfl h2
        · next h => cases h; exact absurd rfl h1
        · rfl
      rw [e]
      have := back_app h.1 h.2 hf' (fun c hc => hch c hc hc) ht'
      simpa using this
    | var i h1 =>
      have h := simple_token (simpleName_of (fl := fl) (s := bytes "eo::var") (by rcases fl with ⟨_ | _, _ | _⟩ <;> decide))
      rw [writePieces_node hw hlt (c := P.varType i) (cs := []) rfl]
      have e : printOpen P (.sym VARIABLE i) = 40 :: bytes "eo::var" ++ 32 :: printString (P.name VARIABLE i) ++ [32] := by
        rw [printString, toString_printable h1]
        simp [printOpen, bytes]
      rw [e]
      have hty : Back fl o E v' (writePieces (pieces hw lb (P.varType i))) (P.varType i) := hch _ (by simp) (by simp [printChildren])
      have hnm : Back fl o E v' (writePieces (pieces hw lb (.lit (.str (P.name VARIABLE i))))) (.lit (.str (P.name VARIABLE i))) := by
        refine ih _ (by simp) fun u j hu hj => ?_
        have := below_leaf hu rfl
        subst this
        exact absurd rfl (hl _ j hj)
      have e2 : writePieces (pieces hw lb (.lit (.str (P.name VARIABLE i)))) = printString (P.name VARIABLE i) := by
        have hn : lb.lookup (.lit (.str (P.name VARIABLE i))) = none := by
          cases h : lb.lookup (.lit (.str (P.name VARIABLE i))) with
          | none => rfl
          | some j => exact absurd rfl (hl _ j h)
        rw [writePieces_leaf hw hn rfl]
        rfl
      have := back_app (text := fun c => writePieces (pieces hw lb c)) h.1 h.2 hf' (by
        intro c hc
        simp only [List.mem_cons, List.not_mem_nil, or_false] at hc
        rcases hc with rfl | rfl
        · exact hnm
        · exact hty) ht'
      simpa [e2] using this

/-! ### Definitions -/

theorem defName_inj {i j : Nat} (h : defName i = defName j) : i = j := by
  have h : Integer.natToString 10 i = Integer.natToString 10 j := List.append_cancel_left h
  have h1 := (natToString_digits i).2
  have h2 := (natToString_digits j).2
  rw [h] at h1
  omega

theorem find_add {v : Vis} {x y : Name} {t : Term} : (v.add (x, t)).find y = if x = y then some t else v.find y := by
  simp only [Vis.find, Vis.add, List.find?_cons]
  by_cases h : x = y
  · simp [h]
  · simp [h]

theorem marks_add {v : Vis} {x : Name} {t : Term} (h : v.find x = none) : (v.add (x, t)).marks = v.marks := by
  simp [Vis.add, h]

/-- what is built does not change with the binding of a new name -/
theorem envAt_add {b : Env} {st : State} {v : Vis} {x : Name} {t : Term} (h : v.find x = none) : envAt b st (v.add (x, t)) = envAt b st v := by
  have ho : ∀ y, (if 2 ≤ ((v.add (x, t)).all y).length then (v.add (x, t)).all y else []) = if 2 ≤ (v.all y).length then v.all y else [] := by
    intro y
    by_cases hy : x = y
    · subst hy
      have : v.binds.filter (fun p => p.1 = x) = [] := by
        simp only [Vis.find, Option.map_eq_none_iff, List.find?_eq_none] at h
        exact List.filter_eq_nil_iff.2 h
      simp [Vis.all, Vis.add, this]
    · simp [Vis.all, Vis.add, hy]
  unfold envAt
  rw [marks_add h]
  congr 1
  exact funext ho

/-- the definitions from number `n` on, and the body -/
theorem back_defs (hE : ∀ v x t, v.find x = none → E (v.add (x, t)) = E v) {v0 : Vis} {t : Term} {body : List Piece} :
    ∀ (rest : List Term) (ds : List (List Piece)) (n : Nat) (v : Vis), ds.length = rest.length → Reading E v0 v → (∀ j, n ≤ j → v.find (defName j) = none) →
    -- every definition is read back when the ones before it are visible
    (∀ i l d, rest[i]? = some l → ds[i]? = some d → ∀ v', Reading E v0 v' → (∀ j u, j < n → v.find (defName j) = some u → v'.find (defName j) = some u) →
      (∀ j u, j < i → rest[j]? = some u → v'.find (defName (n + j)) = some u) → Back fl o E v' (writePieces d) l) →
    (∀ v', Reading E v0 v' → (∀ j u, j < n → v.find (defName j) = some u → v'.find (defName j) = some u) →
      (∀ j u, rest[j]? = some u → v'.find (defName (n + j)) = some u) → Back fl o E v' (writePieces body) t) →
    Back fl o E v (writeTerm n ds body) t
  | [], [], n, v, _, hv, _, _, hb => by
    simp only [writeTerm]
    exact hb v hv (fun _ _ _ h => h) (by simp)
  | l :: rest, d :: ds, n, v, hlen, hv, hnew, hd, hb => by
    have hn : v.find (defName n) = none := hnew n (Nat.le_refl n)
    obtain ⟨e, ts, h1, h2, h3, h4, h5⟩ := hd 0 l d rfl rfl v hv (fun _ _ _ h => h) (by simp)
    have hv1 : Reading E v0 (v.add (defName n, l)) := by
      refine ⟨fun x u hu => ?_, by rw [hE _ _ _ hn]; exact hv.env⟩
      rw [find_add, if_neg, hv.find x u hu]
      rintro rfl
      rw [hv.find _ _ hu] at hn
      cases hn
    have hold : ∀ {j u}, j < n → v.find (defName j) = some u → (v.add (defName n, l)).find (defName j) = some u := by
      intro j u hj hu
      rw [find_add, if_neg (fun e => by have := defName_inj e; omega), hu]
    obtain ⟨e', ts', g1, g2, g3, g4, g5⟩ := back_defs hE rest ds (n + 1) (v.add (defName n, l)) (by simpa using hlen) hv1
      (fun j hj => by rw [find_add, if_neg (fun e => by have := defName_inj e; omega)]; exact hnew j (by omega))
      (fun i l' d' hi hdi v' hv' ho hr => by
        refine hd (i + 1) l' d' (by simpa using hi) (by simpa using hdi) v' hv' (fun j u hj hu => ho j u (by omega) (hold hj hu)) fun j u hj hu => ?_
        cases j with
        | zero =>
          simp only [List.getElem?_cons_zero, Option.some.injEq] at hu
          exact ho n u (by omega) (by rw [find_add, if_pos rfl, hu])
        | succ j =>
          have := hr j u (by omega) (by simpa using hu)
          rwa [Nat.add_right_comm] at this)
      (fun v' hv' ho hr => by
        refine hb v' hv' (fun j u hj hu => ho j u (by omega) (hold hj hu)) fun j u hu => ?_
        cases j with
        | zero =>
          simp only [List.getElem?_cons_zero, Option.some.injEq] at hu
          exact ho n u (by omega) (by rw [find_add, if_pos rfl, hu])
        | succ j =>
          have := hr j u (by simpa using hu)
          rwa [Nat.add_right_comm] at this)
    have hx := simple_token (defName_simple fl n)
    have hdef : OneTok fl .EVAL_DEFINE (bytes "eo::define") := reserved 101 (bytes "o::define") (by decide) (by decide) .define
    refine ⟨.letE [defName n] [e] e', (.LPAREN, [40]) :: (.EVAL_DEFINE, bytes "eo::define") :: (.LPAREN, [40]) ::
      ((.LPAREN, [40]) :: (.SYMBOL, defName n) :: ts ++ (.RPAREN, [41]) :: []) ++ (.RPAREN, [41]) :: ts' ++ [(.RPAREN, [41])],
      .letE _ _ _ _ _ _ _ _ _ _ (.inr rfl) (.cons _ _ _ _ _ _ _ _ _ hx.2 h1 .nil) g1, by simp [SExp.isQualified], ?_, ?_, ?_⟩
    · have := Elab.letE (E := E) v [defName n] [e] [l] v e' t _ (.cons _ _ _ _ _ _ _ h3 (.nil _)) g3
      have e1 : v.leave (v.add (defName n, l)) = v := by
        simp only [Vis.leave, marks_add hn]
      rwa [e1] at this
    · intro b hb
      have hq : ∀ b ∈ bytes "(eo::define ((_v", b < 255 := by decide
      have hq2 : ∀ b ∈ bytes ")) ", b < 255 := by decide
      simp only [writeTerm, List.mem_append] at hb
      rcases hb with ((((((hb | hb) | hb) | hb) | hb) | hb) | hb)
      · exact hq b hb
      · exact hx.1.byte b (by simp [defName, hb])
      · revert b; decide
      · exact h4 b hb
      · exact hq2 b hb
      · exact g4 b hb
      · revert b; decide
    · intro r us hr hl
      have hcl : ∀ (s : List Nat), StopAt (41 :: s).head? := fun s b hb => by
        simp only [List.head?_cons, Option.some.injEq] at hb; omega
      have hbl : ∀ (s : List Nat), StopAt (32 :: s).head? := fun s b hb => by
        simp only [List.head?_cons, Option.some.injEq] at hb; omega
      have k1 := g5 _ _ (hcl r) (lexes_close hl)
      have k2 := h5 _ _ (hcl _) (lexes_close (lexes_close (lexes_blank k1)))
      have k3 := hdef.lexes (hbl _) (lexes_blank (lexes_open (lexes_open (hx.1.lexes (hbl _) (lexes_blank k2)))))
      have k4 := lexes_open k3
      have e1 : writeTerm n (d :: ds) body ++ r = 40 :: (bytes "eo::define" ++ 32 :: 40 :: 40 :: (defName n ++ 32 :: (writePieces d ++ 41 :: 41 :: 32 :: (writeTerm (n + 1) ds body ++ 41 :: r)))) := by
        simp [writeTerm, defName, bytes]
      rw [e1]
      simpa using k4

end Ethos.Props
