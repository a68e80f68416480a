import Verif.Lemmas.Lexer
/-
The lexer on lists accepts exactly the lexical grammar.
-/
namespace Ethos.Props
open Ethos Spec

/-! ### Character classes -/

theorem class_space (b : Nat) : charClass b .WHITESPACE = true ↔ Space b := by
  simp [charClass, Space, or_assoc]

theorem class_digit (b : Nat) : charClass b .DECIMAL_DIGIT = true ↔ Digit b := by
  simp [charClass, Str.isDigit, Digit]

theorem class_hex (b : Nat) : charClass b .HEXADECIMAL_DIGIT = true ↔ HexDigit b := by
  simp only [charClass, Str.isHexDigit, Str.isDigit, HexDigit, Digit, Bool.or_eq_true, Bool.and_eq_true, decide_eq_true_eq]
  omega

theorem class_bit (b : Nat) : charClass b .BIT = true ↔ Bit b := by
  simp [charClass, Bit]

theorem class_start (b : Nat) : charClass b .SYMBOL_START = true ↔ SymbolStart b := by
  have e : ∀ b, (decide (b ∈ extraSymbolChars) = true) = (b ∈ bytes "+-/*=%?!.$_~&^<>@") := fun b => propext (decide_eq_true_iff ..)
  simp only [charClass, SymbolStart, isLetter, Bool.or_eq_true, Bool.and_eq_true, e, decide_eq_true_eq, or_assoc]

theorem class_symbol (b : Nat) : charClass b .SYMBOL = true ↔ SymbolChar b := by
  have e : ∀ b, (decide (b ∈ extraSymbolChars) = true) = (b ∈ bytes "+-/*=%?!.$_~&^<>@") := fun b => propext (decide_eq_true_iff ..)
  simp only [charClass, SymbolChar, SymbolStart, Digit, isLetter, Str.isDigit, Bool.or_eq_true, Bool.and_eq_true, e,
    decide_eq_true_eq]
  constructor
  · rintro ((((h | h) | h) | h) | h)
    · exact .inl (.inl h)
    · exact .inl (.inr (.inl h))
    · exact .inr (.inl h)
    · exact .inl (.inr (.inr h))
    · exact .inr (.inr h)
  · rintro ((h | h | h) | h | h)
    · exact .inl (.inl (.inl (.inl h)))
    · exact .inl (.inl (.inl (.inr h)))
    · exact .inl (.inr h)
    · exact .inl (.inl (.inr h))
    · exact .inr h

theorem extra_mem {b : Nat} (h : b ∈ bytes "+-/*=%?!.$_~&^<>@") :
    b = 43 ∨ b = 45 ∨ b = 47 ∨ b = 42 ∨ b = 61 ∨ b = 37 ∨ b = 63 ∨ b = 33 ∨ b = 46 ∨ b = 36 ∨ b = 95 ∨ b = 126 ∨ b = 38 ∨ b = 94 ∨ b = 60 ∨ b = 62 ∨ b = 64 := by
  simpa [bytes] using h

/-- the characters with a meaning of their own do not start a symbol -/
theorem SymbolStart.ne {b : Nat} (h : SymbolStart b) :
    ¬ Space b ∧ ¬ Digit b ∧ b ≠ 59 ∧ b ≠ 40 ∧ b ≠ 41 ∧ b ≠ 124 ∧ b ≠ 35 ∧ b ≠ 34 ∧ b ≠ 58 := by
  unfold Space Digit
  rcases h with h | h | h
  · omega
  · omega
  · have := extra_mem h; omega

theorem SymbolChar.ne {b : Nat} (h : SymbolChar b) : ¬ Space b ∧ b ≠ 59 := by
  rcases h with h | h | h
  · exact ⟨(SymbolStart.ne h).1, (SymbolStart.ne h).2.2.1⟩
  · unfold Space; unfold Digit at h; omega
  · unfold Space; omega

/-! ### Runs of characters -/

theorem takeWhile_run {α : Type} {p : α → Bool} : ∀ {ds r : List α}, (∀ d ∈ ds, p d = true) → (∀ c, r.head? = some c → p c = false) →
    (ds ++ r).takeWhile p = ds ∧ (ds ++ r).dropWhile p = r
  | [], [], _, _ => by simp
  | [], c :: r, _, h2 => by simp [List.takeWhile, List.dropWhile, h2 c rfl]
  | d :: ds, r, h1, h2 => by
    have := takeWhile_run (ds := ds) (r := r) (fun x hx => h1 x (List.mem_cons_of_mem _ hx)) h2
    simp [List.takeWhile, List.dropWhile, h1 d (List.mem_cons_self ..), this]

theorem takeWhile_split {α : Type} (p : α → Bool) (s : List α) : s = s.takeWhile p ++ s.dropWhile p ∧ (∀ d ∈ s.takeWhile p, p d = true) ∧
    ∀ c, (s.dropWhile p).head? = some c → p c = false := by
  induction s with
  | nil => simp
  | cons b s ih =>
    cases hb : p b with
    | true =>
      simp only [List.takeWhile, List.dropWhile, hb, List.mem_cons, List.cons_append]
      refine ⟨by rw [← ih.1], ?_, ih.2.2⟩
      rintro d (rfl | hd)
      · exact hb
      · exact ih.2.1 d hd
    | false =>
      simp only [List.takeWhile, List.dropWhile, hb]
      refine ⟨rfl, by simp, ?_⟩
      intro c hc
      simp at hc
      rw [← hc, hb]

theorem many_run {cc : CharClass} {ds r pre : List Nat} (h0 : ds ≠ []) (h1 : ∀ d ∈ ds, charClass d cc = true)
    (h2 : ∀ c, r.head? = some c → charClass c cc = false) : manyL cc pre (ds ++ r) = some (pre ++ ds, r) := by
  cases ds with
  | nil => exact absurd rfl h0
  | cons d ds =>
    have := takeWhile_run (p := (charClass · cc)) (ds := ds) (r := r) (fun x hx => h1 x (List.mem_cons_of_mem _ hx)) h2
    simp [manyL, h1 d (List.mem_cons_self ..), this.1, this.2]

theorem many_split {cc : CharClass} {s pre t r : List Nat} (h : manyL cc pre s = some (t, r)) :
    ∃ ds, ds ≠ [] ∧ (∀ d ∈ ds, charClass d cc = true) ∧ t = pre ++ ds ∧ s = ds ++ r ∧ ∀ c, r.head? = some c → charClass c cc = false := by
  cases s with
  | nil => simp [manyL] at h
  | cons b s =>
    simp only [manyL] at h
    split at h
    · rename_i hb
      obtain ⟨g1, g2, g3⟩ := takeWhile_split (charClass · cc) s
      simp only [Option.some.injEq, Prod.mk.injEq] at h
      obtain ⟨rfl, rfl⟩ := h
      refine ⟨b :: s.takeWhile (charClass · cc), by simp, ?_, rfl, by rw [List.cons_append, ← g1], g3⟩
      intro d hd
      rcases List.mem_cons.mp hd with rfl | hd
      · exact hb
      · exact g2 d hd
    · simp at h

/-! ### White space and comments -/

theorem skipL_comment {c : List Nat} (h : 10 ∉ c) (s : List Nat) : skipL true (c ++ 10 :: s) = skipL false s := by
  induction c with
  | nil => simp [skipL]
  | cons b c ih =>
    have h1 : b ≠ 10 := fun x => h (by simp [x])
    have h2 : 10 ∉ c := fun x => h (by simp [x])
    simp [skipL, h1, ih h2]

theorem skipL_open {c : List Nat} (h : 10 ∉ c) : skipL true c = [] := by
  induction c with
  | nil => simp [skipL]
  | cons b c ih =>
    have h1 : b ≠ 10 := fun x => h (by simp [x])
    have h2 : 10 ∉ c := fun x => h (by simp [x])
    simp [skipL, h1, ih h2]

theorem skipL_layout {w : List Nat} (h : Layout w) (s : List Nat) : skipL false (w ++ s) = skipL false s := by
  induction h with
  | nil => rfl
  | space b w hb _ ih => simp [skipL, (class_space b).mpr hb, ih]
  | comment c w hc _ ih =>
    have : charClass 59 .WHITESPACE = false := by decide
    rw [show 59 :: c ++ 10 :: w ++ s = 59 :: (c ++ 10 :: (w ++ s)) by simp]
    simp [skipL, this, skipL_comment hc, ih]

theorem skipL_start {b : Nat} (h1 : ¬ Space b) (h2 : b ≠ 59) (s : List Nat) : skipL false (b :: s) = b :: s := by
  have : charClass b .WHITESPACE = false := by
    cases hc : charClass b .WHITESPACE with
    | false => rfl
    | true => exact absurd ((class_space b).mp hc) h1
  simp [skipL, this, h2]

theorem skipL_end {s : List Nat} (h : EndLayout s) : skipL false s = [] := by
  rcases h with h | ⟨w, c, h, hc, rfl⟩
  · have := skipL_layout h []
    simpa [skipL] using this
  · have : charClass 59 .WHITESPACE = false := by decide
    rw [skipL_layout h]
    simp [skipL, this, skipL_open hc]

theorem EndLayout.append {w s : List Nat} (hw : Layout w) (h : EndLayout s) : EndLayout (w ++ s) := by
  have app : ∀ {w v : List Nat}, Layout w → Layout v → Layout (w ++ v) := by
    intro w v h1 h2
    induction h1 with
    | nil => exact h2
    | space b w hb _ ih => exact .space _ _ hb ih
    | comment c w hc _ ih => have := Layout.comment c _ hc ih; simpa using this
  rcases h with h | ⟨v, c, h, hc, rfl⟩
  · exact .inl (app hw h)
  · exact .inr ⟨w ++ v, c, app hw h, hc, by simp⟩

/-- what `skipL` leaves out -/
theorem skipL_sound : ∀ (cm : Bool) (s : List Nat),
    (if cm then (∃ c w, 10 ∉ c ∧ Layout w ∧ s = c ++ 10 :: (w ++ skipL cm s)) ∨ (skipL cm s = [] ∧ (10 ∉ s ∨ ∃ c v, 10 ∉ c ∧ EndLayout v ∧ s = c ++ 10 :: v))
     else (∃ w, Layout w ∧ s = w ++ skipL cm s) ∨ (skipL cm s = [] ∧ EndLayout s))
  | true, [] => by simp [skipL]
  | false, [] => by simp only [Bool.false_eq_true, if_false, skipL]; exact .inl ⟨[], .nil, rfl⟩
  | false, b :: s => by
    simp only [Bool.false_eq_true, if_false, skipL]
    by_cases hw : charClass b .WHITESPACE = true
    · have := skipL_sound false s
      simp only [Bool.false_eq_true, if_false] at this
      rw [if_pos hw]
      rcases this with ⟨w, h1, h2⟩ | ⟨h1, h2⟩
      · exact .inl ⟨b :: w, .space _ _ ((class_space b).mp hw) h1, by rw [List.cons_append, ← h2]⟩
      · exact .inr ⟨h1, EndLayout.append (w := [b]) (.space _ _ ((class_space b).mp hw) .nil) h2⟩
    · rw [if_neg hw]
      by_cases hb : b = 59
      · rw [if_pos hb]
        have := skipL_sound true s
        simp only [if_true] at this
        rcases this with ⟨c, w, h1, h2, h3⟩ | ⟨h1, h2⟩
        · refine .inl ⟨59 :: c ++ 10 :: w, .comment c w h1 h2, ?_⟩
          rw [hb, show 59 :: c ++ 10 :: w ++ skipL true s = 59 :: (c ++ 10 :: (w ++ skipL true s)) by simp, ← h3]
        · refine .inr ⟨h1, ?_⟩
          rcases h2 with h2 | ⟨c, v, g1, g2, g3⟩
          · exact .inr ⟨[], s, .nil, h2, by rw [hb]; rfl⟩
          · rw [hb, g3]
            have := EndLayout.append (.comment c [] g1 .nil) g2
            simpa using this
      · rw [if_neg hb]
        exact .inl ⟨[], .nil, rfl⟩
  | true, b :: s => by
    simp only [if_true, skipL]
    by_cases hb : b = 10
    · rw [if_pos hb]
      have := skipL_sound false s
      simp only [Bool.false_eq_true, if_false] at this
      rcases this with ⟨w, h1, h2⟩ | ⟨h1, h2⟩
      · exact .inl ⟨[], w, by simp, h1, by rw [← h2, hb]; rfl⟩
      · exact .inr ⟨h1, .inr ⟨[], s, by simp, h2, by rw [hb]; rfl⟩⟩
    · rw [if_neg hb]
      have := skipL_sound true s
      simp only [if_true] at this
      rcases this with ⟨c, w, h1, h2, h3⟩ | ⟨h1, h2⟩
      · refine .inl ⟨b :: c, w, ?_, h2, by rw [List.cons_append, ← h3]⟩
        simp only [List.mem_cons, not_or]
        exact ⟨fun x => hb x.symm, h1⟩
      · refine .inr ⟨h1, ?_⟩
        rcases h2 with h2 | ⟨c, v, g1, g2, g3⟩
        · left
          simp only [List.mem_cons, not_or]
          exact ⟨fun x => hb x.symm, h2⟩
        · right
          refine ⟨b :: c, v, ?_, g2, by rw [g3]; rfl⟩
          simp only [List.mem_cons, not_or]
          exact ⟨fun x => hb x.symm, g1⟩

/-! ### Symbols -/

theorem digit_char {c : Nat} : isCharacterClass (charToInt true c) .DECIMAL_DIGIT = true ↔ Digit (toByte (charToInt true c)) := class_digit _

theorem digit_byte {c : Nat} (h : c < 256) : isCharacterClass (charToInt true c) .DECIMAL_DIGIT = true ↔ Digit c := by
  rw [digit_char]
  have : toByte (charToInt true c) = c := by unfold toByte charToInt; split <;> omega
  rw [this]

theorem negative_other {cs : List Nat} (hcs : ∀ c ∈ cs, c < 256) {ret : Token} (hr : ret ≠ .INTEGER_LITERAL) :
    ((∀ c ∈ cs, Digit c) → tokenizeNegative cs ret = ret) ∧ (¬ (∀ c ∈ cs, Digit c) → tokenizeNegative cs ret = .SYMBOL) := by
  induction cs with
  | nil => simp [tokenizeNegative]
  | cons c cs ih =>
    have ih := ih (fun x hx => hcs x (List.mem_cons_of_mem _ hx))
    have hd := digit_byte (hcs c (List.mem_cons_self ..))
    by_cases h : Digit c
    · simp only [tokenizeNegative, if_pos (hd.mpr h), List.mem_cons]
      constructor
      · intro g; exact ih.1 fun x hx => g x (.inr hx)
      · intro g; exact ih.2 fun g' => g fun x hx => hx.elim (fun e => e ▸ h) (g' x)
    · simp only [tokenizeNegative, if_neg (fun x => h (hd.mp x)), hr, false_and, and_false, if_false, List.mem_cons]
      refine ⟨fun g => absurd (g c (.inl rfl)) h, fun _ => by simp⟩

/-- the result of `tokenizeNegative` on the characters after the sign -/
theorem negative_spec : ∀ (cs : List Nat), (∀ c ∈ cs, c < 256) →
    (tokenizeNegative cs .INTEGER_LITERAL = .INTEGER_LITERAL ∧ ∀ c ∈ cs, Digit c) ∨
    (∃ ds es, (∀ d ∈ ds, Digit d) ∧ es ≠ [] ∧ (∀ d ∈ es, Digit d) ∧
      ((cs = ds ++ 46 :: es ∧ tokenizeNegative cs .INTEGER_LITERAL = .DECIMAL_LITERAL) ∨
       (cs = ds ++ 47 :: es ∧ tokenizeNegative cs .INTEGER_LITERAL = .RATIONAL_LITERAL))) ∨
    (tokenizeNegative cs .INTEGER_LITERAL = .SYMBOL ∧ (¬ ∀ c ∈ cs, Digit c) ∧
      ∀ ds es, (∀ d ∈ ds, Digit d) → es ≠ [] → (∀ d ∈ es, Digit d) → cs ≠ ds ++ 46 :: es ∧ cs ≠ ds ++ 47 :: es)
  | [], _ => .inl ⟨rfl, by simp⟩
  | c :: cs, hcs => by
    have hcs' : ∀ c ∈ cs, c < 256 := fun x hx => hcs x (List.mem_cons_of_mem _ hx)
    have hd := digit_byte (hcs c (List.mem_cons_self ..))
    have d46 : ¬ Digit 46 := by unfold Digit; omega
    have d47 : ¬ Digit 47 := by unfold Digit; omega
    by_cases h : Digit c
    · have e : tokenizeNegative (c :: cs) .INTEGER_LITERAL = tokenizeNegative cs .INTEGER_LITERAL := by
        simp only [tokenizeNegative, if_pos (hd.mpr h)]
      rw [e]
      rcases negative_spec cs hcs' with ⟨h1, h2⟩ | ⟨ds, es, h1, h2, h3, h4⟩ | ⟨h1, h2, h3⟩
      · refine .inl ⟨h1, ?_⟩
        intro x hx
        rcases List.mem_cons.mp hx with rfl | hx
        · exact h
        · exact h2 x hx
      · refine .inr (.inl ⟨c :: ds, es, ?_, h2, h3, ?_⟩)
        · intro x hx
          rcases List.mem_cons.mp hx with rfl | hx
          · exact h
          · exact h1 x hx
        · rcases h4 with ⟨h4, h5⟩ | ⟨h4, h5⟩
          · exact .inl ⟨by rw [h4]; rfl, h5⟩
          · exact .inr ⟨by rw [h4]; rfl, h5⟩
      · refine .inr (.inr ⟨h1, fun g => h2 fun x hx => g x (List.mem_cons_of_mem _ hx), ?_⟩)
        intro ds es g1 g2 g3
        cases ds with
        | nil =>
          constructor
          · intro x; simp only [List.nil_append, List.cons.injEq] at x; exact d46 (x.1 ▸ h)
          · intro x; simp only [List.nil_append, List.cons.injEq] at x; exact d47 (x.1 ▸ h)
        | cons d ds =>
          have := h3 ds es (fun x hx => g1 x (List.mem_cons_of_mem _ hx)) g2 g3
          constructor
          · intro x; simp only [List.cons_append, List.cons.injEq] at x; exact this.1 x.2
          · intro x; simp only [List.cons_append, List.cons.injEq] at x; exact this.2 x.2
    · have hdn : ¬ isCharacterClass (charToInt true c) .DECIMAL_DIGIT = true := fun x => h (hd.mp x)
      have nd : ¬ ∀ x ∈ c :: cs, Digit x := fun g => h (g c (List.mem_cons_self ..))
      by_cases h46 : cs ≠ [] ∧ c = 46
      · have e : tokenizeNegative (c :: cs) .INTEGER_LITERAL = tokenizeNegative cs .DECIMAL_LITERAL := by
          simp only [tokenizeNegative, if_neg hdn]
          rw [if_pos ⟨h46.1, trivial, h46.2⟩]
        have g := negative_other hcs' (ret := .DECIMAL_LITERAL) (by decide)
        rw [e]
        by_cases ha : ∀ x ∈ cs, Digit x
        · exact .inr (.inl ⟨[], cs, by simp, h46.1, ha, .inl ⟨by rw [h46.2]; rfl, g.1 ha⟩⟩)
        · refine .inr (.inr ⟨g.2 ha, nd, ?_⟩)
          intro ds es g1 g2 g3
          cases ds with
          | nil =>
            simp only [List.nil_append, ne_eq, List.cons.injEq, not_and]
            exact ⟨fun _ e => ha (e ▸ g3), fun _ e => ha (e ▸ g3)⟩
          | cons d ds =>
            constructor
            · intro x; simp only [List.cons_append, List.cons.injEq] at x; exact h (x.1 ▸ g1 d (List.mem_cons_self ..))
            · intro x; simp only [List.cons_append, List.cons.injEq] at x; exact h (x.1 ▸ g1 d (List.mem_cons_self ..))
      · by_cases h47 : cs ≠ [] ∧ c = 47
        · have e : tokenizeNegative (c :: cs) .INTEGER_LITERAL = tokenizeNegative cs .RATIONAL_LITERAL := by
            simp only [tokenizeNegative, if_neg hdn]
            rw [if_neg (fun x => h46 ⟨x.1, x.2.2⟩), if_pos ⟨h47.1, trivial, h47.2⟩]
          have g := negative_other hcs' (ret := .RATIONAL_LITERAL) (by decide)
          rw [e]
          by_cases ha : ∀ x ∈ cs, Digit x
          · exact .inr (.inl ⟨[], cs, by simp, h47.1, ha, .inr ⟨by rw [h47.2]; rfl, g.1 ha⟩⟩)
          · refine .inr (.inr ⟨g.2 ha, nd, ?_⟩)
            intro ds es g1 g2 g3
            cases ds with
            | nil =>
              simp only [List.nil_append, ne_eq, List.cons.injEq, not_and]
              exact ⟨fun _ e => ha (e ▸ g3), fun _ e => ha (e ▸ g3)⟩
            | cons d ds =>
              constructor
              · intro x; simp only [List.cons_append, List.cons.injEq] at x; exact h (x.1 ▸ g1 d (List.mem_cons_self ..))
              · intro x; simp only [List.cons_append, List.cons.injEq] at x; exact h (x.1 ▸ g1 d (List.mem_cons_self ..))
        · have e : tokenizeNegative (c :: cs) .INTEGER_LITERAL = .SYMBOL := by
            simp only [tokenizeNegative, if_neg hdn]
            rw [if_neg (fun x => h46 ⟨x.1, x.2.2⟩), if_neg (fun x => h47 ⟨x.1, x.2.2⟩)]
          rw [e]
          refine .inr (.inr ⟨rfl, nd, ?_⟩)
          intro ds es g1 g2 g3
          cases ds with
          | nil =>
            simp only [List.nil_append, ne_eq, List.cons.injEq, not_and]
            exact ⟨fun h1 e => h46 ⟨e ▸ g2, h1⟩, fun h1 e => h47 ⟨e ▸ g2, h1⟩⟩
          | cons d ds =>
            constructor
            · intro x; simp only [List.cons_append, List.cons.injEq] at x; exact h (x.1 ▸ g1 d (List.mem_cons_self ..))
            · intro x; simp only [List.cons_append, List.cons.injEq] at x; exact h (x.1 ▸ g1 d (List.mem_cons_self ..))

/-- symbols that do not begin with `!` or `-` -/
def tokenizeWord (fl : LexFlags) (t : List Nat) : Token :=
  if t = bytes "eo::define" then .EVAL_DEFINE
  else if t = bytes "par" then .PAR
  else if fl.lexLet ∧ t = bytes "let" then .LET
  else if t = bytes "Bool" then .BOOL_TYPE
  else if fl.lexType ∧ t = bytes "Type" then .TYPE
  else .SYMBOL

theorem tokenize_word (fl : LexFlags) (c : Nat) (cs : List Nat) (h1 : c ≠ 33) (h2 : c ≠ 45) :
    tokenizeCurrentSymbol fl (c :: cs) = tokenizeWord fl (c :: cs) := by
  unfold tokenizeCurrentSymbol
  split
  · rename_i heq; exact absurd (List.cons.inj heq).1 h1
  · rename_i heq; exact absurd (List.cons.inj heq).1 h2
  · rfl

theorem symbolClass_sound (fl : LexFlags) (c : Nat) (cs : List Nat) (hcs : ∀ d ∈ cs, d < 256) :
    SymbolClass fl (c :: cs) (tokenizeCurrentSymbol fl (c :: cs)) := by
  by_cases h33 : c = 33
  · subst h33
    by_cases hc : cs = []
    · subst hc; exact .attribute
    · have : tokenizeCurrentSymbol fl (33 :: cs) = .SYMBOL := by simp [tokenizeCurrentSymbol, hc]
      rw [this]
      refine .symbol _ ?_ ?_ ?_ ?_
      · simp [bytes, hc]
      · simp [bytes]
      · simp [bytes]
      · intro ds es _ _; simp
  by_cases h45 : c = 45
  · subst h45
    by_cases hc : cs = []
    · subst hc
      refine .symbol _ ?_ ?_ ?_ ?_ <;> simp [bytes]
    · have : tokenizeCurrentSymbol fl (45 :: cs) = tokenizeNegative cs .INTEGER_LITERAL := by simp [tokenizeCurrentSymbol, hc]
      rw [this]
      rcases negative_spec cs hcs with ⟨h1, h2⟩ | ⟨ds, es, h1, h2, h3, h4⟩ | ⟨h1, h2, h3⟩
      · rw [h1]; exact .integer cs hc h2
      · rcases h4 with ⟨rfl, h5⟩ | ⟨rfl, h5⟩
        · rw [h5]; exact .decimal ds es h1 h2 h3
        · rw [h5]; exact .rational ds es h1 h2 h3
      · rw [h1]
        refine .symbol _ (by simp [bytes]) (by simp [bytes]) (by simp [bytes]) ?_
        intro ds es g1 g2
        refine ⟨fun _ e => ?_, fun he => ?_⟩
        · simp only [List.cons.injEq, true_and] at e
          exact h2 (e ▸ g1)
        · have := h3 ds es g1 he g2
          simpa using this
  · rw [tokenize_word fl c cs h33 h45]
    unfold tokenizeWord
    by_cases e1 : c :: cs = bytes "eo::define"
    · rw [if_pos e1, e1]; exact .define
    rw [if_neg e1]
    by_cases e2 : c :: cs = bytes "par"
    · rw [if_pos e2, e2]; exact .par
    rw [if_neg e2]
    by_cases e3 : fl.lexLet ∧ c :: cs = bytes "let"
    · rw [if_pos e3, e3.2]; exact .let e3.1
    rw [if_neg e3]
    by_cases e4 : c :: cs = bytes "Bool"
    · rw [if_pos e4, e4]; exact .bool
    rw [if_neg e4]
    by_cases e5 : fl.lexType ∧ c :: cs = bytes "Type"
    · rw [if_pos e5, e5.2]; exact .type e5.1
    rw [if_neg e5]
    refine .symbol _ ?_ e3 e5 ?_
    · simp only [List.mem_cons, not_or]
      exact ⟨by simp [bytes, h33], e1, e2, e4, by simp⟩
    · intro ds es _ _
      simp [h45]

theorem symbolClass_complete {fl : LexFlags} {x : List Nat} {t : Token} (h : SymbolClass fl x t) (hx : x ≠ []) (hcs : ∀ d ∈ x, d < 256) :
    tokenizeCurrentSymbol fl x = t := by
  cases h with
  | «attribute» => rfl
  | define => rfl
  | par => rfl
  | bool => simp [tokenizeCurrentSymbol, bytes]
  | «let» h => simp [tokenizeCurrentSymbol, bytes, h]
  | type h => simp [tokenizeCurrentSymbol, bytes, h]
  | integer ds h1 h2 =>
    simp only [tokenizeCurrentSymbol, if_neg h1]
    rcases negative_spec ds (fun d hd => hcs d (List.mem_cons_of_mem _ hd)) with ⟨g1, _⟩ | ⟨ds', es, g1, g2, g3, g4⟩ | ⟨_, g2, _⟩
    · exact g1
    · exfalso
      rcases g4 with ⟨e, _⟩ | ⟨e, _⟩
      · have := h2 46 (by rw [e]; simp); unfold Digit at this; omega
      · have := h2 47 (by rw [e]; simp); unfold Digit at this; omega
    · exact absurd h2 g2
  | decimal ds es h1 h2 h3 =>
    have hn : ds ++ 46 :: es ≠ [] := by simp
    simp only [List.cons_append, tokenizeCurrentSymbol, if_neg hn]
    rcases negative_spec (ds ++ 46 :: es) (fun d hd => hcs d (List.mem_cons_of_mem _ hd)) with ⟨_, g2⟩ | ⟨ds', es', g1, g2, g3, g4⟩ | ⟨_, _, g3⟩
    · have := g2 46 (by simp); unfold Digit at this; omega
    · rcases g4 with ⟨_, e⟩ | ⟨e, _⟩
      · exact e
      · exfalso
        have : (47 : Nat) ∈ ds ++ 46 :: es := by rw [e]; simp
        rcases List.mem_append.mp this with h | h
        · have := h1 _ h; unfold Digit at this; omega
        · rcases List.mem_cons.mp h with h | h
          · omega
          · have := h3 _ h; unfold Digit at this; omega
    · exact absurd rfl (g3 ds es h1 h2 h3).1
  | rational ds es h1 h2 h3 =>
    have hn : ds ++ 47 :: es ≠ [] := by simp
    simp only [List.cons_append, tokenizeCurrentSymbol, if_neg hn]
    rcases negative_spec (ds ++ 47 :: es) (fun d hd => hcs d (List.mem_cons_of_mem _ hd)) with ⟨_, g2⟩ | ⟨ds', es', g1, g2, g3, g4⟩ | ⟨_, _, g3⟩
    · have := g2 47 (by simp); unfold Digit at this; omega
    · rcases g4 with ⟨e, _⟩ | ⟨_, e⟩
      · exfalso
        have : (46 : Nat) ∈ ds ++ 47 :: es := by rw [e]; simp
        rcases List.mem_append.mp this with h | h
        · have := h1 _ h; unfold Digit at this; omega
        · rcases List.mem_cons.mp h with h | h
          · omega
          · have := h3 _ h; unfold Digit at this; omega
      · exact e
    · exact absurd rfl (g3 ds es h1 h2 h3).2
  | symbol _ h1 h2 h3 h4 =>
    cases x with
    | nil => exact absurd rfl hx
    | cons c cs =>
      have hm : c :: cs ≠ bytes "!" ∧ c :: cs ≠ bytes "eo::define" ∧ c :: cs ≠ bytes "par" ∧ c :: cs ≠ bytes "Bool" := by
        simpa only [List.mem_cons, not_or, List.not_mem_nil, not_false_eq_true, and_true] using h1
      by_cases h33 : c = 33
      · subst h33
        have : cs ≠ [] := fun e => hm.1 (by rw [e]; rfl)
        simp [tokenizeCurrentSymbol, this]
      by_cases h45 : c = 45
      · subst h45
        by_cases hc : cs = []
        · simp [tokenizeCurrentSymbol, hc]
        · simp only [tokenizeCurrentSymbol, if_neg hc]
          rcases negative_spec cs (fun d hd => hcs d (List.mem_cons_of_mem _ hd)) with ⟨_, g2⟩ | ⟨ds', es', g1, g2, g3, g4⟩ | ⟨g1, _⟩
          · exact absurd rfl ((h4 cs [] g2 (by simp)).1 hc)
          · rcases g4 with ⟨e, _⟩ | ⟨e, _⟩
            · exact absurd (by rw [e]; rfl) ((h4 ds' es' g1 g3).2 g2).1
            · exact absurd (by rw [e]; rfl) ((h4 ds' es' g1 g3).2 g2).2
          · exact g1
      · rw [tokenize_word fl c cs h33 h45]
        unfold tokenizeWord
        rw [if_neg hm.2.1, if_neg hm.2.2.1, if_neg h2, if_neg hm.2.2.2, if_neg h3]

/-! ### Quoted symbols and strings -/

theorem quotedL_run : ∀ (x pre r : List Nat), 124 ∉ x → quotedL pre (x ++ 124 :: r) = .ok (.QUOTED_SYMBOL, pre ++ x ++ [124], r)
  | [], pre, r, _ => by simp [quotedL]
  | c :: x, pre, r, h => by
    have h1 : c ≠ 124 := fun e => h (by simp [e])
    have := quotedL_run x (pre ++ [c]) r (fun e => h (by simp [e]))
    simpa [quotedL, h1] using this

theorem quotedL_split : ∀ (s pre : List Nat), (∃ x r, 124 ∉ x ∧ s = x ++ 124 :: r) ∨ quotedL pre s = .ok (.UNTERMINATED_QUOTED_SYMBOL, pre ++ s, [])
  | [], pre => by simp [quotedL]
  | c :: s, pre => by
    by_cases h : c = 124
    · exact .inl ⟨[], s, by simp, by rw [h]; rfl⟩
    · rcases quotedL_split s (pre ++ [c]) with ⟨x, r, h1, h2⟩ | h1
      · refine .inl ⟨c :: x, r, ?_, by rw [h2]; rfl⟩
        simp only [List.mem_cons, not_or]
        exact ⟨fun e => h e.symm, h1⟩
      · exact .inr (by simpa [quotedL, h] using h1)

theorem stringL_run : ∀ (x pre r : List Nat), r.head? ≠ some 34 →
    stringL pre (doubled x ++ 34 :: r) = .ok (.STRING_LITERAL, pre ++ doubled x ++ [34], r)
  | [], pre, [], _ => by simp [doubled, stringL]
  | [], pre, c :: r, h => by
    have : c ≠ 34 := fun e => h (by simp [e])
    simp [doubled, stringL, this]
  | c :: x, pre, r, h => by
    by_cases hc : c = 34
    · have := stringL_run x (pre ++ [34, 34]) r h
      have e : doubled (c :: x) = 34 :: 34 :: doubled x := by simp [doubled, hc]
      rw [e]
      simpa [stringL] using this
    · have := stringL_run x (pre ++ [c]) r h
      have e : doubled (c :: x) = c :: doubled x := by simp [doubled, hc]
      rw [e]
      cases hd : doubled x ++ 34 :: r with
      | nil => simp at hd
      | cons d s =>
        rw [hd] at this
        rw [List.cons_append, hd]
        simp only [stringL, if_neg hc]
        simpa using this

theorem stringL_split : ∀ (s pre : List Nat), (∃ x r, r.head? ≠ some 34 ∧ s = doubled x ++ 34 :: r) ∨
    ∃ t, stringL pre s = .ok (.UNTERMINATED_STRING_LITERAL, t, [])
  | [], pre => by simp [stringL]
  | [b], pre => by
    by_cases h : b = 34
    · exact .inl ⟨[], [], by simp, by simp [doubled, h]⟩
    · exact .inr ⟨_, by simp [stringL, h]; rfl⟩
  | b :: d :: s, pre => by
    by_cases h : b = 34
    · by_cases h' : d = 34
      · rcases stringL_split s (pre ++ [b, d]) with ⟨x, r, h1, h2⟩ | ⟨t, h1⟩
        · exact .inl ⟨34 :: x, r, h1, by simp [doubled, h, h', h2]⟩
        · exact .inr ⟨t, by simp only [stringL, if_pos h, if_pos h', h1]⟩
      · exact .inl ⟨[], d :: s, by simp [h'], by simp [doubled, h]⟩
    · rcases stringL_split (d :: s) (pre ++ [b]) with ⟨x, r, h1, h2⟩ | ⟨t, h1⟩
      · exact .inl ⟨b :: x, r, h1, by rw [h2]; simp [doubled, h]⟩
      · exact .inr ⟨t, by simp only [stringL, if_neg h, h1]⟩

/-! ### Tokens -/

theorem not_class {cc : CharClass} {P : Nat → Prop} (hP : ∀ b, charClass b cc = true ↔ P b) {r : Option Nat} :
    (∀ c, r = some c → charClass c cc = false) ↔ ∀ c, r = some c → ¬ P c := by
  constructor
  · intro h c hc hp
    have := (hP c).mpr hp
    rw [h c hc] at this
    simp at this
  · intro h c hc
    cases hh : charClass c cc with
    | false => rfl
    | true => exact absurd ((hP c).mp hh) (h c hc)

theorem start_class {b : Nat} (h : SymbolStart b) : charClass b .DECIMAL_DIGIT = false := by
  cases hh : charClass b .DECIMAL_DIGIT with
  | false => rfl
  | true => exact absurd ((class_digit b).mp hh) (SymbolStart.ne h).2.1

/-- the lexer reads every lexeme -/
theorem nextL_complete {fl : LexFlags} {w t x r} (hw : Layout w) (h : Lexeme fl t x r.head?) (hx : ∀ b ∈ x, b < 256) :
    nextL fl (w ++ x ++ r) = .ok (t, x, r) := by
  unfold nextL
  rw [List.append_assoc, skipL_layout hw]
  cases h with
  | lparen => rw [List.cons_append, skipL_start (by unfold Space; omega) (by omega)]; rfl
  | rparen => rw [List.cons_append, skipL_start (by unfold Space; omega) (by omega)]; rfl
  | quoted x _ h =>
    rw [show 124 :: x ++ [124] ++ r = 124 :: (x ++ 124 :: r) by simp, skipL_start (by unfold Space; omega) (by omega)]
    have := quotedL_run x [124] r h
    simpa using this
  | string x _ h =>
    rw [show 34 :: doubled x ++ [34] ++ r = 34 :: (doubled x ++ 34 :: r) by simp, skipL_start (by unfold Space; omega) (by omega)]
    have := stringL_run x [34] r h
    simpa using this
  | binary ds _ h1 h2 h3 =>
    rw [show 35 :: 98 :: ds ++ r = 35 :: 98 :: (ds ++ r) by simp, skipL_start (by unfold Space; omega) (by omega)]
    have := many_run (cc := .BIT) (pre := [35, 98]) h1 (fun d hd => (class_bit d).mpr (h2 d hd)) ((not_class class_bit).mpr h3)
    simp [hashL, this]
  | hexadecimal ds _ h1 h2 h3 =>
    rw [show 35 :: 120 :: ds ++ r = 35 :: 120 :: (ds ++ r) by simp, skipL_start (by unfold Space; omega) (by omega)]
    have := many_run (cc := .HEXADECIMAL_DIGIT) (pre := [35, 120]) h1 (fun d hd => (class_hex d).mpr (h2 d hd)) ((not_class class_hex).mpr h3)
    simp [hashL, this]
  | keyword c cs _ h0 h1 h2 h3 =>
    rw [show 58 :: c :: cs ++ r = 58 :: c :: (cs ++ r) by simp, skipL_start (by unfold Space; omega) (by omega)]
    have := many_run (cc := .SYMBOL) (pre := [58, c]) h1 (fun d hd => (class_symbol d).mpr (h2 d hd)) ((not_class class_symbol).mpr h3)
    simp [keywordL, (class_start c).mpr h0, this]
  | integer ds _ h1 h2 h3 =>
    cases x with
    | nil => exact absurd rfl h1
    | cons d ds =>
      have hd := h2 d (List.mem_cons_self ..)
      have hd' := (class_digit d).mpr hd
      have run := takeWhile_run (p := (charClass · .DECIMAL_DIGIT)) (ds := ds) (r := r) (fun x hx => (class_digit x).mpr (h2 x (List.mem_cons_of_mem _ hx)))
        ((not_class class_digit).mpr fun c hc => (h3 c hc).1)
      unfold Digit at hd
      rw [List.cons_append, skipL_start (by unfold Space; omega) (by omega)]
      simp only [if_neg (show d ≠ 40 by omega), if_neg (show d ≠ 41 by omega), if_neg (show d ≠ 124 by omega), if_neg (show d ≠ 35 by omega),
        if_neg (show d ≠ 34 by omega), if_neg (show d ≠ 58 by omega), hd', if_true, numberL, run.1, run.2]
      cases r with
      | nil => simp
      | cons c r =>
        have := h3 c rfl
        simp [this.2.1, this.2.2]
  | decimal ds es _ h1 h2 h4 h5 h3 =>
    cases ds with
    | nil => exact absurd rfl h1
    | cons d ds =>
      have hd := h2 d (List.mem_cons_self ..)
      have hd' := (class_digit d).mpr hd
      have run := takeWhile_run (p := (charClass · .DECIMAL_DIGIT)) (ds := ds) (r := 46 :: (es ++ r))
        (fun x hx => (class_digit x).mpr (h2 x (List.mem_cons_of_mem _ hx))) (by intro c hc; simp at hc; subst hc; decide)
      have run2 := many_run (cc := .DECIMAL_DIGIT) (pre := [d] ++ ds ++ [46]) h4 (fun d hd => (class_digit d).mpr (h5 d hd)) ((not_class class_digit).mpr h3)
      unfold Digit at hd
      rw [show d :: ds ++ 46 :: es ++ r = d :: (ds ++ 46 :: (es ++ r)) by simp, skipL_start (by unfold Space; omega) (by omega)]
      simp only [if_neg (show d ≠ 40 by omega), if_neg (show d ≠ 41 by omega), if_neg (show d ≠ 124 by omega), if_neg (show d ≠ 35 by omega),
        if_neg (show d ≠ 34 by omega), if_neg (show d ≠ 58 by omega), hd', if_true, numberL, run.1, run.2, run2]
      simp
  | rational ds es _ h1 h2 h4 h5 h3 =>
    cases ds with
    | nil => exact absurd rfl h1
    | cons d ds =>
      have hd := h2 d (List.mem_cons_self ..)
      have hd' := (class_digit d).mpr hd
      have run := takeWhile_run (p := (charClass · .DECIMAL_DIGIT)) (ds := ds) (r := 47 :: (es ++ r))
        (fun x hx => (class_digit x).mpr (h2 x (List.mem_cons_of_mem _ hx))) (by intro c hc; simp at hc; subst hc; decide)
      have run2 := many_run (cc := .DECIMAL_DIGIT) (pre := [d] ++ ds ++ [47]) h4 (fun d hd => (class_digit d).mpr (h5 d hd)) ((not_class class_digit).mpr h3)
      unfold Digit at hd
      rw [show d :: ds ++ 47 :: es ++ r = d :: (ds ++ 47 :: (es ++ r)) by simp, skipL_start (by unfold Space; omega) (by omega)]
      simp only [if_neg (show d ≠ 40 by omega), if_neg (show d ≠ 41 by omega), if_neg (show d ≠ 124 by omega), if_neg (show d ≠ 35 by omega),
        if_neg (show d ≠ 34 by omega), if_neg (show d ≠ 58 by omega), hd', if_true, numberL, run.1, run.2, run2]
      simp
  | symbol _ c cs _ h0 h1 h2 h3 =>
    have n := SymbolStart.ne h0
    have hd := start_class h0
    have run := takeWhile_run (p := (charClass · .SYMBOL)) (ds := cs) (r := r) (fun d hd => (class_symbol d).mpr (h1 d hd)) ((not_class class_symbol).mpr h2)
    rw [List.cons_append, skipL_start n.1 n.2.2.1]
    simp only [if_neg n.2.2.2.1, if_neg n.2.2.2.2.1, if_neg n.2.2.2.2.2.1, if_neg n.2.2.2.2.2.2.1, if_neg n.2.2.2.2.2.2.2.1, if_neg n.2.2.2.2.2.2.2.2,
      hd, (class_start c).mpr h0, if_true, run.1, run.2, Bool.false_eq_true, if_false]
    rw [symbolClass_complete h3 (by simp) hx]

theorem nextL_end {fl : LexFlags} {w} (h : EndLayout w) : nextL fl w = .ok (.EOF_TOK, [], []) := by
  simp [nextL, skipL_end h]

theorem skipL_head : ∀ (cm : Bool) (s : List Nat) {b r}, skipL cm s = b :: r → ¬ Space b ∧ b ≠ 59
  | _, [], b, r, h => by cases ‹Bool› <;> simp [skipL] at h
  | false, c :: s, b, r, h => by
    simp only [skipL] at h
    split at h
    · exact skipL_head false s h
    · rename_i hw
      split at h
      · exact skipL_head true s h
      · rename_i hs
        simp only [List.cons.injEq] at h
        rw [← h.1]
        exact ⟨fun x => hw ((class_space c).mpr x), hs⟩
  | true, c :: s, b, r, h => by
    simp only [skipL] at h
    split at h
    · exact skipL_head false s h
    · exact skipL_head true s h

/-- everything the lexer reads is a lexeme, except for the cases named -/
theorem nextL_sound {fl : LexFlags} {s t x r} (hs : ∀ b ∈ s, b < 256) (h : nextL fl s = .ok (t, x, r)) :
    (t = .EOF_TOK ∧ EndLayout s) ∨ Unterminated (t, x) ∨ ShortKeyword (t, x) ∨
    ∃ w, Layout w ∧ s = w ++ x ++ r ∧ Lexeme fl t x r.head? := by
  have hk := skipL_sound false s
  simp only [Bool.false_eq_true, if_false] at hk
  unfold nextL at h
  cases he : skipL false s with
  | nil =>
    rw [he] at h hk
    simp only [Run.ok.injEq, Prod.mk.injEq] at h
    refine .inl ⟨h.1.symm, ?_⟩
    rcases hk with ⟨w, h1, h2⟩ | h1
    · rw [h2, List.append_nil]; exact .inl h1
    · exact h1.2
  | cons b q =>
    rw [he] at h hk
    simp only [List.cons_ne_nil, false_and, or_false] at hk
    obtain ⟨w, hw, hk⟩ := hk
    have hq : ∀ c ∈ b :: q, c < 256 := fun c hc => hs c (by rw [hk]; exact List.mem_append_right _ hc)
    -- it suffices to decompose what follows the white space
    suffices g : Unterminated (t, x) ∨ ShortKeyword (t, x) ∨ (b :: q = x ++ r ∧ Lexeme fl t x r.head?) by
      rcases g with g | g | ⟨g1, g2⟩
      · exact .inr (.inl g)
      · exact .inr (.inr (.inl g))
      · exact .inr (.inr (.inr ⟨w, hw, by rw [hk, g1, List.append_assoc], g2⟩))
    simp only at h
    split at h
    · rename_i hb
      simp only [Run.ok.injEq, Prod.mk.injEq] at h
      obtain ⟨rfl, rfl, rfl⟩ := h
      subst hb
      exact .inr (.inr ⟨rfl, .lparen _⟩)
    split at h
    · rename_i hb
      simp only [Run.ok.injEq, Prod.mk.injEq] at h
      obtain ⟨rfl, rfl, rfl⟩ := h
      subst hb
      exact .inr (.inr ⟨rfl, .rparen _⟩)
    split at h
    · rename_i hb
      subst hb
      rcases quotedL_split q [124] with ⟨y, r', h1, h2⟩ | h1
      · rw [h2, quotedL_run y [124] r' h1] at h
        simp only [Run.ok.injEq, Prod.mk.injEq] at h
        obtain ⟨rfl, rfl, rfl⟩ := h
        exact .inr (.inr ⟨by rw [h2]; simp, .quoted y _ h1⟩)
      · rw [h1] at h
        simp only [Run.ok.injEq, Prod.mk.injEq] at h
        exact .inl (.inl h.1.symm)
    split at h
    · rename_i hb
      subst hb
      cases q with
      | nil => simp [hashL] at h
      | cons c q =>
        simp only [hashL] at h
        split at h
        · rename_i hc
          subst hc
          cases hm : manyL .BIT [35, 98] q with
          | none => rw [hm] at h; simp at h
          | some p =>
            rw [hm] at h
            simp only [Run.ok.injEq, Prod.mk.injEq] at h
            obtain ⟨rfl, rfl⟩ := h
            obtain ⟨ds, g1, g2, g3, g4, g5⟩ := many_split hm
            subst g3
            refine .inr (.inr ⟨by rw [g4]; rfl, .binary ds _ g1 (fun d hd => (class_bit d).mp (g2 d hd)) ((not_class class_bit).mp g5)⟩)
        · split at h
          · rename_i hc
            subst hc
            cases hm : manyL .HEXADECIMAL_DIGIT [35, 120] q with
            | none => rw [hm] at h; simp at h
            | some p =>
              rw [hm] at h
              simp only [Run.ok.injEq, Prod.mk.injEq] at h
              obtain ⟨rfl, rfl⟩ := h
              obtain ⟨ds, g1, g2, g3, g4, g5⟩ := many_split hm
              subst g3
              refine .inr (.inr ⟨by rw [g4]; rfl, .hexadecimal ds _ g1 (fun d hd => (class_hex d).mp (g2 d hd)) ((not_class class_hex).mp g5)⟩)
          · simp at h
    split at h
    · rename_i hb
      subst hb
      rcases stringL_split q [34] with ⟨y, r', h1, h2⟩ | ⟨t', h1⟩
      · rw [h2, stringL_run y [34] r' h1] at h
        simp only [Run.ok.injEq, Prod.mk.injEq] at h
        obtain ⟨rfl, rfl, rfl⟩ := h
        exact .inr (.inr ⟨by rw [h2]; simp, .string y _ h1⟩)
      · rw [h1] at h
        simp only [Run.ok.injEq, Prod.mk.injEq] at h
        exact .inl (.inr h.1.symm)
    split at h
    · rename_i hb
      subst hb
      cases q with
      | nil => simp [keywordL] at h
      | cons c q =>
        simp only [keywordL] at h
        split at h
        · rename_i hc
          cases hm : manyL .SYMBOL [58, c] q with
          | none =>
            rw [hm] at h
            simp only [Run.ok.injEq, Prod.mk.injEq] at h
            obtain ⟨rfl, rfl, rfl⟩ := h
            exact .inr (.inl ⟨rfl, rfl⟩)
          | some p =>
            rw [hm] at h
            simp only [Run.ok.injEq, Prod.mk.injEq] at h
            obtain ⟨rfl, rfl⟩ := h
            obtain ⟨ds, g1, g2, g3, g4, g5⟩ := many_split hm
            subst g3
            exact .inr (.inr ⟨by rw [g4]; rfl, .keyword c ds _ ((class_start c).mp hc) g1 (fun d hd => (class_symbol d).mp (g2 d hd)) ((not_class class_symbol).mp g5)⟩)
        · simp at h
    split at h
    · rename_i hb
      have hb := (class_digit b).mp hb
      obtain ⟨g1, g2, g3⟩ := takeWhile_split (charClass · .DECIMAL_DIGIT) q
      have dig : ∀ d ∈ b :: q.takeWhile (charClass · .DECIMAL_DIGIT), Digit d := by
        intro d hd
        rcases List.mem_cons.mp hd with rfl | hd
        · exact hb
        · exact (class_digit d).mp (g2 d hd)
      simp only [numberL] at h
      cases hd : q.dropWhile (charClass · .DECIMAL_DIGIT) with
      | nil =>
        rw [hd] at h g1
        simp only [Run.ok.injEq, Prod.mk.injEq] at h
        obtain ⟨rfl, rfl, rfl⟩ := h
        refine .inr (.inr ⟨?_, .integer _ _ (by simp) dig (by simp)⟩)
        rw [List.append_nil] at g1
        rw [← g1]; simp
      | cons c q' =>
        rw [hd] at h g1 g3
        simp only at h
        split at h
        · rename_i hc
          cases hm : manyL .DECIMAL_DIGIT ([b] ++ q.takeWhile (charClass · .DECIMAL_DIGIT) ++ [c]) q' with
          | none => rw [hm] at h; simp at h
          | some p =>
            rw [hm] at h
            simp only [Run.ok.injEq, Prod.mk.injEq] at h
            obtain ⟨rfl, rfl⟩ := h
            obtain ⟨es, k1, k2, k3, k4, k5⟩ := many_split hm
            subst k3
            right; right
            refine ⟨?_, ?_⟩
            · rw [k4] at g1
              simp only [List.cons_append, List.nil_append, List.append_assoc, List.cons.injEq, true_and]
              exact g1
            · rcases hc with rfl | rfl
              · have := Lexeme.decimal (fl := fl) (b :: q.takeWhile (charClass · .DECIMAL_DIGIT)) es r.head? (by simp) dig k1 (fun d hd => (class_digit d).mp (k2 d hd)) ((not_class class_digit).mp k5)
                simpa using this
              · have := Lexeme.rational (fl := fl) (b :: q.takeWhile (charClass · .DECIMAL_DIGIT)) es r.head? (by simp) dig k1 (fun d hd => (class_digit d).mp (k2 d hd)) ((not_class class_digit).mp k5)
                simpa using this
        · rename_i hc
          simp only [Run.ok.injEq, Prod.mk.injEq] at h
          obtain ⟨rfl, rfl, rfl⟩ := h
          refine .inr (.inr ⟨?_, .integer _ _ (by simp) dig ?_⟩)
          · simp only [List.cons_append, List.nil_append, List.cons.injEq, true_and]
            exact g1
          · intro d hd
            refine ⟨(not_class class_digit).mp g3 d hd, ?_, ?_⟩
            · intro e; subst e; simp at hd; exact hc (.inl hd)
            · intro e; subst e; simp at hd; exact hc (.inr hd)
    split at h
    · rename_i hb
      obtain ⟨g1, g2, g3⟩ := takeWhile_split (charClass · .SYMBOL) q
      simp only [Run.ok.injEq, Prod.mk.injEq] at h
      obtain ⟨rfl, rfl, rfl⟩ := h
      refine .inr (.inr ⟨?_, ?_⟩)
      · rw [List.cons_append, ← g1]
      · refine .symbol _ _ _ _ ((class_start b).mp hb) (fun d hd => (class_symbol d).mp (g2 d hd)) ((not_class class_symbol).mp g3) (symbolClass_sound fl b _ ?_)
        intro d hd
        refine hq d (List.mem_cons_of_mem _ ?_)
        rw [g1]
        exact List.mem_append_left _ hd
    · simp at h

theorem Lexeme.ne_nil {fl : LexFlags} {t x la} (h : Lexeme fl t x la) : x ≠ [] := by
  cases h <;> simp_all

theorem SymbolClass.not_eof {fl : LexFlags} {x t} (h : SymbolClass fl x t) : t ≠ .EOF_TOK ∧ ¬ Unterminated (t, x) ∧ ¬ ShortKeyword (t, x) := by
  cases h <;> simp [Unterminated, ShortKeyword]

theorem Lexeme.proper {fl : LexFlags} {t x la} (h : Lexeme fl t x la) : t ≠ .EOF_TOK ∧ ¬ Unterminated (t, x) ∧ ¬ ShortKeyword (t, x) := by
  cases h with
  | symbol _ _ _ _ _ _ _ h => exact SymbolClass.not_eof h
  | keyword c cs _ _ h =>
    cases cs with
    | nil => exact absurd rfl h
    | cons d cs => simp [Unterminated, ShortKeyword]
  | _ => simp [Unterminated, ShortKeyword]

theorem quotedL_length : ∀ (s pre : List Nat) {t x r}, quotedL pre s = .ok (t, x, r) → r.length ≤ s.length
  | [], pre, t, x, r, h => by simp [quotedL] at h; simp [← h.2.2]
  | c :: s, pre, t, x, r, h => by
    simp only [quotedL] at h
    split at h
    · simp at h; rw [← h.2.2]; simp
    · exact Nat.le_succ_of_le (quotedL_length s _ h)

theorem many_length {cc : CharClass} {s pre t r : List Nat} (h : manyL cc pre s = some (t, r)) : r.length ≤ s.length := by
  obtain ⟨ds, _, _, _, h, _⟩ := many_split h
  rw [h]; simp

theorem hashL_length {s : List Nat} {t x r} (h : hashL s = .ok (t, x, r)) : r.length ≤ s.length := by
  cases s with
  | nil => simp [hashL] at h
  | cons c q =>
    simp only [hashL] at h
    split at h
    · cases hm : manyL .BIT [35, 98] q with
      | none => rw [hm] at h; simp at h
      | some p =>
        rw [hm] at h
        simp only [Run.ok.injEq, Prod.mk.injEq] at h
        obtain ⟨_, rfl⟩ := h
        exact Nat.le_succ_of_le (many_length hm)
    · split at h
      · cases hm : manyL .HEXADECIMAL_DIGIT [35, 120] q with
        | none => rw [hm] at h; simp at h
        | some p =>
          rw [hm] at h
          simp only [Run.ok.injEq, Prod.mk.injEq] at h
          obtain ⟨_, rfl⟩ := h
          exact Nat.le_succ_of_le (many_length hm)
      · simp at h

theorem keywordL_length {s : List Nat} {t x r} (h : keywordL s = .ok (t, x, r)) : r.length ≤ s.length := by
  cases s with
  | nil => simp [keywordL] at h
  | cons c q =>
    simp only [keywordL] at h
    split at h
    · cases hm : manyL .SYMBOL [58, c] q with
      | none =>
        rw [hm] at h
        simp only [Run.ok.injEq, Prod.mk.injEq] at h
        rw [← h.2.2]
        simp only [List.length_drop, List.length_cons]
        omega
      | some p =>
        rw [hm] at h
        simp only [Run.ok.injEq, Prod.mk.injEq] at h
        obtain ⟨_, rfl⟩ := h
        exact Nat.le_succ_of_le (many_length hm)
    · simp at h

theorem numberL_length {pre s : List Nat} {t x r} (h : numberL pre s = .ok (t, x, r)) : r.length ≤ s.length := by
  have hl := length_dropWhile_le (charClass · .DECIMAL_DIGIT) s
  simp only [numberL] at h
  cases hd : s.dropWhile (charClass · .DECIMAL_DIGIT) with
  | nil => rw [hd] at h; simp at h; rw [h.2.2]; simp
  | cons c q =>
    rw [hd] at h hl
    simp only at h
    split at h
    · cases hm : manyL .DECIMAL_DIGIT (pre ++ s.takeWhile (charClass · .DECIMAL_DIGIT) ++ [c]) q with
      | none => rw [hm] at h; simp at h
      | some p =>
        rw [hm] at h
        simp only [Run.ok.injEq, Prod.mk.injEq] at h
        obtain ⟨_, rfl⟩ := h
        have := many_length hm
        simp at hl
        omega
    · simp only [Run.ok.injEq, Prod.mk.injEq] at h
      rw [← h.2.2]; exact hl

theorem stringL_length {pre s : List Nat} {t x r} (h : stringL pre s = .ok (t, x, r)) : r.length ≤ s.length := by
  rcases stringL_split s pre with ⟨y, r', g1, g2⟩ | ⟨t', g1⟩
  · rw [g2, stringL_run y pre r' g1] at h
    simp only [Run.ok.injEq, Prod.mk.injEq] at h
    rw [g2, h.2.2]
    simp only [List.length_append, List.length_cons]
    omega
  · rw [g1] at h
    simp only [Run.ok.injEq, Prod.mk.injEq] at h
    rw [← h.2.2]; exact Nat.zero_le _

/-- every token consumes input -/
theorem nextL_length {fl : LexFlags} {s t x r} (h : nextL fl s = .ok (t, x, r)) (ht : t ≠ .EOF_TOK) : r.length < s.length := by
  unfold nextL at h
  have hl := skipL_length false s
  cases he : skipL false s with
  | nil => rw [he] at h; simp at h; exact absurd h.1.symm ht
  | cons b q =>
    rw [he] at h hl
    simp only at h
    have done : ∀ {y : Nat}, y ≤ q.length → y < s.length := by
      intro y hy; simp at hl; omega
    split at h
    · simp at h; rw [← h.2.2]; exact done (Nat.le_refl _)
    split at h
    · simp at h; rw [← h.2.2]; exact done (Nat.le_refl _)
    split at h
    · exact done (quotedL_length q _ h)
    split at h
    · exact done (hashL_length h)
    split at h
    · exact done (stringL_length h)
    split at h
    · exact done (keywordL_length h)
    split at h
    · exact done (numberL_length h)
    split at h
    · simp only [Run.ok.injEq, Prod.mk.injEq] at h
      rw [← h.2.2]
      exact done (length_dropWhile_le _ _)
    · simp at h

/-! ### The whole input -/

theorem nextL_result (fl : LexFlags) (s : List Nat) : (∃ p, nextL fl s = .ok p) ∨ nextL fl s = .err := by
  have q : ∀ (s pre : List Nat), (∃ p, quotedL pre s = .ok p) ∨ quotedL pre s = .err := by
    intro s
    induction s with
    | nil => intro pre; exact .inl ⟨_, rfl⟩
    | cons c s ih => intro pre; simp only [quotedL]; split; exact .inl ⟨_, rfl⟩; exact ih _
  have st : ∀ (s pre : List Nat), (∃ p, stringL pre s = .ok p) ∨ stringL pre s = .err := by
    intro s pre
    rcases stringL_split s pre with ⟨y, r', g1, g2⟩ | ⟨t', g1⟩
    · exact .inl ⟨_, by rw [g2, stringL_run y pre r' g1]⟩
    · exact .inl ⟨_, g1⟩
  unfold nextL
  split
  · exact .inl ⟨_, rfl⟩
  split; exact .inl ⟨_, rfl⟩
  split; exact .inl ⟨_, rfl⟩
  split; exact q _ _
  split
  · unfold hashL
    split
    · exact .inr rfl
    · split
      · split
        · exact .inl ⟨_, rfl⟩
        · exact .inr rfl
      · split
        · split
          · exact .inl ⟨_, rfl⟩
          · exact .inr rfl
        · exact .inr rfl
  split; exact st _ _
  split
  · unfold keywordL
    split
    · exact .inr rfl
    · split
      · split
        · exact .inl ⟨_, rfl⟩
        · exact .inl ⟨_, rfl⟩
      · exact .inr rfl
  split
  · simp only [numberL]
    split
    · exact .inl ⟨_, rfl⟩
    · split
      · split
        · exact .inl ⟨_, rfl⟩
        · exact .inr rfl
      · exact .inl ⟨_, rfl⟩
  split; exact .inl ⟨_, rfl⟩
  exact .inr rfl

theorem all_list (fl : LexFlags) (f : Nat) : ∀ (k : Nat) (s : List Nat) (l : Lex), Pending l s → s.length < f → Lex.all fl f k l = allL fl k s
  | 0, _, _, _, _ => rfl
  | k + 1, s, l, h, hf => by
    have g := nextToken_list fl s f l h hf
    rcases nextL_result fl s with ⟨⟨t, x, r⟩, e⟩ | e
    · rw [e] at g
      obtain ⟨l', g1, g2, g3⟩ := g
      simp only [Lex.all, allL, g1, e, Run.bind]
      split
      · rfl
      · rename_i ht
        have := nextL_length e ht
        rw [all_list fl f k r l' g3 (by omega), g2]
    · rw [e] at g
      have g : l.nextToken fl f = .err := g
      simp only [Lex.all, allL, g, e, Run.bind]

theorem allL_total (fl : LexFlags) : ∀ (k : Nat) (s : List Nat), s.length < k → (∃ ts, allL fl k s = .ok ts) ∨ allL fl k s = .err
  | 0, _, h => absurd h (Nat.not_lt_zero _)
  | k + 1, s, h => by
    simp only [allL]
    rcases nextL_result fl s with ⟨⟨t, x, r⟩, e⟩ | e
    · rw [e]
      simp only [Run.bind]
      split
      · exact .inl ⟨_, rfl⟩
      · rename_i ht
        have := nextL_length e ht
        rcases allL_total fl k r (by omega) with ⟨ts, e⟩ | e <;> rw [e]
        · exact .inl ⟨_, rfl⟩
        · exact .inr rfl
    · rw [e]; exact .inr rfl

theorem allL_complete {fl : LexFlags} {s ts} (h : Lexes fl s ts) : (∀ b ∈ s, b < 256) → ∀ k, s.length < k → allL fl k s = .ok ts := by
  induction h with
  | done w h =>
    intro _ k hk
    cases k with
    | zero => exact absurd hk (Nat.not_lt_zero _)
    | succ k => simp [allL, nextL_end h, Run.bind]
  | token w t x r ts hw hx _ ih =>
    intro hb k hk
    cases k with
    | zero => exact absurd hk (Nat.not_lt_zero _)
    | succ k =>
      have e := nextL_complete hw hx (fun b h => hb b (by simp [h]))
      have hlen := nextL_length e (Lexeme.proper hx).1
      simp only [allL, e, Run.bind, if_neg (Lexeme.proper hx).1]
      rw [ih (fun b h => hb b (by simp [h])) k (by omega)]
      rfl

theorem allL_sound {fl : LexFlags} : ∀ (k : Nat) (s : List Nat) {ts}, (∀ b ∈ s, b < 256) → allL fl k s = .ok ts →
    (∀ p ∈ ts, ¬ Unterminated p ∧ ¬ ShortKeyword p) → Lexes fl s ts
  | 0, _, _, _, h, _ => by simp [allL] at h
  | k + 1, s, ts, hb, h, hts => by
    simp only [allL] at h
    rcases nextL_result fl s with ⟨⟨t, x, r⟩, e⟩ | e
    · rw [e] at h
      simp only [Run.bind] at h
      have hsound := nextL_sound hb e
      split at h
      · rename_i ht
        simp only [Run.ok.injEq] at h
        rw [← h]
        rcases hsound with g | g | g | ⟨w, _, _, g⟩
        · exact .done _ g.2
        · rw [show t = _ from ht] at g; simp [Unterminated] at g
        · rw [show t = _ from ht] at g; simp [ShortKeyword] at g
        · exact absurd ht (Lexeme.proper g).1
      · rename_i ht
        cases hr : allL fl k r with
        | ok ts' =>
          rw [hr] at h
          simp only [Run.map, Run.ok.injEq] at h
          subst h
          have h1 := hts (t, x) (List.mem_cons_self ..)
          rcases hsound with g | g | g | ⟨w, g1, g2, g3⟩
          · exact absurd g.1 ht
          · exact absurd g h1.1
          · exact absurd g h1.2
          · subst g2
            exact .token _ _ _ _ _ g1 g3 (allL_sound k r (fun b h => hb b (by simp [h])) hr fun p hp => hts p (List.mem_cons_of_mem _ hp))
        | err => rw [hr] at h; simp [Run.map] at h
        | ub => rw [hr] at h; simp [Run.map] at h
        | fuel => rw [hr] at h; simp [Run.map] at h
    · rw [e] at h; simp [Run.bind] at h

theorem Pending.init {sg i n} {s : List Nat} (hn : 0 < n) (h : Readable (.init sg i n s) s) : Pending ⟨.init sg i n s, none, []⟩ s :=
  .plain _ _ _ hn (fun _ => rfl) h rfl

theorem lexInput_list {fl : LexFlags} {sg i n} {s : List Nat} (hn : 0 < n) (h : Readable (.init sg i n s) s) :
    lexInput fl (.init sg i n s) = allL fl (s.length + 3) s := by
  unfold lexInput
  simp only [Reader.init, List.length_nil, Nat.zero_add]
  exact all_list fl _ _ _ _ (Pending.init hn h) (by omega)

end Ethos.Props
