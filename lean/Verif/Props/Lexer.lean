import Verif.Lemmas.LexGrammar
import Verif.Props.LitWf
/-
Reading tokens: C08 (with the lexer), C09, C47–C50, C58.
-/
namespace Ethos.Props
open Ethos Spec

/-! ### The lexer reads the lexical grammar -/

/-- C58: an input that consists of tokens separated by white space and comments is read as these tokens, however it is
buffered. -/
theorem C58_reads {fl : LexFlags} {signed interactive : Bool} {size : Nat} {s : List Nat} {ts : List (Token × List Nat)} (hn : 0 < size)
    (hr : Readable (.init signed interactive size s) s) (h : Lexes fl s ts) : lexInput fl (.init signed interactive size s) = .ok ts := by
  rw [lexInput_list hn hr]
  exact allL_complete h (fun b hb => (hr b hb).1) _ (by omega)

/-- C58: conversely, tokens that are read are those of the lexical grammar, except for keywords of one character and for strings and
quoted symbols that are not closed. -/
theorem C58_read_partial {fl : LexFlags} {signed interactive : Bool} {size : Nat} {s : List Nat} {ts : List (Token × List Nat)} (hn : 0 < size)
    (hr : Readable (.init signed interactive size s) s) (h : lexInput fl (.init signed interactive size s) = .ok ts)
    (hk : ∀ p ∈ ts, ¬ ShortKeyword p ∧ ¬ Unterminated p) : Lexes fl s ts := by
  rw [lexInput_list hn hr] at h
  exact allL_sound _ s (fun b hb => (hr b hb).1) h fun p hp => ⟨(hk p hp).2, (hk p hp).1⟩

/-- C58: reading an input ends, with tokens or an error. -/
theorem C58_ends {fl : LexFlags} {signed interactive : Bool} {size : Nat} {s : List Nat} (hn : 0 < size) (hr : Readable (.init signed interactive size s) s) :
    (∃ ts, lexInput fl (.init signed interactive size s) = .ok ts) ∨ lexInput fl (.init signed interactive size s) = .err := by
  rw [lexInput_list hn hr]
  exact allL_total fl _ s (by omega)

/-- C58: an input has at most one sequence of tokens. -/
theorem C58_unique {fl : LexFlags} {s : List Nat} {ts ts' : List (Token × List Nat)} (hs : ∀ b ∈ s, b < 256) (h : Lexes fl s ts) (h' : Lexes fl s ts') : ts = ts' := by
  have e := allL_complete h hs (s.length + 1) (by omega)
  rw [allL_complete h' hs (s.length + 1) (by omega)] at e
  simpa using e.symm

/-- an input with a comment, a negative number, a string, a keyword and reserved words -/
def exInput : List Nat := bytes "(assume @p (= -12 |x y|)) ; c\n(step a :rule r) \"a\"\"b\" 1.50 #b01 let let2"

def exTokens : List (Token × List Nat) :=
  [(.LPAREN, bytes "("), (.SYMBOL, bytes "assume"), (.SYMBOL, bytes "@p"), (.LPAREN, bytes "("), (.SYMBOL, bytes "="), (.INTEGER_LITERAL, bytes "-12"),
   (.QUOTED_SYMBOL, bytes "|x y|"), (.RPAREN, bytes ")"), (.RPAREN, bytes ")"), (.LPAREN, bytes "("), (.SYMBOL, bytes "step"), (.SYMBOL, bytes "a"),
   (.KEYWORD, bytes ":rule"), (.SYMBOL, bytes "r"), (.RPAREN, bytes ")"), (.STRING_LITERAL, bytes "\"a\"\"b\""), (.DECIMAL_LITERAL, bytes "1.50"),
   (.BINARY_LITERAL, bytes "#b01"), (.LET, bytes "let"), (.SYMBOL, bytes "let2")]

theorem exInput_read : lexInput ⟨true, true⟩ (.init true false 8 exInput) = .ok exTokens := by decide +kernel

theorem exInput_readable (sg i n) : Readable (.init sg i n exInput) exInput := by
  have : ∀ b ∈ exInput, b < 128 := by decide +kernel
  intro b hb
  have := this b hb
  exact ⟨by omega, fun _ _ => by omega⟩

example : Lexes ⟨true, true⟩ exInput exTokens :=
  C58_read_partial (by decide) (exInput_readable true false 8) exInput_read (by
    have : ∀ p ∈ exTokens, p.2.length ≠ 2 ∨ p.1 ≠ .KEYWORD := by decide +kernel
    have h2 : ∀ p ∈ exTokens, p.1 ≠ .UNTERMINATED_QUOTED_SYMBOL ∧ p.1 ≠ .UNTERMINATED_STRING_LITERAL := by decide +kernel
    intro p hp
    refine ⟨fun h => ?_, fun h => ?_⟩
    · rcases this p hp with g | g
      · exact g h.2
      · exact g h.1
    · rcases h with h | h
      · exact (h2 p hp).1 h
      · exact (h2 p hp).2 h)

/-! ### Buffering -/

/-- C48: the tokens do not depend on whether the input is read character by character or in blocks, nor on the size of the blocks, nor
on whether `char` is signed, if the byte 255 does not occur where it is taken for the end of the input. -/
theorem C48_buffering_partial {fl : LexFlags} {g g' i i' : Bool} {n n' : Nat} {s : List Nat} (hn : 0 < n) (hn' : 0 < n')
    (hr : Readable (.init g i n s) s) (hr' : Readable (.init g' i' n' s) s) :
    lexInput fl (.init g i n s) = lexInput fl (.init g' i' n' s) := by
  rw [lexInput_list hn hr, lexInput_list hn' hr']

example : lexInput ⟨true, true⟩ (.init true false 8 exInput) = lexInput ⟨true, true⟩ (.init false true 3 exInput) :=
  C48_buffering_partial (by decide) (by decide) (exInput_readable _ _ _) (exInput_readable _ _ _)

/-- C48 fails for inputs with the byte 255: read in blocks with signed characters it ends the input, read character by character it is an
error. -/
theorem C48_refuted (fl : LexFlags) (n : Nat) (hn : 0 < n) :
    lexInput fl (.init true false n [40, 255, 41]) = .ok [(.LPAREN, [40])] ∧ lexInput fl (.init true true n [40, 255, 41]) = .err := by
  obtain ⟨a, b⟩ := fl
  match n, hn with
  | 1, _ => cases a <;> cases b <;> decide +kernel
  | 2, _ => cases a <;> cases b <;> decide +kernel
  | n + 3, _ => cases a <;> cases b <;> (constructor <;> rfl)

/-! ### White space and comments -/

theorem Layout.head {w : List Nat} (h : Layout w) : w = [] ∨ ∃ b r, w = b :: r ∧ (Space b ∨ b = 59) := by
  cases h with
  | nil => exact .inl rfl
  | space b w h _ => exact .inr ⟨b, w, rfl, .inl h⟩
  | comment c w _ _ => exact .inr ⟨59, _, rfl, .inr rfl⟩

theorem EndLayout.head {w : List Nat} (h : EndLayout w) : w = [] ∨ ∃ b r, w = b :: r ∧ (Space b ∨ b = 59) := by
  rcases h with h | ⟨v, c, h, _, rfl⟩
  · exact Layout.head h
  · rcases Layout.head h with rfl | ⟨b, r, rfl, g⟩
    · exact .inr ⟨59, c, rfl, .inr rfl⟩
    · exact .inr ⟨b, _, rfl, g⟩

/-- white space, a comment or the end of the input ends every token -/
theorem Lexeme.before {fl : LexFlags} {t x la la'} (h : Lexeme fl t x la) (h' : ∀ c, la' = some c → Space c ∨ c = 59) : Lexeme fl t x la' := by
  have digit : ∀ c, la' = some c → ¬ Digit c ∧ c ≠ 46 ∧ c ≠ 47 := by
    intro c hc
    have := h' c hc
    unfold Space at this
    unfold Digit
    omega
  have sym : ∀ c, la' = some c → ¬ SymbolChar c := by
    intro c hc hs
    rcases h' c hc with g | g
    · exact (SymbolChar.ne hs).1 g
    · exact (SymbolChar.ne hs).2 g
  cases h with
  | lparen => exact .lparen _
  | rparen => exact .rparen _
  | quoted x _ h => exact .quoted x _ h
  | string x _ h =>
    refine .string x _ ?_
    intro e
    have := h' 34 e
    unfold Space at this
    omega
  | binary ds _ h1 h2 h3 =>
    refine .binary ds _ h1 h2 fun c hc => ?_
    have := h' c hc
    unfold Space at this
    unfold Bit
    omega
  | hexadecimal ds _ h1 h2 h3 =>
    refine .hexadecimal ds _ h1 h2 fun c hc => ?_
    have := h' c hc
    unfold Space at this
    unfold HexDigit Digit
    omega
  | keyword c cs _ h0 h1 h2 h3 => exact .keyword c cs _ h0 h1 h2 sym
  | integer ds _ h1 h2 h3 => exact .integer _ _ h1 h2 digit
  | decimal ds es _ h1 h2 h4 h5 h3 => exact .decimal _ _ _ h1 h2 h4 h5 fun c hc => (digit c hc).1
  | rational ds es _ h1 h2 h4 h5 h3 => exact .rational _ _ _ h1 h2 h4 h5 fun c hc => (digit c hc).1
  | symbol _ c cs _ h0 h1 h2 h3 => exact .symbol _ c cs _ h0 h1 sym h3

/-- a token text does not begin like white space or a comment -/
theorem Lexeme.start {fl : LexFlags} {t x la} (h : Lexeme fl t x la) : ∃ b r, x = b :: r ∧ ¬ Space b ∧ b ≠ 59 := by
  have digit : ∀ {ds : List Nat} (es), ds ≠ [] → (∀ d ∈ ds, Digit d) → ∃ b r, ds ++ es = b :: r ∧ ¬ Space b ∧ b ≠ 59 := by
    intro ds es h1 h2
    cases ds with
    | nil => exact absurd rfl h1
    | cons d ds =>
      have := h2 d (List.mem_cons_self ..)
      unfold Digit at this
      exact ⟨d, ds ++ es, rfl, by unfold Space; omega, by omega⟩
  cases h with
  | lparen => exact ⟨_, _, rfl, by unfold Space; omega, by omega⟩
  | rparen => exact ⟨_, _, rfl, by unfold Space; omega, by omega⟩
  | quoted => exact ⟨_, _, rfl, by unfold Space; omega, by omega⟩
  | string => exact ⟨_, _, rfl, by unfold Space; omega, by omega⟩
  | binary => exact ⟨_, _, rfl, by unfold Space; omega, by omega⟩
  | hexadecimal => exact ⟨_, _, rfl, by unfold Space; omega, by omega⟩
  | keyword => exact ⟨_, _, rfl, by unfold Space; omega, by omega⟩
  | integer _ _ h1 h2 => have := digit [] h1 h2; simpa using this
  | decimal ds es _ h1 h2 => exact digit _ h1 h2
  | rational ds es _ h1 h2 => exact digit _ h1 h2
  | symbol _ c cs _ h0 => exact ⟨c, cs, rfl, (SymbolStart.ne h0).1, (SymbolStart.ne h0).2.2.1⟩

/-- every pair of `ps` and the end `e` are white space and comments where they should be -/
def Laid (ps : List (List Nat × List Nat)) (e : List Nat) : Prop := (∀ p ∈ ps, Layout p.1) ∧ EndLayout e

/-- the tokens of a rendered input have the rendered texts iff each text is a token before what follows it -/
theorem lexes_render {fl : LexFlags} : ∀ {ps e ts}, Laid ps e → Lexes fl (render ps e) ts → ts.map (·.2) = ps.map (·.2) →
    ∀ {ps' e'}, Laid ps' e' → ps'.map (·.2) = ps.map (·.2) →
    (∀ (i : Nat) w w', (ps.map (·.1))[i]? = some w → (ps'.map (·.1))[i]? = some w' → w ≠ [] → w' ≠ []) → Lexes fl (render ps' e') ts
  | [], e, [], _, _, _, ps', e', hl', hp, _ => by
    cases ps' with
    | nil => exact .done _ hl'.2
    | cons p ps' => simp at hp
  | [], e, t :: ts, _, _, hm, _, _, _, _, _ => by simp at hm
  | (w, x) :: ps, e, ts, hl, h, hm, ps', e', hl', hp, hn => by
    cases ps' with
    | nil => simp at hp
    | cons p' ps' =>
    obtain ⟨w', x'⟩ := p'
    simp only [List.map_cons, List.cons.injEq] at hp
    obtain ⟨rfl, hp⟩ := hp
    generalize hr : render ((w, x') :: ps) e = s at h
    cases h with
    | done => simp at hm
    | token v t x r ts hv hx hrest =>
      simp only [List.map_cons, List.cons.injEq] at hm
      obtain ⟨rfl, hm⟩ := hm
      -- the decomposition is the given one
      have hw : Layout w := hl.1 _ (List.mem_cons_self ..)
      have hw' : Layout w' := hl'.1 _ (List.mem_cons_self ..)
      obtain ⟨b, x0, e0, b1, b2⟩ := Lexeme.start hx
      have hrr : r = render ps e := by
        have e1 := congrArg (skipL false) hr
        simp only [render] at e1
        rw [List.append_assoc, skipL_layout hw, List.append_assoc, skipL_layout hv, e0, List.cons_append, List.cons_append, skipL_start b1 b2,
          skipL_start b1 b2] at e1
        simp only [List.cons.injEq, true_and] at e1
        exact (List.append_cancel_left e1).symm
      subst hrr
      have hl1 : Laid ps e := ⟨fun p hp => hl.1 p (List.mem_cons_of_mem _ hp), hl.2⟩
      have hl1' : Laid ps' e' := ⟨fun p hp => hl'.1 p (List.mem_cons_of_mem _ hp), hl'.2⟩
      have ih := lexes_render hl1 hrest hm hl1' hp (fun i w w' h1 h2 => hn (i + 1) w w' (by simpa using h1) (by simpa using h2))
      simp only [render]
      refine .token _ _ _ _ _ hw' ?_ ih
      -- what follows the token
      cases ps' with
      | nil =>
        refine Lexeme.before hx ?_
        intro c hc
        simp only [render] at hc
        rcases EndLayout.head hl'.2 with g | ⟨b, r, g, g'⟩
        · rw [g] at hc; simp at hc
        · rw [g] at hc; simp at hc; exact hc ▸ g'
      | cons q' qs' =>
        obtain ⟨u', y'⟩ := q'
        have hu' : Layout u' := hl1'.1 _ (List.mem_cons_self ..)
        rcases Layout.head hu' with rfl | ⟨b, r, rfl, g⟩
        · -- nothing before the next token: then there was nothing before
          cases ps with
          | nil => simp at hp
          | cons q qs =>
            obtain ⟨u, y⟩ := q
            simp only [List.map_cons, List.cons.injEq] at hp
            obtain ⟨rfl, hp⟩ := hp
            have hu : u = [] := by
              cases u with
              | nil => rfl
              | cons c u => exact absurd rfl (hn 1 (c :: u) [] (by simp) (by simp) (by simp))
            subst hu
            have hne : y' ≠ [] := by
              cases hts : ts with
              | nil => rw [hts] at hm; simp at hm
              | cons t1 ts1 =>
                rw [hts] at hm hrest
                simp only [List.map_cons, List.cons.injEq] at hm
                generalize render (([], y') :: qs) e = s2 at hrest
                cases hrest with
                | token v2 t2 x2 r2 ts2 _ hx2 _ => rw [← hm.1]; exact Lexeme.ne_nil hx2
            cases y' with
            | nil => exact absurd rfl hne
            | cons c y => simpa [render] using hx
        · refine Lexeme.before hx ?_
          intro c hc
          simp [render] at hc
          exact hc ▸ g

/-- C49: changing the white space and comments between tokens, and inserting some where there was none, does not change the tokens
(there may be no keyword of one character). -/
theorem C49_layout_partial {fl : LexFlags} {g i g' i' : Bool} {n n' : Nat} {ps ps' : List (List Nat × List Nat)} {e e' : List Nat} {ts : List (Token × List Nat)}
    (hn : 0 < n) (hn' : 0 < n') (hr : Readable (.init g i n (render ps e)) (render ps e)) (hr' : Readable (.init g' i' n' (render ps' e')) (render ps' e'))
    -- the input consists of the texts of its tokens and white space and comments
    (hl : Laid ps e) (h : lexInput fl (.init g i n (render ps e)) = .ok ts) (hm : ts.map (·.2) = ps.map (·.2))
    (hk : ∀ p ∈ ts, ¬ ShortKeyword p ∧ ¬ Unterminated p)
    -- the other input has the same texts, and something between two of them if the first one has
    (hl' : Laid ps' e') (hm' : ps'.map (·.2) = ps.map (·.2))
    (hi : ∀ (j : Nat) w w', (ps.map (·.1))[j]? = some w → (ps'.map (·.1))[j]? = some w' → w ≠ [] → w' ≠ []) :
    lexInput fl (.init g' i' n' (render ps' e')) = .ok ts :=
  C58_reads hn' hr' (lexes_render hl (C58_read_partial hn hr h hk) hm hl' hm' hi)

example : lexInput ⟨true, true⟩ (.init true false 8 (bytes "; f\n( f 12 ;c\n)")) = .ok [(.LPAREN, [40]), (.SYMBOL, bytes "f"), (.INTEGER_LITERAL, bytes "12"), (.RPAREN, [41])] := by
  have lsp : ∀ {w}, Layout w → Layout (32 :: w) := fun h => .space _ _ (.inl rfl) h
  have hc : Layout (bytes "; f\n") := .comment (bytes " f") [] (by decide) .nil
  have hc' : Layout (bytes " ;c\n") := lsp (.comment (bytes "c") [] (by decide) .nil)
  have rd : ∀ (s : List Nat), (∀ b ∈ s, b < 128) → Readable (.init true false 8 s) s := by
    intro s h b hb
    have := h b hb
    exact ⟨by omega, fun _ _ => by omega⟩
  have := C49_layout_partial (fl := ⟨true, true⟩) (g := true) (i := false) (n := 8) (g' := true) (i' := false) (n' := 8) (e := []) (e' := [])
    (ps := [([], [40]), ([], bytes "f"), ([32], bytes "12"), ([], [41])])
    (ps' := [(bytes "; f\n", [40]), ([32], bytes "f"), ([32], bytes "12"), (bytes " ;c\n", [41])])
    (ts := [(.LPAREN, [40]), (.SYMBOL, bytes "f"), (.INTEGER_LITERAL, bytes "12"), (.RPAREN, [41])]) (by decide) (by decide)
    (rd _ (by decide)) (rd _ (by decide)) ⟨by simp; exact ⟨.nil, lsp .nil, .nil⟩, .inl .nil⟩ (by decide +kernel) rfl
    (by simp [ShortKeyword, Unterminated]) ⟨by simp; exact ⟨hc, lsp .nil, hc'⟩, .inl .nil⟩ rfl (by
      intro j w w' h1 h2
      match j with
      | 0 => simp at h1; simp [← h1]
      | 1 => simp at h1; simp [← h1]
      | 2 => simp at h2; simp [← h2]
      | 3 => simp at h1; simp [← h1]
      | j + 4 => simp at h1)
  exact this

/-- C49 fails for keywords of one character: the character that follows is lost, so inserting a blank before it changes the tokens. -/
theorem C49_keyword_refuted : lexInput ⟨true, true⟩ (.init true false 8 (bytes ":a)")) = .ok [(.KEYWORD, bytes ":a")] ∧
    lexInput ⟨true, true⟩ (.init true false 8 (bytes ":a )")) = .ok [(.KEYWORD, bytes ":a"), (.RPAREN, [41])] := by decide +kernel

/-! ### Nothing is ignored -/

theorem Lexes.rendered {fl : LexFlags} {s ts} (h : Lexes fl s ts) : ∃ ps e, Laid ps e ∧ s = render ps e ∧ ts.map (·.2) = ps.map (·.2) := by
  induction h with
  | done w h => exact ⟨[], w, ⟨by simp, h⟩, rfl, rfl⟩
  | token w t x r ts hw hx _ ih =>
    obtain ⟨ps, e, h1, h2, h3⟩ := ih
    refine ⟨(w, x) :: ps, e, ⟨?_, h1.2⟩, by simp [render, h2], by simp [h3]⟩
    intro p hp
    rcases List.mem_cons.mp hp with rfl | hp
    · exact hw
    · exact h1.1 p hp

/-- C50: every character of the input belongs to one of the tokens that are read, or to white space or a comment between them; in
particular the end of the input is reported only there.  (There may be no keyword of one character, and the byte 255 may not
occur where it is taken for the end of the input.) -/
theorem C50_consumed_partial {fl : LexFlags} {g i : Bool} {n : Nat} {s : List Nat} {ts : List (Token × List Nat)} (hn : 0 < n)
    (hr : Readable (.init g i n s) s) (h : lexInput fl (.init g i n s) = .ok ts) (hk : ∀ p ∈ ts, ¬ ShortKeyword p ∧ ¬ Unterminated p) :
    ∃ ps e, Laid ps e ∧ s = render ps e ∧ ts.map (·.2) = ps.map (·.2) :=
  Lexes.rendered (C58_read_partial hn hr h hk)

/-- C50 fails for an input with the byte 255 that is read in blocks with signed characters: whatever follows is ignored. -/
theorem C50_byte_refuted : lexInput ⟨true, true⟩ (.init true false 32768 (bytes "(exit)" ++ 255 :: bytes "(step @p false :rule r)")) =
    lexInput ⟨true, true⟩ (.init true false 32768 (bytes "(exit)")) := by decide +kernel

/-- C50 fails for keywords of one character: the character that follows is ignored. -/
theorem C50_keyword_refuted : lexInput ⟨true, true⟩ (.init true false 8 (bytes "(f :a)")) =
    lexInput ⟨true, true⟩ (.init true false 8 (bytes "(f :a(")) := by decide +kernel

/-- C50 fails for strings with a null character: what follows it is ignored, and so is the character before it. -/
theorem C50_null_refuted : tokenString (bytes "\"" ++ [0] ++ bytes "b\"") = .err ∧ tokenString (bytes "\"ab" ++ [0] ++ bytes "c\"") = .ok (bytes "a") := by decide +kernel

/-! ### Strings -/

theorem allL_fuel {fl : LexFlags} : ∀ (k k' : Nat) (s : List Nat), s.length < k → s.length < k' → allL fl k s = allL fl k' s
  | 0, _, _, h, _ => absurd h (Nat.not_lt_zero _)
  | _, 0, _, _, h => absurd h (Nat.not_lt_zero _)
  | k + 1, k' + 1, s, h, h' => by
    simp only [allL]
    rcases nextL_result fl s with ⟨⟨t, x, r⟩, e⟩ | e
    · rw [e]
      simp only [Run.bind]
      split
      · rfl
      · rename_i ht
        have := nextL_length e ht
        rw [allL_fuel k k' r (by omega) (by omega)]
    · rw [e]; rfl

/-- reading a lexeme leaves the rest of the input -/
theorem lexInput_cons {fl : LexFlags} {g i : Bool} {n : Nat} {t : Token} {x r : List Nat} (hn : 0 < n) (hr : Readable (.init g i n (x ++ r)) (x ++ r))
    (h : Lexeme fl t x r.head?) : lexInput fl (.init g i n (x ++ r)) = (lexInput fl (.init g i n r)).map ((t, x) :: ·) := by
  have hr' : Readable (.init g i n r) r := fun b hb => hr b (List.mem_append_right _ hb)
  rw [lexInput_list hn hr, lexInput_list hn hr']
  have e := nextL_complete (r := r) Layout.nil h (fun b hb => (hr b (List.mem_append_left _ hb)).1)
  rw [List.nil_append] at e
  have hl := nextL_length e (Lexeme.proper h).1
  have hf := allL_fuel (fl := fl) ((x ++ r).length + 2) (r.length + 3) r (by omega) (by omega)
  rw [← hf]
  conv => lhs; unfold allL
  simp only [e, Run.bind, if_neg (Lexeme.proper h).1]

theorem unescapeLoop_doubled : ∀ x : List Nat, unescapeLoop (doubled x) = x
  | [] => rfl
  | c :: x => by
    have ih := unescapeLoop_doubled x
    by_cases hc : c = 34
    · have e : doubled (c :: x) = 34 :: 34 :: doubled x := by simp [doubled, hc]
      rw [e, hc]
      simp [unescapeLoop, ih]
    · have e : doubled (c :: x) = c :: doubled x := by simp [doubled, hc]
      rw [e]
      cases hd : doubled x with
      | nil =>
        rw [hd] at ih
        simp [unescapeLoop] at ih ⊢
        exact ih
      | cons d s =>
        rw [hd] at ih
        simp [unescapeLoop, hc, ih]

theorem mem_doubled {x : List Nat} {c : Nat} (h : c ∈ doubled x) : c ∈ x := by
  simp only [doubled, List.mem_flatMap] at h
  obtain ⟨d, h1, h2⟩ := h
  split at h2
  · rename_i hd
    simp at h2
    rw [h2, ← hd]; exact h1
  · simp at h2
    rw [h2]; exact h1

theorem tokenStr_eq {x : List Nat} (h : 0 ∉ x) : tokenStr x = x := by
  unfold tokenStr
  induction x with
  | nil => rfl
  | cons c x ih =>
    have h1 : c ≠ 0 := fun e => h (by simp [e])
    rw [List.takeWhile_cons_of_pos (by simpa using h1), ih (fun e => h (by simp [e]))]

theorem stripQuotes_eq (a b : Nat) (x : List Nat) : stripQuotes (a :: x ++ [b]) = .ok x := by
  simp [stripQuotes]

/-- C09: a string of ASCII characters, written with every double quote doubled between double quotes, is read as one token, whatever
follows that is not a double quote, and the characters of the string are recovered from the token. -/
theorem C09_string {fl : LexFlags} {g i : Bool} {n : Nat} {x r : List Nat} (hn : 0 < n) (hx : ∀ c ∈ x, 0 < c ∧ c ≤ 127)
    (hr : Readable (.init g i n r) r) (h34 : r.head? ≠ some 34) :
    lexInput fl (.init g i n ([34] ++ doubled x ++ [34] ++ r)) =
      (lexInput fl (.init g i n r)).map ((.STRING_LITERAL, [34] ++ doubled x ++ [34]) :: ·) ∧
    unescapeString (tokenStr ([34] ++ doubled x ++ [34])) = .ok x := by
  have hd : ∀ c ∈ doubled x, 0 < c ∧ c ≤ 127 := fun c hc => hx c (mem_doubled hc)
  constructor
  · refine lexInput_cons (x := [34] ++ doubled x ++ [34]) hn ?_ (.string x _ h34)
    intro b hb
    rcases List.mem_append.mp hb with hb | hb
    · have : b ≤ 127 := by
        simp only [List.mem_append, List.mem_singleton] at hb
        rcases hb with (rfl | hb) | rfl
        · omega
        · exact (hd b hb).2
        · omega
      exact ⟨by omega, fun _ _ => by omega⟩
    · exact hr b hb
  · have h0 : 0 ∉ [34] ++ doubled x ++ [34] := by
      intro h
      simp at h
      have := (hd 0 h).1
      omega
    rw [tokenStr_eq h0, unescapeString]
    have := stripQuotes_eq 34 34 (doubled x)
    rw [show [34] ++ doubled x ++ [34] = 34 :: doubled x ++ [34] by simp, this]
    simp only [Run.bind]
    rw [if_pos]
    · rw [unescapeLoop_doubled]
    · simp only [List.all_eq_true, decide_eq_true_eq]
      exact fun c hc => (hd c hc).2

example : lexInput ⟨true, true⟩ (.init true false 4 ([34] ++ doubled (bytes "say \"hi\"") ++ [34] ++ bytes ")")) =
    .ok [(.STRING_LITERAL, bytes "\"say \"\"hi\"\"\""), (.RPAREN, [41])] := by
  rw [(C09_string (x := bytes "say \"hi\"") (r := bytes ")") (by decide) (by decide) (by intro b hb; simp [bytes] at hb; subst hb; simp) (by decide)).1]
  decide +kernel

theorem doubled_eq {x : List Nat} (h : 34 ∉ x) : doubled x = x := by
  induction x with
  | nil => rfl
  | cons c x ih =>
    have h1 : c ≠ 34 := fun e => h (by simp [e])
    have h2 : 34 ∉ x := fun e => h (by simp [e])
    simp only [doubled, List.flatMap_cons, if_neg h1] at ih ⊢
    rw [ih h2]; rfl

theorem toString_quote {s : List Nat} (h : 34 ∉ s) : 34 ∉ Str.toString s := by
  intro h'
  simp only [Str.toString, List.mem_flatMap] at h'
  obtain ⟨d, hd, hc⟩ := h'
  unfold Str.printChar at hc
  split at hc
  · simp at hc; exact h (hc ▸ hd)
  · simp only [List.mem_append] at hc
    rcases hc with (hc | hc) | hc
    · simp at hc
    · have := natToString_chars 16 d (by decide) (by decide) 34 hc; omega
    · simp at hc

/-- C08: a string value without double quotes survives printing and reading: its printed form is read as one token, whatever follows that is not a
double quote, and the value of the token is the string. -/
theorem C08_token_partial {fl : LexFlags} {g i : Bool} {n : Nat} {s r : List Nat} (hn : 0 < n) (hs : WfLit (.str s)) (h34 : 34 ∉ s)
    (hr : Readable (.init g i n r) r) (hr34 : r.head? ≠ some 34) :
    lexInput fl (.init g i n (printString s ++ r)) = (lexInput fl (.init g i n r)).map ((.STRING_LITERAL, printString s) :: ·) ∧
    tokenString (printString s) = .ok s := by
  have ha := C08_ascii s
  simp only [Lit.toString] at ha
  have hq := doubled_eq (toString_quote h34)
  have := C09_string (fl := fl) (g := g) (i := i) (n := n) (x := Str.toString s) (r := r) hn (fun c hc => ⟨by have := ha c hc; omega, by have := ha c hc; omega⟩) hr hr34
  rw [hq] at this
  refine ⟨this.1, ?_⟩
  rw [tokenString, printString, this.2]
  have := C08_round_trip s hs
  simp only [Lit.toString] at this
  simp [Run.map, this]

example : tokenString (printString [97, 92, 12354, 10]) = .ok [97, 92, 12354, 10] :=
  (C08_token_partial (fl := ⟨true, true⟩) (g := true) (i := false) (n := 4) (r := []) (by decide) (by intro c hc; simp at hc; omega) (by decide) (by intro b hb; cases hb) (by decide)).2

/-- C08 fails for strings with double quotes: they are printed as they are, so the printed form is not a string, or one with another value. -/
theorem C08_quote_refuted : lexInput ⟨true, true⟩ (.init true false 4 (printString [34])) = .ok [(.UNTERMINATED_STRING_LITERAL, [34, 34, 34])] ∧
    lexInput ⟨true, true⟩ (.init true false 4 (printString [97, 34, 34, 98])) = .ok [(.STRING_LITERAL, printString [97, 34, 34, 98])] ∧
    tokenString (printString [97, 34, 34, 98]) = .ok [97, 34, 98] := by decide +kernel

/-! ### Symbols -/

theorem simple_start {c : Nat} (h : isSimpleChar c = true) (hd : Str.isDigit c = false) : SymbolStart c := by
  simp only [isSimpleChar, isLetter, hd, Bool.or_false, Bool.or_eq_true, Bool.and_eq_true, decide_eq_true_eq] at h
  rcases h with (h | h) | h
  · exact .inl h
  · exact .inr (.inl h)
  · refine .inr (.inr ?_)
    simp only [bytes, List.mem_map] at h ⊢
    obtain ⟨a, h1, h2⟩ := h
    refine ⟨a, ?_, h2⟩
    simp at h1 ⊢
    rcases h1 with h1 | h1 | h1 | h1 | h1 | h1 | h1 | h1 | h1 | h1 | h1 | h1 | h1 | h1 | h1 | h1 | h1 <;> simp [h1]

theorem simple_char {c : Nat} (h : isSimpleChar c = true) : SymbolChar c := by
  cases hd : Str.isDigit c with
  | false => exact .inl (simple_start h hd)
  | true =>
    simp only [Str.isDigit, Bool.and_eq_true, decide_eq_true_eq] at hd
    exact .inr (.inl hd)

/-- C47: a symbol name is printed as one token with this name, provided that it contains no null character, backslash or bar, that it is not a
reserved word or a numeral, and that it has no other characters than those of simple symbols if it begins with `eo::`. -/
theorem C47_name_partial {fl : LexFlags} {g i : Bool} {n : Nat} {x r : List Nat} (hn : 0 < n) (hx : ∀ b ∈ x, 0 < b ∧ b < 255)
    (hb : 92 ∉ x ∧ 124 ∉ x) (hc : SymbolClass fl x .SYMBOL) (heo : x.take 4 = bytes "eo::" → ∀ b ∈ x, SymbolChar b)
    (hr : Readable (.init g i n r) r) (hla : ∀ b, r.head? = some b → ¬ SymbolChar b) :
    ∃ t, lexInput fl (.init g i n (quoteSymbol x ++ r)) = (lexInput fl (.init g i n r)).map ((t, quoteSymbol x) :: ·) ∧
      tokenStrToSymbol t (quoteSymbol x) = .ok x := by
  have rd : ∀ {y : List Nat}, (∀ b ∈ y, b < 255) → Readable (.init g i n (y ++ r)) (y ++ r) := by
    intro y hy b hb
    rcases List.mem_append.mp hb with hb | hb
    · have := hy b hb
      exact ⟨by omega, fun _ _ => by omega⟩
    · exact hr b hb
  have h0 : 0 ∉ x := fun h => absurd (hx 0 h).1 (Nat.lt_irrefl 0)
  have plain : ∀ {c cs}, x = c :: cs → SymbolStart c → (∀ d ∈ cs, SymbolChar d) → quoteSymbol x = x →
      ∃ t, lexInput fl (.init g i n (quoteSymbol x ++ r)) = (lexInput fl (.init g i n r)).map ((t, quoteSymbol x) :: ·) ∧
      tokenStrToSymbol t (quoteSymbol x) = .ok x := by
    intro c cs e h1 h2 hq
    rw [hq]
    refine ⟨.SYMBOL, lexInput_cons hn (rd fun b hb => (hx b hb).2) ?_, ?_⟩
    · rw [e] at hc ⊢
      exact .symbol _ _ _ _ h1 h2 hla hc
    · simp [tokenStrToSymbol, tokenStr_eq h0]
  have quoted : quoteSymbol x = 124 :: x ++ [124] → ∃ t, lexInput fl (.init g i n (quoteSymbol x ++ r)) = (lexInput fl (.init g i n r)).map ((t, quoteSymbol x) :: ·) ∧
      tokenStrToSymbol t (quoteSymbol x) = .ok x := by
    intro hq
    rw [hq]
    refine ⟨.QUOTED_SYMBOL, lexInput_cons hn (rd ?_) (.quoted x _ hb.2), ?_⟩
    · intro b hb
      simp only [List.cons_append, List.mem_cons, List.mem_append, List.mem_nil_iff, or_false] at hb
      rcases hb with rfl | hb | rfl
      · omega
      · exact (hx b hb).2
      · omega
    · have : 0 ∉ 124 :: x ++ [124] := by simp [h0]
      simp only [tokenStrToSymbol, tokenStr_eq this]
      exact stripQuotes_eq ..
  cases x with
  | nil => exact quoted rfl
  | cons c cs =>
    by_cases he : (c :: cs).take 4 = bytes "eo::"
    · refine plain rfl ?_ (fun d hd => heo he d (List.mem_cons_of_mem _ hd)) (by simp only [quoteSymbol, if_pos he]; simp)
      have : c = 101 := by simpa [bytes] using congrArg List.head? he
      subst this
      exact .inl (by omega)
    · by_cases hs : (c :: cs).all isSimpleChar && !Str.isDigit ((c :: cs).headD 0)
      · have hs' := hs
        simp only [Bool.and_eq_true, List.all_eq_true, Bool.not_eq_true', List.headD_cons] at hs'
        refine plain rfl (simple_start (hs'.1 c (List.mem_cons_self ..)) hs'.2) (fun d hd => simple_char (hs'.1 d (List.mem_cons_of_mem _ hd))) ?_
        simp only [quoteSymbol, if_neg he]
        rw [if_neg (by simp), if_pos hs]
      · refine quoted ?_
        have h124 : ¬ ((c :: cs).head? = some 124 ∧ (c :: cs).getLast? = some 124 ∧ (c :: cs).length > 1) := by
          intro h
          have : c = 124 := by simpa using h.1
          exact hb.2 (by simp [this])
        simp only [quoteSymbol, if_neg he, if_neg hs, if_neg h124]
        rw [if_neg (by simp)]
        have : (c :: cs).map (fun c => if c = 92 ∨ c = 124 then 95 else c) = c :: cs := by
          conv => rhs; rw [← List.map_id (c :: cs)]
          refine List.map_congr_left fun d hd => ?_
          rw [if_neg]
          · rfl
          · rintro (rfl | rfl)
            · exact hb.1 hd
            · exact hb.2 hd
        rw [this]; rfl

/-- C47: every symbol that was read as a simple symbol is printed as one token with the same name. -/
theorem C47_symbol {fl : LexFlags} {g i : Bool} {n : Nat} {x r : List Nat} {la : Option Nat} (hn : 0 < n) (h : Lexeme fl .SYMBOL x la)
    (hr : Readable (.init g i n r) r) (hla : ∀ b, r.head? = some b → ¬ SymbolChar b) :
    tokenStrToSymbol .SYMBOL x = .ok x ∧
    ∃ t, lexInput fl (.init g i n (quoteSymbol x ++ r)) = (lexInput fl (.init g i n r)).map ((t, quoteSymbol x) :: ·) ∧
      tokenStrToSymbol t (quoteSymbol x) = .ok x := by
  have h1 : (∀ b ∈ x, SymbolChar b) ∧ SymbolClass fl x .SYMBOL := by
    cases h with
    | symbol _ c cs _ h0 h1 h2 h3 =>
      refine ⟨fun b hb => ?_, h3⟩
      rcases List.mem_cons.mp hb with rfl | hb
      · exact .inl h0
      · exact h1 b hb
  have h2 : ∀ b ∈ x, 0 < b ∧ b < 255 ∧ b ≠ 92 ∧ b ≠ 124 := by
    intro b hb
    have hs : ∀ b, SymbolStart b → 0 < b ∧ b < 255 ∧ b ≠ 92 ∧ b ≠ 124 := by
      intro b h
      rcases h with h | h | h
      · omega
      · omega
      · simp [bytes] at h; omega
    rcases h1.1 b hb with h | h | h
    · exact hs b h
    · unfold Digit at h; omega
    · omega
  have h0 : 0 ∉ x := fun h => absurd (h2 0 h).1 (Nat.lt_irrefl 0)
  refine ⟨by simp [tokenStrToSymbol, tokenStr_eq h0], ?_⟩
  exact C47_name_partial hn (fun b hb => ⟨(h2 b hb).1, (h2 b hb).2.1⟩) ⟨fun h => (h2 92 h).2.2.1 rfl, fun h => (h2 124 h).2.2.2 rfl⟩ h1.2 (fun _ => h1.1) hr hla

example : ∃ t, lexInput ⟨true, true⟩ (.init true false 5 (quoteSymbol (bytes "a:b c") ++ bytes ")")) = .ok [(t, bytes "|a:b c|"), (.RPAREN, [41])] ∧
    tokenStrToSymbol t (bytes "|a:b c|") = .ok (bytes "a:b c") := by
  have hc := symbolClass_sound ⟨true, true⟩ 97 (bytes ":b c") (by decide)
  have := C47_name_partial (fl := ⟨true, true⟩) (g := true) (i := false) (n := 5) (x := bytes "a:b c") (r := bytes ")") (by decide) (by decide) (by decide) hc
    (fun h => absurd h (by decide)) (by intro b hb; simp [bytes] at hb; subst hb; simp)
    (by
      intro b hb h
      have : b = 41 := by simpa [bytes] using hb.symm
      subst this
      rcases h with (h | h | h) | h | h
      · omega
      · omega
      · revert h; decide
      · unfold Digit at h; omega
      · omega)
  exact this

/-- C47 fails for quoted names with a backslash (printed as an underscore), for quoted reserved words and numerals, and for quoted
names that begin with `eo::` (which are printed without bars). -/
theorem C47_refuted :
    -- the names of the tokens |a\\b|, |let|, |par|, |-5| and |eo::a b|
    [bytes "|a\\b|", bytes "|let|", bytes "|par|", bytes "|-5|", bytes "|eo::a b|"].map (tokenStrToSymbol .QUOTED_SYMBOL) =
      [.ok (bytes "a\\b"), .ok (bytes "let"), .ok (bytes "par"), .ok (bytes "-5"), .ok (bytes "eo::a b")] ∧
    -- what is read when they are printed
    [bytes "a\\b", bytes "let", bytes "par", bytes "-5", bytes "eo::a b"].map (fun x => lexInput ⟨true, true⟩ (.init true false 8 (quoteSymbol x))) =
      [.ok [(.QUOTED_SYMBOL, bytes "|a_b|")], .ok [(.LET, bytes "let")], .ok [(.PAR, bytes "par")], .ok [(.INTEGER_LITERAL, bytes "-5")],
        .ok [(.SYMBOL, bytes "eo::a"), (.SYMBOL, bytes "b")]] := by decide +kernel

end Ethos.Props
