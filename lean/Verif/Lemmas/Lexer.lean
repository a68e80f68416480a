import Verif.Spec.Lexer
/-
The lexer as a function on lists of bytes, and that the modelled lexer computes it for every way of reading the input.
-/
namespace Ethos.Props
open Ethos Spec

/-! ### Characters -/

/-- `c` is the character for the byte `b` -/
structure IsChar (c : Int) (b : Nat) : Prop where
  byte : toByte c = b
  eof : c ≠ EOF
  lit : ∀ k : Nat, k < 128 → (c = (k : Int) ↔ b = k)

theorem IsChar.nat {b : Nat} (h : b < 256) : IsChar (b : Int) b := by
  refine ⟨?_, ?_, ?_⟩
  · unfold toByte; omega
  · unfold EOF; omega
  · intro k _; omega

theorem IsChar.char {b : Nat} {signed : Bool} (h : b < 256) (h' : signed = true → b ≠ 255) : IsChar (charToInt signed b) b := by
  unfold charToInt
  split
  · rename_i hc
    have := h' hc.1
    refine ⟨?_, ?_, ?_⟩
    · unfold toByte; omega
    · unfold EOF; omega
    · intro k _; omega
  · exact IsChar.nat h

/-- the bytes that a lexer in the state `l` has still to read are `s` -/
inductive Pending : Lex → List Nat → Prop
  | plain (r t s) : 0 < r.size → (r.interactive = true → r.buffer = []) → Readable r s → s = r.buffer ++ r.stream → Pending ⟨r, none, t⟩ s
  | saved (r t c b s) : 0 < r.size → (r.interactive = true → r.buffer = []) → Readable r (b :: s) → s = r.buffer ++ r.stream →
      IsChar c b → Pending ⟨r, some c, t⟩ (b :: s)
  | ended (r t) : 0 < r.size → r.buffer = [] → r.stream = [] → Pending ⟨r, some EOF, t⟩ []

theorem Pending.token {l : Lex} {s : List Nat} (h : Pending l s) (t : List Nat) : Pending { l with token := t } s := by
  cases h with
  | plain r t' s a b c d => exact .plain r t s a b c d
  | saved r t' c b s h1 h2 h3 h4 h5 => exact .saved r t c b s h1 h2 h3 h4 h5
  | ended r t' a b c => exact .ended r t a b c

theorem nextChar_end {l : Lex} (h : Pending l []) :
    ∃ l', l.nextChar = (EOF, l') ∧ Pending l' [] ∧ Pending (l'.saveChar EOF) [] ∧ l'.token = l.token := by
  cases h with
  | plain r t _ h1 h2 h3 h4 =>
    have h5 : r.buffer = [] ∧ r.stream = [] := by simpa using h4.symm
    obtain ⟨sg, i, n, bu, st⟩ := r
    simp only at h5 h1
    obtain ⟨rfl, rfl⟩ := h5
    cases i <;> refine ⟨⟨⟨sg, _, n, [], []⟩, none, t⟩, by simp [Lex.nextChar, Reader.next], ?_, ?_, rfl⟩ <;>
      first
      | exact .plain _ _ _ h1 (fun _ => rfl) (by intro b hb; cases hb) rfl
      | exact .ended _ _ h1 rfl rfl
  | ended r t h1 h2 h3 =>
    refine ⟨⟨r, none, t⟩, rfl, .plain _ _ _ h1 (fun _ => h2) (by intro b hb; cases hb) (by simp [h2, h3]), .ended _ _ h1 h2 h3, rfl⟩

theorem nextChar_cons {l : Lex} {b : Nat} {s : List Nat} (h : Pending l (b :: s)) :
    ∃ c l', l.nextChar = (c, l') ∧ IsChar c b ∧ Pending l' s ∧ Pending (l'.saveChar c) (b :: s) ∧ l'.token = l.token := by
  cases h with
  | plain r t _ h1 h2 h3 h4 =>
    have h3' : Readable r s := fun x hx => h3 x (List.mem_cons_of_mem _ hx)
    have hb := h3 b (List.mem_cons_self ..)
    obtain ⟨sg, i, n, bu, st⟩ := r
    simp only at h4 h1 h2 hb
    cases bu with
    | cons b' bu =>
      simp only [List.cons_append, List.cons.injEq] at h4
      obtain ⟨rfl, rfl⟩ := h4
      have hi : i = false := by
        cases i with
        | false => rfl
        | true => simp at h2
      subst hi
      have hc : IsChar (charToInt sg b) b := IsChar.char hb.1 (fun hs => hb.2 hs rfl)
      refine ⟨charToInt sg b, ⟨⟨sg, false, n, bu, st⟩, none, t⟩, rfl, hc, ?_, ?_, rfl⟩
      · exact .plain _ _ _ h1 (fun hh => by simp at hh) h3' rfl
      · exact .saved _ _ _ _ _ h1 (fun hh => by simp at hh) h3 rfl hc
    | nil =>
      simp only [List.nil_append] at h4
      subst h4
      cases i with
      | true =>
        have hc : IsChar (b : Int) b := IsChar.nat hb.1
        refine ⟨b, ⟨⟨sg, true, n, [], s⟩, none, t⟩, rfl, hc, ?_, ?_, rfl⟩
        · exact .plain _ _ _ h1 (fun _ => rfl) h3' rfl
        · exact .saved _ _ _ _ _ h1 (fun _ => rfl) h3 rfl hc
      | false =>
        have hc : IsChar (charToInt sg b) b := IsChar.char hb.1 (fun hs => hb.2 hs rfl)
        obtain ⟨m, rfl⟩ : ∃ m, n = m + 1 := ⟨n - 1, by omega⟩
        refine ⟨charToInt sg b, ⟨⟨sg, false, m + 1, s.take m, s.drop m⟩, none, t⟩, rfl, hc, ?_, ?_, rfl⟩
        · exact .plain _ _ _ h1 (fun hh => by simp at hh) h3' (by simp)
        · exact .saved _ _ _ _ _ h1 (fun hh => by simp at hh) h3 (by simp) hc
  | saved r t c _ _ h1 h2 h3 h4 h5 =>
    refine ⟨c, ⟨r, none, t⟩, rfl, h5, ?_, ?_, rfl⟩
    · exact .plain _ _ _ h1 h2 (fun x hx => h3 x (List.mem_cons_of_mem _ hx)) h4
    · exact .saved _ _ _ _ _ h1 h2 h3 h4 h5

theorem Pending.push {l : Lex} {s : List Nat} (h : Pending l s) (c : Int) : Pending (l.push c) s := h.token _

theorem isCharacterClass_eq {c : Int} {b : Nat} (h : IsChar c b) (cc : CharClass) : isCharacterClass c cc = charClass b cc := by
  rw [isCharacterClass, h.byte]

theorem class_eof (cc : CharClass) : isCharacterClass EOF cc = false := by cases cc <;> decide

/-! ### The lexer on lists -/

theorem parseCharList_list (cc : CharClass) : ∀ (s : List Nat) (f : Nat) (l : Lex), Pending l s → s.length < f →
    ∃ l', Lex.parseCharList cc f l = .ok l' ∧ Pending l' (s.dropWhile (charClass · cc)) ∧ l'.token = l.token ++ s.takeWhile (charClass · cc)
  | _, 0, _, _, hf => absurd hf (Nat.not_lt_zero _)
  | [], f + 1, l, h, _ => by
    obtain ⟨l', h1, _, h2, h3⟩ := nextChar_end h
    refine ⟨l'.saveChar EOF, by simp [Lex.parseCharList, h1, class_eof], h2, by simp [Lex.saveChar, h3]⟩
  | b :: s, f + 1, l, h, hf => by
    obtain ⟨c, l', h1, hc, h2, h2', h3⟩ := nextChar_cons h
    cases hb : charClass b cc with
    | true =>
      obtain ⟨l2, g1, g2, g3⟩ := parseCharList_list cc s f (l'.push c) (h2.push c) (by simpa using hf)
      refine ⟨l2, by simp [Lex.parseCharList, h1, isCharacterClass_eq hc, hb, g1], by simpa [List.dropWhile, hb] using g2, ?_⟩
      simp [List.takeWhile, hb, g3, Lex.push, h3, hc.byte]
    | false =>
      refine ⟨l'.saveChar c, by simp [Lex.parseCharList, h1, isCharacterClass_eq hc, hb], by simpa [List.dropWhile, hb] using h2', ?_⟩
      simp [List.takeWhile, hb, Lex.saveChar, h3]

/-- the input after white space and comments -/
def skipL : Bool → List Nat → List Nat
  | _, [] => []
  | false, b :: s => if charClass b .WHITESPACE then skipL false s else if b = 59 then skipL true s else b :: s
  | true, b :: s => if b = 10 then skipL false s else skipL true s

theorem skip_list : ∀ (cm : Bool) (s : List Nat) (f : Nat) (l : Lex), Pending l s → s.length < f →
    match skipL cm s with
    | [] => ∃ l', Lex.skip cm f l = .ok (EOF, l') ∧ Pending l' [] ∧ l'.token = l.token
    | b :: r => ∃ c l', Lex.skip cm f l = .ok (c, l') ∧ IsChar c b ∧ Pending l' r ∧ l'.token = l.token
  | _, _, 0, _, _, hf => absurd hf (Nat.not_lt_zero _)
  | cm, [], f + 1, l, h, _ => by
    obtain ⟨l', h1, h2, _, h3⟩ := nextChar_end h
    have : skipL cm [] = [] := by cases cm <;> rfl
    rw [this]
    cases cm with
    | false => exact ⟨l', by simp [Lex.skip, h1], h2, h3⟩
    | true => exact ⟨l', by simp [Lex.skip, h1, EOF], h2, h3⟩
  | false, b :: s, f + 1, l, h, hf => by
    obtain ⟨c, l', h1, hc, h2, h2', h3⟩ := nextChar_cons h
    have hf' : s.length < f := by simpa using hf
    have e := hc.lit 59 (by decide)
    by_cases hw : charClass b .WHITESPACE = true
    · have := skip_list false s f l' h2 hf'
      simpa [skipL, Lex.skip, h1, hc.eof, isCharacterClass_eq hc, hw, h3] using this
    · by_cases hs : b = 59
      · have hs' : c = 59 := e.mpr hs
        have := skip_list true s f l' h2 hf'
        subst hs hs'
        simpa [skipL, Lex.skip, h1, h3, show ¬ (59 : Int) = EOF by decide, show isCharacterClass 59 .WHITESPACE = false by decide,
          show charClass 59 .WHITESPACE = false by decide] using this
      · have hs' : ¬ c = 59 := fun x => hs (e.mp x)
        simp only [skipL, if_neg hw, if_neg hs]
        refine ⟨c, l', ?_, hc, h2, h3⟩
        simp [Lex.skip, h1, hc.eof, isCharacterClass_eq hc, hw, hs']
  | true, b :: s, f + 1, l, h, hf => by
    obtain ⟨c, l', h1, hc, h2, h2', h3⟩ := nextChar_cons h
    have hf' : s.length < f := by simpa using hf
    have e := hc.lit 10 (by decide)
    by_cases hs : b = 10
    · have hs' : c = 10 := e.mpr hs
      have := skip_list false s f l' h2 hf'
      simpa [skipL, Lex.skip, h1, hs, hs', h3] using this
    · have hs' : ¬ c = 10 := fun x => hs (e.mp x)
      have := skip_list true s f l' h2 hf'
      simpa [skipL, Lex.skip, h1, hs, hs', hc.eof, h3] using this

/-- the lexer state after a token agrees with the token, its text and the rest of the input -/
def Agrees (x : Run (Token × Lex)) : Run (Token × List Nat × List Nat) → Prop
  | .ok (t, text, r) => ∃ l', x = .ok (t, l') ∧ l'.token = text ∧ Pending l' r
  | .err => x = .err
  | _ => False

def quotedL (pre : List Nat) : List Nat → Run (Token × List Nat × List Nat)
  | [] => .ok (.UNTERMINATED_QUOTED_SYMBOL, pre, [])
  | b :: s => if b = 124 then .ok (.QUOTED_SYMBOL, pre ++ [b], s) else quotedL (pre ++ [b]) s

theorem quoted_list : ∀ (s : List Nat) (f : Nat) (l : Lex), Pending l s → s.length < f → Agrees (Lex.quoted f l) (quotedL l.token s)
  | _, 0, _, _, hf => absurd hf (Nat.not_lt_zero _)
  | [], f + 1, l, h, _ => by
    obtain ⟨l', h1, h2, _, h3⟩ := nextChar_end h
    exact ⟨l', by simp [Lex.quoted, h1], h3, h2⟩
  | b :: s, f + 1, l, h, hf => by
    obtain ⟨c, l', h1, hc, h2, h2', h3⟩ := nextChar_cons h
    have hp : (l'.push c).token = l.token ++ [b] := by simp [Lex.push, h3, hc.byte]
    have e := hc.lit 124 (by decide)
    by_cases hb : b = 124
    · have hb' : c = 124 := e.mpr hb
      simp only [quotedL, if_pos hb]
      refine ⟨l'.push c, ?_, hp, h2.push c⟩
      simp [Lex.quoted, h1, hb', EOF]
    · have hb' : ¬ c = 124 := fun x => hb (e.mp x)
      have := quoted_list s f (l'.push c) (h2.push c) (by simpa using hf)
      simpa [quotedL, if_neg hb, Lex.quoted, h1, hb', hc.eof, hp] using this

def stringL (pre : List Nat) : List Nat → Run (Token × List Nat × List Nat)
  | [] => .ok (.UNTERMINATED_STRING_LITERAL, pre, [])
  | [b] => if b = 34 then .ok (.STRING_LITERAL, pre ++ [b], []) else .ok (.UNTERMINATED_STRING_LITERAL, pre ++ [b], [])
  | b :: d :: s =>
    if b = 34 then if d = 34 then stringL (pre ++ [b, d]) s else .ok (.STRING_LITERAL, pre ++ [b], d :: s)
    else stringL (pre ++ [b]) (d :: s)

theorem string_list : ∀ (s : List Nat) (f : Nat) (l : Lex), Pending l s → s.length < f → Agrees (Lex.string f l) (stringL l.token s)
  | _, 0, _, _, hf => absurd hf (Nat.not_lt_zero _)
  | [], f + 1, l, h, _ => by
    obtain ⟨l', h1, h2, _, h3⟩ := nextChar_end h
    exact ⟨l', by simp [Lex.string, h1], h3, h2⟩
  | [b], f + 1, l, h, hf => by
    obtain ⟨c, l', h1, hc, h2, h2', h3⟩ := nextChar_cons h
    have hp : (l'.push c).token = l.token ++ [b] := by simp [Lex.push, h3, hc.byte]
    have e := hc.lit 34 (by decide)
    by_cases hb : b = 34
    · have hb' : c = 34 := e.mpr hb
      obtain ⟨l2, g1, _, g2, g3⟩ := nextChar_end (h2.push c)
      simp only [stringL, if_pos hb]
      refine ⟨l2.saveChar EOF, ?_, ?_, g2⟩
      · rw [hb'] at g1
        simp only [Lex.string, h1, hb', g1]
        rfl
      · simp [Lex.saveChar, g3, hp]
    · have hb' : ¬ c = 34 := fun x => hb (e.mp x)
      obtain ⟨l2, g1, g2, _, g3⟩ := nextChar_end (h2.push c)
      simp only [stringL, if_neg hb]
      have hf' : ∃ g, f = g + 1 := ⟨f - 1, by simp at hf; omega⟩
      obtain ⟨g, rfl⟩ := hf'
      refine ⟨l2, ?_, by rw [g3, hp], g2⟩
      simp [Lex.string, h1, hc.eof, hb', g1]
  | b :: d :: s, f + 1, l, h, hf => by
    obtain ⟨c, l', h1, hc, h2, h2', h3⟩ := nextChar_cons h
    have hp : (l'.push c).token = l.token ++ [b] := by simp [Lex.push, h3, hc.byte]
    have e := hc.lit 34 (by decide)
    by_cases hb : b = 34
    · have hb' : c = 34 := e.mpr hb
      obtain ⟨c2, l2, g1, hc2, g2, g2', g3⟩ := nextChar_cons (h2.push c)
      have e2 := hc2.lit 34 (by decide)
      have hp2 : (l2.push c2).token = l.token ++ [b, d] := by
        have : (l2.push c2).token = (l'.push c).token ++ [d] := by simp [Lex.push, g3, hc2.byte]
        rw [this, hp]; simp
      rw [hb'] at g1
      by_cases hd : d = 34
      · have hd' : c2 = 34 := e2.mpr hd
        have := string_list s f (l2.push c2) (g2.push c2) (by simp at hf; omega)
        rw [hp2] at this
        simpa [stringL, hb, hd, Lex.string, h1, hb', g1, hd', EOF] using this
      · have hd' : ¬ c2 = 34 := fun x => hd (e2.mp x)
        simp only [stringL, if_pos hb, if_neg hd]
        refine ⟨l2.saveChar c2, ?_, ?_, g2'⟩
        · simp [Lex.string, h1, hb', g1, hd', EOF]
        · simp [Lex.saveChar, g3, hp]
    · have hb' : ¬ c = 34 := fun x => hb (e.mp x)
      have := string_list (d :: s) f (l'.push c) (h2.push c) (by simpa using hf)
      simpa [stringL, if_neg hb, Lex.string, h1, hb', hc.eof, hp] using this

/-- at least one character of a class -/
def manyL (cc : CharClass) (pre s : List Nat) : Option (List Nat × List Nat) :=
  match s with
  | [] => none
  | b :: s => if charClass b cc then some (pre ++ b :: s.takeWhile (charClass · cc), s.dropWhile (charClass · cc)) else none

theorem many_list (cc : CharClass) (s : List Nat) (f : Nat) (l : Lex) (h : Pending l s) (hf : s.length < f) :
    match manyL cc l.token s with
    | some (t, r) => ∃ l', Lex.parseNonEmptyCharList cc f l = .ok (true, l') ∧ l'.token = t ∧ Pending l' r
    | none => ∃ l', Lex.parseNonEmptyCharList cc f l = .ok (false, l') ∧ l'.token = l.token ∧ Pending l' (s.drop 1) := by
  cases s with
  | nil =>
    obtain ⟨l', h1, h2, _, h3⟩ := nextChar_end h
    exact ⟨l', by simp [Lex.parseNonEmptyCharList, h1, class_eof], h3, h2⟩
  | cons b s =>
    obtain ⟨c, l', h1, hc, h2, _, h3⟩ := nextChar_cons h
    simp only [manyL]
    cases hb : charClass b cc with
    | true =>
      obtain ⟨l2, g1, g2, g3⟩ := parseCharList_list cc s f (l'.push c) (h2.push c) (by simp at hf; omega)
      refine ⟨l2, by simp [Lex.parseNonEmptyCharList, h1, isCharacterClass_eq hc, hb, g1, Run.map], ?_, g2⟩
      simp [g3, Lex.push, h3, hc.byte]
    | false => exact ⟨l', by simp [Lex.parseNonEmptyCharList, h1, isCharacterClass_eq hc, hb], h3, h2⟩

def hashL : List Nat → Run (Token × List Nat × List Nat)
  | [] => .err
  | b :: s =>
    if b = 98 then
      match manyL .BIT [35, 98] s with
      | some p => .ok (.BINARY_LITERAL, p)
      | none => .err
    else if b = 120 then
      match manyL .HEXADECIMAL_DIGIT [35, 120] s with
      | some p => .ok (.HEX_LITERAL, p)
      | none => .err
    else .err

theorem hash_list (s : List Nat) (f : Nat) (l : Lex) (h : Pending l s) (hf : s.length < f) (ht : l.token = [35]) :
    Agrees (Lex.hash f l) (hashL s) := by
  cases s with
  | nil =>
    obtain ⟨l', h1, h2, _, h3⟩ := nextChar_end h
    simp [hashL, Agrees, Lex.hash, h1, EOF]
  | cons b s =>
    obtain ⟨c, l', h1, hc, h2, _, h3⟩ := nextChar_cons h
    have hp : (l'.push c).token = [35, b] := by simp [Lex.push, h3, hc.byte, ht]
    have e := hc.lit 98 (by decide)
    have e' := hc.lit 120 (by decide)
    simp only [hashL]
    by_cases hb : b = 98
    · have hb' : c = 98 := e.mpr hb
      have g := many_list .BIT s f (l'.push c) (h2.push c) (by simp at hf; omega)
      rw [hp, hb] at g
      rw [if_pos hb]
      cases hm : manyL .BIT [35, 98] s with
      | none =>
        rw [hm] at g
        obtain ⟨l2, g1, _⟩ := g
        rw [hb'] at g1
        simp [Agrees, Lex.hash, h1, hb', g1, Run.bind]
      | some p =>
        rw [hm] at g
        obtain ⟨l2, g1, g2, g3⟩ := g
        rw [hb'] at g1
        exact ⟨l2, by simp [Lex.hash, h1, hb', g1, Run.bind], g2, g3⟩
    · have hb' : ¬ c = 98 := fun x => hb (e.mp x)
      rw [if_neg hb]
      by_cases hx : b = 120
      · have hx' : c = 120 := e'.mpr hx
        have g := many_list .HEXADECIMAL_DIGIT s f (l'.push c) (h2.push c) (by simp at hf; omega)
        rw [hp, hx] at g
        rw [if_pos hx]
        cases hm : manyL .HEXADECIMAL_DIGIT [35, 120] s with
        | none =>
          rw [hm] at g
          obtain ⟨l2, g1, _⟩ := g
          rw [hx'] at g1
          simp [Agrees, Lex.hash, h1, hx', g1, Run.bind]
        | some p =>
          rw [hm] at g
          obtain ⟨l2, g1, g2, g3⟩ := g
          rw [hx'] at g1
          exact ⟨l2, by simp [Lex.hash, h1, hx', g1, Run.bind], g2, g3⟩
      · have hx' : ¬ c = 120 := fun x => hx (e'.mp x)
        rw [if_neg hx]
        simp [Agrees, Lex.hash, h1, hb', hx']

def keywordL : List Nat → Run (Token × List Nat × List Nat)
  | [] => .err
  | b :: s =>
    if charClass b .SYMBOL_START then
      match manyL .SYMBOL [58, b] s with
      | some p => .ok (.KEYWORD, p)
      | none => .ok (.KEYWORD, [58, b], s.drop 1)
    else .err

theorem keyword_list (s : List Nat) (f : Nat) (l : Lex) (h : Pending l s) (hf : s.length < f) (ht : l.token = [58]) :
    Agrees (Lex.keyword f l) (keywordL s) := by
  cases s with
  | nil =>
    obtain ⟨l', h1, h2, _, h3⟩ := nextChar_end h
    simp [keywordL, Agrees, Lex.keyword, Lex.parseChar, h1, class_eof]
  | cons b s =>
    obtain ⟨c, l', h1, hc, h2, _, h3⟩ := nextChar_cons h
    have hp : (l'.push c).token = [58, b] := by simp [Lex.push, h3, hc.byte, ht]
    simp only [keywordL]
    cases hb : charClass b .SYMBOL_START with
    | false => simp [Agrees, Lex.keyword, Lex.parseChar, h1, isCharacterClass_eq hc, hb]
    | true =>
      have g := many_list .SYMBOL s f (l'.push c) (h2.push c) (by simp at hf; omega)
      rw [hp] at g
      rw [if_pos rfl]
      cases hm : manyL .SYMBOL [58, b] s with
      | none =>
        rw [hm] at g
        obtain ⟨l2, g1, g2, g3⟩ := g
        exact ⟨l2, by simp [Lex.keyword, Lex.parseChar, h1, isCharacterClass_eq hc, hb, g1, Run.map], by rw [g2], g3⟩
      | some p =>
        rw [hm] at g
        obtain ⟨l2, g1, g2, g3⟩ := g
        exact ⟨l2, by simp [Lex.keyword, Lex.parseChar, h1, isCharacterClass_eq hc, hb, g1, Run.map], g2, g3⟩

def numberL (pre s : List Nat) : Run (Token × List Nat × List Nat) :=
  let pre := pre ++ s.takeWhile (charClass · .DECIMAL_DIGIT)
  match s.dropWhile (charClass · .DECIMAL_DIGIT) with
  | [] => .ok (.INTEGER_LITERAL, pre, [])
  | b :: r =>
    if b = 46 ∨ b = 47 then
      match manyL .DECIMAL_DIGIT (pre ++ [b]) r with
      | some p => .ok ((if b = 46 then .DECIMAL_LITERAL else .RATIONAL_LITERAL), p)
      | none => .err
    else .ok (.INTEGER_LITERAL, pre, b :: r)

theorem length_dropWhile_le {α : Type} (p : α → Bool) : ∀ s : List α, (s.dropWhile p).length ≤ s.length
  | [] => Nat.le_refl _
  | b :: s => by
    simp only [List.dropWhile]
    split
    · exact Nat.le_succ_of_le (length_dropWhile_le p s)
    · exact Nat.le_refl _

theorem number_list (s : List Nat) (f : Nat) (l : Lex) (h : Pending l s) (hf : s.length < f) :
    Agrees (Lex.number f l) (numberL l.token s) := by
  obtain ⟨l1, h1, h2, h3⟩ := parseCharList_list .DECIMAL_DIGIT s f l h hf
  have hl := length_dropWhile_le (charClass · .DECIMAL_DIGIT) s
  simp only [numberL]
  cases hd : s.dropWhile (charClass · .DECIMAL_DIGIT) with
  | nil =>
    rw [hd] at h2
    obtain ⟨l2, g1, _, g2, g3⟩ := nextChar_end h2
    exact ⟨l2.saveChar EOF, by simp [Lex.number, h1, Run.bind, g1, EOF], by simp [Lex.saveChar, g3, h3], g2⟩
  | cons b r =>
    rw [hd] at h2 hl
    obtain ⟨c, l2, g1, hc, g2, g2', g3⟩ := nextChar_cons h2
    have hp : (l2.push c).token = l.token ++ s.takeWhile (charClass · .DECIMAL_DIGIT) ++ [b] := by simp [Lex.push, g3, h3, hc.byte]
    have e := hc.lit 46 (by decide)
    have e' := hc.lit 47 (by decide)
    have ee : (c = 46 ∨ c = 47) ↔ (b = 46 ∨ b = 47) := by
      constructor
      · rintro (x | x)
        · exact .inl (e.mp x)
        · exact .inr (e'.mp x)
      · rintro (x | x)
        · exact .inl (e.mpr x)
        · exact .inr (e'.mpr x)
    by_cases hb : b = 46 ∨ b = 47
    · have hb' := ee.mpr hb
      have g := many_list .DECIMAL_DIGIT r f (l2.push c) (g2.push c) (by simp at hl; omega)
      rw [hp] at g
      simp only [if_pos hb]
      cases hm : manyL .DECIMAL_DIGIT (l.token ++ s.takeWhile (charClass · .DECIMAL_DIGIT) ++ [b]) r with
      | none =>
        rw [hm] at g
        obtain ⟨l3, k1, _⟩ := g
        simp [Agrees, Lex.number, h1, Run.bind, g1, hb', k1]
      | some p =>
        rw [hm] at g
        obtain ⟨l3, k1, k2, k3⟩ := g
        refine ⟨l3, ?_, k2, k3⟩
        have : c = 46 ↔ b = 46 := e
        simp only [Lex.number, h1, Run.bind, g1, if_pos hb', k1]
        by_cases hh : b = 46
        · rw [if_pos hh, if_pos (this.mpr hh)]; rfl
        · rw [if_neg hh, if_neg (fun x => hh (this.mp x))]; rfl
    · have hb' : ¬ (c = 46 ∨ c = 47) := fun x => hb (ee.mp x)
      simp only [if_neg hb]
      exact ⟨l2.saveChar c, by simp [Lex.number, h1, Run.bind, g1, hb'], by simp [Lex.saveChar, g3, h3], g2'⟩

/-- the next token, its text and the rest of the input -/
def nextL (fl : LexFlags) (s : List Nat) : Run (Token × List Nat × List Nat) :=
  match skipL false s with
  | [] => .ok (.EOF_TOK, [], [])
  | b :: r =>
    if b = 40 then .ok (.LPAREN, [b], r)
    else if b = 41 then .ok (.RPAREN, [b], r)
    else if b = 124 then quotedL [b] r
    else if b = 35 then hashL r
    else if b = 34 then stringL [b] r
    else if b = 58 then keywordL r
    else if charClass b .DECIMAL_DIGIT then numberL [b] r
    else if charClass b .SYMBOL_START then
      let t := b :: r.takeWhile (charClass · .SYMBOL)
      .ok (tokenizeCurrentSymbol fl t, t, r.dropWhile (charClass · .SYMBOL))
    else .err

theorem skipL_length : ∀ (cm : Bool) (s : List Nat), (skipL cm s).length ≤ s.length
  | _, [] => by cases ‹Bool› <;> simp [skipL]
  | false, b :: s => by
    simp only [skipL]
    split
    · exact Nat.le_succ_of_le (skipL_length false s)
    · split
      · exact Nat.le_succ_of_le (skipL_length true s)
      · exact Nat.le_refl _
  | true, b :: s => by
    simp only [skipL]
    split
    · exact Nat.le_succ_of_le (skipL_length false s)
    · exact Nat.le_succ_of_le (skipL_length true s)

theorem nextToken_list (fl : LexFlags) (s : List Nat) (f : Nat) (l : Lex) (h : Pending l s) (hf : s.length < f) :
    Agrees (l.nextToken fl f) (nextL fl s) := by
  have hl := skipL_length false s
  have hs := skip_list false s f { l with token := [] } (h.token []) hf
  unfold nextL
  cases hk : skipL false s with
  | nil =>
    rw [hk] at hs
    obtain ⟨l', h1, h2, h3⟩ := hs
    exact ⟨l', by simp [Lex.nextToken, h1, Run.bind], h3, h2⟩
  | cons b r =>
    rw [hk] at hs hl
    obtain ⟨c, l', h1, hc, h2, h3⟩ := hs
    simp only at h3
    have hp : (l'.push c).token = [b] := by simp [Lex.push, h3, hc.byte]
    have hlen : r.length < f := by simp at hl; omega
    have e40 : (c = 40) = (b = 40) := propext (hc.lit 40 (by decide))
    have e41 : (c = 41) = (b = 41) := propext (hc.lit 41 (by decide))
    have e124 : (c = 124) = (b = 124) := propext (hc.lit 124 (by decide))
    have e35 : (c = 35) = (b = 35) := propext (hc.lit 35 (by decide))
    have e34 : (c = 34) = (b = 34) := propext (hc.lit 34 (by decide))
    have e58 : (c = 58) = (b = 58) := propext (hc.lit 58 (by decide))
    simp only [Lex.nextToken, h1, Run.bind, if_neg hc.eof, e40, e41, e124, e35, e34, e58, isCharacterClass_eq hc]
    by_cases b40 : b = 40
    · rw [if_pos b40, if_pos b40]; exact ⟨_, rfl, hp, h2.push c⟩
    rw [if_neg b40, if_neg b40]
    by_cases b41 : b = 41
    · rw [if_pos b41, if_pos b41]; exact ⟨_, rfl, hp, h2.push c⟩
    rw [if_neg b41, if_neg b41]
    by_cases b124 : b = 124
    · rw [if_pos b124, if_pos b124, ← hp]; exact quoted_list r f _ (h2.push c) hlen
    rw [if_neg b124, if_neg b124]
    by_cases b35 : b = 35
    · rw [if_pos b35, if_pos b35]; exact hash_list r f _ (h2.push c) hlen (by rw [hp, b35])
    rw [if_neg b35, if_neg b35]
    by_cases b34 : b = 34
    · rw [if_pos b34, if_pos b34, ← hp]; exact string_list r f _ (h2.push c) hlen
    rw [if_neg b34, if_neg b34]
    by_cases b58 : b = 58
    · rw [if_pos b58, if_pos b58]; exact keyword_list r f _ (h2.push c) hlen (by rw [hp, b58])
    rw [if_neg b58, if_neg b58]
    by_cases bd : charClass b .DECIMAL_DIGIT = true
    · rw [if_pos bd, if_pos bd, ← hp]; exact number_list r f _ (h2.push c) hlen
    rw [if_neg bd, if_neg bd]
    by_cases bs : charClass b .SYMBOL_START = true
    · rw [if_pos bs, if_pos bs]
      obtain ⟨l2, g1, g2, g3⟩ := parseCharList_list .SYMBOL r f (l'.push c) (h2.push c) hlen
      rw [hp] at g3
      exact ⟨l2, by simp [g1, Run.map, g3], by simp [g3], g2⟩
    · rw [if_neg bs, if_neg bs]; rfl

/-- all tokens of an input -/
def allL (fl : LexFlags) : Nat → List Nat → Run (List (Token × List Nat))
  | 0, _ => .fuel
  | k + 1, s => (nextL fl s).bind fun p => if p.1 = .EOF_TOK then .ok [] else (allL fl k p.2.2).map ((p.1, p.2.1) :: ·)

end Ethos.Props
