import Verif.Model.Lexer
/-
The lexical grammar: what an input consists of, independently of how it is read.  Of the model, only the names of the tokens are
used.
-/
namespace Ethos.Spec
open Ethos Token

/-- blank, tabulator, carriage return, newline -/
def Space (b : Nat) : Prop := b = 32 ∨ b = 9 ∨ b = 13 ∨ b = 10

def Digit (b : Nat) : Prop := 48 ≤ b ∧ b ≤ 57

def HexDigit (b : Nat) : Prop := Digit b ∨ (97 ≤ b ∧ b ≤ 102) ∨ (65 ≤ b ∧ b ≤ 70)

def Bit (b : Nat) : Prop := b = 48 ∨ b = 49

/-- a letter or one of `+ - / * = % ? ! . $ _ ~ & ^ < > @` -/
def SymbolStart (b : Nat) : Prop := (97 ≤ b ∧ b ≤ 122) ∨ (65 ≤ b ∧ b ≤ 90) ∨ b ∈ bytes "+-/*=%?!.$_~&^<>@"

/-- also digits and `:` -/
def SymbolChar (b : Nat) : Prop := SymbolStart b ∨ Digit b ∨ b = 58

/-- white space and complete comments -/
inductive Layout : List Nat → Prop
  | nil : Layout []
  | space (b w) : Space b → Layout w → Layout (b :: w)
  | comment (c w) : 10 ∉ c → Layout w → Layout (59 :: c ++ 10 :: w)

/-- what may be at the end of the input: white space and comments, the last of which may have no newline -/
def EndLayout (s : List Nat) : Prop := Layout s ∨ ∃ w c, Layout w ∧ 10 ∉ c ∧ s = w ++ 59 :: c

/-- every double quote written twice -/
def doubled (s : List Nat) : List Nat := s.flatMap fun c => if c = 34 then [34, 34] else [c]

/-- the class of the simple symbol `x`: reserved words, numerals with a sign, or a symbol -/
inductive SymbolClass (fl : LexFlags) : List Nat → Token → Prop
  | attribute : SymbolClass fl (bytes "!") ATTRIBUTE
  | define : SymbolClass fl (bytes "eo::define") EVAL_DEFINE
  | par : SymbolClass fl (bytes "par") PAR
  | bool : SymbolClass fl (bytes "Bool") BOOL_TYPE
  | «let» : fl.lexLet = true → SymbolClass fl (bytes "let") LET
  | type : fl.lexType = true → SymbolClass fl (bytes "Type") TYPE
  | integer (ds) : ds ≠ [] → (∀ d ∈ ds, Digit d) → SymbolClass fl (45 :: ds) INTEGER_LITERAL
  | decimal (ds es) : (∀ d ∈ ds, Digit d) → es ≠ [] → (∀ d ∈ es, Digit d) → SymbolClass fl (45 :: ds ++ 46 :: es) DECIMAL_LITERAL
  | rational (ds es) : (∀ d ∈ ds, Digit d) → es ≠ [] → (∀ d ∈ es, Digit d) → SymbolClass fl (45 :: ds ++ 47 :: es) RATIONAL_LITERAL
  | symbol (x) : x ∉ [bytes "!", bytes "eo::define", bytes "par", bytes "Bool"] → ¬ (fl.lexLet = true ∧ x = bytes "let") →
      ¬ (fl.lexType = true ∧ x = bytes "Type") →
      (∀ ds es, (∀ d ∈ ds, Digit d) → (∀ d ∈ es, Digit d) → (ds ≠ [] → x ≠ 45 :: ds) ∧ (es ≠ [] → x ≠ 45 :: ds ++ 46 :: es ∧ x ≠ 45 :: ds ++ 47 :: es)) →
      SymbolClass fl x SYMBOL

/-- `x` is the text of the token `t` if the next character is `la` (`none`: there is none) -/
inductive Lexeme (fl : LexFlags) : Token → List Nat → Option Nat → Prop
  | lparen (la) : Lexeme fl LPAREN [40] la
  | rparen (la) : Lexeme fl RPAREN [41] la
  | quoted (x la) : 124 ∉ x → Lexeme fl QUOTED_SYMBOL (124 :: x ++ [124]) la
  | string (x la) : la ≠ some 34 → Lexeme fl STRING_LITERAL (34 :: doubled x ++ [34]) la
  | binary (ds la) : ds ≠ [] → (∀ d ∈ ds, Bit d) → (∀ c, la = some c → ¬ Bit c) → Lexeme fl BINARY_LITERAL (35 :: 98 :: ds) la
  | hexadecimal (ds la) : ds ≠ [] → (∀ d ∈ ds, HexDigit d) → (∀ c, la = some c → ¬ HexDigit c) → Lexeme fl HEX_LITERAL (35 :: 120 :: ds) la
  | keyword (c cs la) : SymbolStart c → cs ≠ [] → (∀ d ∈ cs, SymbolChar d) → (∀ d, la = some d → ¬ SymbolChar d) →
      Lexeme fl KEYWORD (58 :: c :: cs) la
  | integer (ds la) : ds ≠ [] → (∀ d ∈ ds, Digit d) → (∀ c, la = some c → ¬ Digit c ∧ c ≠ 46 ∧ c ≠ 47) → Lexeme fl INTEGER_LITERAL ds la
  | decimal (ds es la) : ds ≠ [] → (∀ d ∈ ds, Digit d) → es ≠ [] → (∀ d ∈ es, Digit d) → (∀ c, la = some c → ¬ Digit c) →
      Lexeme fl DECIMAL_LITERAL (ds ++ 46 :: es) la
  | rational (ds es la) : ds ≠ [] → (∀ d ∈ ds, Digit d) → es ≠ [] → (∀ d ∈ es, Digit d) → (∀ c, la = some c → ¬ Digit c) →
      Lexeme fl RATIONAL_LITERAL (ds ++ 47 :: es) la
  | symbol (t c cs la) : SymbolStart c → (∀ d ∈ cs, SymbolChar d) → (∀ d, la = some d → ¬ SymbolChar d) → SymbolClass fl (c :: cs) t →
      Lexeme fl t (c :: cs) la

/-- the input `s` is the sequence `ts` of tokens, given with their texts, separated by white space and comments -/
inductive Lexes (fl : LexFlags) : List Nat → List (Token × List Nat) → Prop
  | done (w) : EndLayout w → Lexes fl w []
  | token (w t x r ts) : Layout w → Lexeme fl t x r.head? → Lexes fl r ts → Lexes fl (w ++ x ++ r) ((t, x) :: ts)

/-- a keyword with one character after the colon -/
def ShortKeyword (p : Token × List Nat) : Prop := p.1 = KEYWORD ∧ p.2.length = 2

/-- a string or a quoted symbol that is not closed -/
def Unterminated (p : Token × List Nat) : Prop := p.1 = UNTERMINATED_QUOTED_SYMBOL ∨ p.1 = UNTERMINATED_STRING_LITERAL

/-- the input made of token texts with what is written before each of them, and the end `e` -/
def render : List (List Nat × List Nat) → List Nat → List Nat
  | [], e => e
  | (w, x) :: ps, e => w ++ x ++ render ps e

/-- Every byte of the input can be told from the end of the input: bytes are below 256 and, if `char` is signed and the input is
not interactive, not 255. -/
def Readable (r : Reader) (s : List Nat) : Prop := ∀ b ∈ s, b < 256 ∧ (r.signed = true → r.interactive = false → b ≠ 255)

end Ethos.Spec
