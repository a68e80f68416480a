import Verif.Model.Scope
/-
Model of `src/lexer.{h,cpp}` and of the conversion of tokens to names and strings (`src/expr_parser.cpp`).

A character is an `int32_t` (`Int`), a `std::string` or `std::vector<char>` a list of bytes (`List Nat`).  Positions in the input (`d_span`), the
messages of errors and the stack of peeked tokens (`d_peeked`, which only delays returning a token) are not modelled.  Loops
carry a bound (`fuel`) on the number of iterations.
-/
namespace Ethos

/-- `Token`, tokens.h:19-79: those that the lexer returns -/
inductive Token where
  | EOF_TOK | ATTRIBUTE | BOOL_TYPE | BINARY_LITERAL | DECIMAL_LITERAL | EVAL_DEFINE | HEX_LITERAL | INTEGER_LITERAL | KEYWORD
  | LET | LPAREN | PAR | QUOTED_SYMBOL | RATIONAL_LITERAL | RPAREN | STRING_LITERAL | SYMBOL | TYPE
  | UNTERMINATED_QUOTED_SYMBOL | UNTERMINATED_STRING_LITERAL
deriving DecidableEq, Repr

/-- the bytes of an ASCII text; used for the literals of the code -/
def bytes (s : String) : List Nat := s.toList.map Char.toNat

/-- `EOF` -/
def EOF : Int := -1

/-- `static_cast<char>` or `static_cast<uint8_t>` of an `int32_t`: its lowest byte -/
def toByte (ch : Int) : Nat := (ch % 256).toNat

/-- conversion of a `char` to `int32_t`; whether `char` is signed depends on the platform (it is on x86) -/
def charToInt (signed : Bool) (b : Nat) : Int := if signed ∧ b ≥ 128 then (b : Int) - 256 else b

/-! ## Reading characters -/

/-- where the characters come from: `d_isInteractive`, `INPUT_BUFFER_SIZE` (32768 in the code), the unread part of `d_buffer` and
the unread part of `d_istream` -/
structure Reader where
  signed : Bool
  interactive : Bool
  size : Nat
  buffer : List Nat
  stream : List Nat

/-- `Lexer::initialize`, lexer.cpp:99-112, for the input `s` -/
def Reader.init (signed interactive : Bool) (size : Nat) (s : List Nat) : Reader := ⟨signed, interactive, size, [], s⟩

/-- `Lexer::readNextChar`, lexer.h:89-116.  `istream::get` returns an `unsigned char`; `istream::read` reads as many characters
as fit unless the input ends. -/
def Reader.next (r : Reader) : Int × Reader :=
  match r.buffer with
  | b :: rest => (charToInt r.signed b, { r with buffer := rest })
  | [] =>
    if r.interactive then
      match r.stream with
      | [] => (EOF, r)
      | b :: rest => ((b : Int), { r with stream := rest })
    else
      match r.stream.take r.size with
      | [] => (EOF, { r with stream := r.stream.drop r.size })
      | b :: rest => (charToInt r.signed b, { r with buffer := rest, stream := r.stream.drop r.size })

/-- the state of the lexer: the source, `d_chPeeked` if `d_peekedChar`, and `d_token` -/
structure Lex where
  src : Reader
  saved : Option Int
  token : List Nat

/-- `CharacterClass`, lexer.h:180-189 -/
inductive CharClass where
  | WHITESPACE | DECIMAL_DIGIT | HEXADECIMAL_DIGIT | BIT | SYMBOL_START | SYMBOL
deriving DecidableEq, Repr

/-- `'a' <= b && b <= 'z' || 'A' <= b && b <= 'Z'` -/
def isLetter (b : Nat) : Bool := (decide (97 ≤ b) && decide (b ≤ 122)) || (decide (65 ≤ b) && decide (b ≤ 90))

/-- `s_extraSymbolChars`, lexer.h:191 -/
def extraSymbolChars : List Nat := bytes "+-/*=%?!.$_~&^<>@"

/-- `d_charClass`, as set by the constructor, lexer.cpp:28-75 -/
def charClass (b : Nat) : CharClass → Bool
  | .WHITESPACE => decide (b = 32) || decide (b = 9) || decide (b = 13) || decide (b = 10)
  | .DECIMAL_DIGIT => Str.isDigit b
  | .HEXADECIMAL_DIGIT => Str.isHexDigit b
  | .BIT => decide (b = 48) || decide (b = 49)
  | .SYMBOL_START => isLetter b || decide (b ∈ extraSymbolChars)
  | .SYMBOL => isLetter b || Str.isDigit b || decide (b ∈ extraSymbolChars) || decide (b = 58)

/-- `Lexer::isCharacterClass`, lexer.h:201-204 -/
def isCharacterClass (ch : Int) (cc : CharClass) : Bool := charClass (toByte ch) cc

/-- the two flags of the constructor: whether `let` and `Type` are tokens of their own -/
structure LexFlags where
  lexLet : Bool
  lexType : Bool

/-- the loop of `Lexer::tokenizeCurrentSymbol`, lexer.cpp:408-429, on the characters after `-`; `ret` is the
result so far -/
def tokenizeNegative : List Nat → Token → Token
  | [], ret => ret
  | c :: cs, ret =>
    if isCharacterClass (charToInt true c) .DECIMAL_DIGIT then tokenizeNegative cs ret
    else if cs ≠ [] ∧ ret = .INTEGER_LITERAL ∧ c = 46 then tokenizeNegative cs .DECIMAL_LITERAL
    else if cs ≠ [] ∧ ret = .INTEGER_LITERAL ∧ c = 47 then tokenizeNegative cs .RATIONAL_LITERAL
    else .SYMBOL

/-- `Lexer::tokenizeCurrentSymbol`, lexer.cpp:391-475 -/
def tokenizeCurrentSymbol (fl : LexFlags) (token : List Nat) : Token :=
  match token with
  | 33 :: cs => if cs = [] then .ATTRIBUTE else .SYMBOL
  | 45 :: cs => if cs = [] then .SYMBOL else tokenizeNegative cs .INTEGER_LITERAL
  | t =>
    if t = bytes "eo::define" then .EVAL_DEFINE
    else if t = bytes "par" then .PAR
    else if fl.lexLet ∧ t = bytes "let" then .LET
    else if t = bytes "Bool" then .BOOL_TYPE
    else if fl.lexType ∧ t = bytes "Type" then .TYPE
    else .SYMBOL

/-- `Lexer::nextChar`, lexer.h:118-141 -/
def Lex.nextChar (l : Lex) : Int × Lex :=
  match l.saved with
  | some c => (c, { l with saved := none })
  | none => let p := l.src.next; (p.1, { l with src := p.2 })

/-- `Lexer::saveChar`, lexer.h:143-148; the assertion that nothing is saved holds since it is only called after `nextChar` -/
def Lex.saveChar (ch : Int) (l : Lex) : Lex := { l with saved := some ch }

/-- `Lexer::pushToToken`, lexer.h:170-174 -/
def Lex.push (ch : Int) (l : Lex) : Lex := { l with token := l.token ++ [toByte ch] }

/-- `Lexer::parseCharList`, lexer.cpp:375-389 -/
def Lex.parseCharList (cc : CharClass) : Nat → Lex → Run (Lex)
  | 0, _ => .fuel
  | f + 1, l =>
    let p := l.nextChar
    if isCharacterClass p.1 cc then Lex.parseCharList cc f (p.2.push p.1) else .ok (p.2.saveChar p.1)

/-- `Lexer::parseChar`, lexer.cpp:349-359 -/
def Lex.parseChar (cc : CharClass) (l : Lex) : Bool × Lex :=
  let p := l.nextChar
  if isCharacterClass p.1 cc then (true, p.2.push p.1) else (false, p.2)

/-- `Lexer::parseNonEmptyCharList`, lexer.cpp:361-373 -/
def Lex.parseNonEmptyCharList (cc : CharClass) (f : Nat) (l : Lex) : Run (Bool × Lex) :=
  let p := l.nextChar
  if isCharacterClass p.1 cc then (Lex.parseCharList cc f (p.2.push p.1)).map fun l => (true, l) else .ok (false, p.2)

/-- the loop that skips white space and comments, lexer.cpp:202-222: the first character after it, or `EOF`.  `comment`: in the
inner loop of lexer.cpp:216-222. -/
def Lex.skip : Bool → Nat → Lex → Run (Int × Lex)
  | _, 0, _ => .fuel
  | false, f + 1, l =>
    let p := l.nextChar
    if p.1 = EOF then .ok p
    else if isCharacterClass p.1 .WHITESPACE then Lex.skip false f p.2
    else if p.1 = 59 then Lex.skip true f p.2
    else .ok p
  | true, f + 1, l =>
    let p := l.nextChar
    if p.1 = 10 then Lex.skip false f p.2 else if p.1 = EOF then .ok p else Lex.skip true f p.2

/-- the loop of a quoted symbol, lexer.cpp:231-239 -/
def Lex.quoted : Nat → Lex → Run (Token × Lex)
  | 0, _ => .fuel
  | f + 1, l =>
    let p := l.nextChar
    if p.1 = EOF then .ok (.UNTERMINATED_QUOTED_SYMBOL, p.2)
    else if p.1 = 124 then .ok (.QUOTED_SYMBOL, p.2.push p.1)
    else Lex.quoted f (p.2.push p.1)

/-- the loop of a string, lexer.cpp:269-289 -/
def Lex.string : Nat → Lex → Run (Token × Lex)
  | 0, _ => .fuel
  | f + 1, l =>
    let p := l.nextChar
    if p.1 = EOF then .ok (.UNTERMINATED_STRING_LITERAL, p.2)
    else if p.1 = 34 then
      let q := (p.2.push p.1).nextChar
      if q.1 = 34 then Lex.string f (q.2.push q.1) else .ok (.STRING_LITERAL, q.2.saveChar q.1)
    else Lex.string f (p.2.push p.1)

/-- what follows `#`, lexer.cpp:240-267 -/
def Lex.hash (f : Nat) (l : Lex) : Run (Token × Lex) :=
  let p := l.nextChar
  if p.1 = 98 then
    (Lex.parseNonEmptyCharList .BIT f (p.2.push p.1)).bind fun q => if q.1 then .ok (.BINARY_LITERAL, q.2) else .err
  else if p.1 = 120 then
    (Lex.parseNonEmptyCharList .HEXADECIMAL_DIGIT f (p.2.push p.1)).bind fun q => if q.1 then .ok (.HEX_LITERAL, q.2) else .err
  else .err

/-- what follows `:`, lexer.cpp:291-298; the result of `parseNonEmptyCharList` is not used -/
def Lex.keyword (f : Nat) (l : Lex) : Run (Token × Lex) :=
  let p := Lex.parseChar .SYMBOL_START l
  if p.1 then (Lex.parseNonEmptyCharList .SYMBOL f p.2).map fun q => (.KEYWORD, q.2) else .err

/-- what follows the first digit of a numeral, lexer.cpp:300-325 -/
def Lex.number (f : Nat) (l : Lex) : Run (Token × Lex) :=
  (Lex.parseCharList .DECIMAL_DIGIT f l).bind fun l =>
  let p := l.nextChar
  if p.1 = 46 ∨ p.1 = 47 then
    (Lex.parseNonEmptyCharList .DECIMAL_DIGIT f (p.2.push p.1)).bind fun q =>
      if q.1 then .ok ((if p.1 = 46 then .DECIMAL_LITERAL else .RATIONAL_LITERAL), q.2) else .err
  else .ok (.INTEGER_LITERAL, p.2.saveChar p.1)

/-- `Lexer::computeNextToken`, lexer.cpp:197-337, after `d_token.clear()` of `nextTokenInternal`, lexer.cpp:187-195; the null
character that `nextTokenInternal` adds is left out -/
def Lex.nextToken (fl : LexFlags) (f : Nat) (l : Lex) : Run (Token × Lex) :=
  (Lex.skip false f { l with token := [] }).bind fun p =>
  let ch := p.1
  if ch = EOF then .ok (.EOF_TOK, p.2)
  else
    let l := p.2.push ch
    if ch = 40 then .ok (.LPAREN, l)
    else if ch = 41 then .ok (.RPAREN, l)
    else if ch = 124 then Lex.quoted f l
    else if ch = 35 then Lex.hash f l
    else if ch = 34 then Lex.string f l
    else if ch = 58 then Lex.keyword f l
    else if isCharacterClass ch .DECIMAL_DIGIT then Lex.number f l
    else if isCharacterClass ch .SYMBOL_START then
      (Lex.parseCharList .SYMBOL f l).map fun l => (tokenizeCurrentSymbol fl l.token, l)
    else .err

/-- the tokens, with their characters, that the parser gets until the input ends or an error is reported: how
`Parser::parseNextCommand` (parser.cpp) consumes the lexer -/
def Lex.all (fl : LexFlags) (f : Nat) : Nat → Lex → Run (List (Token × List Nat))
  | 0, _ => .fuel
  | k + 1, l =>
    (Lex.nextToken fl f l).bind fun p =>
      if p.1 = .EOF_TOK then .ok [] else (Lex.all fl f k p.2).map ((p.1, p.2.token) :: ·)

/-- all tokens of an input; the bounds are large enough (`lexInput_total`) -/
def lexInput (fl : LexFlags) (r : Reader) : Run (List (Token × List Nat)) :=
  let n := r.buffer.length + r.stream.length
  Lex.all fl (n + 3) (n + 3) ⟨r, none, []⟩

/-! ## Names and strings of tokens -/

/-- `Lexer::tokenStr`, lexer.cpp:181-185: a C string, which ends at the first null character -/
def tokenStr (token : List Nat) : List Nat := token.takeWhile (· ≠ 0)

/-- `s.erase(0, 1); s.erase(s.size() - 1, 1)`; the second call throws `std::out_of_range` if `s` has become empty -/
def stripQuotes (s : List Nat) : Run (List Nat) := if s.length ≤ 1 then .err else .ok (s.drop 1).dropLast

/-- `ExprParser::tokenStrToSymbol`, expr_parser.cpp:934-954 -/
def tokenStrToSymbol (tok : Token) (token : List Nat) : Run (List Nat) :=
  match tok with
  | .SYMBOL => .ok (tokenStr token)
  | .QUOTED_SYMBOL => stripQuotes (tokenStr token)
  | _ => .err

/-- the second loop of `ExprParser::unescapeString`, expr_parser.cpp:1128-1138: after a `"` one character is skipped -/
def unescapeLoop : List Nat → List Nat
  | [] => []
  | [c] => [c]
  | c :: d :: s => if c = 34 then c :: unescapeLoop s else c :: unescapeLoop (d :: s)

/-- `ExprParser::unescapeString`, expr_parser.cpp:1114-1139.  Characters above 127 are an error unless `isprint` holds of them
(which, called with a negative value, has undefined behaviour except that it is false in the usual implementation). -/
def unescapeString (s : List Nat) : Run (List Nat) :=
  (stripQuotes s).bind fun s => if s.all (· ≤ 127) then .ok (unescapeLoop s) else .err

/-- the string value of a token `STRING_LITERAL`, expr_parser.cpp:338-346: the characters, with the escape sequences of `String` -/
def tokenString (token : List Nat) : Run (List Nat) := (unescapeString (tokenStr token)).map fun s => Str.toInternal s true

/-! ## Printing -/

/-- characters of simple symbols in `quoteSymbol`, expr.cpp:219-221 -/
def isSimpleChar (c : Nat) : Bool := isLetter c || Str.isDigit c || decide (c ∈ bytes "~!@$%^&*_-+=<>.?/")

/-- `quoteSymbol`, expr.cpp:203-239 -/
def quoteSymbol (s : List Nat) : List Nat :=
  if s = [] then [124, 124]
  else if s.take 4 = bytes "eo::" then s
  else if s.all isSimpleChar && !Str.isDigit (s.headD 0) then s
  else
    let tmp := if s.head? = some 124 ∧ s.getLast? = some 124 ∧ s.length > 1 then (s.drop 1).dropLast else s
    [124] ++ tmp.map (fun c => if c = 92 ∨ c = 124 then 95 else c) ++ [124]

/-- how `printDebugInternal` prints a string literal, expr.cpp:352 -/
def printString (s : List Nat) : List Nat := [34] ++ Str.toString s ++ [34]

end Ethos
