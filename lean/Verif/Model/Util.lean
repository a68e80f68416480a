import Verif.Model.Kind
/-
Model of `src/util/integer.cpp`, `src/util/rational.{h,cpp}`, `src/util/bitvector.{h,cpp}`,
`src/util/string.{h,cpp}`.

GMP integers are `Int`, GMP rationals are `Rat` (always canonical).  A C++
`std::string` is a list of bytes (`List Nat`, 0..255); a C++ `String` (vector of
unsigned code points) is a `List Nat`.
-/
namespace Ethos

/-- `unsigned int` / `uint32_t` arithmetic wraps modulo 2^32. -/
def u32 (n : Int) : Nat := (n % (2^32 : Int)).toNat

/-! ## Integer -/
namespace Integer

/-- `Integer::fitsUnsignedInt`, integer.cpp:101 (`mpz_class::fits_uint_p`, 32-bit unsigned). -/
def fitsUnsignedInt (z : Int) : Bool := decide (0 ≤ z) && decide (z < 2^32)

/-- `Integer::toUnsignedInt`, integer.cpp:103-106: `mpz_get_ui` takes the low bits of the absolute
value, the return type truncates to 32 bits. -/
def toUnsignedInt (z : Int) : Nat := z.natAbs % 2^32

/-- `Integer::modByPow2`, integer.cpp:185-190 (`mpz_fdiv_r_2exp`: floor remainder). -/
def modByPow2 (z : Int) (exp : Nat) : Int := Int.fmod z (2^exp : Int)

/-- `Integer::multiplyByPow2`, integer.cpp:80-85. -/
def multiplyByPow2 (z : Int) (pow : Nat) : Int := z * 2^pow

/-- `Integer::extractBitRange`, integer.cpp:108-118; `high` and `high + 1` are `uint32_t`. -/
def extractBitRange (z : Int) (bitCount low : Nat) : Int :=
  let high := u32 ((low : Int) + bitCount - 1)
  let rem := modByPow2 z (u32 ((high : Int) + 1))
  Int.fdiv rem (2^low : Int)

/-- the loop of `Integer::oneExtend`, integer.cpp:93-96: set bit `i`, `i+1`, … (`n` iterations). -/
def oneExtendLoop (res : Nat) (i : Nat) : Nat → Nat
  | 0 => res
  | n + 1 => oneExtendLoop (res ||| 2^i) (i + 1) n

/-- `Integer::oneExtend`, integer.cpp:87-99, for a nonnegative value.
`size + amount` wraps modulo 2^32. -/
def oneExtend (z : Nat) (size amount : Nat) : Nat :=
  oneExtendLoop z size (u32 ((size : Int) + amount) - size)

/-- `Integer::euclidianQR`, integer.cpp:134-169, as written (including the inner test
`r.sgn() >= 0`, which repeats the outer test on `r` instead of testing `y`).
`mpz_fdiv_qr` is floor division. -/
def euclidianQR (x y : Int) : Int × Int :=
  let q := Int.fdiv x y
  let r := Int.fmod x y
  if r < 0 then
    if r ≥ 0 then (q + (-1), r + y)
    else (q + 1, r + (-y))
  else (q, r)

/-- `Integer::euclidianDivideQuotient`, integer.cpp:171-176. -/
def euclidianDivideQuotient (x y : Int) : Int := (euclidianQR x y).1

/-- `Integer::euclidianDivideRemainder`, integer.cpp:178-183. -/
def euclidianDivideRemainder (x y : Int) : Int := (euclidianQR x y).2

/-- digits of `n` in base `b`, most significant first; `fuel` bounds the number of digits. -/
def digitsF (b : Nat) : Nat → Nat → List Nat
  | 0, n => [n]
  | f + 1, n => if n < b then [n] else digitsF b f (n / b) ++ [n % b]

/-- ASCII code of a digit, lower case (`mpz_class::get_str`, `std::hex`). -/
def digitChar (d : Nat) : Nat := if d < 10 then 48 + d else 97 + (d - 10)

/-- printing a natural number in base `b` (GMP `get_str`, `operator<<` with `std::hex`). -/
def natToString (b n : Nat) : List Nat := (digitsF b n n).map digitChar

/-- `Integer::toString`, integer.cpp:201 (`get_str(base)`; a minus sign for negative numbers). -/
def toString (z : Int) (base : Nat := 10) : List Nat :=
  if z < 0 then 45 :: natToString base z.natAbs else natToString base z.natAbs

/-- value of an ASCII digit as accepted by GMP for bases up to 16 (both letter cases). -/
def digitVal (c : Nat) : Nat :=
  if 48 ≤ c ∧ c ≤ 57 then c - 48
  else if 97 ≤ c ∧ c ≤ 102 then c - 97 + 10
  else if 65 ≤ c ∧ c ≤ 70 then c - 65 + 10
  else 0

/-- `mpz_class(s, base)` on a string of digits. -/
def natOfString (b : Nat) (s : List Nat) : Nat := s.foldl (fun acc c => acc * b + digitVal c) 0

end Integer

/-! ## Rational -/
namespace Rational

/-- `Rational::floor`, rational.h:72-77. -/
def floor (q : Rat) : Int := Int.fdiv q.num q.den

/-- `Rational(n, d)` for `d ≠ 0`, rational.h:62-66. -/
def mk (n d : Int) : Rat := (n : Rat) / (d : Rat)

/-- `Rational::sgn`, rational.h:70. -/
def sgn (q : Rat) : Int := q.num.sign

/-- `Rational::toString`, rational.cpp:47 (`mpq_class::get_str`: `num` or `num/den`). -/
def toString (q : Rat) : List Nat :=
  if q.den = 1 then Integer.toString q.num
  else Integer.toString q.num ++ 47 :: Integer.natToString 10 q.den

end Rational

/-! ## BitVector -/

/-- class `BitVector`, bitvector.h:20-132.  `d_value` is a GMP integer that the constructors keep
nonnegative; it is a `Nat` here. -/
structure BV where
  size : Nat
  value : Nat
deriving DecidableEq, Repr

namespace BV

/-- `BitVector(unsigned size, const Integer& val)`, bitvector.h:23-26. -/
def mk' (size : Nat) (val : Int) : BV := ⟨size, (Integer.modByPow2 val size).toNat⟩

/-- `BitVector(unsigned size)`, bitvector.h:28. -/
def zero (size : Nat) : BV := ⟨size, 0⟩

/-- `BitVector(const std::string&, base)`, bitvector.cpp:15-28 (base 2 or 16; `num` digits only).
`num.size()` is converted to `unsigned`. -/
def ofString (num : List Nat) (base : Nat) : BV :=
  ⟨if base = 16 then u32 (num.length * 4) else u32 num.length, Integer.natOfString base num⟩

/-- `BitVector::toString`, bitvector.cpp:36-54. -/
def toString (b : BV) (base : Nat := 2) : List Nat :=
  let str := Integer.natToString base b.value
  if base = 2 ∧ b.size > str.length then
    List.replicate (b.size - str.length) 48 ++ str
  else if b.size = 0 then []
  else str

/-- `BitVector::concat`, bitvector.cpp:67-71; the sum of the sizes is an `unsigned`. -/
def concat (a b : BV) : BV :=
  mk' (u32 ((a.size : Int) + b.size)) (Integer.multiplyByPow2 a.value b.size + b.value)

/-- `BitVector::extract`, bitvector.cpp:73-79; sizes are `unsigned`.  The two assertions are only
compiled in debug builds and are not modelled. -/
def extract (a : BV) (high low : Nat) : BV :=
  mk' (u32 ((high : Int) - low + 1)) (Integer.extractBitRange a.value (u32 ((high : Int) - low + 1)) low)

/-- `operator^`, bitvector.cpp:91-95. -/
def xor (a b : BV) : BV := mk' a.size ((a.value ^^^ b.value : Nat) : Int)
/-- `operator|`, bitvector.cpp:97-101. -/
def or (a b : BV) : BV := mk' a.size ((a.value ||| b.value : Nat) : Int)
/-- `operator&`, bitvector.cpp:103-107. -/
def and (a b : BV) : BV := mk' a.size ((a.value &&& b.value : Nat) : Int)
/-- `operator~`, bitvector.cpp:109-112; `bitwiseNot` is `mpz_com`, i.e. `-v - 1` (integer.cpp:73-78). -/
def not (a : BV) : BV := mk' a.size (-(a.value : Int) - 1)
/-- `operator+`, bitvector.cpp:116-121. -/
def add (a b : BV) : BV := mk' a.size ((a.value : Int) + b.value)
/-- unary `operator-`, bitvector.cpp:123-127. -/
def neg (a : BV) : BV := add (not a) (mk' a.size 1)
/-- `operator*`, bitvector.cpp:129-134. -/
def mul (a b : BV) : BV := mk' a.size ((a.value : Int) * b.value)

/-- `BitVector::unsignedDivTotal`, bitvector.cpp:136-147; `d_size - 1` is `unsigned`. -/
def unsignedDivTotal (a y : BV) : BV :=
  if y.value = 0 then mk' a.size (Integer.oneExtend 1 1 (u32 ((a.size : Int) - 1)))
  else mk' a.size (Int.fdiv a.value y.value)

/-- `BitVector::unsignedRemTotal`, bitvector.cpp:149-159. -/
def unsignedRemTotal (a y : BV) : BV :=
  if y.value = 0 then mk' a.size a.value
  else mk' a.size (Int.fmod a.value y.value)

end BV

/-! ## String -/
namespace Str

/-- `String::num_codes`, string.h:37. -/
def numCodes : Nat := 196608

/-- `String::isDigit`, string.cpp:320-324. -/
def isDigit (c : Nat) : Bool := decide (48 ≤ c) && decide (c ≤ 57)

/-- `String::isHexDigit`, string.cpp:326-331. -/
def isHexDigit (c : Nat) : Bool :=
  isDigit c || (decide (65 ≤ c) && decide (c ≤ 70)) || (decide (97 ≤ c) && decide (c ≤ 102))

/-- `String::isPrintable`, string.cpp:333-337. -/
def isPrintable (c : Nat) : Bool := decide (32 ≤ c) && decide (c ≤ 126)

/-- `String::addCharToInternal`, string.cpp:55-69: the characters pushed (none if unprintable).
The bound is 127 as in the code. -/
def addChar (ch : Nat) : List Nat := if ch > 127 ∨ ch < 32 then [] else [ch]

/-- result of the inner `while` loop of `toInternal` -/
structure Esc where
  isEscapeSequence : Bool
  isEnd : Bool
  hexString : List Nat
  nonEscCache : List Nat
  rest : List Nat

/-- inner `while (i < s.size())` loop of `String::toInternal`, string.cpp:108-154; the argument is the
remaining input `s[i..]`. -/
def escLoop (isStart hasBrace : Bool) (hex cache : List Nat) : List Nat → Esc
  | [] => ⟨true, false, hex, cache, []⟩
  | si :: rest =>
    if isStart && si == 123 then
      -- possibly read '{'
      escLoop false true hex (cache ++ addChar si) rest
    else if !isStart && si == 125 then
      -- '}': can only end if we had an open brace and read at least one digit
      ⟨hasBrace && !hex.isEmpty, true, hex, cache ++ addChar si, rest⟩
    else if !isHexDigit si then
      ⟨false, false, hex, cache, si :: rest⟩
    else
      let hex' := hex ++ [si]
      let cache' := cache ++ addChar si
      if !hasBrace && hex'.length == 4 then
        ⟨true, true, hex', cache', rest⟩
      else if hasBrace && decide (hex'.length > 5) then
        ⟨false, false, hex', cache', rest⟩
      else escLoop false hasBrace hex' cache' rest

/-- processing of a backslash, string.cpp:86-186; `rest` is the input after the backslash.
Returns the code points appended to `str` and the remaining input. -/
def escape (rest : List Nat) : List Nat × List Nat :=
  match rest with
  | 117 :: rest' =>
    let e := escLoop true false [] (addChar 92 ++ addChar 117) rest'
    -- string.cpp:155-160
    if e.isEscapeSequence && e.isEnd then
      let val := Integer.natOfString 16 e.hexString
      if val ≥ numCodes then (e.nonEscCache, e.rest) else ([val], e.rest)
    else (e.nonEscCache, e.rest)
  | _ => (addChar 92, rest)

/-- outer `while` loop of `String::toInternal`, string.cpp:71-195.  `fuel` is the length of the input:
each iteration consumes at least one character. -/
def toInternalF (useEsc : Bool) : Nat → List Nat → List Nat
  | 0, _ => []
  | _ + 1, [] => []
  | f + 1, si :: rest =>
    if si != 92 || !useEsc then addChar si ++ toInternalF useEsc f rest
    else
      let (out, rest') := escape rest
      out ++ toInternalF useEsc f rest'

/-- `String::toInternal`, string.cpp:71-195. -/
def toInternal (s : List Nat) (useEsc : Bool) : List Nat := toInternalF useEsc s.length s

/-- one character of `String::toString(false)`, string.cpp:199-213. -/
def printChar (c : Nat) : List Nat :=
  if isPrintable c && c != 92 then [c]
  else [92, 117, 123] ++ Integer.natToString 16 c ++ [125]

/-- `String::toString`, string.cpp:197-215 with the default `useEscSequences = false`. -/
def toString (s : List Nat) : List Nat := s.flatMap printChar

/-- `std::search` from position `i` on: the least position where `y` is a prefix. -/
def search (y : List Nat) : List Nat → Nat → Option Nat
  | [], i => if y.isPrefixOf [] then some i else none
  | c :: s, i => if y.isPrefixOf (c :: s) then some i else search y s (i + 1)

/-- `String::find` with `start = 0`, string.cpp:239-250; `none` is `npos`. -/
def find (s y : List Nat) : Option Nat :=
  if s.length < y.length then none
  else if y.length = 0 then some 0
  else if s.length = 0 then none
  else search y s 0

/-- `String::substr`, string.cpp:299-305: characters `i .. i+j-1` (the caller ensures `i + j ≤ size`). -/
def substr (s : List Nat) (i j : Nat) : List Nat := (s.drop i).take j

end Str
end Ethos
