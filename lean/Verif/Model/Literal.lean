import Verif.Model.Util
/-
Model of `src/literal.{h,cpp}`.
-/
namespace Ethos

/-- class `Literal` restricted to the seven literal kinds, literal.h:23-55.  (Symbols are also stored
in `Literal` objects; they are `Term.sym` in the model.)  `Literal(ka, res)` with an `Integer` argument
goes through `Rational(const Integer&)` and stores a rational whose numerator is later read as the
integer (literal.cpp:202); the model takes the intended integer. -/
inductive Lit where
  | bool (b : Bool)
  | num (z : Int)
  | dec (q : Rat)
  | rat (q : Rat)
  | hex (b : BV)
  | bin (b : BV)
  | str (s : List Nat)
deriving DecidableEq, Repr

namespace Lit
open Kind

/-- `getKind()` of a literal. -/
def kind : Lit → Kind
  | bool _ => BOOLEAN
  | num _ => NUMERAL
  | dec _ => DECIMAL
  | rat _ => RATIONAL
  | hex _ => HEXADECIMAL
  | bin _ => BINARY
  | str _ => STRING

/-- `Literal::toString`, literal.cpp:88-112. -/
def toString : Lit → List Nat
  | bool b => if b then [116, 114, 117, 101] else [102, 97, 108, 115, 101]
  | dec q => Rational.toString q
  | rat q => if q.den = 1 then Rational.toString q ++ [47, 49] else Rational.toString q
  | num z => Integer.toString z
  | hex b => b.toString 16
  | bin b => b.toString
  | str s => Str.toString s

/-- `allSameKind`, literal.cpp:114-125 (`args` nonempty); NONE if the kinds differ. -/
def allSameKind : List Lit → Kind
  | [] => NONE
  | a :: as => if as.all (fun b => b.kind == a.kind) then a.kind else NONE

/-- `d_bv` of a literal of kind HEXADECIMAL or BINARY. -/
def bv : Lit → BV
  | hex b => b
  | bin b => b
  | _ => ⟨0, 0⟩

/-- `allSameBitWidth`, literal.cpp:127-138. -/
def allSameBitWidth : List Lit → Bool
  | [] => true
  | a :: as => as.all (fun b => b.bv.size == a.bv.size)

/-- one step of the Boolean fold, literal.cpp:179-185. -/
def boolStep (k : Kind) (r b : Bool) : Option Bool :=
  match k with
  | EVAL_AND => some (r && b)
  | EVAL_OR => some (r || b)
  | EVAL_XOR => some (r != b)
  | _ => none

/-- one step of the integer fold, literal.cpp:195-200. -/
def intStep (k : Kind) (r z : Int) : Option Int :=
  match k with
  | EVAL_ADD => some (r + z)
  | EVAL_MUL => some (r * z)
  | _ => none

/-- one step of the rational fold, literal.cpp:211-216. -/
def ratStep (k : Kind) (r q : Rat) : Option Rat :=
  match k with
  | EVAL_ADD => some (r + q)
  | EVAL_MUL => some (r * q)
  | _ => none

/-- one step of the bit-vector fold, literal.cpp:231-240. -/
def bvStep (k : Kind) (r b : BV) : Option BV :=
  match k with
  | EVAL_AND => some (r.and b)
  | EVAL_OR => some (r.or b)
  | EVAL_XOR => some (r.xor b)
  | EVAL_ADD => some (r.add b)
  | EVAL_MUL => some (r.mul b)
  | EVAL_CONCAT => some (r.concat b)
  | _ => none

/-- the `for` loops of the n-ary case: the first step that returns `Literal()` aborts. -/
def foldOpt {α β : Type} (step : α → β → Option α) : α → List β → Option α
  | r, [] => some r
  | r, b :: bs => match step r b with
    | some r' => foldOpt step r' bs
    | none => none

/-- `d_bool`, `d_int`, `d_rat`, `d_str` of a literal already known to be of that kind. -/
def asBool : Lit → Bool | bool b => b | _ => false
def asInt : Lit → Int | num z => z | _ => 0
def asRat : Lit → Rat | dec q => q | rat q => q | _ => 0
def asStr : Lit → List Nat | str s => s | _ => []

def ofOpt {α : Type} (f : α → Lit) : Option α → Res Lit
  | some a => .val (f a)
  | none => .null

/-- n-ary operators AND, OR, XOR, ADD, MUL, CONCAT: literal.cpp:165-262. -/
def evalNary (k : Kind) (a : Lit) (as : List Lit) : Res Lit :=
  match a with
  | bool b => ofOpt bool (foldOpt (boolStep k) b (as.map asBool))
  | num z => ofOpt num (foldOpt (intStep k) z (as.map asInt))
  | dec q => ofOpt dec (foldOpt (ratStep k) q (as.map asRat))
  | rat q => ofOpt rat (foldOpt (ratStep k) q (as.map asRat))
  | hex b =>
    if k != EVAL_CONCAT && !allSameBitWidth (a :: as) then .null
    else ofOpt hex (foldOpt (bvStep k) b (as.map bv))
  | bin b =>
    if k != EVAL_CONCAT && !allSameBitWidth (a :: as) then .null
    else ofOpt bin (foldOpt (bvStep k) b (as.map bv))
  | str s => if k = EVAL_CONCAT then .val (str ((as.map asStr).foldl (· ++ ·) s)) else .null

/-- EVAL_EXTRACT on a bit-vector, literal.cpp:355-373.  Line 366 tests `i2 > dsize`. -/
def extractBV (mk : BV → Lit) (b : BV) (i1 i2 : Int) : Lit :=
  let dsize : Int := b.size
  if i1 < 0 ∨ i2 < 0 ∨ i1 > dsize ∨ dsize = 0 then mk (BV.zero 0)
  else
    let v1 := Integer.toUnsignedInt i1
    let vs := Integer.toUnsignedInt dsize
    let v2 := if i2 > dsize then u32 ((vs : Int) - 1) else Integer.toUnsignedInt i2
    if v1 > v2 then mk (BV.zero 0) else mk (b.extract v2 v1)

/-- EVAL_EXTRACT on a string, literal.cpp:374-388.  `Integer(size_t)` goes through the
`unsigned int` constructor (integer.h:43). -/
def extractStr (s : List Nat) (i1 i2 : Int) : Lit :=
  let dsize : Int := u32 s.length
  if i1 < 0 ∨ i2 < 0 ∨ i1 > dsize ∨ dsize = 0 then str []
  else
    let v1 := Integer.toUnsignedInt i1
    let vs := Integer.toUnsignedInt dsize
    let v2 := if i2 ≥ dsize then u32 ((vs : Int) - 1) else Integer.toUnsignedInt i2
    let esize := if v2 ≥ v1 then u32 ((v2 : Int) + 1 - v1) else 0
    str (Str.substr s v1 esize)

/-- EVAL_TO_STRING, literal.cpp:436-460.  A numeral that is not a code point falls through to the
RATIONAL case (line 454). -/
def evalToString : Lit → Res Lit
  | dec q => .val (str (Str.toInternal (Rational.toString q) false))
  | num z =>
    if Integer.fitsUnsignedInt z ∧ Integer.toUnsignedInt z < Str.numCodes then
      .val (str [Integer.toUnsignedInt z])
    else .val (str (Str.toInternal (toString (num z)) false))
  | rat q => .val (str (Str.toInternal (toString (rat q)) false))
  | hex b => .val (str (Str.toInternal ([35, 120] ++ toString (hex b)) false))
  | bin b => .val (str (Str.toInternal ([35, 98] ++ toString (bin b)) false))
  | str s => .val (str s)
  | bool _ => .null

/-- `Literal::evaluate`, literal.cpp:140-494.  A read of `args[1]`/`args[2]` beyond the end of the
vector is the outcome `ub`. -/
def evaluate (k : Kind) (args : List Lit) : Res Lit :=
  match args with
  | [] => .ub
  | a :: as =>
    if k ≠ EVAL_EXTRACT ∧ k ≠ EVAL_TO_BIN ∧ allSameKind args = NONE then .null
    else
      match k with
      | EVAL_NOT => match a with
        | bool b => .val (bool (!b))
        | hex b => .val (hex b.not)
        | bin b => .val (bin b.not)
        | _ => .null
      | EVAL_AND | EVAL_OR | EVAL_XOR | EVAL_ADD | EVAL_MUL | EVAL_CONCAT => evalNary k a as
      | EVAL_NEG => match a with
        | num z => .val (num (-z))
        | dec q => .val (dec (-q))
        | rat q => .val (rat (-q))
        | hex b => .val (hex b.neg)
        | bin b => .val (bin b.neg)
        | _ => .null
      | EVAL_INT_DIV => match a, as with
        | num _, [] => .ub
        | num z, d :: _ => if d.asInt ≠ 0 then .val (num (Integer.euclidianDivideQuotient z d.asInt)) else .null
        | hex _, [] => .ub
        | bin _, [] => .ub
        | hex b, d :: _ => if allSameBitWidth args then .val (hex (b.unsignedDivTotal d.bv)) else .null
        | bin b, d :: _ => if allSameBitWidth args then .val (bin (b.unsignedDivTotal d.bv)) else .null
        | _, _ => .null
      | EVAL_INT_MOD => match a, as with
        | num _, [] => .ub
        | num z, d :: _ => if d.asInt ≠ 0 then .val (num (Integer.euclidianDivideRemainder z d.asInt)) else .null
        | hex _, [] => .ub
        | bin _, [] => .ub
        | hex b, d :: _ => if allSameBitWidth args then .val (hex (b.unsignedRemTotal d.bv)) else .null
        | bin b, d :: _ => if allSameBitWidth args then .val (bin (b.unsignedRemTotal d.bv)) else .null
        | _, _ => .null
      | EVAL_RAT_DIV => match a, as with
        | num _, [] => .ub
        | num z, d :: _ => if d.asInt ≠ 0 then .val (rat (Rational.mk z d.asInt)) else .null
        | dec _, [] => .ub
        | rat _, [] => .ub
        | dec q, d :: _ => if Rational.sgn d.asRat ≠ 0 then .val (rat (q / d.asRat)) else .null
        | rat q, d :: _ => if Rational.sgn d.asRat ≠ 0 then .val (rat (q / d.asRat)) else .null
        | _, _ => .null
      | EVAL_IS_NEG => match a with
        | num z => .val (bool (decide (z.sign = -1)))
        | dec q => .val (bool (decide (Rational.sgn q = -1)))
        | rat q => .val (bool (decide (Rational.sgn q = -1)))
        | _ => .null
      | EVAL_LENGTH => match a with
        | bin b => .val (num b.size)
        | str s => .val (num (u32 s.length))
        | _ => .null
      | EVAL_EXTRACT => match as with
        | [] => .ub
        | [num _] => .ub
        | [_] => .null   -- `args[1]->d_kind==NUMERAL` is false, so `args[2]` is not read
        | i1 :: i2 :: _ => match i1, i2 with
          | num i, num j => match a with
            | hex b => .val (extractBV hex b i j)
            | bin b => .val (extractBV bin b i j)
            | str s => .val (extractStr s i j)
            | _ => .null
          | _, _ => .null
      | EVAL_TO_INT => match a with
        | dec q => .val (num (Rational.floor q))
        | rat q => .val (num (Rational.floor q))
        | num z => .val (num z)
        | bin b => .val (num b.value)
        | str [c] => .val (num c)
        | _ => .null
      | EVAL_TO_RAT => match a with
        | rat q => .val (rat q)
        | dec q => .val (rat q)
        | num z => .val (rat z)
        | _ => .null
      | EVAL_TO_BIN => match a with
        | num n =>
          if Integer.fitsUnsignedInt n then
            match as with
            | [] => .ub
            | num v :: _ => .val (bin (BV.mk' (Integer.toUnsignedInt n) v))
            | hex b :: _ => .val (bin (BV.mk' (Integer.toUnsignedInt n) b.value))
            | bin b :: _ => .val (bin (BV.mk' (Integer.toUnsignedInt n) b.value))
            | _ => .null
          else .null
        | _ => .null
      | EVAL_TO_STRING => evalToString a
      | EVAL_GT => match a, as with
        | bool _, _ => .null
        | str _, _ => .null
        | _, [] => .ub
        | num z, d :: _ => .val (bool (decide (z > d.asInt)))
        | dec q, d :: _ => .val (bool (decide (q > d.asRat)))
        | rat q, d :: _ => .val (bool (decide (q > d.asRat)))
        | hex b, d :: _ => .val (bool (decide ((b.value : Int) > d.bv.value)))
        | bin b, d :: _ => .val (bool (decide ((b.value : Int) > d.bv.value)))
      | EVAL_FIND => match a, as with
        | str _, [] => .ub
        | str s, d :: _ => match Str.find s d.asStr with
          | none => .val (num (-1))
          | some i => .val (num (u32 i))
        | _, _ => .null
      | _ => .null

end Lit
end Ethos
