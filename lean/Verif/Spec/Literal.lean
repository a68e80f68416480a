import Verif.Model.Literal
/-
Specification vocabulary for literals, independent of the evaluator.
-/
namespace Ethos.Spec
open Ethos

/-- arithmetic categories of the manual -/
inductive Cat where
  | numeral | decimal | rational
deriving DecidableEq, Repr

/-- category and mathematical value of an arithmetic value -/
def arith : Lit → Option (Cat × Rat)
  | .num z => some (.numeral, (z : Rat))
  | .dec q => some (.decimal, q)
  | .rat q => some (.rational, q)
  | _ => none

/-- the binary value with the bits of `x` -/
def bvOf {w : Nat} (x : BitVec w) : BV := ⟨w, x.toNat⟩

/-- the two bitwise categories -/
inductive BCat where
  | hexadecimal | binary
deriving DecidableEq, Repr

/-- a bitwise value -/
def bvLit (c : BCat) {w : Nat} (x : BitVec w) : Lit :=
  match c with
  | .hexadecimal => .hex (bvOf x)
  | .binary => .bin (bvOf x)

/-- characters of `s` at the positions `p` with `i ≤ p ≤ j`; empty when a bound is negative -/
def slice (s : List Nat) (i j : Int) : List Nat :=
  if i < 0 ∨ j < 0 then []
  else (s.zipIdx.filter (fun cp => decide (i ≤ cp.2) && decide ((cp.2 : Int) ≤ j))).map Prod.fst

/-- bits of `x` at the positions `p` with `i ≤ p ≤ j`; the empty bit-vector when a bound is negative
or there is no such position -/
def bitSlice (c : BCat) {w : Nat} (x : BitVec w) (i j : Int) : Lit :=
  if 0 ≤ i ∧ i ≤ j ∧ i < w then
    bvLit c (x.extractLsb' i.toNat ((min j ((w : Int) - 1)).toNat + 1 - i.toNat))
  else bvLit c (0#0)

/-- `t` occurs in `s` at position `i` -/
def OccursAt (s t : List Nat) (i : Nat) : Prop := ∃ u v, s = u ++ t ++ v ∧ u.length = i

/-- well-formed literals: a bit-vector's value is below `2^width` and its width is a 32-bit number,
string characters are code points of Unicode planes 0-2. -/
def WfLit : Lit → Prop
  | .hex b => b.value < 2^b.size ∧ b.size < 2^32
  | .bin b => b.value < 2^b.size ∧ b.size < 2^32
  | .str s => ∀ c ∈ s, c < 196608
  | _ => True

/-- value of a digit character (`0`-`9`, `a`-`f`) -/
def digitValue (c : Nat) : Option Nat :=
  if 48 ≤ c ∧ c ≤ 57 then some (c - 48)
  else if 97 ≤ c ∧ c ≤ 102 then some (c - 87)
  else none

/-- positional value of a list of digits -/
def positional (b : Nat) : List Nat → Nat
  | [] => 0
  | d :: ds => d * b ^ ds.length + positional b ds

/-- `s` is the usual base-`b` notation of `n`: digits below `b`, no superfluous leading zero. -/
def IsNotation (b : Nat) (s : List Nat) (n : Nat) : Prop :=
  ∃ ds : List Nat, ds ≠ [] ∧ s.map digitValue = ds.map some ∧ (∀ d ∈ ds, d < b)
    ∧ (∀ d rest, ds = d :: rest → d = 0 → rest = []) ∧ positional b ds = n

/-- usual base-10 notation of an integer -/
def IsIntNotation (s : List Nat) (z : Int) : Prop :=
  (0 ≤ z ∧ IsNotation 10 s z.natAbs) ∨ (z < 0 ∧ ∃ t, s = 45 :: t ∧ IsNotation 10 t z.natAbs)

end Ethos.Spec
