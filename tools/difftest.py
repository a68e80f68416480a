#!/usr/bin/env python3
"""Run the model on the regression files of the project (/repo/tests) and print the response for each.

This is a test of the model, not part of any proof: it compares the outcome of `mainText`, the model of reading and executing a
file, with the outcome the project expects of its files ("correct").  The base environment used here names variables, temporaries
and hashes by a coding of terms as numbers, so that different terms get different ones.

usage: difftest.py FUEL [file.eo ...]       (in /verif/lean, after lake build)
"""
import os, subprocess, sys, tempfile

LEAN = r'''
import Verif.Props.TextRun
import Verif.Lemmas.CmdExample
open Ethos Ethos.Props Kind
namespace DT
def eInt (z : Int) : Nat := if z < 0 then 2 * (-z).toNat + 1 else 2 * z.toNat
def dInt (n : Nat) : Int := if n % 2 = 1 then - ((n / 2 : Nat) : Int) else (n/2 : Nat)
def kinds : Array Kind := ((List.range 200).map fun i => Kind.ofNat i).toArray
partial def ser : Term → List Nat
  | .sym k i => [0, k.ctorIdx, i]
  | .lit (.bool b) => [1, if b then 1 else 0]
  | .lit (.num z) => [2, eInt z]
  | .lit (.dec q) => [3, eInt q.num, q.den]
  | .lit (.rat q) => [4, eInt q.num, q.den]
  | .lit (.str s) => 5 :: s.length :: s
  | .lit _ => [6]
  | .node k cs => 7 :: k.ctorIdx :: cs.length :: cs.flatMap ser
mutual
partial def des : List Nat → Option (Term × List Nat)
  | 0 :: k :: i :: r => some (.sym (Kind.ofNat k) i, r)
  | 1 :: b :: r => some (.lit (.bool (b == 1)), r)
  | 2 :: z :: r => some (.lit (.num (dInt z)), r)
  | 3 :: z :: d :: r => some (.lit (.dec (mkRat (dInt z) d)), r)
  | 4 :: z :: d :: r => some (.lit (.rat (mkRat (dInt z) d)), r)
  | 5 :: n :: r => some (.lit (.str (r.take n)), r.drop n)
  | 7 :: k :: n :: r => (dess n r).map fun p => (.node (Kind.ofNat k) p.1, p.2)
  | _ => none
partial def dess : Nat → List Nat → Option (List Term × List Nat)
  | 0, r => some ([], r)
  | n+1, r => (des r).bind fun p => (dess n p.2).map fun q => (p.1 :: q.1, q.2)
end
def digs (l : List Nat) : List Nat := l.flatMap fun n => (Nat.toDigits 10 n).map (fun c => c.toNat - 48) ++ [10]
def toNum (l : List Nat) : Nat := (digs l).foldl (fun a d => a * 11 + d) 1
partial def undigs (n : Nat) (acc : List Nat) : List Nat := if n ≤ 1 then acc else undigs (n / 11) (n % 11 :: acc)
def nums : List Nat → Nat → List Nat
  | [], _ => []
  | d :: r, cur => if d = 10 then cur :: nums r 0 else nums r (cur * 10 + d)
def ofNum (n : Nat) : List Nat := nums (undigs n []) 0
def bv (x : List Nat) (ty : Term) : Term := .sym VARIABLE (toNum (ser ty ++ x))
def hsh (t : Term) : Nat := toNum (ser t)
def exT : Env := { exB with
  boundVar := bv
  hash := hsh
  symType := fun t => match t with
    | .sym VARIABLE i => (des (ofNum i)).map Prod.fst
    | .sym CONST i => if i ≥ 14641 then (des (ofNum i)).map Prod.fst else exB.symType t
    | t => exB.symType t
  tmp := fun t => .sym CONST (toNum (ser t))
  dummy := fun n t => .sym CONST (toNum (ser t ++ [n]))
  symName := fun t => match t with
    | .sym VARIABLE i => ((des (ofNum i)).map Prod.snd).getD []
    | t => exB.symName t }
def load (dir : String) : IO (List (List Nat × List Nat)) := do
  let es ← System.FilePath.readDir dir
  let mut r := []
  for e in es do
    if e.fileName.endsWith ".eo" || e.fileName.endsWith ".smt2" then
      let b ← IO.FS.readBinFile e.path
      r := (bytes e.fileName, b.toList.map (·.toNat)) :: r
  return r
def test (f : String) (n d : Nat) (o : TextOpts := {}) (inc : List (Name × Bool) := []) : IO Unit := do
  let fs ← load "/repo/tests"
  let r := (mainText exT n true (fun x => fs.lookup x) d inc (.file (bytes f)) o (State.init exT 10)).map fun p => p.2
  IO.println s!"{f} {repr r}"
end DT
'''

def main():
    fuel = int(sys.argv[1])
    files = sys.argv[2:] or sorted(f for f in os.listdir('/repo/tests') if f.endswith('.eo'))
    for f in files:
        with tempfile.NamedTemporaryFile('w', suffix='.lean') as t:
            t.write(LEAN + f'#eval DT.test "{f}" {fuel} 8\n')
            t.flush()
            try:
                r = subprocess.run(['lake', 'env', 'lean', '-s', '60000', t.name], cwd='/verif/lean', capture_output=True, text=True, timeout=300)
                out = [l for l in r.stdout.splitlines() if l.startswith(f)]
                print(out[0] if out else f'{f} no result', flush=True)
            except subprocess.TimeoutExpired:
                print(f'{f} time', flush=True)

main()
