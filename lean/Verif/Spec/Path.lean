import Verif.Model.Lexer
/-
What a path denotes in a file system without symbolic links.
-/
namespace Ethos.Spec
open Ethos

/-- files, with a number that identifies them, and directories -/
inductive FTree where
  | file (id : Nat)
  | dir (entries : List (List Nat × FTree))

/-- the parts between the slashes -/
def split : List Nat → List (List Nat)
  | [] => [[]]
  | c :: cs => if c = 47 then [] :: split cs else
    match split cs with
    | [] => [[c]]
    | d :: ds => (c :: d) :: ds

/-- Following the segments of a path from a directory.  A position is given with all directories above it, up to the root. -/
def walk : List FTree → List (List Nat) → Option (List FTree)
  | pos, [] => some pos
  | .dir es :: up, d :: ds =>
    if d = [] ∨ d = bytes "." then walk (.dir es :: up) ds
    else if d = bytes ".." then walk (if up = [] then [.dir es] else up) ds
    else (es.lookup d).bind fun x => walk (x :: .dir es :: up) ds
  | _, _ :: _ => none

/-- where a path begins: at the root or at the current directory -/
def origin (root : FTree) (cwd : List FTree) (s : List Nat) : List FTree := if s.head? = some 47 then [root] else cwd

/-- the file that the path `s` denotes, if it denotes a file -/
def opens (root : FTree) (cwd : List FTree) (s : List Nat) : Option Nat :=
  match walk (origin root cwd s) (split s) with
  | some (.file id :: _) => some id
  | _ => none

/-- the directory in which the file with the path `s` is -/
def directory (root : FTree) (cwd : List FTree) (s : List Nat) : Option (List FTree) := walk (origin root cwd s) (split s).dropLast

/-- a name of a file or directory: not empty, not `.` or `..`, without slash -/
def FileName (d : List Nat) : Prop := d ≠ [] ∧ d ≠ bytes "." ∧ d ≠ bytes ".." ∧ 47 ∉ d

/-- the path with the directories `ds` and the last segment `l` -/
def pathText (absolute : Bool) (ds : List (List Nat)) (l : List Nat) : List Nat := (if absolute then [47] else []) ++ ds.flatMap (· ++ [47]) ++ l

/-- the same path spelled differently: `.` segments, additional slashes, and names followed by `..` -/
inductive Respelled : List (List Nat) → List (List Nat) → Prop
  | refl (ds) : Respelled ds ds
  | symm {ds es} : Respelled ds es → Respelled es ds
  | trans {ds es fs} : Respelled ds es → Respelled es fs → Respelled ds fs
  | slash (ds es) : Respelled (ds ++ es) (ds ++ [[]] ++ es)
  | dot (ds es) : Respelled (ds ++ es) (ds ++ [bytes "."] ++ es)
  | parent (ds es) (x) : FileName x → Respelled (ds ++ es) (ds ++ [x, bytes ".."] ++ es)

end Ethos.Spec
