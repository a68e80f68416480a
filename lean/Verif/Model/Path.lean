import Verif.Model.Lexer
/-
File paths, util/filesystem.cpp, in the version without `USE_CPP_FILESYSTEM` (which is only defined on Windows, CMakeLists.txt:42-44).
Paths are lists of bytes.
-/
namespace Ethos

/-- the blanks at the end removed -/
def trimEnd (s : List Nat) : List Nat := (s.reverse.dropWhile (· = 32)).reverse

/-- `Filepath::Filepath`, filesystem.cpp:20-53: blanks at both ends are removed, unless there is nothing else -/
def filepath (s : List Nat) : List Nat := if s.all (· = 32) then s else trimEnd (s.dropWhile (· = 32))

/-- `Filepath::isAbsolute`, filesystem.cpp:62-74; the character at position 0 of an empty string is the null character -/
def isAbsolute (s : List Nat) : Bool := decide (s.head? = some 47)

/-- what the loop of `makeCanonical` computes: `parent_prefix_len` and `segments` (here their texts) -/
structure Segments where
  parents : Nat
  segs : List (List Nat)

/-- the treatment of a segment that ends with `/`, filesystem.cpp:127-157 -/
def Segments.add (st : Segments) (d : List Nat) : Segments :=
  if d = [] then st
  else if d = bytes "." then st
  else if d = bytes ".." then if st.segs = [] then { st with parents := st.parents + 1 } else { st with segs := st.segs.dropLast }
  else { st with segs := st.segs ++ [d] }

/-- the loop of `makeCanonical`, filesystem.cpp:110-158, on the characters from `start` on that have not been searched for `/`; `d` is
the text from `start` to there.  The last segment is added as it is. -/
def canonLoop : List Nat → List Nat → Segments → Segments
  | [], d, st => { st with segs := st.segs ++ [d] }
  | c :: cs, d, st => if c = 47 then canonLoop cs [] (st.add d) else canonLoop cs (d ++ [c]) st

/-- the loop that writes the segments, filesystem.cpp:173-181 -/
def joinSegs : List (List Nat) → List Nat
  | [] => []
  | [d] => d
  | d :: ds => d ++ [47] ++ joinSegs ds

/-- `Filepath::makeCanonical`, filesystem.cpp:95-186.  A `/` at the beginning makes the path absolute and is skipped. -/
def makeCanonical (s : List Nat) : List Nat :=
  if s = [] then s
  else
    let st := canonLoop (if isAbsolute s then s.drop 1 else s) [] ⟨0, []⟩
    (if isAbsolute s then [47] else []) ++ (List.replicate st.parents (bytes "../")).flatten ++ joinSegs st.segs

/-- `Filepath::parentPath`, filesystem.cpp:188-207: everything up to the last `/` -/
def parentPath (s : List Nat) : List Nat := filepath (s.reverse.dropWhile (· ≠ 47)).reverse

/-- the path of an included file, state.cpp:287-299, where `current` is the path of the file that includes it; both are the values of
`Filepath` objects except that `s` is the string written in the command -/
def includePath (current s : List Nat) : List Nat :=
  let file := filepath s
  makeCanonical (if isAbsolute file then file else parentPath current ++ file)

end Ethos
