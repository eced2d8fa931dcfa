import Verif.Util.Split

/-!
# Model of lexical path handling

Source: `src/utils/cpp/path.hpp`, `src/utils/cpp/path_rebase.hpp`, and the lexical part of
`std::filesystem::path` (POSIX) they rely on.  `std::filesystem` is transcribed from its contract in
the C++ standard ([fs.path.generic], [fs.path.gen], [fs.path.append], [fs.path.decompose]) and the
algorithm used by libstdc++ for `lexically_normal`; this transcription is part of the trusted base.

A `path` is the string it was constructed from.
-/

namespace Verif.Path

/-- The filename `.`. -/
abbrev dot : Str := ['.']

/-- The filename `..`. -/
abbrev dotdot : Str := ['.', '.']

/-- [fs.path.query]: `is_absolute` (for POSIX the same as `has_root_directory`). -/
def isAbs : Str → Bool
  | [] => false
  | c :: _ => c == '/'

/-- [fs.path.itr]: the filenames of a path, without the root directory and without the empty
filename behind a trailing separator. -/
def names (s : Str) : List Str := (splitAt '/' s).filter (fun a => !a.isEmpty)

/-- Whether the path has the empty filename behind a trailing separator as last element. -/
def hasTrail (s : Str) : Bool := !(names s).isEmpty && s.getLast? == some '/'

/-- [fs.path.itr]: the elements of a path. -/
def elems (s : Str) : List Str :=
  (if isAbs s then [['/']] else []) ++ names s ++ (if hasTrail s then [[]] else [])

/-- [fs.path.decompose]: `filename`. -/
def filename (s : Str) : Str := (s.reverse.takeWhile (fun c => c != '/')).reverse

/-- [fs.path.decompose]: `parent_path`. -/
def parentPath (s : Str) : Str :=
  if (names s).isEmpty then s
  else if s.getLast? == some '/' then (s.reverse.dropWhile (fun c => c == '/')).reverse
  else
    let r1 := s.reverse.dropWhile (fun c => c != '/')
    if r1.isEmpty then []
    else
      let r2 := r1.dropWhile (fun c => c == '/')
      if r2.isEmpty then ['/'] else r2.reverse

/-- [fs.path.append]: `operator/`. -/
def append (p q : Str) : Str :=
  if isAbs q then q
  else if p.isEmpty || p.getLast? == some '/' then p ++ q
  else p ++ '/' :: q

/-- The result under construction in `lexically_normal`: root directory, filenames (last one first),
and whether there is a trailing separator. -/
structure Norm where
  abs : Bool
  rev : List Str
  trail : Bool

/-- [fs.path.gen]: treatment of one element in `lexically_normal` as implemented in libstdc++
(`fs_path.cc`). -/
def Norm.step (r : Norm) (p : Str) : Norm :=
  if p = dotdot then
    match r.rev with
    | [] => if r.abs then r else { r with rev := [dotdot], trail := false }
    | t :: ts =>
      if t = dotdot then { r with rev := dotdot :: t :: ts, trail := false }
      else { r with rev := ts, trail := !ts.isEmpty }
  else if p = dot ∨ p = [] then { r with trail := !r.rev.isEmpty }
  else { r with rev := p :: r.rev, trail := false }

/-- String of the result. -/
def Norm.str (r : Norm) : Str :=
  (if r.abs then ['/'] else []) ++ joinWith '/' r.rev.reverse ++ (if r.trail then ['/'] else [])

/-- [fs.path.gen]: last steps of `lexically_normal`: no trailing separator after `..`, and `.`
instead of the empty path. -/
def Norm.finish (r : Norm) : Str :=
  let r' := if r.rev.head? = some dotdot then { r with trail := false } else r
  if r'.str = [] then dot else r'.str

/-- [fs.path.gen]: `lexically_normal`. -/
def lexNormal (s : Str) : Str :=
  if s = [] then []
  else
    ((names s ++ if hasTrail s then [[]] else []).foldl Norm.step ⟨isAbs s, [], false⟩).finish

/-- path.hpp:21-31 (`ToNormalPath`). -/
def toNormalPath (s : Str) : Str :=
  let n := lexNormal s
  let n' := if filename n = [] then parentPath n else n
  if n' = [] then dot else n'

/-- Result of a predicate; `ub` for dereferencing the end iterator. -/
inductive Answer where
  | val (b : Bool)
  | ub
  deriving DecidableEq

/-- path.hpp:36-43 (`PathIsNonUpwards`).  For the empty path, `begin` is the end iterator, and
dereferencing it is undefined. -/
def nonUpwards (s : Str) : Answer :=
  if isAbs s then .val false
  else
    match elems (lexNormal s) with
    | [] => .ub
    | e :: _ => .val (e != dotdot)

/-- path.hpp:51-60 (`PathIsConfined`). -/
def confined (path appliedTo : Str) : Answer :=
  if isAbs path then .val false else nonUpwards (append (parentPath appliedTo) path)

/-- path.hpp:63-71 (`IsValidFileName`).  The NUL in the literal `"/\0"` ends the C string, so that
only slashes are searched for. -/
def isValidFileName (s : Str) : Bool :=
  if '/' ∈ s then false
  else !(s.isEmpty || s == dot || s == dotdot)

/-- Common prefix removed from both lists (`std::mismatch`). -/
def mismatch : List Str → List Str → List Str × List Str
  | a :: as, b :: bs => if a = b then mismatch as bs else (a :: as, b :: bs)
  | as, bs => (as, bs)

/-- [fs.path.gen]: number of filenames that are neither empty nor `.` nor `..`. -/
def countNames (l : List Str) : Nat :=
  l.countP (fun a => !(a.isEmpty || a == dot || a == dotdot))

/-- [fs.path.gen]: `lexically_relative`. -/
def lexRelative (s base : Str) : Str :=
  if isAbs s ≠ isAbs base then []
  else
    let (a, b) := mismatch (elems s) (elems base)
    if a = [] ∧ b = [] then dot
    else
      let pos := countNames b
      let neg := b.countP (fun x => x == dotdot)
      if pos < neg then []
      else if pos = neg ∧ (a = [] ∨ a.head? = some []) then dot
      else (List.replicate (pos - neg) dotdot ++ a).foldl append []

/-- path_rebase.hpp:23-27 (`RebasePathStringRelativeTo`). -/
def rebase (base path : Str) : Str := lexRelative path base

end Verif.Path
