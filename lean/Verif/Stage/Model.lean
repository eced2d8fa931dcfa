import Verif.Path.Model

/-!
# Model of staging: maps from paths to artifacts

Source: `src/buildtool/build_engine/target_map/utils.cpp`,
`src/buildtool/build_engine/target_map/target_map.cpp`,
`src/buildtool/execution_api/bazel_msg/directory_tree.cpp`.

Maps of expressions are ordered maps (by C01); artifacts are an arbitrary type with decidable equality.
-/

namespace Verif.Stage

open Verif.Path

variable {A : Type} [DecidableEq A]

/-- utils.cpp:110-122 (`artifacts_tree`): the loop over the entries; the error is the location of the
conflict. -/
def artifactsTreeGo : List (Str × A) → OMap Str A → Except Str (OMap Str A)
  | [], r => .ok r
  | (key, a) :: t, r =>
    let loc := toNormalPath key
    match r.find loc with
    | some b => if b = a then artifactsTreeGo t (r.emplace loc a) else .error loc
    | none => artifactsTreeGo t (r.emplace loc a)

/-- utils.cpp:110-122 (`artifacts_tree`). -/
def artifactsTree (m : OMap Str A) : Except Str (OMap Str A) := artifactsTreeGo m.items OMap.empty

/-- Result of the search for conflicts; `ub` for dereferencing the end iterator of an empty path. -/
inductive Check where
  | ok
  | conflict (p : Str)
  | ub
  deriving DecidableEq

/-- utils.cpp:153: the paths visited by `for (; not p.empty(); p = p.parent_path())`.  The fuel is
sufficient for relative paths, as a parent path is shorter; the code does not terminate on absolute
ones. -/
def upTo : Nat → Str → List Str
  | 0, _ => []
  | n + 1, p => if p = [] then [] else p :: upTo n (parentPath p)

/-- utils.cpp:153: proper parents of a path. -/
def parents (p : Str) : List Str := upTo p.length (parentPath p)

/-- utils.cpp:137-161 (`tree_conflict`): the loop over the entries.  Paths are compared element by
element (`std::filesystem::path::operator==`); `blocked` contains the elements of the paths seen. -/
def treeConflictGo (size : Nat) : List (Str × A) → List (List Str) → Check
  | [], _ => .ok
  | (path, _) :: t, blocked =>
    if path = dot ∧ 1 < size then .conflict dot
    else if isAbs path then .conflict path
    else if elems path = [] then .ub
    else if (elems path).head? = some dotdot then .conflict path
    else if elems path ∈ blocked then .conflict path
    else
      match (parents path).find? (fun p => decide (elems p ∈ elems path :: blocked)) with
      | some p => .conflict p
      | none => treeConflictGo size t (elems path :: blocked)

/-- utils.cpp:124-162 (`tree_conflict`). -/
def treeConflict (m : OMap Str A) : Check := treeConflictGo m.items.length m.items []

/-- Result of checking a stage. -/
inductive Staged (A : Type) where
  | ok (m : OMap Str A)
  | conflict (p : Str)
  | ub

/-- target_map.cpp:591-603 (inputs of actions), 1016-1058 (artifacts and runfiles of a target):
normalise the stage and search for conflicts. -/
def checkStage (m : OMap Str A) : Staged A :=
  match artifactsTree m with
  | .error p => .conflict p
  | .ok m' =>
    match treeConflict m' with
    | .ok => .ok m'
    | .conflict p => .conflict p
    | .ub => .ub

/-- target_map.cpp:343-352: the content of a tree as collected by `ExprToTree`. -/
def treeContent : List (Str × A) → OMap Str A → OMap Str A
  | [], r => r
  | (key, a) :: t, r => treeContent t (r.emplace (toNormalPath key) a)

/-- target_map.cpp:331-360 (`ExprToTree`), for a map of artifacts. -/
def exprToTree (m : OMap Str A) : Staged A :=
  match treeConflict m with
  | .ok => .ok (treeContent m.items OMap.empty)
  | .conflict p => .conflict p
  | .ub => .ub

/-- utils.cpp:162-201 (`add_dir_for`): whether the directory `cwd` may be added to the stage. -/
def mayAddDir (cwd : Str) (m : OMap Str A) : Bool :=
  m.items.all (fun e =>
    !(e.1.isEmpty || e.1 == dot) &&
    !((upTo (cwd.length + 1) cwd).any (fun c => decide (elems c = elems e.1))) &&
    !((upTo (e.1.length + 1) e.1).any (fun p => decide (elems p = elems cwd))))

/-- utils.cpp:162-201 (`add_dir_for`); `empty` is the artifact of the empty tree. -/
def addDirFor (empty : A) (cwd : Str) (m : OMap Str A) : OMap Str A :=
  if cwd = [] ∨ cwd = dot then m
  else if mayAddDir cwd m then m.assign cwd empty
  else m

/-! ## Directory trees -/

/-- directory_tree.hpp:40 (`DirectoryTree::Node`): an artifact or a directory.  The order of the
entries of a directory does not matter. -/
inductive Node (A : Type) where
  | leaf (a : A)
  | dir (entries : List (Str × Node A))

/-- Entries of a directory. -/
abbrev Dir (A : Type) := List (Str × Node A)

/-- `std::unordered_map::find`. -/
def lookup (s : Str) : Dir A → Option (Node A)
  | [] => none
  | (k, n) :: t => if s = k then some n else lookup s t

/-- Replace the node of an existing entry. -/
def replace (s : Str) (n : Node A) : Dir A → Dir A
  | [] => []
  | (k, m) :: t => if s = k then (k, n) :: t else (k, m) :: replace s n t

/-- directory_tree.cpp:56-72 (private `AddArtifact`): add an artifact along the elements of a path.
After a failure the tree is not used any more. -/
def addAlong (a : A) : List Str → Dir A → Option (Dir A)
  | [], _ => none
  | s :: rest, d =>
    if s = dot ∨ s = dotdot then none
    else if rest = [] then
      match lookup s d with
      | none => some ((s, .leaf a) :: d)
      | some _ => none
    else
      match lookup s d with
      | none => (addAlong a rest []).map (fun d' => (s, .dir d') :: d)
      | some (.dir d0) => (addAlong a rest d0).map (fun d' => replace s (.dir d') d)
      | some (.leaf _) => none

/-- directory_tree.cpp:26-38 (public `AddArtifact`). -/
def addArtifact (path : Str) (a : A) (d : Dir A) : Option (Dir A) :=
  let norm := lexNormal path
  if norm = [] ∨ isAbs norm = true then none else addAlong a (elems norm) d

/-- directory_tree.cpp:40-55 (`FromNamedArtifacts`): the loop. -/
def addAll : List (Str × A) → Dir A → Option (Dir A)
  | [], d => some d
  | (p, a) :: t, d =>
    match addArtifact p a d with
    | none => none
    | some d' => addAll t d'

/-- directory_tree.cpp:40-55 (`FromNamedArtifacts`). -/
def fromNamedArtifacts (l : List (Str × A)) : Option (Dir A) := addAll l []

end Verif.Stage
