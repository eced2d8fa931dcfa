import Verif.Repo.ArtifactsRoot
import Verif.Tree.Spec

/-!
# Model of retrieving objects to the file system, and of importing directories

Source: `src/buildtool/execution_api/common/tree_reader.hpp`, `src/buildtool/execution_api/local/local_cas_reader.cpp`,
`src/buildtool/execution_api/local/local_api.cpp`, `src/buildtool/execution_api/git/git_api.cpp`,
`src/buildtool/file_system/file_system_manager.hpp`, `src/buildtool/file_system/git_repo.cpp`.

Native protocol. Files are given by type and git hash (binary form) of their content; that content retrieved has the
hash asked for is shown for the storage (C19).
-/

namespace Verif.Install

open Verif.Dig (ObjectType)
open Verif.Path
open Verif.Roots (Out)
open Verif.Tree (Info Obs Env Store Ent Groups retrieve parseTree group flat addTo createTree)

/-! ## File system -/

/-- Directories and files, by absolute path. The directory `[]` always exists. -/
abbrev FS := List (List Str × Obs)

/-- What is at a path. -/
def FS.at (fs : FS) (p : List Str) : Option Obs :=
  if p = [] then some .dir else (fs.find? fun x => x.1 = p).map Prod.snd

/-- Create or replace what is at a path. -/
def FS.put (p : List Str) (o : Obs) : FS → FS
  | [] => [(p, o)]
  | x :: t => if x.1 = p then (p, o) :: t else x :: FS.put p o t

/-- The directory or file a path string refers to. Simplification: symbolic links are not followed. -/
def resolve (cwd : List Str) (s : Str) : List Str :=
  (names s).foldl (fun a n => if n = dotdot then a.dropLast else if n = dot then a else a ++ [n])
    (if isAbs s then [] else cwd)

/-- file_system_manager.hpp:138-141 (`CreateDirectory`): all directories, starting at `done`. Simplification: a symbolic
link is an obstacle even if it refers to a directory. -/
def mkdirs : List Str → List Str → FS → Bool × FS
  | _, [], fs => (true, fs)
  | done, n :: r, fs =>
    match fs.at (done ++ [n]) with
    | some .dir => mkdirs (done ++ [n]) r fs
    | some (.leaf _ _) => (false, fs)
    | none => mkdirs (done ++ [n]) r (fs.put (done ++ [n]) .dir)

/-- file_system_manager.hpp:366-409 (`CopyFileAs`), 1057-1088 (`CopyFileImpl`), 185-211 (`CreateSymlink`), 455-489
(`CopySymlinkAs`): existing files and links are replaced, directories are not. Simplification: that `CopySymlinkAs` also
replaces an empty directory is left out. A symbolic link cannot have an empty target. -/
def copyAs (p : List Str) (i : Info) (content : Str) (fs : FS) : Bool × FS :=
  if i.type = .symlink ∧ content = [] then (false, fs)
  else
    match fs.at p with
    | some .dir => (false, fs)
    | _ => (true, fs.put p (.leaf i.type i.id))

/-! ## Staging from a CAS -/

/-- What is known to a CAS: trees, the content of blobs, and the order in which entries of a tree are visited. -/
structure Cas where
  trees : Store
  blob : Str → Option Str
  ord : List Ent → List Ent

/-- local_cas_reader.cpp:104-119 (`check_symlinks`): whether all links are there and non-upwards. -/
def linksOk (C : Cas) : List Ent → Out Bool
  | [] => .ok true
  | e :: l =>
    if e.type = .symlink then
      match C.blob e.id with
      | none => .ok false
      | some c =>
        match nonUpwards c with
        | .ub => .ub
        | .val false => .ok false
        | .val true => linksOk C l
    else linksOk C l

/-- local_cas_reader.cpp:100-131 (`ReadGitTree`): the entries of a tree. -/
def readTree (E : Env) (C : Cas) (id : Str) : Out (List Ent) :=
  match (retrieve E C.trees id).bind parseTree with
  | none => .error
  | some l => (linksOk C (C.ord (flat (group l)))).bind fun b => if b then .ok (C.ord (flat (group l))) else .error

/-- tree_reader.hpp:153-181: the loop over the entries of a tree; `f` is what is done with trees. -/
def leafsGo (f : Str → Str → Out (List (Str × Info))) (parent : Str) : List Ent → Out (List (Str × Info))
  | [] => .ok []
  | e :: l =>
    (if e.type = .tree then f (append parent e.name) e.id
     else .ok [(append parent e.name, ⟨e.type, e.id⟩)]).bind fun a => (leafsGo f parent l).bind fun b => .ok (a ++ b)

/-- tree_reader.hpp:86-109 (`RecursivelyReadTreeLeafs`), 146-182 (`ReadObjectInfosRecursively`), without `include_trees`,
tree_reader_utils.cpp:125-153: paths and objects of all files below a tree of at most the given depth. -/
def leafs (E : Env) (C : Cas) : Nat → Str → Str → Out (List (Str × Info))
  | 0, _, _ => .error
  | n + 1, parent, id => (readTree E C id).bind (leafsGo (leafs E C n) parent)

/-- local_cas_reader.cpp:147-162 (`StageBlobTo`). -/
def stageBlob (C : Cas) (cwd : List Str) (out : Str) (i : Info) (fs : FS) : Bool × FS :=
  match C.blob i.id with
  | none => (false, fs)
  | some c =>
    match mkdirs [] (resolve cwd (parentPath out)) fs with
    | (true, fs') => copyAs (resolve cwd out) i c fs'
    | r => r

/-- Staging one file after the other; tree_reader.hpp:121-136 for files. -/
def stageBlobs (C : Cas) (cwd : List Str) : List (Str × Info) → FS → Bool × FS
  | [], fs => (true, fs)
  | (out, i) :: r, fs =>
    match stageBlob C cwd out i fs with
    | (true, fs') => stageBlobs C cwd r fs'
    | x => x

/-- tree_reader.hpp:115-135 (`StageTo`) for one object. -/
def stageTo (E : Env) (C : Cas) (n : Nat) (cwd : List Str) (out : Str) (i : Info) (fs : FS) : Out (Bool × FS) :=
  if i.type = .tree then
    match leafs E C n out i.id with
    | .ub => .ub
    | .error => .ok (false, fs)
    | .ok l => .ok (stageBlobs C cwd l fs)
  else .ok (stageBlob C cwd out i fs)

/-- git_api.cpp:83-98, git_cas.cpp:176-184: the target of a symbolic link is checked. -/
def gitBlob (C : Cas) (cwd : List Str) (out : Str) (i : Info) (fs : FS) : Out (Bool × FS) :=
  if i.type = .symlink then
    match C.blob i.id with
    | none => .ok (false, fs)
    | some c =>
      match nonUpwards c with
      | .ub => .ub
      | .val false => .ok (false, fs)
      | .val true => .ok (stageBlob C cwd out i fs)
  else .ok (stageBlob C cwd out i fs)

/-- git_api.cpp:71-81: the loop over the entries of a tree; `f` is what is done with an entry. -/
def gitStageGo (f : Str → Info → FS → Out (Bool × FS)) (out : Str) : List Ent → FS → Out (Bool × FS)
  | [], fs => .ok (true, fs)
  | e :: l, fs =>
    match f (append out e.name) ⟨e.type, e.id⟩ fs with
    | .ok (true, fs') => gitStageGo f out l fs'
    | x => x

/-- git_api.cpp:55-102 (`GitApi::RetrieveToPaths`) for one object: files are written while reading trees. -/
def gitStage (E : Env) (C : Cas) : Nat → List Str → Str → Info → FS → Out (Bool × FS)
  | 0, _, _, _, fs => .ok (false, fs)
  | n + 1, cwd, out, i, fs =>
    if i.type = .tree then
      match readTree E C i.id with
      | .ub => .ub
      | .error => .ok (false, fs)
      | .ok l => gitStageGo (gitStage E C n cwd) out l fs
    else gitBlob C cwd out i fs

/-- local_api.cpp:104-129 (`LocalApi::RetrieveToPaths`): the local CAS is tried first, then git, if given. -/
def retrieveToPaths (E : Env) (C : Cas) (git : Option Cas) (n : Nat) (cwd : List Str) :
    List (Str × Info) → FS → Out (Bool × FS)
  | [], fs => .ok (true, fs)
  | (out, i) :: r, fs =>
    match stageTo E C n cwd out i fs with
    | .ok (true, fs') => retrieveToPaths E C git n cwd r fs'
    | .ok (false, fs') =>
      match git with
      | none => .ok (false, fs')
      | some G =>
        match gitStage E G n cwd out i fs' with
        | .ok (true, fs'') => retrieveToPaths E C git n cwd r fs''
        | x => x
    | x => x

/-- graph_traverser.cpp:513-522 (`PrepareOutputPaths`), 546-565 (`RetrieveOutputs`): what is installed to the output
directory, with the local API. -/
def install (E : Env) (C : Cas) (git : Option Cas) (n : Nat) (cwd : List Str) (dir : Str) (items : List (Str × Info))
    (fs : FS) : Out (Bool × FS) :=
  match mkdirs [] (resolve cwd dir) fs with
  | (true, fs') => retrieveToPaths E C git n cwd (items.map fun x => (append dir x.1, x.2)) fs'
  | r => .ok r

/-! ## Importing a directory -/

/-- The entries of a directory, in the order in which they are iterated over. -/
def FS.entries (fs : FS) (dir : List Str) : List (Str × Obs) :=
  fs.filterMap fun x => if x.1.dropLast = dir then x.1.getLast?.map fun n => (n, x.2) else none

/-- git_repo.cpp:2133-2172: what is done with the entries of a directory; `f` is what is done with directories. -/
def importGo (f : List Str → Option (Str × List Str)) (dir : List Str) :
    List (Str × Obs) → Groups → List Str → Option (Groups × List Str)
  | [], g, made => some (g, made)
  | (name, .dir) :: l, g, made =>
    (f (dir ++ [name])).bind fun r => importGo f dir l (addTo r.1 (name, .tree) g) (r.2 ++ made)
  | (name, .leaf ty id) :: l, g, made => importGo f dir l (addTo id (name, ty) g) made

/-- git_repo.cpp:2092-2124 (`ReadDirectory`), 2126-2190 (`CreateTreeFromDirectory`): id and contents of the trees created, for a
directory of at most the given depth. `CreateTree` and writing of blobs are taken to succeed. -/
def importDir (H : Str → Str) (fs : FS) : Nat → List Str → Option (Str × List Str)
  | 0, _ => none
  | n + 1, dir =>
    (importGo (importDir H fs n) dir (fs.entries dir) [] []).map fun r => (H (createTree r.1), createTree r.1 :: r.2)

end Verif.Install
