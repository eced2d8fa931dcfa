import Verif.Remote.Directory
import Verif.Tree.Git

/-!
# Model of rehashing: git trees as directories, directories as git trees

Source: `src/buildtool/execution_api/bazel_msg/bazel_msg_factory.cpp`,
`src/buildtool/execution_api/utils/rehash_utils.cpp`.

Git hashes are given in binary form, as in `Verif.Tree`. Storing always works. The files in which known
associations of hashes are kept (fs_utils.cpp:112-121) are one map: generations are left out.
-/

namespace Verif.Rehash

open Verif.Dig Verif.RE
open Verif.Tree (Ent Groups parseTree readTreeData createTree addTo flat)

/-- A git repository or native CAS, seen as a source: contents by hash. -/
structure Git where
  blob : Str → Option Str
  tree : Str → Option Str

/-- What is known about a hash: a digest and a type (artifact.hpp, `ObjectInfo`). -/
structure Obj (δ : Type) where
  digest : δ
  type : ObjectType
  deriving DecidableEq

/-- The associations known, and the contents in the CAS that is written to. -/
structure State (δ σ : Type) where
  known : List (Str × Obj δ)
  store : List σ

/-- rehash_utils.cpp:36-101 (`ReadRehashedDigest`): the file is found by the hash alone. -/
def State.find {δ σ : Type} (st : State δ σ) (h : Str) : Option (Obj δ) := assoc h st.known

/-- rehash_utils.cpp:103-122 (`StoreRehashedDigest`): replaces what was there. -/
def State.note {δ σ : Type} (st : State δ σ) (h : Str) (o : Obj δ) : State δ σ := { st with known := (h, o) :: st.known }

/-- `StoreBlob`, `StoreTree`. -/
def State.put {δ σ : Type} (st : State δ σ) (c : σ) : State δ σ := { st with store := st.store ++ [c] }

/-! ## From git to directories -/

/-- The digest of a content in the compatible protocol. -/
def digestOf (sha : Str → Str) (c : Str) : Dig.Wire := ⟨sha c, c.length⟩

/-- bazel_msg_factory.cpp:383-385: nodes so far. -/
structure Nodes where
  files : List FileNode
  dirs : List DirNode
  links : List LinkNode

/-- bazel_msg_factory.cpp:409-509: one entry of a git tree. -/
def entryToDir (sha : Str → Str) (src : Git)
    (sub : State Dig.Wire Str → Str → Option (Dig.Wire × State Dig.Wire Str)) (e : Ent) (acc : Nodes)
    (st : State Dig.Wire Str) : Option (Nodes × State Dig.Wire Str) :=
  match e.type with
  | .tree =>
    match st.find e.id with
    | some o => some ({ acc with dirs := acc.dirs ++ [⟨e.name, o.digest⟩] }, st)
    | none => (sub st e.id).bind fun r => some ({ acc with dirs := acc.dirs ++ [⟨e.name, r.1⟩] }, r.2)
  | .symlink => (src.blob e.id).bind fun t =>
      some ({ acc with links := acc.links ++ [⟨e.name, t⟩] }, (st.put t).note e.id ⟨digestOf sha t, .symlink⟩)
  | ty =>
    match st.find e.id with
    | some o => some ({ acc with files := acc.files ++ [⟨e.name, o.digest, ty == .executable⟩] }, st)
    | none => (src.blob e.id).bind fun c =>
        some ({ acc with files := acc.files ++ [⟨e.name, digestOf sha c, ty == .executable⟩] },
          (st.put c).note e.id ⟨digestOf sha c, ty⟩)

/-- bazel_msg_factory.cpp:405-511: all entries. -/
def entriesToDir (sha : Str → Str) (src : Git)
    (sub : State Dig.Wire Str → Str → Option (Dig.Wire × State Dig.Wire Str)) :
    List Ent → Nodes → State Dig.Wire Str → Option (Nodes × State Dig.Wire Str)
  | [], acc, st => some (acc, st)
  | e :: t, acc, st => (entryToDir sha src sub e acc st).bind fun r => entriesToDir sha src sub t r.1 r.2

/-- bazel_msg_factory.cpp:374-538 (`CreateDirectoryDigestFromGitTree`), to a given depth. `visit` is the order in which
the entries of a tree, grouped by object in an unordered map, are visited. -/
def toDir (sha : Str → Str) (visit : Groups → Groups) (src : Git) :
    Nat → State Dig.Wire Str → Str → Option (Dig.Wire × State Dig.Wire Str)
  | 0, _, _ => none
  | n + 1, st, id =>
    (src.tree id).bind fun s => (readTreeData s).bind fun g =>
      (entriesToDir sha src (toDir sha visit src n) (flat (visit g)) ⟨[], [], []⟩ st).bind fun r =>
        let text := (createDirectory r.1.files r.1.dirs r.1.links).text
        some (digestOf sha text, (r.2.put text).note id ⟨digestOf sha text, .tree⟩)

/-! ## From directories to git -/

/-- The git hashes of blobs and trees, in binary form. -/
structure Ids where
  blob : Str → Str
  tree : Str → Str

/-- What is stored in a native CAS: blobs and trees. -/
inductive Content where
  | blob (s : Str)
  | tree (s : Str)
  deriving DecidableEq

/-- The states: git hashes, contents. -/
abbrev GState := State Str Content

/-- bazel_msg_factory.cpp:567-618: one subdirectory. -/
def subdirToGit (sub : GState → Str → Option (Str × GState)) (d : DirNode) (g : Groups) (st : GState) :
    Option (Groups × GState) :=
  (fromBazel .plainSHA256 d.digest).bind fun i =>
    match st.find i.hash with
    | some o => some (addTo o.digest (d.name, .tree) g, st)
    | none => (sub st i.hash).bind fun r => some (addTo r.1 (d.name, .tree) g, r.2)

/-- bazel_msg_factory.cpp:620-669: one symbolic link. -/
def linkToGit (sha : Str → Str) (ids : Ids) (l : LinkNode) (g : Groups) (st : GState) : Option (Groups × GState) :=
  match st.find (sha l.target) with
  | some o => some (addTo o.digest (l.name, .symlink) g, st)
  | none => some (addTo (ids.blob l.target) (l.name, .symlink) g,
      (st.put (.blob l.target)).note (sha l.target) ⟨ids.blob l.target, .symlink⟩)

/-- bazel_msg_factory.cpp:671-728: one file. -/
def fileToGit (ids : Ids) (src : Str → Option Str) (f : FileNode) (g : Groups) (st : GState) :
    Option (Groups × GState) :=
  (fromBazel .plainSHA256 f.digest).bind fun i =>
    match st.find i.hash with
    | some o => some (addTo o.digest (f.name, if f.exec then .executable else .file) g, st)
    | none => (src i.hash).bind fun c =>
        some (addTo (ids.blob c) (f.name, if f.exec then .executable else .file) g,
          (st.put (.blob c)).note i.hash ⟨ids.blob c, if f.exec then .executable else .file⟩)

/-- A loop over a repeated field. -/
def loop {α : Type} (f : α → Groups → GState → Option (Groups × GState)) : List α → Groups → GState →
    Option (Groups × GState)
  | [], g, st => some (g, st)
  | a :: t, g, st => (f a g st).bind fun r => loop f t r.1 r.2

/-- bazel_msg_factory.cpp:541-750 (`CreateGitTreeDigestFromDirectory`), to a given depth. `src` is the CAS read from;
`MessageFromString` giving nothing is undefined behaviour (line 568) and `none` here. -/
def toGit (sha : Str → Str) (ids : Ids) (src : Str → Option Str) : Nat → GState → Str → Option (Str × GState)
  | 0, _, _ => none
  | n + 1, st, h =>
    (src h).bind fun s => (Directory.read s).bind fun m =>
      (loop (subdirToGit (toGit sha ids src n)) m.dirs [] st).bind fun r =>
        (loop (linkToGit sha ids) m.links r.1 r.2).bind fun r =>
          (loop (fileToGit ids src) m.files r.1 r.2).bind fun r =>
            let text := createTree r.1
            some (ids.tree text, (r.2.put (.tree text)).note h ⟨ids.tree text, .tree⟩)

/-! ## Lists of objects -/

/-- rehash_utils.cpp:184-246 (`RehashDigestImpl`): one object, for git as source; `n` bounds the depth. -/
def rehashToDir (sha : Str → Str) (visit : Groups → Groups) (src : Git) (n : Nat) (st : State Dig.Wire Str)
    (i : Obj Str) : Option (Obj Dig.Wire × State Dig.Wire Str) :=
  match st.find i.digest with
  | some o => some (o, st)
  | none =>
    if i.type = .tree then (toDir sha visit src n st i.digest).bind fun r => some (⟨r.1, .tree⟩, r.2)
    else (src.blob i.digest).bind fun c =>
      some (⟨digestOf sha c, i.type⟩, (st.put c).note i.digest ⟨digestOf sha c, i.type⟩)

/-- The same for directories as source; the object is given by its hash. -/
def rehashToGit (sha : Str → Str) (ids : Ids) (src : Str → Option Str) (n : Nat) (st : GState) (i : Obj Str) :
    Option (Obj Str × GState) :=
  match st.find i.digest with
  | some o => some (o, st)
  | none =>
    if i.type = .tree then (toGit sha ids src n st i.digest).bind fun r => some (⟨r.1, .tree⟩, r.2)
    else (src i.digest).bind fun c =>
      some (⟨ids.blob c, i.type⟩, (st.put (.blob c)).note i.digest ⟨ids.blob c, i.type⟩)

/-- All objects in turn. -/
def rehashAll {δ σ : Type} (f : State δ σ → Obj Str → Option (Obj δ × State δ σ)) :
    State δ σ → List (Obj Str) → Option (List (Obj δ) × State δ σ)
  | st, [] => some ([], st)
  | st, i :: t => (f st i).bind fun r => (rehashAll f r.2 t).bind fun q => some (r.1 :: q.1, q.2)

/-! ## Generations -/

/-- Associations and contents in generations, the youngest first (storage/config.hpp:98-103, fs_utils.cpp:112-121). -/
structure Gens (δ σ : Type) where
  known : List (List (Str × Obj δ))
  store : List (List σ)

/-- Adds to the youngest generation. -/
def young {α : Type} (a : α) : List (List α) → List (List α)
  | [] => []
  | g :: t => (a :: g) :: t

/-- rehash_utils.cpp:36-101 (`ReadRehashedDigest`): an association found in an older generation is linked into the
youngest one; the content is not looked at. -/
def Gens.find {δ σ : Type} (st : Gens δ σ) (h : Str) : Option (Obj δ × Gens δ σ) :=
  match st.known with
  | [] => none
  | g :: t =>
    match assoc h g with
    | some o => some (o, st)
    | none => (assoc h t.flatten).bind fun o => some (o, { st with known := young (h, o) (g :: t) })

/-- Garbage collection: the oldest generation is removed, and all others become older
(storage/garbage_collector.cpp, see `Verif.Storage`). -/
def Gens.collect {δ σ : Type} (st : Gens δ σ) : Gens δ σ := ⟨[] :: st.known.dropLast, [] :: st.store.dropLast⟩

/-- rehash_utils.cpp:184-246 (`RehashDigestImpl`) for a blob, with generations. -/
def rehashBlob (sha : Str → Str) (src : Git) (st : Gens Dig.Wire Str) (i : Obj Str) :
    Option (Obj Dig.Wire × Gens Dig.Wire Str) :=
  match st.find i.digest with
  | some r => some r
  | none => (src.blob i.digest).bind fun c =>
      some (⟨digestOf sha c, i.type⟩, ⟨young (i.digest, ⟨digestOf sha c, i.type⟩) st.known, young c st.store⟩)

end Verif.Rehash
