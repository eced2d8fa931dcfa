import Verif.Symlinks.Lemmas
import Verif.Tree.Model

/-!
# Adding files and directories to the CAS: model

`src/buildtool/main/add_to_cas.cpp`, with what it uses of `file_system/file_system_manager.hpp`,
`file_system/object_cas.hpp` and `file_system/file_storage.hpp`.

The file system is a tree with links and hard links; it is not changed by others meanwhile. Reading files and directories,
creating files in the CAS from bytes, and computing digests succeed. The conversion of digests between binary and hexadecimal
form is left out. The upload to the remote endpoint is left out.
-/

namespace Verif.AddCas

open Verif Verif.Path
open Verif.Dig (ObjectType)
open Verif.Tree (Info Groups addTo createTree)
open Verif.Symlinks (render)

/-! ## The file system -/

/-- What a directory can contain: files (by the number of the inode), symbolic links, directories, and special files. -/
inductive Node where
  | file (inode : Nat)
  | link (target : Str)
  | dir (entries : List (Str × Node))
  | special

/-- What is at a path, if no links are followed. -/
def Node.find : Node → List Str → Option Node
  | n, [] => some n
  | .dir es, a :: p => (assoc a es).bind fun n => n.find p
  | _, _ :: _ => none

/-- The segments of a path as the operating system takes them (path_resolution(7)): a trailing slash asks for a directory. -/
def comps (t : Str) : List Str := names t ++ if hasTrail t then [dot] else []

/-- path_resolution(7), from a directory on, until a link is followed. Directories are given by the path that does not
use links. Links at the end are followed only if asked for. -/
def walkIn (fs : Node) (jump : List Str → List Str → Option (List Str)) (follow : Bool) :
    List Str → List Str → Option (List Str)
  | pos, [] => some pos
  | pos, c :: rest =>
    match fs.find pos with
    | some (.dir es) =>
      if c = dot then walkIn fs jump follow pos rest
      else if c = dotdot then walkIn fs jump follow pos.dropLast rest
      else
        match assoc c es with
        | none => none
        | some (.link t) =>
          if rest = [] ∧ follow = false then some (pos ++ [c])
          else jump (if isAbs t then [] else pos) (comps t ++ rest)
        | some _ => walkIn fs jump follow (pos ++ [c]) rest
    | _ => none

/-- path_resolution(7): following at most the given number of links. -/
def walk (fs : Node) (follow : Bool) : Nat → List Str → List Str → Option (List Str)
  | 0 => walkIn fs (fun _ _ => none) follow
  | n + 1 => walkIn fs (walk fs follow n) follow

/-- A file: content, permissions, and time of last modification. -/
structure Inode where
  content : Str
  exec : Bool
  writable : Bool
  time : Nat
  deriving DecidableEq

/-- Where the content of a file in the CAS is: in a file of its own, or in a file also found elsewhere. -/
inductive Source where
  | own (content : Str)
  | linked (inode : Nat)
  deriving DecidableEq

/-- The files, the CAS of files (those that are executable and those that are not), and the CAS of trees. -/
structure Disk where
  inode : Nat → Inode
  blobs : Bool → List (Str × Source)
  trees : List Str

/-- What is read from the CAS for an identifier. -/
def Disk.blob (d : Disk) (x : Bool) (id : Str) : Option Str :=
  (assoc id (d.blobs x)).map fun
    | .own c => c
    | .linked i => (d.inode i).content

/-- resolve_special.hpp:29-38 (`ResolveSpecial`). -/
inductive Mode where
  | ignore
  | treeUpwards
  | treeAll
  | all
  deriving DecidableEq

/-- The file system, the hash functions for files and trees, the number of links the operating system follows, for which files
the permissions may be changed, which files are on the file system of the CAS, whether hashing is native, and the option. -/
structure World where
  fs : Node
  H : Str → Str
  T : Str → Str
  limit : Nat
  mine : Nat → Bool
  sameDevice : Nat → Bool
  native : Bool
  mode : Option Mode

/-- file_system_manager.hpp:646-680 (`Type`), 607-620 (`IsDirectory`), 843-861 (`ReadSymlink`), 742-808 (`ReadDirectory`): what is
at a path, without following a link at the end. -/
def lstat (W : World) (p : List Str) : Option Node := (walk W.fs false W.limit [] p).bind W.fs.find

/-! ## Storing -/

/-- file_system_manager.hpp:1120-1165 (`SetFilePermissions`, `SetEpochTime`): the file is read-only then, with time 0. -/
def Disk.touch (d : Disk) (i : Nat) (x : Bool) : Disk :=
  { d with inode := fun j => if j = i then ⟨(d.inode i).content, x, false, 0⟩ else d.inode j }

/-- A file is entered to the CAS. -/
def Disk.enter (d : Disk) (x : Bool) (id : Str) (s : Source) : Disk :=
  { d with blobs := fun y => if y = x then (id, s) :: d.blobs y else d.blobs y }

/-- object_cas.hpp:163-178 (`StoreBlob`), file_storage.hpp:103-138 (`AtomicAddFromFile`), file_system_manager.hpp:258-270
(`CreateFileHardlinkAs`): storing a file as its owner. Permissions and time of the file itself are changed, and then it is linked. There
is nothing else that is tried, if linking is not possible. -/
def storeOwned (W : World) (i : Nat) (x : Bool) (d : Disk) : Option Str × Disk :=
  if (assoc (W.H (d.inode i).content) (d.blobs x)).isSome then (some (W.H (d.inode i).content), d)
  else if !W.mine i then (none, d)
  else if !W.sameDevice i then (none, d.touch i x)
  else (some (W.H (d.inode i).content), (d.touch i x).enter x (W.H (d.inode i).content) (.linked i))

/-- object_cas.hpp:163-178 (`StoreBlob`), file_storage.hpp:144-165 (`AtomicAddFromBytes`), 168-191 (copy of a file of somebody else):
storing a copy. -/
def storeCopy (W : World) (x : Bool) (c : Str) (d : Disk) : Str × Disk :=
  if (assoc (W.H c) (d.blobs x)).isSome then (W.H c, d) else (W.H c, d.enter x (W.H c) (.own c))

/-- add_to_cas.cpp:384-386: storing a tree. -/
def storeTree (W : World) (c : Str) (d : Disk) : Str × Disk :=
  (W.T c, if c ∈ d.trees then d else { d with trees := c :: d.trees })

/-! ## Importing a directory -/

/-- A path relative to the root of the import, in normal form: `..` only in front. -/
abbrev Key := List Str

/-- add_to_cas.cpp:103-104, 128-129: `ToNormalPath(root_ / rel)`. -/
def full (root : List Str) (rel : Key) : List Str := (rel.foldl Place.follow ⟨true, 0, root⟩).down

/-- add_to_cas.cpp:217-218: the path the content of a link leads to lexically, from the directory of the link. -/
def target (dir : List Str) (t : Str) : List Str :=
  ((names t).foldl Place.follow ⟨true, 0, if isAbs t then [] else dir⟩).down

/-- add_to_cas.cpp:219-220: `lexically_relative(root_)` of an absolute path in normal form. -/
def relative : List Str → List Str → Key
  | a :: p, b :: root => if a = b then relative p root else (b :: root).map (fun _ => dotdot) ++ a :: p
  | p, root => root.map (fun _ => dotdot) ++ p

/-- add_to_cas.cpp:59-61 (`KnownPathsMapType`). -/
abbrev Known := List (Key × Info)

/-- Outcomes: a value, an error, or that the bound on the number of steps was too small. -/
inductive Res (α : Type) where
  | ok (a : α) (d : Disk) (k : Known)
  | fail (d : Disk)
  | more

/-- Outcomes of resolving a link. -/
inductive Found where
  | to (rel : Key) (node : Node)
  | fail
  | more

/-- add_to_cas.cpp:158-172: whether a link is kept as it is. -/
def keeps (m : Option Mode) (t : Str) : Bool :=
  (m == none || m == some .treeUpwards) && nonUpwards t == .val true

/-- add_to_cas.cpp:208-215: whether a link may be followed. -/
def allowed (m : Option Mode) (t : Str) (rel : Key) : Bool :=
  !(m == some .treeUpwards || m == some .treeAll) || confined t (render rel) == .val true

/-- add_to_cas.cpp:193-240: following a link, and the links it leads to. -/
def chase (W : World) (root : List Str) : Nat → Key → List Str → List Key → Found
  | 0, _, _, _ => .more
  | n + 1, rel, path, visited =>
    match lstat W path with
    | some (.link t) =>
      if !allowed W.mode t rel then .fail
      else
        match lstat W (target path.dropLast t) with
        | none => .fail
        | some .special => .fail
        | some (.link _) =>
          if relative (target path.dropLast t) root ∈ visited then .fail
          else chase W root n (relative (target path.dropLast t) root) (target path.dropLast t)
            (relative (target path.dropLast t) root :: visited)
        | some node =>
          if relative (target path.dropLast t) root ∈ visited then .fail
          else .to (relative (target path.dropLast t) root) node
    | _ => .fail

/-- The type of a file. -/
def typeOf (x : Bool) : ObjectType := if x then .executable else .file

/-- add_to_cas.cpp:243-299: a directory or file, found under the name of `orig`. -/
def treat (W : World) (sub : Key → Disk → Known → Res Str) (orig rel : Key) (d : Disk) (k : Known) : Node → Res Info
  | .dir _ =>
    match sub rel d k with
    | .ok id d' k' => .ok ⟨.tree, id⟩ d' (k' ++ [(rel, ⟨.tree, id⟩), (orig, ⟨.tree, id⟩)])
    | .fail d' => .fail d'
    | .more => .more
  | .file i =>
    match storeOwned W i (d.inode i).exec d with
    | (some id, d') =>
      .ok ⟨typeOf (d.inode i).exec, id⟩ d'
        (k ++ [(rel, ⟨typeOf (d.inode i).exec, id⟩), (orig, ⟨typeOf (d.inode i).exec, id⟩)])
    | (none, d') => .fail d'
  | _ => .fail d

/-- add_to_cas.cpp:124-303 (`dir_reader`): what is done with one entry. -/
def item (W : World) (root : List Str) (n : Nat) (sub : Key → Disk → Known → Res Str) (rel : Key) (node : Node)
    (d : Disk) (k : Known) : Res Info :=
  match assoc rel k with
  | some i => .ok i d k
  | none =>
    match node with
    | .link t =>
      if keeps W.mode t then
        .ok ⟨.symlink, (storeCopy W false t d).1⟩ (storeCopy W false t d).2
          (k ++ [(rel, ⟨.symlink, (storeCopy W false t d).1⟩)])
      else if W.mode = none then .fail d
      else
        match chase W root n rel (full root rel) [rel] with
        | .to rel' node' => treat W sub rel rel' d k node'
        | .fail => .fail d
        | .more => .more
    | node => treat W sub rel rel d k node

/-- file_system_manager.hpp:765-769: the entries that are skipped. -/
def skipped (m : Option Mode) : Node → Bool
  | .link _ => m == some .ignore
  | .special => m == some .ignore
  | _ => false

/-- file_system_manager.hpp:742-808 (`ReadDirectory`): all entries, in the order in which they are iterated over. -/
def importGo (m : Option Mode) (item : Key → Node → Disk → Known → Res Info) (rel : Key) :
    List (Str × Node) → Groups → Disk → Known → Res Groups
  | [], g, d, k => .ok g d k
  | (name, node) :: l, g, d, k =>
    if skipped m node then importGo m item rel l g d k
    else
      match item (rel ++ [name]) node d k with
      | .ok i d' k' => importGo m item rel l (addTo i.id (name, i.type) g) d' k'
      | .fail d' => .fail d'
      | .more => .more

/-- add_to_cas.cpp:94-325 (`CreateGitTreeDigest`): `linked` are the directories being imported. -/
def importDir (W : World) (root : List Str) : Nat → List Key → Key → Disk → Known → Res Str
  | 0, _, _, _, _ => .more
  | n + 1, linked, rel, d, k =>
    match lstat W (full root rel) with
    | some (.dir es) =>
      if rel ∈ linked then .fail d
      else
        match importGo W.mode (item W root n (importDir W root n (rel :: linked))) rel es [] d k with
        | .ok g d' k' => .ok (storeTree W (createTree g) d').1 (storeTree W (createTree g) d').2 k'
        | .fail d' => .fail d'
        | .more => .more
    | _ => .fail d

/-- Outcomes of the command: the identifier printed, an error, or that the bound was too small. -/
inductive Outcome where
  | printed (i : Info) (d : Disk)
  | error (d : Disk)
  | more

/-- file_system_manager.hpp:555-572 (`ResolveSymlinks`): there is no limit on the number of links. The limit of the
operating system on the length of a path is left out. -/
def resolveSymlinks (W : World) : Nat → List Str → Option (List Str)
  | 0, _ => none
  | n + 1, p =>
    match lstat W p with
    | some (.link t) => resolveSymlinks W n (if isAbs t then comps t else p.dropLast ++ comps t)
    | _ => some p

/-- add_to_cas.cpp:345-401: adding what is at the given path. -/
def addAt (W : World) (n : Nat) (p : List Str) (d : Disk) : Outcome :=
  match lstat W p with
  | none => .error d
  | some .special => .error d
  | some (.file i) =>
    .printed ⟨typeOf (d.inode i).exec, (storeCopy W (d.inode i).exec (d.inode i).content d).1⟩
      (storeCopy W (d.inode i).exec (d.inode i).content d).2
  | some (.link t) => .printed ⟨.symlink, (storeCopy W false t d).1⟩ (storeCopy W false t d).2
  | some (.dir _) =>
    if !W.native then .error d
    else
      match importDir W p n [] [] d [] with
      | .ok id d' _ => .printed ⟨.tree, id⟩ d'
      | .fail d' => .error d'
      | .more => .more

/-- add_to_cas.cpp:330-411 (`AddArtifactsToCas`), until the upload. -/
def add (W : World) (n : Nat) (follow : Bool) (p : List Str) (d : Disk) : Outcome :=
  if follow then
    match resolveSymlinks W n p with
    | none => .more
    | some p' => addAt W n p' d
  else addAt W n p d

end Verif.AddCas
